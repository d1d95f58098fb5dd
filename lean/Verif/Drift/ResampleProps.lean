import Verif.Drift.FrameProps
/-!
# C143: the signal resampled
-/
namespace Verif.Drift

/-! ## the curve between two points -/

/-- The curve passes through its two middle points, and its slope there is that of the line between their neighbours; it follows every
straight line and stays where all four points are the same. -/
theorem hermite_curve (y0 y1 y2 y3 t p q : Rat) :
    hermite y0 y1 y2 y3 0 = y1 ∧ hermite y0 y1 y2 y3 1 = y2 ∧
    hermite (p - q) p (p + q) (p + 2 * q) t = p + q * t ∧ hermite p p p p t = p := by
  unfold hermite
  dsimp only
  refine ⟨by grind, by grind, by grind, by grind⟩

/-- Between 0 and 1 it can leave the range of its points. -/
theorem hermite_overshoots : hermite 0 1 1 0 (1 / 2) = 9 / 8 := by decide +kernel

/-! ## positions -/

/-- The number of frames that come out. -/
def outFrames (exact : Rat) : Nat := (exact + 1 / 2).floor.toNat

theorem natCast_eq (n : Nat) : ((n : Int) : Rat) = (n : Rat) := rfl

theorem nat_pos {n : Nat} (h : 0 < n) : (0 : Rat) < (n : Rat) := by
  have : ((0 : Nat) : Rat) < ((n : Nat) : Rat) := Rat.natCast_lt_natCast.2 h
  exact this

/-- The step is such that the last frame that comes out is at the last one that went in, and all are in between. -/
theorem position_range (inFrames out frame : Nat) (hi : 2 ≤ inFrames) (hf : frame < out) :
    let pos := (frame : Rat) * (((inFrames - 1 : Nat) : Rat) / (max 1 (out - 1) : Nat))
    0 ≤ pos ∧ pos ≤ ((inFrames - 1 : Nat) : Rat) ∧ pos.floor.toNat < inFrames ∧ (frame = 0 → pos = 0) ∧
      (2 ≤ out → frame = out - 1 → pos = ((inFrames - 1 : Nat) : Rat)) := by
  intro pos
  have hm : (0 : Rat) < ((max 1 (out - 1) : Nat) : Rat) := nat_pos (by omega)
  have hI : (0 : Rat) < ((inFrames - 1 : Nat) : Rat) := nat_pos (by omega)
  have hfr : (0 : Rat) ≤ (frame : Rat) := by
    have : ((0 : Nat) : Rat) ≤ ((frame : Nat) : Rat) := Rat.natCast_le_natCast.2 (Nat.zero_le _)
    exact this
  have hle : (frame : Rat) ≤ ((max 1 (out - 1) : Nat) : Rat) := Rat.natCast_le_natCast.2 (by omega)
  have hp : pos = ((inFrames - 1 : Nat) : Rat) * ((frame : Rat) / ((max 1 (out - 1) : Nat) : Rat)) := by
    show (frame : Rat) * _ = _
    grind
  have hd0 : 0 ≤ (frame : Rat) / ((max 1 (out - 1) : Nat) : Rat) := by
    rw [Rat.div_def]
    exact Rat.mul_nonneg hfr (Rat.le_of_lt (Rat.inv_pos.2 hm))
  have hd1 : (frame : Rat) / ((max 1 (out - 1) : Nat) : Rat) ≤ 1 := by
    rw [Rat.div_def]
    have := Rat.mul_le_mul_of_nonneg_right hle (Rat.le_of_lt (Rat.inv_pos.2 hm))
    rw [Rat.mul_inv_cancel _ (by grind)] at this
    exact this
  have h0 : 0 ≤ pos := by rw [hp]; exact Rat.mul_nonneg (Rat.le_of_lt hI) hd0
  have h1 : pos ≤ ((inFrames - 1 : Nat) : Rat) := by
    rw [hp]
    have := Rat.mul_le_mul_of_nonneg_left hd1 (Rat.le_of_lt hI)
    grind
  refine ⟨h0, h1, ?_, ?_, ?_⟩
  · have hfl : pos.floor < (inFrames : Int) := by
      have a : ((pos.floor : Int) : Rat) ≤ pos := Rat.floor_le pos
      have b : (pos.floor : Rat) ≤ (((inFrames - 1 : Nat) : Int) : Rat) := by
        rw [natCast_eq]; exact Rat.le_trans a h1
      have := Rat.intCast_le_intCast.1 b
      omega
    omega
  · intro h
    rw [hp, h]
    have : ((0 : Nat) : Rat) = 0 := rfl
    rw [this]
    grind
  · intro h2 h
    rw [hp]
    have : frame = max 1 (out - 1) := by omega
    rw [this]
    grind

/-! ## the whole -/

/-- **Resampling does not read outside of the frames given**: two signals which agree on them give the same. -/
theorem resample_reads (toS : Rat → Rat) (a b : List Rat) (room inFrames chans : Nat) (exact : Rat) (hi : 2 ≤ inFrames) (hc : 0 < chans)
    (h : ∀ i, i < inFrames * chans → a[i]? = b[i]?) :
    resample toS a room inFrames chans exact = resample toS b room inFrames chans exact := by
  unfold resample
  dsimp only
  split
  · rfl
  · congr 1
    apply List.map_congr_left
    intro i hi2
    rw [List.mem_range] at hi2
    congr 1
    have hch : i % chans < chans := Nat.mod_lt _ hc
    have hfr : i / chans < (exact + 1 / 2).floor.toNat := (Nat.div_lt_iff_lt_mul hc).2 hi2
    obtain ⟨-, -, hp, -, -⟩ := position_range inFrames _ (i / chans) hi hfr
    have g : ∀ frame, frame < inFrames → getSample a frame (i % chans) chans = getSample b frame (i % chans) chans := by
      intro frame hf
      refine getSample_congr _ _ _ _ _ (h _ ?_)
      have : (frame + 1) * chans ≤ inFrames * chans := Nat.mul_le_mul_right _ hf
      rw [Nat.add_mul, Nat.one_mul] at this
      omega
    unfold resampled
    dsimp only
    generalize (((i / chans : Nat) : Rat) * _).floor.toNat = k at hp
    rw [g k hp, g 0 (by omega)]
    by_cases h1 : 1 ≤ k
    · rw [if_pos h1, if_pos h1, g (k - 1) (by omega)]
      by_cases h2 : k + 1 < inFrames
      · rw [if_pos h2, if_pos h2, g (k + 1) h2]
        by_cases h3 : k + 2 < inFrames
        · rw [if_pos h3, if_pos h3, g (k + 2) h3]
        · rw [if_neg h3, if_neg h3]
      · rw [if_neg h2, if_neg h2, if_neg (by omega), if_neg (by omega)]
    · rw [if_neg h1, if_neg h1]
      by_cases h2 : k + 1 < inFrames
      · rw [if_pos h2, if_pos h2, g (k + 1) h2]
        by_cases h3 : k + 2 < inFrames
        · rw [if_pos h3, if_pos h3, g (k + 2) h3]
        · rw [if_neg h3, if_neg h3]
      · rw [if_neg h2, if_neg h2, if_neg (by omega), if_neg (by omega)]

/-- **The first and the last frame are kept**, and the number of frames is the exact one rounded to the nearest. -/
theorem resample_ends (toS : Rat → Rat) (src out : List Rat) (room inFrames chans : Nat) (exact : Rat) (hi : 2 ≤ inFrames)
    (hc : 0 < chans) (h : resample toS src room inFrames chans exact = some out) :
    out.length = outFrames exact * chans ∧ out.length ≤ room ∧ 0 < outFrames exact ∧
    (∀ ch, ch < chans → out[ch]? = some (toS (getSample src 0 ch chans))) ∧
    (2 ≤ outFrames exact → ∀ ch, ch < chans →
      out[(outFrames exact - 1) * chans + ch]? = some (toS (getSample src (inFrames - 1) ch chans))) := by
  unfold resample at h
  dsimp only at h
  rw [show (exact + 1 / 2).floor.toNat = outFrames exact from rfl] at h
  split at h
  · cases h
  · rename_i hr
    have hr1 : outFrames exact * chans ≤ room := by omega
    have hr2 : 0 < outFrames exact := by omega
    cases h
    refine ⟨by simp, by simpa using hr1, hr2, fun ch hch => ?_, fun h2 ch hch => ?_⟩
    · have hlt : ch < outFrames exact * chans := by
        have : 1 * chans ≤ outFrames exact * chans := Nat.mul_le_mul_right _ hr2
        omega
      rw [List.getElem?_map, List.getElem?_range hlt, Option.map_some, Nat.div_eq_of_lt hch, Nat.mod_eq_of_lt hch]
      obtain ⟨-, -, -, hp, -⟩ := position_range inFrames (outFrames exact) 0 hi hr2
      congr 2
      unfold resampled
      dsimp only
      rw [hp rfl]
      have hfl : ((0 : Rat).floor).toNat = 0 := by decide +kernel
      rw [hfl]
      have hz : (0 : Rat) - ((0 : Nat) : Rat) = 0 := by decide +kernel
      rw [hz]
      exact (hermite_curve _ _ _ _ 0 0 0).1
    · have hlt : (outFrames exact - 1) * chans + ch < outFrames exact * chans := by
        have : (outFrames exact - 1 + 1) * chans ≤ outFrames exact * chans := Nat.mul_le_mul_right _ (by omega)
        rw [Nat.add_mul, Nat.one_mul] at this
        omega
      have hdiv : ((outFrames exact - 1) * chans + ch) / chans = outFrames exact - 1 := by
        rw [Nat.mul_comm, Nat.mul_add_div hc, Nat.div_eq_of_lt hch, Nat.add_zero]
      have hmod : ((outFrames exact - 1) * chans + ch) % chans = ch := by
        rw [Nat.mul_comm, Nat.mul_add_mod, Nat.mod_eq_of_lt hch]
      rw [List.getElem?_map, List.getElem?_range hlt, Option.map_some, hdiv, hmod]
      obtain ⟨-, -, -, -, hp⟩ := position_range inFrames (outFrames exact) (outFrames exact - 1) hi (by omega)
      congr 2
      unfold resampled
      dsimp only
      rw [hp h2 rfl]
      have hfl : (((inFrames - 1 : Nat) : Rat).floor).toNat = inFrames - 1 := by
        rw [← natCast_eq, Rat.floor_intCast]
        rfl
      rw [hfl]
      have hz : ((inFrames - 1 : Nat) : Rat) - ((inFrames - 1 : Nat) : Rat) = 0 := by grind
      rw [hz]
      exact (hermite_curve _ _ _ _ 0 0 0).1

/-- Seven frames of a rising signal out of five. -/
example : (resample id [0, 6, 12, 18, 24] 10 5 1 7).map List.length = some 7 := by decide +kernel

/-- **Small drifts are not made up for at all** in adaptive mode: if the frames of each call times the deviation stay below one half,
every call gives out as many frames as it was given, so what is missing after all of them is not bounded. -/
theorem adaptive_small_drift (n : Nat) (exact : Rat) (h1 : -(1 / 2) ≤ exact - n) (h2 : exact - n < 1 / 2) : outFrames exact = n := by
  unfold outFrames
  have h : (exact + 1 / 2).floor = (n : Int) := by
    have a : (n : Int) ≤ (exact + 1 / 2).floor := Rat.le_floor_iff.2 (by rw [natCast_eq]; grind)
    have b : (exact + 1 / 2).floor < (n : Int) + 1 := by
      have c : (((exact + 1 / 2).floor : Int) : Rat) ≤ exact + 1 / 2 := Rat.floor_le _
      have d : (((exact + 1 / 2).floor : Int) : Rat) < (((n : Int) + 1 : Int) : Rat) := by
        rw [Rat.intCast_add, natCast_eq]
        have : ((1 : Int) : Rat) = 1 := by simp
        rw [this]
        grind
      exact Rat.intCast_lt_intCast.1 d
    omega
  rw [h]
  rfl

/-- A thousandth too fast: 400 frames in each call, 400 out, where the other modes change the number after three calls. -/
theorem adaptive_drifts_away (calls : Nat) :
    outFrames ((400 : Rat) / (1001 / 1000)) = 400 ∧
    ((calls * outFrames ((400 : Rat) / (1001 / 1000)) : Nat) : Rat) - calls * (400 / (1001 / 1000)) = calls * (400 / 1001) := by
  have h : outFrames ((400 : Rat) / (1001 / 1000)) = 400 := by decide +kernel
  refine ⟨h, ?_⟩
  rw [h, Rat.natCast_mul]
  have : ((400 : Nat) : Rat) = 400 := rfl
  rw [this]
  grind

/-- **The modes correct a fast source in opposite directions**: with the estimated rate above the nominal one, insertion and removal
add a frame where resampling takes some away. -/
theorem modes_disagree :
    (source id .linear 0 (List.replicate 20 0) 10 11 10 1).map (·.2.2) = some 11 ∧
    (source id .cubic 0 (List.replicate 20 0) 10 11 10 1).map (·.2.2) = some 11 ∧
    (source id .adaptive 0 (List.replicate 20 0) 10 11 10 1).map (·.2.2) = some 9 := by decide +kernel

/-- For a sink they agree. -/
theorem sink_modes_agree :
    (sink id .linear 0 (List.replicate 10 0) (List.replicate 20 0) 10 10 11 1).map (·.2.2) = some 11 ∧
    (sink id .adaptive 0 (List.replicate 10 0) (List.replicate 20 0) 10 10 11 1).map (·.2.2) = some 11 := by decide +kernel

/-- **Without correction the data are passed on as they are.** -/
theorem no_correction (toS : Rat → Rat) (acc : Rat) (buf inp out : List Rat) (n : Nat) (est nom : Rat) (chans : Nat)
    (h1 : n ≤ inp.length) (h2 : n ≤ out.length) :
    source toS .none acc buf n est nom chans = some (acc, buf, n) ∧
    sink toS .none acc inp out n est nom chans = some (acc, inp.take n ++ out.drop n, n) := by
  refine ⟨by simp [source], ?_⟩
  simp [sink, copyN, h1, h2]

/-- **A source in adaptive mode** gives what `resample` gives for the frames over the ratio, at the start of the buffer, or nothing
changes; the accumulator is not used. -/
theorem source_adaptive (toS : Rat → Rat) (acc : Rat) (buf : List Rat) (n : Nat) (est nom : Rat) (chans : Nat) (he : 0 < est)
    (hn : 0 < nom) (hc : 0 < chans) (h2 : 2 ≤ n / chans) (hroom : outFrames (((n / chans : Nat) : Rat) / (est / nom)) * chans ≤ buf.length)
    (hz : 0 < outFrames (((n / chans : Nat) : Rat) / (est / nom))) :
    ∃ out, source toS .adaptive acc buf n est nom chans = some (acc, out ++ buf.drop out.length, out.length) ∧
      out.length = outFrames (((n / chans : Nat) : Rat) / (est / nom)) * chans ∧
      resample toS buf buf.length (n / chans) chans (((n / chans : Nat) : Rat) / (est / nom)) = some out := by
  cases hr : resample toS buf buf.length (n / chans) chans (((n / chans : Nat) : Rat) / (est / nom)) with
  | none =>
    exfalso
    unfold resample at hr
    dsimp only at hr
    rw [show (((n / chans : Nat) : Rat) / (est / nom) + 1 / 2).floor.toNat = outFrames (((n / chans : Nat) : Rat) / (est / nom)) from rfl,
      if_neg (by omega)] at hr
    cases hr
  | some out =>
    refine ⟨out, ?_, (resample_ends toS _ _ _ _ _ _ h2 hc hr).1, rfl⟩
    have hn0 : n ≠ 0 := by intro h; rw [h] at h2; simp at h2
    unfold source
    rw [if_neg (by grind), if_pos rfl]
    dsimp only
    rw [if_neg (by omega), hr]

end Verif.Drift
