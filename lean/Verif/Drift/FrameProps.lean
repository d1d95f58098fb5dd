import Verif.Drift.Props
/-!
# C142, C143: frames inserted, removed and resampled
-/
namespace Verif.Drift

/-! ## one frame written -/

/-- What the loop leaves: the values `v` at `base`, everything else as it was. -/
theorem writeLoop_spec (base : Nat) (f : List Rat → Nat → Option Rat) (buf : List Rat) (v : Nat → Rat) (k : Nat)
    (hk : base + k ≤ buf.length)
    (hf : ∀ ch, ch < k → ∀ b : List Rat, b.length = buf.length → (∀ i, ¬ (base ≤ i ∧ i < base + ch) → b[i]? = buf[i]?) →
      f b ch = some (v ch)) :
    ∃ r, writeLoop base f buf k = some r ∧ r.length = buf.length ∧
      ∀ i, r[i]? = if base ≤ i ∧ i < base + k then some (v (i - base)) else buf[i]? := by
  induction k with
  | zero =>
    refine ⟨buf, rfl, rfl, fun i => ?_⟩
    rw [if_neg (by omega)]
  | succ k ih =>
    obtain ⟨r, h1, h2, h3⟩ := ih (by omega) (fun ch hch => hf ch (by omega))
    have h4 := hf k (by omega) r h2 (fun i hi => by rw [h3, if_neg hi])
    refine ⟨r.set (base + k) (v k), ?_, by rw [List.length_set, h2], fun i => ?_⟩
    · unfold writeLoop
      rw [h1]
      show (do let x ← f r k; if base + k < r.length then some (r.set (base + k) x) else none) = _
      rw [h4]
      show (if base + k < r.length then some (r.set (base + k) (v k)) else none) = _
      rw [if_pos (by omega)]
    · rw [List.getElem?_set]
      by_cases hi : base + k = i
      · subst hi
        rw [if_pos rfl, if_pos (by omega), if_pos (by omega)]
        congr 2
        omega
      · rw [if_neg hi, h3]
        by_cases hc : base ≤ i ∧ i < base + k
        · rw [if_pos hc, if_pos (by omega)]
        · rw [if_neg hc, if_neg (by omega)]

/-- Reads below `m` do not see what is written from there on. -/
theorem getSample_congr (b buf : List Rat) (frame ch chans : Nat) (h : b[frame * chans + ch]? = buf[frame * chans + ch]?) :
    getSample b frame ch chans = getSample buf frame ch chans := by
  unfold getSample; rw [h]

theorem frame_index {n chans frame ch : Nat} (hc : 0 < chans) (hf : frame < n / chans) (hch : ch < chans) :
    frame * chans + ch < n := by
  have h1 : (frame + 1) * chans ≤ n / chans * chans := Nat.mul_le_mul_right _ hf
  have h2 := Nat.div_mul_le_self n chans
  rw [Nat.add_mul, Nat.one_mul] at h1
  omega

theorem splice_congr (toS : Rat → Rat) (mode : Mode) (b buf : List Rat) (n ch chans : Nat) (t : Rat) (hc : 0 < chans)
    (hch : ch < chans) (h : ∀ i, i < n → b[i]? = buf[i]?) :
    splice toS mode b n ch chans t = splice toS mode buf n ch chans t := by
  have g : ∀ frame, frame < n / chans → getSample b frame ch chans = getSample buf frame ch chans :=
    fun frame hf => getSample_congr _ _ _ _ _ (h _ (frame_index hc hf hch))
  unfold splice
  dsimp only
  split
  · rename_i hm
    rw [g (n / chans - 2) (by omega), g (n / chans - 1) (by omega)]
    split
    · rw [g (n / chans - 3) (by omega)]
    · rfl
  · congr 1
    split
    · rename_i h2
      rw [g (n / chans - 2) (by omega), if_pos (by omega), if_pos (by omega), g (n / chans - 1) (by omega)]
    · split
      · rw [g (n / chans - 1) (by omega)]
      · rfl

/-! ## C142: how many frames -/

/-- The drift a call adds to the accumulator. -/
def drift (n chans : Nat) (ratio : Rat) : Rat := ((n / chans : Nat) : Rat) * (ratio - 1)

/-- How many frames are added: one if the accumulator is at least one and there is room, minus one if it is at most minus one and there
are two frames. -/
def change (acc : Rat) (room n chans : Nat) : Int :=
  if 1 ≤ acc ∧ n + chans ≤ room then 1 else if acc ≤ -1 ∧ 2 * chans ≤ n then -1 else 0

/-- **One frame at most is inserted or removed, and the accumulator pays for it**; nothing is read or written outside of the buffer. What
was there before is left, except that a removed frame is merged with the one before it: their means replace both. An inserted frame is
put at the end. -/
theorem adjust_spec (toS : Rat → Rat) (mode : Mode) (acc : Rat) (buf : List Rat) (n chans : Nat) (ratio : Rat) (hc : 0 < chans)
    (hn : n ≤ buf.length) :
    let a := clamp2 (acc + drift n chans ratio)
    let k := change a buf.length n chans
    ∃ b, adjust toS mode acc buf n ratio chans = some (a - k, b, ((n : Int) + k * chans).toNat) ∧ b.length = buf.length ∧
      (k = 0 → b = buf) ∧
      (k = 1 → ∀ i, b[i]? = if n ≤ i ∧ i < n + chans then some (splice toS mode buf n (i - n) chans (1 / 2)) else buf[i]?) ∧
      (k = -1 → ∀ i, b[i]? = if n - 2 * chans ≤ i ∧ i < n - chans
        then some (toS ((buf[i]?.getD 0 + buf[i + chans]?.getD 0) / 2)) else buf[i]?) := by
  intro a k
  have hk : k = change a buf.length n chans := rfl
  unfold adjust
  rw [show clamp2 (acc + ((n / chans : Nat) : Rat) * (ratio - 1)) = a from rfl]
  dsimp only
  by_cases h1 : 1 ≤ a ∧ n + chans ≤ buf.length
  · have hk1 : k = 1 := by rw [hk, change, if_pos h1]
    obtain ⟨r, w1, w2, w3⟩ := writeLoop_spec n (fun b ch => some (splice toS mode b n ch chans (1 / 2))) buf
      (fun ch => splice toS mode buf n ch chans (1 / 2)) chans h1.2 (fun ch hch b _ hb => by
        rw [splice_congr toS mode b buf n ch chans _ hc hch (fun i hi => hb i (by omega))])
    refine ⟨r, ?_, w2, fun h => (by rw [hk1] at h; cases h), fun _ => w3, fun h => (by rw [hk1] at h; cases h)⟩
    rw [if_pos h1, w1, hk1]
    show some (a - 1, r, n + chans) = some (a - ((1 : Int) : Rat), r, ((n : Int) + 1 * chans).toNat)
    congr 3
    omega
  · rw [if_neg h1]
    by_cases h2 : a ≤ -1 ∧ 2 * chans ≤ n
    · have hk1 : k = -1 := by rw [hk, change, if_neg h1, if_pos h2]
      obtain ⟨r, w1, w2, w3⟩ := writeLoop_spec (n - 2 * chans) (fun b ch => do
          let kept ← b[n - 2 * chans + ch]?
          let dropped ← b[n - chans + ch]?
          return toS (kept + (dropped - kept) * (1 / 2))) buf
        (fun ch => toS ((buf[n - 2 * chans + ch]?.getD 0 + buf[n - chans + ch]?.getD 0) / 2)) chans (by omega) (fun ch hch b hl hb => by
          have e1 := hb (n - 2 * chans + ch) (by omega)
          have e2 := hb (n - chans + ch) (by omega)
          rw [e1, e2, List.getElem?_eq_getElem (show n - 2 * chans + ch < buf.length by omega),
            List.getElem?_eq_getElem (show n - chans + ch < buf.length by omega)]
          simp only [Option.getD_some]
          generalize buf[n - 2 * chans + ch] = x
          generalize buf[n - chans + ch] = y
          show some (toS (x + (y - x) * (1 / 2))) = some (toS ((x + y) / 2))
          congr 2
          grind)
      refine ⟨r, ?_, w2, fun h => (by rw [hk1] at h; cases h), fun h => (by rw [hk1] at h; cases h), fun _ i => ?_⟩
      · rw [if_pos h2, w1, hk1]
        show some (a + 1, r, n - chans) = some (a - ((-1 : Int) : Rat), r, ((n : Int) + -1 * chans).toNat)
        have e : a - ((-1 : Int) : Rat) = a + 1 := by
          have : ((-1 : Int) : Rat) = -1 := by simp
          rw [this]; grind
        rw [e]
        congr 3
        omega
      · rw [w3]
        by_cases hi : n - 2 * chans ≤ i ∧ i < n - 2 * chans + chans
        · rw [if_pos hi, if_pos (by omega)]
          congr 3
          rw [show n - 2 * chans + (i - (n - 2 * chans)) = i by omega, show n - chans + (i - (n - 2 * chans)) = i + chans by omega]
        · rw [if_neg hi, if_neg (by omega)]
    · have hk1 : k = 0 := by rw [hk, change, if_neg h1, if_neg h2]
      refine ⟨buf, ?_, rfl, fun _ => rfl, fun h => (by rw [hk1] at h; cases h), fun h => (by rw [hk1] at h; cases h)⟩
      rw [if_neg h2, hk1]
      show some (a, buf, n) = some (a - ((0 : Int) : Rat), buf, ((n : Int) + 0 * chans).toNat)
      have e : a - ((0 : Int) : Rat) = a := by
        have : ((0 : Int) : Rat) = 0 := by simp
        rw [this]; grind
      rw [e]
      congr 3
      omega

/-- **An inserted frame is the mean of the last two, and comes after both** (linear mode, whole frames, two of them or more). -/
theorem inserted_mean (buf : List Rat) (n ch chans : Nat) (toS : Rat → Rat) (h2 : 2 ≤ n / chans) :
    splice toS .linear buf n ch chans (1 / 2) =
      toS ((getSample buf (n / chans - 2) ch chans + getSample buf (n / chans - 1) ch chans) / 2) := by
  unfold splice
  dsimp only
  rw [if_neg (by simp), if_pos h2, if_pos (by omega)]
  congr 1
  generalize getSample buf (n / chans - 2) ch chans = x
  generalize getSample buf (n / chans - 1) ch chans = y
  grind

/-- So a rising signal falls where a frame is inserted: not between the two frames it is computed from but behind them. -/
theorem insertion_out_of_order :
    source id .linear (1 / 2) [0, 1, 2, 3, 0] 4 9 8 1 = some (0, [0, 1, 2, 3, 5 / 2], 5) := by decide +kernel

/-! ### over many calls -/

/-- One call after the other, `(samples, samples of the buffer)` each: how many frames come out altogether, and the accumulator. -/
def frames (ratio : Rat) (chans : Nat) : Rat → List (Nat × Nat) → Int × Rat
  | acc, [] => (0, acc)
  | acc, (n, room) :: rest =>
    let a := clamp2 (acc + drift n chans ratio)
    let k := change a room n chans
    let r := frames ratio chans (a - (k : Rat)) rest
    ((n / chans : Nat) + k + r.1, r.2)

/-- **Nothing is lost or gained in the long run**: if no call drifts by more than one frame, has at least two frames and room for one
more, then what has come out differs from the frames that went in times the ratio by less than a frame plus what the accumulator held
at first. -/
theorem long_run (ratio : Rat) (chans : Nat) (calls : List (Nat × Nat)) (acc : Rat) (ha : -1 < acc ∧ acc < 1)
    (h : ∀ c ∈ calls, 2 * chans ≤ c.1 ∧ c.1 + chans ≤ c.2 ∧ -1 ≤ drift c.1 chans ratio ∧ drift c.1 chans ratio ≤ 1) :
    ((frames ratio chans acc calls).1 : Rat) + (frames ratio chans acc calls).2 =
        acc + (calls.map fun c => ((c.1 / chans : Nat) : Rat) * ratio).sum ∧
      -1 < (frames ratio chans acc calls).2 ∧ (frames ratio chans acc calls).2 < 1 := by
  induction calls generalizing acc with
  | nil =>
    refine ⟨?_, ha⟩
    show ((0 : Int) : Rat) + acc = acc + 0
    have : ((0 : Int) : Rat) = 0 := by simp
    rw [this]; grind
  | cons c rest ih =>
    obtain ⟨n, room⟩ := c
    obtain ⟨g1, g2, g3, g4⟩ := h (n, room) (.head _)
    simp only at g1 g2 g3 g4
    have hcl : clamp2 (acc + drift n chans ratio) = acc + drift n chans ratio := by
      unfold clamp2
      rw [if_neg (by grind), if_neg (by grind)]
    have hkey : ∃ k : Int, change (acc + drift n chans ratio) room n chans = k ∧
        -1 < acc + drift n chans ratio - (k : Rat) ∧ acc + drift n chans ratio - (k : Rat) < 1 := by
      have i1 : ((1 : Int) : Rat) = 1 := by simp
      have i2 : ((-1 : Int) : Rat) = -1 := by simp
      have i3 : ((0 : Int) : Rat) = 0 := by simp
      by_cases p1 : 1 ≤ acc + drift n chans ratio
      · refine ⟨1, by rw [change, if_pos ⟨p1, g2⟩], ?_, ?_⟩ <;> rw [i1] <;> grind
      · by_cases p2 : acc + drift n chans ratio ≤ -1
        · refine ⟨-1, by rw [change, if_neg (fun h => p1 h.1), if_pos ⟨p2, g1⟩], ?_, ?_⟩ <;> rw [i2] <;> grind
        · refine ⟨0, by rw [change, if_neg (fun h => p1 h.1), if_neg (fun h => p2 h.1)], ?_, ?_⟩ <;> rw [i3] <;> grind
    obtain ⟨k, hk, hb1, hb2⟩ := hkey
    obtain ⟨r1, r2⟩ := ih (acc + drift n chans ratio - (k : Rat)) ⟨hb1, hb2⟩ (fun c hc => h c (.tail _ hc))
    simp only [frames, hcl, hk, List.map_cons, List.sum_cons]
    refine ⟨?_, r2⟩
    have hd : drift n chans ratio = ((n / chans : Nat) : Rat) * ratio - ((n / chans : Nat) : Rat) := by unfold drift; grind
    have hcast : ((((n / chans : Nat) : Int) + k + (frames ratio chans (acc + drift n chans ratio - (k : Rat)) rest).1 : Int) : Rat) =
        ((n / chans : Nat) : Rat) + (k : Rat) + ((frames ratio chans (acc + drift n chans ratio - (k : Rat)) rest).1 : Rat) := by
      rw [Rat.intCast_add, Rat.intCast_add]
      rfl
    rw [hcast]
    grind

/-- A source called again and again, with a buffer and the number of samples in it each time: the number of samples it leaves, and
the accumulator. -/
def runSource (toS : Rat → Rat) (mode : Mode) (est nom : Rat) (chans : Nat) : Rat → List (List Rat × Nat) → Option (Nat × Rat)
  | acc, [] => some (0, acc)
  | acc, (buf, n) :: rest => do
    let r ← source toS mode acc buf n est nom chans
    let t ← runSource toS mode est nom chans r.1 rest
    return (r.2.2 + t.1, t.2)

/-- **The samples a source leaves in the long run** are those it was given times the ratio of the rates, up to one frame. -/
theorem source_long_run (toS : Rat → Rat) (mode : Mode) (hm : mode = .linear ∨ mode = .cubic) (est nom : Rat) (he : 0 < est)
    (hn : 0 < nom) (chans : Nat) (hc : 0 < chans) (calls : List (List Rat × Nat))
    (h : ∀ c ∈ calls, 2 * chans ≤ c.2 ∧ c.2 + chans ≤ c.1.length ∧ c.2 % chans = 0 ∧
      -1 ≤ drift c.2 chans (est / nom) ∧ drift c.2 chans (est / nom) ≤ 1) :
    ∃ (total : Int) (acc : Rat) (samples : Nat), runSource toS mode est nom chans 0 calls = some (samples, acc) ∧
      (samples : Int) = total * chans ∧ -1 < acc ∧ acc < 1 ∧
      (total : Rat) + acc = (calls.map fun c => ((c.2 / chans : Nat) : Rat) * (est / nom)).sum := by
  have hne : mode ≠ .none ∧ mode ≠ .adaptive := by rcases hm with h | h <;> subst h <;> simp
  have key : ∀ (calls : List (List Rat × Nat)) (acc : Rat), (∀ c ∈ calls, 2 * chans ≤ c.2 ∧ c.2 + chans ≤ c.1.length ∧ c.2 % chans = 0) →
      ∃ samples : Nat, runSource toS mode est nom chans acc calls =
          some (samples, (frames (est / nom) chans acc (calls.map fun c => (c.2, c.1.length))).2) ∧
        (samples : Int) = (frames (est / nom) chans acc (calls.map fun c => (c.2, c.1.length))).1 * chans := by
    intro calls
    induction calls with
    | nil => intro acc _; exact ⟨0, rfl, by simp [frames]⟩
    | cons c rest ih =>
      intro acc hh
      obtain ⟨buf, n⟩ := c
      obtain ⟨g1, g2, g3⟩ := hh (buf, n) (.head _)
      simp only at g1 g2 g3
      obtain ⟨b, hb, -⟩ := adjust_spec toS mode acc buf n chans (est / nom) hc (by omega)
      obtain ⟨m, hm1, hm2⟩ := ih (clamp2 (acc + drift n chans (est / nom)) -
        ((change (clamp2 (acc + drift n chans (est / nom))) buf.length n chans : Int) : Rat)) (fun c hc => hh c (.tail _ hc))
      have hs : source toS mode acc buf n est nom chans = adjust toS mode acc buf n (est / nom) chans := by
        unfold source
        rw [if_neg (by grind), if_neg hne.2]
      refine ⟨((n : Int) + change (clamp2 (acc + drift n chans (est / nom))) buf.length n chans * chans).toNat + m, ?_, ?_⟩
      · simp only [runSource, hs, hb, List.map_cons, frames]
        show (do let t ← runSource toS mode est nom chans _ rest; return (_ + t.1, t.2)) = _
        rw [hm1]
        rfl
      · simp only [List.map_cons, frames]
        generalize hk : change (clamp2 (acc + drift n chans (est / nom))) buf.length n chans = k at hm2
        have hk2 : -1 ≤ k ∧ k ≤ 1 := by
          rw [← hk]; unfold change
          split
          · omega
          · split <;> omega
        have hd : (((n / chans : Nat) : Int)) * chans = n := by
          have := Nat.div_add_mod n chans
          rw [g3, Nat.add_zero, Nat.mul_comm] at this
          rw [← Int.natCast_mul, this]
        have hpos : 0 ≤ (n : Int) + k * chans := by
          have : -1 * (chans : Int) ≤ k * chans := Int.mul_le_mul_of_nonneg_right hk2.1 (by omega)
          omega
        rw [Int.natCast_add, Int.toNat_of_nonneg hpos, hm2, Int.add_mul, Int.add_mul, hd]
  obtain ⟨samples, h1, h2⟩ := key calls 0 (fun c hc => ⟨(h c hc).1, (h c hc).2.1, (h c hc).2.2.1⟩)
  obtain ⟨l1, l2, l3⟩ := long_run (est / nom) chans (calls.map fun c => (c.2, c.1.length)) 0 ⟨by grind, by grind⟩ (by
    intro c hc
    rw [List.mem_map] at hc
    obtain ⟨d, hd, rfl⟩ := hc
    exact ⟨(h d hd).1, (h d hd).2.1, (h d hd).2.2.2.1, (h d hd).2.2.2.2⟩)
  refine ⟨(frames (est / nom) chans 0 (calls.map fun c => (c.2, c.1.length))).1, _, samples, h1, h2, l2, l3, ?_⟩
  rw [l1, List.map_map, Rat.zero_add]
  rfl

/-- The accumulator never exceeds two frames, so a call with more drift than that loses the rest. -/
theorem clamped (acc : Rat) : -2 ≤ clamp2 acc ∧ clamp2 acc ≤ 2 := by
  unfold clamp2
  split
  · exact ⟨by grind, by grind⟩
  · split
    · exact ⟨by grind, by grind⟩
    · exact ⟨by grind, by grind⟩

/-- Four frames of drift in one call; all but one are lost in the end. -/
theorem large_drift_lost : frames (102 / 100) 1 0 [(200, 300), (0, 100), (0, 100), (0, 100)] = (202, 0) := by decide +kernel

/-- Calls of 480 stereo frames at 100 parts per million. -/
example : ∀ c ∈ List.replicate 1000 (960, 1024), 2 * 2 ≤ c.1 ∧ c.1 + 2 ≤ c.2 ∧ -1 ≤ drift c.1 2 (10001 / 10000) ∧
    drift c.1 2 (10001 / 10000) ≤ 1 := by
  intro c hc
  rw [List.eq_of_mem_replicate hc]
  decide +kernel

/-- A sink is a source whose rates are exchanged, working on the copied samples (insertion and removal). -/
theorem sink_is_source (toS : Rat → Rat) (mode : Mode) (hm : mode = .linear ∨ mode = .cubic) (acc : Rat) (inp out : List Rat) (n : Nat)
    (est nom : Rat) (chans : Nat) (h1 : n ≤ inp.length) (h2 : n ≤ out.length) :
    sink toS mode acc inp out n est nom chans = source toS mode acc (inp.take n ++ out.drop n) n nom est chans := by
  have hne : mode ≠ .none ∧ mode ≠ .adaptive := by rcases hm with h | h <;> subst h <;> simp
  have hcp : copyN inp out n = some (inp.take n ++ out.drop n) := if_pos ⟨h1, h2⟩
  unfold sink source
  rw [hcp]
  by_cases hc : mode = .none ∨ est ≤ 0 ∨ nom ≤ 0 ∨ n = 0 ∨ chans = 0
  · rw [if_pos hc, if_pos (by grind)]
    rfl
  · rw [if_neg hc, if_neg hne.2, if_neg (by grind), if_neg hne.2]
    rfl

end Verif.Drift
