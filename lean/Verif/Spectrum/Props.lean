import Verif.Spectrum.Lemmas

/-!
# Property C163: every value of a spectrum stands at its frequency

`X` is the transform of the windowed input, `n` values long; its bin `k` belongs to the frequency `k * rate / n` and to all that differ
from it by multiples of the rate.
-/

namespace Verif.Spectrum

/-- Bin `k` of `n` is the one for `j` times the width of a bin. -/
def IsBin (n k : Nat) (j : Int) : Prop := k < n ∧ ∃ t : Int, (k : Int) = j + n * t

/-- `v` is the magnitude of `c`, as such or in decibels. -/
def MagOf (s : Std) (inDb : Bool) (n : Nat) (c : Cx) (v : Rat) : Prop :=
  (inDb = false → v = s.hypot c.re c.im * 2 / n) ∧
  (inDb = true → 0 < s.hypot c.re c.im * 2 / n → v = 20 * s.log10 (s.hypot c.re c.im * 2 / n)) ∧
  (inDb = true → ¬ 0 < s.hypot c.re c.im * 2 / n → v = s.lowest)

/-- The input with the window applied. -/
def windowed (input : List Cx) (window : List Rat) : List Cx := List.zipWith (fun v w => ⟨v.re * w, v.im * w⟩) input window

theorem magnitude1_is (s : Std) (inDb : Bool) (n : Nat) (c : Cx) : MagOf s inDb n c (magnitude1 s inDb n c) := by
  unfold MagOf magnitude1
  dsimp only
  refine ⟨?_, ?_, ?_⟩
  · rintro rfl; simp
  · rintro rfl h
    have : s.hypot c.re c.im * 2 / n > 0 := h
    simp [this]
  · rintro rfl h
    have : ¬ s.hypot c.re c.im * 2 / n > 0 := h
    simp [this]

theorem process_parts {s : Std} {fft : List Cx → List Cx} {c : Cfg} {cplx : Bool} {input : List Cx} {window : List Rat} {ds : Set}
    (h : process s fft c cplx input window = some ds) :
    ∃ ph, magnitude s (!cplx) c.inDb true (fft (windowed input window)) = some ds.mag ∧
      phase s (!cplx) c.inDeg c.unwrap true (fft (windowed input window)) = .ok ph ∧ ds.phase = ph ∧
      createDataset c cplx (fft (windowed input window)) ds.mag ph = some ds := by
  unfold process at h
  dsimp only at h
  change (match magnitude s (!cplx) c.inDb true (fft (windowed input window)), phase s (!cplx) c.inDeg c.unwrap true (fft (windowed input window)) with
    | some mag, .ok ph => createDataset c cplx (fft (windowed input window)) mag ph
    | _, _ => none) = some ds at h
  generalize hx : fft (windowed input window) = x at h ⊢
  cases hm : magnitude s (!cplx) c.inDb true x with
  | none => rw [hm] at h; simp at h
  | some mag =>
    cases hp : phase s (!cplx) c.inDeg c.unwrap true x with
    | throws => rw [hm, hp] at h; simp at h
    | undefined => rw [hm, hp] at h; simp at h
    | ok ph =>
      rw [hm, hp] at h
      dsimp only at h
      have h' := h
      unfold createDataset at h'
      dsimp only at h'
      split at h'
      · cases h'
        exact ⟨ph, rfl, rfl, rfl, h⟩
      · cases h'

theorem dataset_parts {c : Cfg} {cplx : Bool} {x : List Cx} {mag ph : List Rat} {ds : Set} (h : createDataset c cplx x mag ph = some ds) :
    ds.axis = ((List.range mag.length).map fun (i : Nat) =>
        if cplx then (i : Rat) * (c.sampleRate / c.fftSize) - ((mag.length / 2 : Nat) : Rat) * (c.sampleRate / c.fftSize)
        else (i : Rat) * (c.sampleRate / c.fftSize)) ∧
    ds.re = (if cplx then x else x.drop (x.length - mag.length)).map (·.re) ∧
    ds.im = (if cplx then x else x.drop (x.length - mag.length)).map (·.im) ∧ ds.mag = mag ∧ ds.phase = ph ∧
    ∃ a b d e, ds.ranges = [a, b, d, e] ∧ minmax ds.mag = some a ∧ minmax ds.phase = some b ∧ minmax ds.re = some d ∧ minmax ds.im = some e := by
  unfold createDataset at h
  dsimp only at h
  split at h
  · rename_i a b d e ha hb hd he
    cases h
    exact ⟨rfl, rfl, rfl, rfl, rfl, a, b, d, e, rfl, ha, hb, hd, he⟩
  · cases h

theorem half_cast (n i : Nat) (w : Rat) : (i : Rat) * w - ((n / 2 : Nat) : Rat) * w = (((i : Int) - (n / 2 : Nat) : Int) : Rat) * w := by
  rw [Rat.intCast_sub]
  have e1 : ((i : Int) : Rat) = (i : Rat) := rfl
  have e2 : (((n / 2 : Nat) : Int) : Rat) = ((n / 2 : Nat) : Rat) := rfl
  rw [e1, e2]
  grind

/-- Complex input: the axis runs over both signs of the frequency, in steps of the width of a bin, and the magnitude at place `i` belongs
to the frequency there if the size is even. If it is odd, it belongs to the bin below. -/
theorem complex_magnitude (s : Std) (fft : List Cx → List Cx) (c : Cfg) (input : List Cx) (window : List Rat) (ds : Set)
    (h : process s fft c true input window = some ds) (n : Nat) (hn : (fft (windowed input window)).length = n) :
    ds.mag.length = n ∧ ds.axis.length = n ∧
    ∀ i < n, ds.axis[i]? = some ((((i : Int) - (n / 2 : Nat) : Int) : Rat) * (c.sampleRate / c.fftSize)) ∧
      ∃ k x v, (fft (windowed input window))[k]? = some x ∧ ds.mag[i]? = some v ∧ MagOf s c.inDb n x v ∧
        IsBin n k ((i : Int) - (n / 2 : Nat) - (n % 2 : Nat)) := by
  obtain ⟨ph, hm, _, _, hd⟩ := process_parts h
  obtain ⟨hax, _, _, _⟩ := dataset_parts hd
  generalize hx : fft (windowed input window) = X at *
  have hn0 : X.length ≠ 0 := fun h0 => by simp [magnitude, h0] at hm
  have hmag : ds.mag = rotate (X.map (magnitude1 s c.inDb n)) (n / 2) := by
    unfold magnitude at hm
    rw [if_neg hn0] at hm
    simp [hn] at hm
    rw [← hm, List.take_of_length_le (by simp; omega)]
  have hlen : ds.mag.length = n := by
    rw [hmag, rotate_length _ _ (by simp; omega), List.length_map, hn]
  refine ⟨hlen, by rw [hax]; simp [hlen], fun i hi => ⟨?_, ?_⟩⟩
  · rw [hax, hlen]
    simp only [List.getElem?_map, List.getElem?_range hi, Option.map_some, if_true]
    rw [half_cast]
  · have hk : (i + n / 2) % n < X.length := by rw [hn]; exact Nat.mod_lt _ (by omega)
    refine ⟨(i + n / 2) % n, X[(i + n / 2) % n], _, List.getElem?_eq_getElem hk, ?_, magnitude1_is s c.inDb n _, by omega, ?_⟩
    · rw [hmag, rotate_get _ _ _ (by simp; omega) (by simp; omega), List.length_map, hn, List.getElem?_map, List.getElem?_eq_getElem hk]
      rfl
    · have h1 := Nat.div_add_mod n 2
      by_cases hlt : i + n / 2 < n
      · rw [Nat.mod_eq_of_lt hlt]
        exact ⟨1, by omega⟩
      · rw [Nat.mod_eq_sub_mod (by omega), Nat.mod_eq_of_lt (by omega)]
        exact ⟨0, by omega⟩

/-- The phase stands at the same places as the magnitude, in radians or degrees. -/
theorem complex_phase (s : Std) (fft : List Cx → List Cx) (c : Cfg) (input : List Cx) (window : List Rat) (ds : Set)
    (h : process s fft c true input window = some ds) (n : Nat) (hn : (fft (windowed input window)).length = n) (hu : c.unwrap = false) :
    ∀ i < n, ∃ k x v, (fft (windowed input window))[k]? = some x ∧ ds.phase[i]? = some v ∧
        v = (if c.inDeg then s.atan2 x.im x.re * 180 * (1 / s.pi) else s.atan2 x.im x.re) ∧
        IsBin n k ((i : Int) - (n / 2 : Nat) - (n % 2 : Nat)) := by
  obtain ⟨ph, _, hp, hph, _⟩ := process_parts h
  generalize hx : fft (windowed input window) = X at *
  intro i hi
  have hphase : ds.phase = rotate (X.map fun x => if c.inDeg then s.atan2 x.im x.re * 180 * (1 / s.pi) else s.atan2 x.im x.re) (n / 2) := by
    unfold phase at hp
    rw [if_neg (by omega), hu] at hp
    rw [hph]
    cases hdeg : c.inDeg <;> simp [hdeg] at hp <;> rw [← hp] <;> simp [hn]
    rfl
  have hk : (i + n / 2) % n < X.length := by rw [hn]; exact Nat.mod_lt _ (by omega)
  refine ⟨(i + n / 2) % n, X[(i + n / 2) % n], _, List.getElem?_eq_getElem hk, ?_, rfl, by omega, ?_⟩
  · rw [hphase, rotate_get _ _ _ (by simp; omega) (by simp; omega), List.length_map, hn, List.getElem?_map, List.getElem?_eq_getElem hk]
    rfl
  · have h1 := Nat.div_add_mod n 2
    by_cases hlt : i + n / 2 < n
    · rw [Nat.mod_eq_of_lt hlt]
      exact ⟨1, by omega⟩
    · rw [Nat.mod_eq_sub_mod (by omega), Nat.mod_eq_of_lt (by omega)]
      exact ⟨0, by omega⟩

/-- The finding for complex input: the real and imaginary parts are not moved to the places of the magnitude, place `i` has bin `i`. -/
theorem complex_parts (s : Std) (fft : List Cx → List Cx) (c : Cfg) (input : List Cx) (window : List Rat) (ds : Set)
    (h : process s fft c true input window = some ds) :
    ∀ i : Nat, ds.re[i]? = ((fft (windowed input window))[i]?).map (·.re) ∧ ds.im[i]? = ((fft (windowed input window))[i]?).map (·.im) := by
  obtain ⟨ph, _, _, _, hd⟩ := process_parts h
  obtain ⟨_, hre, him, _⟩ := dataset_parts hd
  intro i
  rw [hre, him]
  simp

/-- Real input: the frequencies from 0 up to less than half the rate with the magnitudes of their bins. -/
theorem real_magnitude (s : Std) (fft : List Cx → List Cx) (c : Cfg) (input : List Cx) (window : List Rat) (ds : Set)
    (h : process s fft c false input window = some ds) (n : Nat) (hn : (fft (windowed input window)).length = n) :
    ds.mag.length = n / 2 ∧ ds.axis.length = n / 2 ∧
    ∀ i < n / 2, ds.axis[i]? = some ((i : Rat) * (c.sampleRate / c.fftSize)) ∧
      ∃ x v, (fft (windowed input window))[i]? = some x ∧ ds.mag[i]? = some v ∧ MagOf s c.inDb n x v := by
  obtain ⟨ph, hm, _, _, hd⟩ := process_parts h
  obtain ⟨hax, _, _, _⟩ := dataset_parts hd
  generalize hx : fft (windowed input window) = X at *
  have hn0 : X.length ≠ 0 := fun h0 => by simp [magnitude, h0] at hm
  have hmag : ds.mag = (X.take (n / 2)).map (magnitude1 s c.inDb n) := by
    unfold magnitude at hm
    rw [if_neg hn0] at hm
    simp [hn] at hm
    rw [← hm, List.map_take]
  have hlen : ds.mag.length = n / 2 := by
    rw [hmag, List.length_map, List.length_take]; omega
  refine ⟨hlen, by rw [hax]; simp [hlen], fun i hi => ⟨?_, ?_⟩⟩
  · rw [hax, hlen]
    simp [List.getElem?_map, List.getElem?_range hi]
  · have hk : i < X.length := by omega
    refine ⟨X[i], _, List.getElem?_eq_getElem hk, ?_, magnitude1_is s c.inDb n _⟩
    rw [hmag, List.getElem?_map, List.getElem?_take_of_lt hi, List.getElem?_eq_getElem hk]
    rfl

/-- The finding for real input: the real and imaginary parts are those of the upper half of the bins, which are the negative
frequencies: place `i` has the bin for `i - n/2` (rounded down) times the width instead of `i` times. -/
theorem real_parts (s : Std) (fft : List Cx → List Cx) (c : Cfg) (input : List Cx) (window : List Rat) (ds : Set)
    (h : process s fft c false input window = some ds) (n : Nat) (hn : (fft (windowed input window)).length = n) :
    ∀ i < n / 2, ∃ k x, (fft (windowed input window))[k]? = some x ∧ ds.re[i]? = some x.re ∧ ds.im[i]? = some x.im ∧
      IsBin n k ((i : Int) - (n / 2 : Nat)) := by
  obtain ⟨hl, _, _⟩ := real_magnitude s fft c input window ds h n hn
  obtain ⟨ph, _, _, _, hd⟩ := process_parts h
  obtain ⟨_, hre, him, _⟩ := dataset_parts hd
  generalize hx : fft (windowed input window) = X at *
  intro i hi
  have hk : n - n / 2 + i < X.length := by omega
  refine ⟨n - n / 2 + i, X[n - n / 2 + i], List.getElem?_eq_getElem hk, ?_, ?_, by omega, 1, by omega⟩
  · rw [hre, hl, hn]
    simp [List.getElem?_drop, List.getElem?_eq_getElem hk]
  · rw [him, hl, hn]
    simp [List.getElem?_drop, List.getElem?_eq_getElem hk]

/-- The ranges in the data set are the least and greatest value of each signal. -/
theorem ranges_spec (s : Std) (fft : List Cx → List Cx) (c : Cfg) (cplx : Bool) (input : List Cx) (window : List Rat) (ds : Set)
    (h : process s fft c cplx input window = some ds) :
    ∃ a b d e : Rat × Rat, ds.ranges = [a, b, d, e] ∧
      ∀ p ∈ [(a, ds.mag), (b, ds.phase), (d, ds.re), (e, ds.im)],
        p.1.1 ∈ p.2 ∧ p.1.2 ∈ p.2 ∧ ∀ x ∈ p.2, p.1.1 ≤ x ∧ x ≤ p.1.2 := by
  obtain ⟨ph, _, _, _, hd⟩ := process_parts h
  obtain ⟨_, _, _, _, _, a, b, d, e, hr, ha, hb, hd', he⟩ := dataset_parts hd
  refine ⟨a, b, d, e, hr, fun p hp => ?_⟩
  simp only [List.mem_cons, List.not_mem_nil, or_false] at hp
  rcases hp with rfl | rfl | rfl | rfl
  · exact minmax_spec _ _ _ ha
  · exact minmax_spec _ _ _ hb
  · exact minmax_spec _ _ _ hd'
  · exact minmax_spec _ _ _ he

/-- Unwrapping keeps the first phase, moves every other one by whole turns, and leaves no step of more than half a turn. -/
theorem unwrap_spec (pi : Rat) (hpi : 0 < pi) (p : Rat) (ps : List Rat) :
    ∃ us, unwrapPhase pi (p :: ps) = some us ∧ us.length = (p :: ps).length ∧ us[0]? = some p ∧
      ∀ (i : Nat) v, (p :: ps)[i + 1]? = some v →
        ∃ a b, us[i]? = some a ∧ us[i + 1]? = some b ∧ (∃ k : Int, b = v + 2 * pi * k) ∧ b - a ≤ pi ∧ -pi ≤ b - a := by
  refine ⟨_, rfl, by simp [unwrapRest_length], rfl, fun i v hv => ?_⟩
  rw [List.getElem?_cons_succ] at hv
  obtain ⟨u, h1, h2, q, h3, h4⟩ := unwrapRest_spec pi hpi ps p i v hv
  exact ⟨q, u, h3, by rw [List.getElem?_cons_succ]; exact h1, h2, h4⟩

example : unwrapPhase 3 [0, 2, -2, 1, -3, 20] = some [0, 2, 4, 1, 3, 2] := by decide +kernel

/-- The phases of real input, and what unwrapping does to those of a block: the phases shown are those of the bins after unwrapping in the
order of the transform, from frequency 0 upwards. -/
theorem phase_unwrapped (s : Std) (fft : List Cx → List Cx) (c : Cfg) (cplx : Bool) (input : List Cx) (window : List Rat) (ds : Set)
    (h : process s fft c cplx input window = some ds) (n : Nat) (hn : (fft (windowed input window)).length = n) :
    ∃ us, (if c.unwrap then unwrapPhase s.pi (((fft (windowed input window)).take (if cplx then n else n / 2)).map fun x => s.atan2 x.im x.re)
        else some (((fft (windowed input window)).take (if cplx then n else n / 2)).map fun x => s.atan2 x.im x.re)) = some us ∧
      (cplx = false → ∀ i : Nat, ds.phase[i]? = (us[i]?).map fun v => if c.inDeg then v * 180 * (1 / s.pi) else v) ∧
      (cplx = true → us.length = n → ∀ i < n,
        ds.phase[i]? = (us[(i + n / 2) % n]?).map fun v => if c.inDeg then v * 180 * (1 / s.pi) else v) := by
  obtain ⟨ph, _, hp, hph, _⟩ := process_parts h
  generalize hx : fft (windowed input window) = X at *
  rw [hph]
  unfold phase at hp
  split at hp
  · cases hp
  have hsz : (if (!cplx) = true then X.length / 2 else X.length) = if cplx then n else n / 2 := by cases cplx <;> simp [hn]
  dsimp only at hp
  rw [hsz] at hp
  split at hp
  · cases hp
  · rename_i us hus
    refine ⟨us, hus, ?_, ?_⟩
    · rintro rfl i
      cases hdeg : c.inDeg <;> simp [hdeg] at hp <;> rw [← hp] <;> simp
    · rintro rfl hl i hi
      cases hdeg : c.inDeg <;> simp [hdeg] at hp <;>
        rw [← hp, rotate_get _ _ _ (by first | omega | (simp; omega)) (by first | omega | (simp; omega))] <;> simp [hl]

theorem minmax_some {l : List Rat} (h : l ≠ []) : ∃ r, minmax l = some r := by
  cases l with
  | nil => exact absurd rfl h
  | cons v vs => exact ⟨_, rfl⟩

/-- There is a data set for every transform of two values or more, whatever the settings. -/
theorem process_defined (s : Std) (fft : List Cx → List Cx) (c : Cfg) (cplx : Bool) (input : List Cx) (window : List Rat)
    (hn : 2 ≤ (fft (windowed input window)).length) : ∃ ds, process s fft c cplx input window = some ds := by
  unfold process
  dsimp only
  change ∃ ds, (match magnitude s (!cplx) c.inDb true (fft (windowed input window)), phase s (!cplx) c.inDeg c.unwrap true (fft (windowed input window)) with
    | some mag, .ok ph => createDataset c cplx (fft (windowed input window)) mag ph
    | _, _ => none) = some ds
  generalize hx : fft (windowed input window) = X at *
  have h0 : X.length ≠ 0 := by omega
  have hm : ∃ mag, magnitude s (!cplx) c.inDb true X = some mag ∧ 0 < mag.length ∧ mag.length ≤ X.length := by
    unfold magnitude
    rw [if_neg h0]
    refine ⟨_, rfl, ?_⟩
    cases cplx <;> simp [rotate] <;> omega
  have hp : ∃ ph, phase s (!cplx) c.inDeg c.unwrap true X = .ok ph ∧ 0 < ph.length := by
    unfold phase
    rw [if_neg h0]
    dsimp only
    have hraw : 0 < ((X.take (if (!cplx) = true then X.length / 2 else X.length)).map fun x => s.atan2 x.im x.re).length := by
      cases cplx <;> simp <;> omega
    generalize ((X.take (if (!cplx) = true then X.length / 2 else X.length)).map fun x => s.atan2 x.im x.re) = raw at hraw ⊢
    have hr : ∃ r, (if c.unwrap = true then unwrapPhase s.pi raw else some raw) = some r ∧ 0 < r.length := by
      cases c.unwrap
      · exact ⟨raw, rfl, hraw⟩
      · cases raw with
        | nil => simp at hraw
        | cons p ps => exact ⟨_, rfl, by simp⟩
    obtain ⟨r, hr, hl⟩ := hr
    rw [hr]
    refine ⟨_, rfl, ?_⟩
    cases cplx <;> cases c.inDeg <;> simp [rotate] <;> omega
  obtain ⟨mag, hm, hm1, hm2⟩ := hm
  obtain ⟨ph, hp, hp1⟩ := hp
  rw [hm, hp]
  dsimp only
  unfold createDataset
  dsimp only
  have hpart : (if cplx = true then X else X.drop (X.length - mag.length)) ≠ [] := by
    intro he
    have := congrArg List.length he
    cases cplx
    · rw [if_neg (by simp), List.length_drop, List.length_nil] at this
      omega
    · rw [if_pos rfl, List.length_nil] at this
      omega
  obtain ⟨a, ha⟩ := minmax_some (l := mag) (by intro h; simp [h] at hm1)
  obtain ⟨b, hb⟩ := minmax_some (l := ph) (by intro h; simp [h] at hp1)
  obtain ⟨d, hd⟩ := minmax_some (l := (if cplx = true then X else X.drop (X.length - mag.length)).map (·.re)) (by simpa using hpart)
  obtain ⟨e, he⟩ := minmax_some (l := (if cplx = true then X else X.drop (X.length - mag.length)).map (·.im)) (by simpa using hpart)
  rw [ha, hb, hd, he]
  exact ⟨_, rfl⟩

/-- A standard library for the cases below: the sum of the absolute values in place of the root, the imaginary part as the phase. -/
def toy : Std := ⟨fun a b => (if a < 0 then -a else a) + (if b < 0 then -b else b), fun x => x, fun im _ => im, 3, -1000⟩

/-- The findings on one transform each (the input stands for its own transform): with three complex bins the magnitude of bin 0 is not at
frequency 0; the real parts of four complex bins are not in the order of the axis; the real part shown at frequency 0 for real input is
that of bin 2; after unwrapping and moving there is a step of more than half a turn; one real sample is undefined behaviour. -/
theorem findings :
    (process toy id ⟨3, false, false, false, 3⟩ true [⟨9, 0⟩, ⟨3, 0⟩, ⟨6, 0⟩] [1, 1, 1]).map (fun d => (d.axis, d.mag)) =
      some ([-1, 0, 1], [2, 4, 6]) ∧
    (process toy id ⟨4, false, false, false, 4⟩ true [⟨8, 0⟩, ⟨2, 0⟩, ⟨4, 0⟩, ⟨6, 0⟩] [1, 1, 1, 1]).map (fun d => (d.axis, d.mag, d.re)) =
      some ([-2, -1, 0, 1], [2, 3, 4, 1], [8, 2, 4, 6]) ∧
    (process toy id ⟨4, false, false, false, 4⟩ false [⟨8, 0⟩, ⟨2, 0⟩, ⟨4, 0⟩, ⟨6, 0⟩] [1, 1, 1, 1]).map (fun d => (d.axis, d.mag, d.re)) =
      some ([0, 1], [4, 1], [4, 6]) ∧
    (process toy id ⟨4, false, false, true, 4⟩ true [⟨0, 0⟩, ⟨0, 2⟩, ⟨0, -2⟩, ⟨0, 0⟩] [1, 1, 1, 1]).map (fun d => (d.phase)) =
      some [4, 6, 0, 2] ∧
    process toy id ⟨1, false, false, false, 1⟩ false [⟨1, 0⟩] [1] = none := by
  decide +kernel

example : (process toy id ⟨4, false, true, true, 4⟩ false [⟨0, 1⟩, ⟨0, 5⟩, ⟨4, 0⟩, ⟨6, 0⟩] [1, 1, 1, 1]).map (·.phase) = some [60, -60] ∧
    (process toy id ⟨4, true, false, false, 4⟩ false [⟨0, 2⟩, ⟨0, 0⟩, ⟨4, 0⟩, ⟨6, 0⟩] [1, 1, 1, 1]).map (·.mag) = some [20, -1000] := by
  decide +kernel

/-- A constant 1 has the magnitude 2: the factor 2 is there for frequency 0 as well. -/
theorem constant_doubled (s : Std) (n : Nat) (hn : 0 < n) (hyp : s.hypot n 0 = n) : magnitude1 s false n ⟨n, 0⟩ = 2 := by
  have h0 : (n : Rat) ≠ 0 := by
    intro h
    have : n = 0 := by exact_mod_cast h
    omega
  unfold magnitude1
  simp only [hyp, Bool.false_and, Bool.false_eq_true, if_false]
  grind

end Verif.Spectrum
