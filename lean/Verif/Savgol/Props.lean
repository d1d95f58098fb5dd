import Verif.Savgol.Poly

/-!
# C150, C151: Savitzky-Golay filters
-/

namespace Verif.Savgol

/-! ## C150: the batch filter -/

/-- Reflection at the ends: inside the signal nothing changes, the mirror lies half a sample outside each end
(so the end sample is repeated), and the continued signal is periodic. -/
theorem reflect_mirrors (N : Nat) (hN : N ≠ 0) (i : Int) :
    reflectIndex i N < N ∧
    (0 ≤ i → i < N → (reflectIndex i N : Int) = i) ∧
    reflectIndex (-1 - i) N = reflectIndex i N ∧
    reflectIndex (2 * N - 1 - i) N = reflectIndex i N ∧
    reflectIndex (i + 2 * N) N = reflectIndex i N := by
  have per : ∀ i : Int, reflectIndex (i + 2 * N) N = reflectIndex i N := by
    intro i
    have a := reflectIndex_eq (i + 2 * N) N hN
    have b := reflectIndex_eq i N hN
    rw [Int.add_emod_right] at a
    omega
  have h0 := Int.emod_nonneg i (show (2 * N : Int) ≠ 0 by omega)
  have h1 := Int.emod_lt_of_pos i (show (0 : Int) < 2 * N by omega)
  have hd := Int.emod_add_mul_ediv i (2 * N)
  have neg : reflectIndex (-1 - i) N = reflectIndex i N := by
    have a := reflectIndex_eq (-1 - i) N hN
    have b := reflectIndex_eq i N hN
    have e : -1 - i = (2 * N - 1 - i % (2 * N)) + (2 * N) * (-(i / (2 * N)) - 1) := by
      rw [Int.mul_sub, Int.mul_neg]; omega
    have key : (-1 - i) % (2 * N : Int) = 2 * N - 1 - i % (2 * N) := by
      rw [e, Int.add_mul_emod_self_left]
      exact Int.emod_eq_of_lt (by omega) (by omega)
    rw [key] at a
    split at a <;> split at b <;> omega
  refine ⟨reflectIndex_lt i N hN, fun a b => ?_, neg, ?_, per i⟩
  · have := boundaryIndex_inside i N .reflect a b
    simp only [boundaryIndex] at this
    omega
  · have := per (-1 - i)
    have e : (-1 - i + 2 * (N : Int)) = 2 * N - 1 - i := by omega
    rw [e] at this
    rw [this, neg]

example : (List.range 9).map (fun (k : Nat) => reflectIndex ((k : Int) - 3) 3) = [2, 1, 0, 0, 1, 2, 2, 1, 0] := by decide

/-- The other policies: the nearest sample of the signal. -/
theorem others_replicate (N : Nat) (hN : N ≠ 0) (i : Int) (p : Policy) (hp : p ≠ .reflect) :
    boundaryIndex i N p < N ∧
    ∀ j : Nat, j < N → (i - boundaryIndex i N p).natAbs ≤ (i - (j : Int)).natAbs := by
  have a := replicateIndex_eq i N hN
  refine ⟨boundaryIndex_lt i N p hN, fun j hj => ?_⟩
  cases p <;> simp only [boundaryIndex, ne_eq, not_true_eq_false] at hp ⊢ <;> omega

example : (List.range 9).map (fun (k : Nat) => boundaryIndex ((k : Int) - 3) 3 .dflt) = [0, 0, 0, 0, 1, 2, 2, 2, 2] := by
  decide

/-- As many samples come out as went in, and nothing is written if the output is too small, the signal or the
coefficient row empty. -/
theorem apply_length (inp : List Rat) (outSize : Nat) (coeffs : List Rat) (cfg : Config) :
    (apply inp outSize coeffs cfg = none ↔ inp = [] ∨ coeffs = [] ∨ outSize < inp.length) ∧
    ∀ out, apply inp outSize coeffs cfg = some out → out.length = inp.length := by
  refine ⟨⟨fun h => ?_, fun h => ?_⟩, fun out h => (apply_some h).2.2.2.1⟩
  · by_cases h1 : inp.length = 0
    · exact .inl (List.length_eq_zero_iff.1 h1)
    · by_cases h2 : coeffs.length = 0
      · exact .inr (.inl (List.length_eq_zero_iff.1 h2))
      · refine .inr (.inr (Nat.not_le.1 fun h3 => ?_))
        obtain ⟨o, ho⟩ := apply_isSome inp outSize coeffs cfg h1 h2 h3
        simp [ho] at h
  · unfold apply
    simp only
    rw [if_pos]
    rcases h with h | h | h
    · simp [h]
    · simp [h]
    · simp [h]

/-- The filter is linear: the filtered sum of two signals of the same length is the sum of the filtered signals. -/
theorem apply_linear (n0 : Nat) (f g : Nat → Rat) (a b : Rat) (outSize : Nat) (coeffs : List Rat) (cfg : Config)
    (x y z : List Rat) (h : n0 ≠ 0)
    (hx : apply ((List.range n0).map f) outSize coeffs cfg = some x)
    (hy : apply ((List.range n0).map g) outSize coeffs cfg = some y)
    (hz : apply ((List.range n0).map fun k => a * f k + b * g k) outSize coeffs cfg = some z) :
    ∀ n, n < n0 → z.getD n 0 = a * x.getD n 0 + b * y.getD n 0 := by
  intro n hn
  obtain ⟨_, _, _, _, gx⟩ := apply_some hx
  obtain ⟨_, _, _, _, gy⟩ := apply_some hy
  obtain ⟨_, _, _, _, gz⟩ := apply_some hz
  simp only [List.length_map, List.length_range] at gx gy gz
  simp only [List.getD_eq_getElem?_getD (l := x), List.getD_eq_getElem?_getD (l := y),
    List.getD_eq_getElem?_getD (l := z)]
  rw [gx n hn, gy n hn, gz n hn]
  simp only [Option.getD_some]
  rw [← dot_smul, ← dot_smul, ← dot_add]
  apply dot_congr
  intro k _
  have hb := boundaryIndex_lt ((n : Int) + k - shift cfg.align coeffs.length) n0 cfg.policy h
  simp only [List.getD_eq_getElem?_getD, List.getElem?_map]
  rw [List.getElem?_range hb]
  rfl

example : apply [1, 2, 4] 3 [1, 2, 3] {} = some [9, 17, 22] := by decide +kernel

/-- A constant signal stays constant, up to the sum of the coefficients, at the ends too and with every policy. -/
theorem apply_constant (v : Rat) (N outSize : Nat) (coeffs : List Rat) (cfg : Config) (out : List Rat)
    (h : apply (List.replicate N v) outSize coeffs cfg = some out) : out = List.replicate N (coeffs.sum * v) := by
  obtain ⟨h1, _, _, hl, g⟩ := apply_some h
  simp only [List.length_replicate] at h1 hl g
  apply List.ext_getElem?
  intro n
  by_cases hn : n < N
  · rw [g n hn, List.getElem?_replicate, if_pos hn]
    congr 1
    rw [← dot_const coeffs (List.range coeffs.length) v (by simp)]
    apply dot_congr
    intro k _
    rw [List.getD_eq_getElem?_getD, List.getElem?_replicate, if_pos (boundaryIndex_lt _ _ _ h1)]
    rfl
  · rw [List.getElem?_eq_none (by omega), List.getElem?_eq_none (by simp; omega)]

example : apply [5, 5, 5] 3 [1/4, 1/2, 1/4] {} = some [5, 5, 5] := by decide +kernel

/-- **Polynomials are differentiated exactly.**  Let the coefficient row be a row of a left inverse of the
Vandermonde matrix times the scale factor (which is what the pseudo-inverse of a matrix of full column rank gives).
If around sample `n` the signal is a polynomial of at most the chosen order in the time since that sample, and the
window lies inside the signal, then the output is the derivative of the chosen order at that sample: smoothing
returns the sample itself. -/
theorem apply_polynomial (inp : List Rat) (outSize : Nat) (coeffs : List Rat) (cfg : Config) (out : List Rat)
    (p : Nat) (eps : Rat) (bs : List Rat) (n : Nat)
    (heps : 0 < eps) (hd : cfg.derivOrder ≤ p)
    (hrow : ∀ j, j ≤ p → dot coeffs ((vander cfg.align coeffs.length p).map fun row => row.getD j 0) =
      if j = cfg.derivOrder then scale cfg p eps else 0)
    (hdeg : bs.length ≤ p + 1)
    (h : apply inp outSize coeffs cfg = some out)
    (hleft : shift cfg.align coeffs.length ≤ n)
    (hright : (n : Int) + (coeffs.length - 1) - shift cfg.align coeffs.length < inp.length)
    (hin : ∀ k : Nat, k < coeffs.length →
      inp.getD ((n : Int) + k - shift cfg.align coeffs.length).toNat 0 =
        evalPoly bs ((((k : Int) - shift cfg.align coeffs.length : Int) : Rat) * max cfg.delta eps)) :
    out[n]? = some (evalPoly (derivN cfg.derivOrder bs) 0) := by
  obtain ⟨h1, h2, _, _, g⟩ := apply_some h
  have hn : n < inp.length := by
    have : shift cfg.align coeffs.length ≤ coeffs.length - 1 := by
      unfold shift; split <;> omega
    omega
  rw [g n hn]
  congr 1
  have hδ : (0 : Rat) < max cfg.delta eps := pos_max _ _ heps
  have e1 : dot coeffs ((List.range coeffs.length).map fun (k : Nat) =>
      inp.getD (boundaryIndex ((n : Int) + k - shift cfg.align coeffs.length) inp.length cfg.policy) 0) =
      dot coeffs ((List.range coeffs.length).map fun (k : Nat) =>
        offset cfg.align coeffs.length k ^ 0 *
          evalPoly bs (offset cfg.align coeffs.length k * max cfg.delta eps)) := by
    apply dot_congr
    intro k hk
    have hk' := List.mem_range.1 hk
    rw [boundaryIndex_inside _ _ _ (by omega) (by omega), hin k hk']
    simp only [offset]; grind
  rw [e1, dot_poly coeffs (List.range coeffs.length) (offset cfg.align coeffs.length) (max cfg.delta eps)
    (scale cfg p eps) cfg.derivOrder bs 0 (fun j _ hj => by
      rw [← vander_column _ _ p j (by omega)]; exact hrow j (by omega)),
    if_pos (Nat.zero_le _), derivN_at_zero, Nat.sub_zero]
  unfold scale
  simp only [Nat.min_eq_left hd]
  have hpow : max cfg.delta eps ^ cfg.derivOrder ≠ 0 := by
    intro h0
    have : (0 : Rat) < max cfg.delta eps ^ cfg.derivOrder := Rat.pow_pos hδ
    rw [h0] at this
    exact absurd this (Rat.lt_irrefl)
  rw [Rat.div_def]
  have := Rat.mul_inv_cancel _ hpow
  grind

/-- The row for five samples and second order, `(-3, 12, 17, 12, -3)/35`, meets the hypothesis. -/
example : ∀ j, j ≤ 2 → dot [-3/35, 12/35, 17/35, 12/35, -3/35] ((vander .centred 5 2).map fun row => row.getD j 0) =
    if j = 0 then scale {} 2 (1/1000) else 0 := by
  intro j hj
  match j, hj with
  | 0, _ => decide +kernel
  | 1, _ => decide +kernel
  | 2, _ => decide +kernel

/-- … and on the squares it gives the squares back. -/
example : (apply [0, 1, 4, 9, 16, 25, 36] 7 [-3/35, 12/35, 17/35, 12/35, -3/35] {}).map (fun o => (o.drop 2).take 3) =
    some [4, 9, 16] := by decide +kernel

/-- The first derivative, with a spacing of one half. -/
example : (∀ j, j ≤ 2 → dot [-2/5, -1/5, 0, 1/5, 2/5]
      ((vander .centred 5 2).map fun row => row.getD j 0) =
    if j = 1 then scale { derivOrder := 1, delta := 1/2 } 2 (1/1000) else 0) := by
  intro j hj
  match j, hj with
  | 0, _ => decide +kernel
  | 1, _ => decide +kernel
  | 2, _ => decide +kernel

/-- Reversed in time: for a symmetric row of odd length, filtering the reversed signal gives the reversed result. -/
theorem apply_reverse (inp : List Rat) (outSize : Nat) (coeffs : List Rat) (cfg : Config)
    (ha : cfg.align = .centred) (hsym : coeffs.reverse = coeffs) (hodd : coeffs.length % 2 = 1) :
    apply inp.reverse outSize coeffs cfg = (apply inp outSize coeffs cfg).map List.reverse := by
  by_cases hnone : inp.length = 0 ∨ outSize < inp.length
  · have a := (apply_length inp.reverse outSize coeffs cfg).1.2 (by
      rcases hnone with h | h
      · left; simpa using List.length_eq_zero_iff.1 h
      · right; right; simpa using h)
    have b := (apply_length inp outSize coeffs cfg).1.2 (by
      rcases hnone with h | h
      · left; exact List.length_eq_zero_iff.1 h
      · right; right; exact h)
    rw [a, b]; rfl
  have hN : inp.length ≠ 0 := fun h => hnone (.inl h)
  have hO : inp.length ≤ outSize := by omega
  obtain ⟨o, ho⟩ := apply_isSome inp outSize coeffs cfg hN (by omega) hO
  obtain ⟨o', ho'⟩ := apply_isSome inp.reverse outSize coeffs cfg (by simpa using hN) (by omega) (by simpa using hO)
  rw [ho, ho']
  simp only [Option.map_some, Option.some.injEq]
  obtain ⟨_, _, _, l, g⟩ := apply_some ho
  obtain ⟨_, _, _, l', g'⟩ := apply_some ho'
  simp only [List.length_reverse] at l' g'
  apply List.ext_getElem?
  intro n
  by_cases hn : n < inp.length
  · rw [g' n hn, List.getElem?_reverse (by omega), g _ (by omega)]
    congr 1
    have hlen : ∀ f : Nat → Rat, coeffs.length = ((List.range coeffs.length).map f).length := by intro f; simp
    rw [← dot_reverse coeffs _ (hlen _), hsym]
    congr 1
    apply List.ext_getElem?
    intro k
    by_cases hk : k < coeffs.length
    · rw [List.getElem?_reverse (by simpa using hk)]
      simp only [List.length_map, List.length_range, List.getElem?_map]
      rw [List.getElem?_range (by omega), List.getElem?_range hk]
      simp only [Option.map_some, ha, shift, Option.some.injEq]
      have m := boundaryIndex_mirror ((n : Int) + (coeffs.length - 1 - k : Nat) - ((coeffs.length - 1) / 2 : Nat))
        inp.length cfg.policy hN
      have e : (inp.length : Int) - 1 -
          ((n : Int) + (coeffs.length - 1 - k : Nat) - ((coeffs.length - 1) / 2 : Nat)) =
          ((o.length - 1 - n : Nat) : Int) + k - ((coeffs.length - 1) / 2 : Nat) := by omega
      rw [e] at m
      have hb := boundaryIndex_lt
        ((n : Int) + (coeffs.length - 1 - k : Nat) - ((coeffs.length - 1) / 2 : Nat)) inp.length cfg.policy hN
      simp only [List.getD_eq_getElem?_getD]
      rw [List.getElem?_reverse hb]
      congr 2
      omega
    · rw [List.getElem?_eq_none (by simp; omega), List.getElem?_eq_none (by simp; omega)]
  · rw [List.getElem?_eq_none (by omega), List.getElem?_eq_none (by simp; omega)]

/-- **Zero phase**: for a symmetric row of odd length, forward-backward filtering is filtering twice, and it does not
distinguish past from future: the result for the reversed signal is the reversed result. -/
theorem zero_phase (inp : List Rat) (outSize : Nat) (coeffs : List Rat) (cfg : Config)
    (hsym : coeffs.reverse = coeffs) (hodd : coeffs.length % 2 = 1) (hN : inp ≠ []) (hO : inp.length ≤ outSize) :
    (∃ once, apply inp inp.length coeffs { cfg with align := .centred } = some once ∧
      applyZeroPhase inp outSize coeffs cfg = apply once inp.length coeffs { cfg with align := .centred }) ∧
    applyZeroPhase inp.reverse outSize coeffs cfg = (applyZeroPhase inp outSize coeffs cfg).map List.reverse := by
  have hN' : inp.length ≠ 0 := by simpa using hN
  have main : ∀ inp : List Rat, inp.length ≠ 0 → inp.length ≤ outSize →
      ∃ once, apply inp inp.length coeffs { cfg with align := .centred } = some once ∧
      applyZeroPhase inp outSize coeffs cfg = apply once inp.length coeffs { cfg with align := .centred } := by
    intro inp hN hO
    obtain ⟨once, h1⟩ := apply_isSome inp inp.length coeffs { cfg with align := .centred } hN (by omega) (by omega)
    have hl := (apply_some h1).2.2.2.1
    obtain ⟨twice, h2⟩ := apply_isSome once once.length coeffs { cfg with align := .centred } (by omega) (by omega) (by omega)
    refine ⟨once, h1, ?_⟩
    unfold applyZeroPhase
    simp only
    rw [if_neg (by simp only [Bool.or_eq_true, decide_eq_true_eq]; omega), h1]
    simp only
    rw [apply_reverse _ _ _ _ rfl hsym hodd, h2, ← hl, h2]
    simp
  obtain ⟨once, h1, h2⟩ := main inp hN' hO
  refine ⟨⟨once, h1, h2⟩, ?_⟩
  obtain ⟨once', h1', h2'⟩ := main inp.reverse (by simpa using hN') (by simpa using hO)
  rw [List.length_reverse] at h1' h2'
  rw [apply_reverse _ _ _ _ rfl hsym hodd, h1] at h1'
  simp only [Option.map_some, Option.some.injEq] at h1'
  rw [h2', ← h1', apply_reverse _ _ _ _ rfl hsym hodd, h2]

example : applyZeroPhase [1, 2, 4, 0] 4 [1, 2, 1] {} = some [24, 33, 33, 22] ∧
    applyZeroPhase [0, 4, 2, 1] 4 [1, 2, 1] {} = some [22, 33, 33, 24] := by decide +kernel

/-! ## C151: the streaming filter -/

/-- What the streaming filter computes: sample `n` of the output is the scalar product of the coefficients with the
last `W` samples, oldest first; before the first sample stand copies of it, or the configured value with the default
policy. -/
theorem stream_value (windowSize : Nat) (coeffs : List Rat) (cfg : Config) (xs : List Rat) (n : Nat)
    (hn : n < xs.length) :
    ((Filter.mk' windowSize coeffs cfg).run xs)[n]? =
      some (dot coeffs ((List.range (max windowSize 1)).map fun (k : Nat) =>
        before (if cfg.policy = .dflt then cfg.defaultValue else xs.getD 0 0) xs
          ((n : Int) + k - (max windowSize 1 - 1 : Nat)))) := by
  have hW : max windowSize 1 ≠ 0 := by omega
  by_cases hp : cfg.policy = .dflt
  · have := run_full (Filter.mk' windowSize coeffs cfg) xs hW (by simp [Filter.mk', hp])
      (by simp [Filter.mk', hp, fill_empty]) n hn
    rw [this, if_pos hp]
    simp only [Filter.mk', if_pos hp, fill_empty]
    rw [window_padded _ _ _ _ hn, dot_comm]
    rfl
  · rw [if_neg hp]
    cases xs with
    | nil => simp at hn
    | cons x xs =>
      let f1 : Filter := { Filter.mk' windowSize coeffs cfg with
        hist := List.replicate (max windowSize 1) x, initialized := true }
      have e : (Filter.mk' windowSize coeffs cfg).run (x :: xs) = f1.run (x :: xs) := by
        have : (Filter.mk' windowSize coeffs cfg).processOne x = f1.processOne x := by
          simp [Filter.processOne, Filter.mk', hp, f1, fill_empty]
        simp only [Filter.run, this]
      have := run_full f1 (x :: xs) hW rfl (by simp [f1, Filter.mk']) n hn
      rw [e, this]
      simp only [f1, Filter.mk']
      rw [window_padded _ _ _ _ hn, dot_comm]
      rfl

example : (Filter.mk' 3 [1, 2, 4] { policy := .hold }).run [1, 2, 0, 1] = [7, 11, 5, 6] ∧
    (Filter.mk' 3 [1, 2, 4] { defaultValue := 10 }).run [1, 2, 0, 1] = [34, 20, 5, 6] := by decide +kernel

/-- **Streaming is the batch filter, late.**  Unless the default policy is chosen, the streaming filter gives exactly
the values of the batch filter with replicated ends: at once for the causal alignment, `W - 1 - (W - 1) / 2` samples
later for the centred one, from the first sample on. -/
theorem stream_is_batch (coeffs : List Rat) (cfg : Config) (xs : List Rat) (out : List Rat) (n : Nat)
    (hp : cfg.policy ≠ .dflt) (hb : cfg.policy ≠ .reflect)
    (h : apply xs xs.length coeffs cfg = some out)
    (hn : n + (match cfg.align with
      | .centred => coeffs.length - 1 - (coeffs.length - 1) / 2
      | .causal => 0) < xs.length) :
    ((Filter.mk' coeffs.length coeffs cfg).run xs)[n + (match cfg.align with
      | .centred => coeffs.length - 1 - (coeffs.length - 1) / 2
      | .causal => 0)]? = out[n]? := by
  obtain ⟨h1, h2, _, _, g⟩ := apply_some h
  rw [stream_value _ _ _ _ _ hn, g n (by omega), if_neg hp]
  have hm : max coeffs.length 1 = coeffs.length := by omega
  rw [hm]
  congr 1
  apply dot_congr
  intro k hk
  have hk' := List.mem_range.1 hk
  have r := replicateIndex_eq ((n : Int) + k - shift cfg.align coeffs.length) xs.length h1
  have hbi : boundaryIndex ((n : Int) + k - shift cfg.align coeffs.length) xs.length cfg.policy =
      replicateIndex ((n : Int) + k - shift cfg.align coeffs.length) xs.length := by
    cases hpol : cfg.policy <;> simp_all [boundaryIndex]
  rw [hbi]
  unfold before
  cases ha : cfg.align <;> simp only [ha, shift] at r hn ⊢
  · split
    · congr 1; omega
    · congr 1; omega
  · split
    · congr 1; omega
    · congr 1; omega

example : apply [1, 2, 0, 1] 4 [1, 2, 4] { policy := .replicate } = some [11, 5, 6, 6] ∧
    (Filter.mk' 3 [1, 2, 4] { policy := .replicate }).run [1, 2, 0, 1] = [7, 11, 5, 6] := by decide +kernel

/-- For windows of odd length that lag is the reported delay. -/
theorem delay_odd (windowSize : Nat) (coeffs : List Rat) (cfg : Config) (h : windowSize % 2 = 1) :
    (Filter.mk' windowSize coeffs cfg).delay = match cfg.align with
      | .centred => windowSize - 1 - (windowSize - 1) / 2
      | .causal => 0 := by
  unfold Filter.delay Filter.mk'
  cases cfg.align <;> simp only <;> omega

/-- For windows of even length the reported delay is one sample too short: with two samples and first order the row
is `(1, 0)`, so the centred streaming filter hands out the sample before, yet reports no delay. -/
theorem delay_even_short :
    (∀ j, j ≤ 1 → dot [1, 0] ((vander .centred 2 1).map fun row => row.getD j 0) =
      if j = 0 then scale {} 1 (1/1000) else 0) ∧
    (Filter.mk' 2 [1, 0] { policy := .hold }).run [5, 6, 7, 8] = [5, 5, 6, 7] ∧
    (Filter.mk' 2 [1, 0] { policy := .hold }).delay = 0 ∧
    apply [5, 6, 7, 8] 4 [1, 0] { policy := .hold } = some [5, 6, 7, 8] := by
  refine ⟨fun j hj => ?_, by decide +kernel, by decide +kernel, by decide +kernel⟩
  match j, hj with
  | 0, _ => decide +kernel
  | 1, _ => decide +kernel

/-- The configured value is used by the streaming filter only: the batch filter replicates the ends instead. -/
theorem default_value_ignored (inp : List Rat) (outSize : Nat) (coeffs : List Rat) (cfg : Config) (v : Rat) :
    apply inp outSize coeffs { cfg with policy := .dflt, defaultValue := v } =
      apply inp outSize coeffs { cfg with policy := .replicate } := by
  unfold apply boundaryIndex
  rfl

/-- … so with the default policy the two disagree at the start. -/
theorem default_disagrees :
    (Filter.mk' 2 [1, 1] { align := .causal, defaultValue := 10 }).run [1, 2, 3] = [11, 3, 5] ∧
    apply [1, 2, 3] 3 [1, 1] { align := .causal, defaultValue := 10 } = some [2, 3, 5] := by decide +kernel

/-- `reset` and new parameters start over: whatever was processed before, the filter then behaves like a new one. -/
theorem reset_starts_over (windowSize : Nat) (coeffs : List Rat) (cfg : Config) (before : List Rat) :
    (before.foldl (fun f x => (f.processOne x).1) (Filter.mk' windowSize coeffs cfg)).reset =
      Filter.mk' windowSize coeffs cfg := by
  have inv : ∀ (f : Filter), f.W = max windowSize 1 → f.cfg = cfg → f.coeffs = coeffs →
      (before.foldl (fun f x => (f.processOne x).1) f).reset = Filter.mk' windowSize coeffs cfg := by
    induction before with
    | nil =>
      intro f h1 h2 h3
      obtain ⟨W, c, co, hist, ini⟩ := f
      simp only at h1 h2 h3
      subst h1 h2 h3
      rfl
    | cons x xs ih => intro f h1 h2 h3; exact ih _ h1 h2 h3
  exact inv _ rfl rfl rfl

theorem set_parameters_starts_over (f : Filter) (windowSize : Nat) (coeffs : List Rat) (cfg : Config) :
    f.setParameters windowSize coeffs cfg = Filter.mk' windowSize coeffs cfg := rfl

example : (((Filter.mk' 3 [1, 2, 4] { policy := .hold }).processOne 9).1.reset.run [1, 2]) = [7, 11] := by decide +kernel

end Verif.Savgol
