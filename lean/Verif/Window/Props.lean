import Verif.Window.Lemmas

/-!
# Property C160: window functions

`create eps kind beta n = some w` says that a window of `n` samples has been made without an exception; `w[i]? = some (some v)` says
that sample `i` is the number `v`, `w[i]? = some none` that it is not a number.
-/

namespace Verif.Window

/-- Only a Kaiser window with a negative shape parameter or a single sample is refused; otherwise there are as many values as asked for. -/
theorem create_length (eps : ℝ) (k : Kind) (beta : ℝ) (n : ℕ) :
    (create eps k beta n = none ↔ k = .kaiser ∧ 0 < n ∧ (beta < 0 ∨ n = 1)) ∧
    ∀ w, create eps k beta n = some w → w.length = n := by
  refine ⟨?_, fun w h => by rw [create_eq h]; simp⟩
  unfold create
  split
  · simp; omega
  · split
    · rename_i h0 h
      simp only [true_iff]
      refine ⟨h.1, by omega, h.2.imp_right (by omega)⟩
    · rename_i h0 h
      simp only [reduceCtorEq, false_iff]
      rintro ⟨h1, h2, h3⟩
      exact h ⟨h1, h3.imp_right (by omega)⟩

example : create 1 .kaiser (-1) 4 = none := ((create_length ..).1).2 ⟨rfl, by omega, .inl (by norm_num)⟩

/-- Every sample is a number, unless there is only one: then the windows made of cosines (and the squared sine) are not a number. -/
theorem numbers (eps : ℝ) (k : Kind) (beta : ℝ) (n : ℕ) (w : List (Option ℝ)) (h : create eps k beta n = some w) :
    (2 ≤ n → ∀ i < n, ∃ v, w[i]? = some (some v)) ∧
    (n = 1 → w = if k = .none_ ∨ k = .rectangular ∨ k = .exponential then [some 1] else [none]) := by
  have hw := create_eq h
  constructor
  · intro h2 i hi
    have ha := angle_some (n := n) (i := i) (by omega)
    have : w[i]? = some (value eps k beta n i) := by rw [hw]; simp [hi]
    rw [this]
    cases k <;> simp [value, ha]
  · rintro rfl
    have hk : k ≠ .kaiser := fun hk => by
      have := ((create_length eps k beta 1).1).2 ⟨hk, by omega, .inr rfl⟩
      rw [this] at h; cases h
    subst hw
    cases k <;> simp_all [value, angle]

/-- Symmetry: every window but the exponential reads the same from both ends. -/
theorem symmetric (eps : ℝ) (k : Kind) (hk : k ≠ .exponential) (beta : ℝ) (n : ℕ) (w : List (Option ℝ)) (h : create eps k beta n = some w) :
    w.reverse = w := by
  have hw := create_eq h
  subst hw
  apply List.ext_getElem
  · simp
  · intro i h1 h2
    simp only [List.length_reverse, List.length_map, List.length_range] at h1 h2
    simp only [List.getElem_reverse, List.getElem_map, List.getElem_range, List.length_map, List.length_range]
    rcases Nat.lt_or_ge n 2 with hn | hn
    · have hn1 : n = 1 := by omega
      have : n - 1 - i = i := by omega
      rw [this]
    · have hm := angle_mirror hn h2
      have hc1 := cos_mul_mirror 1 (2 * Real.pi / (n - 1 : ℕ) * i)
      have h2' := cos_mul_mirror 2 (2 * Real.pi / (n - 1 : ℕ) * i)
      have h3 := cos_mul_mirror 3 (2 * Real.pi / (n - 1 : ℕ) * i)
      have h4 := cos_mul_mirror 4 (2 * Real.pi / (n - 1 : ℕ) * i)
      push_cast at hc1 h2' h3 h4
      rw [one_mul, one_mul] at hc1
      have ha := angle_some (n := n) (i := i) (by omega)
      have hb := angle_some (n := n) (i := n - 1 - i) (by omega)
      rw [hm] at hb
      cases k with
      | exponential => exact absurd rfl hk
      | kaiser =>
        have hc : ((n - 1 : ℕ) : ℝ) ≠ 0 := by
          have : n - 1 ≠ 0 := by omega
          exact_mod_cast this
        have : 2 * ((n - 1 - i : ℕ) : ℝ) * (1 / ((n - 1 : ℕ) : ℝ)) - 1 = -(2 * (i : ℝ) * (1 / ((n - 1 : ℕ) : ℝ)) - 1) := by
          rw [Nat.cast_sub (by omega : i ≤ n - 1)]
          field_simp
          ring
        simp only [value, this, neg_mul_neg]
      | hannExp => simp only [value, ha, hb, Option.map_some, Real.sin_two_pi_sub, neg_sq]
      | _ => simp only [value, ha, hb, Option.map_some, hc1, h2', h3, h4]

/-- The kinds whose values lie between 0 and 1. -/
def Normalised (k : Kind) : Prop := k ≠ .flatTop ∧ k ≠ .exponential

/-- Every value lies between 0 and 1, but for the flat top and the exponential window. -/
theorem range01 (eps : ℝ) (he : 0 < eps) (k : Kind) (hk : Normalised k) (beta : ℝ) (n : ℕ) (w : List (Option ℝ))
    (h : create eps k beta n = some w) (v : ℝ) (hv : some v ∈ w) : 0 ≤ v ∧ v ≤ 1 := by
  have hw := create_eq h
  rw [hw, List.mem_map] at hv
  obtain ⟨i, hi, hv⟩ := hv
  have hi := List.mem_range.1 hi
  by_cases hkk : k = .kaiser
  · subst hkk
    have hnot : ¬ (0 < n ∧ (beta < 0 ∨ n = 1)) := fun hc => by
      rw [((create_length eps .kaiser beta n).1).2 ⟨rfl, hc⟩] at h; cases h
    have hbeta : 0 ≤ beta := by
      by_contra hb
      exact hnot ⟨by omega, .inl (by linarith)⟩
    have hn : 2 ≤ n := by
      by_contra hb
      exact hnot ⟨by omega, .inr (by omega)⟩
    simp only [value, Option.some.injEq] at hv
    rw [← hv]
    have hc : (0 : ℝ) < ((n - 1 : ℕ) : ℝ) := by
      have : 0 < n - 1 := by omega
      exact_mod_cast this
    have hile : (i : ℝ) ≤ ((n - 1 : ℕ) : ℝ) := by
      have : i ≤ n - 1 := by omega
      exact_mod_cast this
    generalize hq : (i : ℝ) * (1 / ((n - 1 : ℕ) : ℝ)) = q
    have hq0 : 0 ≤ q := by rw [← hq]; positivity
    have hq1 : q ≤ 1 := by rw [← hq, mul_one_div]; exact (div_le_one hc).2 hile
    have hterm : 2 * (i : ℝ) * (1 / ((n - 1 : ℕ) : ℝ)) - 1 = 2 * q - 1 := by rw [← hq]; ring
    rw [hterm]
    have h1 : |1 - (2 * q - 1) * (2 * q - 1)| ≤ 1 := by
      rw [abs_le]
      constructor <;> nlinarith
    have h2 : Real.sqrt |1 - (2 * q - 1) * (2 * q - 1)| ≤ 1 := by
      rw [Real.sqrt_le_left (by norm_num)]
      simpa using h1
    have h3 : beta * Real.sqrt |1 - (2 * q - 1) * (2 * q - 1)| ≤ beta := by nlinarith
    have h4 := bessel_mono he (by positivity : 0 ≤ beta * Real.sqrt |1 - (2 * q - 1) * (2 * q - 1)|) h3
    have h5 := bessel_ge_one eps beta
    have h6 := bessel_ge_one eps (beta * Real.sqrt |1 - (2 * q - 1) * (2 * q - 1)|)
    exact ⟨by positivity, (div_le_one (by linarith)).2 h4⟩
  · have hcs : ∀ x : ℝ, -1 ≤ Real.cos x ∧ Real.cos x ≤ 1 := fun x => ⟨Real.neg_one_le_cos x, Real.cos_le_one x⟩
    by_cases hn : n = 1
    · subst hn
      cases k <;> simp_all [value, angle] <;> rw [← hv] <;> norm_num
    · have ha := angle_some (n := n) (i := i) hn
      generalize 2 * Real.pi / (n - 1 : ℕ) * (i : ℝ) = x at ha
      obtain ⟨c1, c2⟩ := hcs x
      cases k with
      | kaiser => exact absurd rfl hkk
      | flatTop => exact absurd rfl hk.1
      | exponential => exact absurd rfl hk.2
      | none_ => simp [value] at hv; subst hv; norm_num
      | rectangular => simp [value] at hv; subst hv; norm_num
      | hannExp =>
        simp only [value, ha, Option.map_some, Option.some.injEq] at hv
        subst hv
        exact ⟨sq_nonneg _, Real.sin_sq_le_one x⟩
      | _ =>
        simp only [value, ha, Option.map_some, Option.some.injEq, Real.cos_two_mul, Real.cos_three_mul] at hv
        subst hv
        generalize Real.cos x = c at c1 c2
        constructor <;>
          nlinarith [mul_nonneg (sub_nonneg.2 c2) (sub_nonneg.2 c1), mul_nonneg (mul_nonneg (sub_nonneg.2 c2) (sub_nonneg.2 c1)) (sub_nonneg.2 c1), mul_nonneg (mul_nonneg (sub_nonneg.2 c2) (sub_nonneg.2 c2)) (sub_nonneg.2 c1), mul_nonneg (mul_nonneg (sub_nonneg.2 c2) (sub_nonneg.2 c2)) (sub_nonneg.2 c2)]

/-- Value in the middle of a window with an odd number of samples: 1, but for the flat top, `HannExp` and the exponential window. -/
theorem middle (eps : ℝ) (k : Kind) (beta : ℝ) (m : ℕ) (hm : 0 < m) (w : List (Option ℝ)) (h : create eps k beta (2 * m + 1) = some w) :
    (k ≠ .flatTop → k ≠ .hannExp → k ≠ .exponential → w[m]? = some (some 1)) ∧
    (k = .flatTop → w[m]? = some (some (464 / 100))) ∧
    (k = .hannExp → w[m]? = some (some 0)) := by
  have hw : w[m]? = some (value eps k beta (2 * m + 1) m) := by
    rw [create_eq h]
    simp [show m < 2 * m + 1 by omega]
  have hmr : (m : ℝ) ≠ 0 := by exact_mod_cast hm.ne'
  have ha : angle (2 * m + 1) m = some Real.pi := by
    rw [angle_some (by omega)]
    congr 1
    simp only [Nat.add_sub_cancel]
    push_cast
    field_simp
  have c2 : Real.cos (2 * Real.pi) = 1 := Real.cos_two_pi
  have c3 : Real.cos (3 * Real.pi) = -1 := by rw [Real.cos_three_mul, Real.cos_pi]; norm_num
  have c4 : Real.cos (4 * Real.pi) = 1 := by rw [cos_four, Real.cos_pi]; norm_num
  rw [hw]
  refine ⟨fun h1 h2 h3 => ?_, ?_, ?_⟩
  · cases k with
    | flatTop => exact absurd rfl h1
    | hannExp => exact absurd rfl h2
    | exponential => exact absurd rfl h3
    | kaiser =>
      have : 2 * (m : ℝ) * (1 / ((2 * m + 1 - 1 : ℕ) : ℝ)) - 1 = 0 := by
        simp only [Nat.add_sub_cancel]
        push_cast
        field_simp
        ring
      have hb := bessel_ge_one eps beta
      simp only [value, this, mul_zero, sub_zero, abs_one, Real.sqrt_one, mul_one]
      rw [div_self (by linarith)]
    | none_ => rfl
    | rectangular => rfl
    | _ => simp only [value, ha, Option.map_some, Real.cos_pi, c2, c3]; norm_num
  · rintro rfl
    simp only [value, ha, Option.map_some, Real.cos_pi, c2, c3, c4]; norm_num
  · rintro rfl
    simp only [value, ha, Option.map_some, Real.sin_pi]; norm_num

/-- The first value of the windows that taper off. -/
theorem ends (eps : ℝ) (k : Kind) (beta : ℝ) (n : ℕ) (hn : 2 ≤ n) (w : List (Option ℝ)) (h : create eps k beta n = some w) :
    (k = .hann ∨ k = .hannExp ∨ k = .blackman ∨ k = .nuttall → w[0]? = some (some 0)) ∧
    (k = .hamming → w[0]? = some (some (7672 / 100000))) ∧
    (k = .blackmanHarris → w[0]? = some (some (6 / 100000))) ∧
    (k = .blackmanNuttall → w[0]? = some (some (3628 / 10000000))) ∧
    (k = .flatTop → w[0]? = some (some (4 / 1000))) ∧
    (k = .exponential → w[0]? = some (some 1)) := by
  have hw : w[0]? = some (value eps k beta n 0) := by
    rw [create_eq h]
    simp [show 0 < n by omega]
  have ha : angle n 0 = some 0 := by rw [angle_some (by omega)]; simp
  rw [hw]
  refine ⟨?_, ?_, ?_, ?_, ?_, ?_⟩
  · rintro (rfl | rfl | rfl | rfl) <;> simp [value, ha] <;> norm_num
  all_goals
    rintro rfl
    simp [value, ha]
    try norm_num

/-- The exponential window rises: it is not symmetric, and every value but the first is above 1. -/
theorem exponential_rises (eps beta : ℝ) (n : ℕ) (w : List (Option ℝ)) (h : create eps .exponential beta n = some w)
    (i j : ℕ) (hij : i < j) (hj : j < n) :
    ∃ a b, w[i]? = some (some a) ∧ w[j]? = some (some b) ∧ 1 ≤ a ∧ a < b ∧ b < Real.exp (1 / 3) := by
  have hn : (0 : ℝ) < n := by exact_mod_cast (by omega : 0 < n)
  have hijr : (i : ℝ) < j := by exact_mod_cast hij
  have hjr : (j : ℝ) < n := by exact_mod_cast hj
  have hw := create_eq h
  refine ⟨Real.exp ((i : ℝ) / (3 * n)), Real.exp ((j : ℝ) / (3 * n)), ?_, ?_, ?_, ?_, ?_⟩
  · rw [hw]; simp [show i < n by omega, value]
  · rw [hw]; simp [hj, value]
  · exact Real.one_le_exp (by positivity)
  · rw [Real.exp_lt_exp]
    exact div_lt_div_of_pos_right hijr (by positivity)
  · rw [Real.exp_lt_exp, div_lt_div_iff₀ (by positivity) (by norm_num)]
    linarith

/-- The series for the Kaiser window always comes to an end, and a Kaiser window with shape 0 is rectangular. -/
theorem kaiser_series (eps : ℝ) (he : 0 < eps) :
    (∀ x, ∃ m, besselStops eps x m) ∧
    (∀ n w, create eps .kaiser 0 n = some w → ∀ v ∈ w, v = some 1) := by
  refine ⟨fun x => besselStops_exists eps x he, fun n w h v hv => ?_⟩
  rw [create_eq h, List.mem_map] at hv
  obtain ⟨i, _, rfl⟩ := hv
  have hb := bessel_ge_one eps 0
  simp only [value, zero_mul]
  rw [div_self (by linarith)]

/-- The power series of the Bessel function I₀, cut after the term `m`. -/
noncomputable def i0Series (x : ℝ) (m : ℕ) : ℝ := ∑ k ∈ Finset.range (m + 1), ((x / 2) ^ k / (k.factorial : ℝ)) ^ 2

/-- `v` is the series cut after the first term (but the one of order 0) that is at most `eps` times the sum so far. -/
def IsI0 (eps x v : ℝ) : Prop :=
  ∃ m, 1 ≤ m ∧ v = i0Series x m ∧ ((x / 2) ^ m / (m.factorial : ℝ)) ^ 2 ≤ eps * i0Series x m ∧
    ∀ j, 1 ≤ j → j < m → eps * i0Series x j < ((x / 2) ^ j / (j.factorial : ℝ)) ^ 2

theorem bessel_isI0 {eps : ℝ} (he : 0 < eps) (x : ℝ) : IsI0 eps x (bessel eps x) := by
  have hm : besselStops eps x (sInf {m | besselStops eps x m}) := Nat.sInf_mem (besselStops_exists eps x he)
  have hm' := (besselStops_iff ..).1 hm
  refine ⟨_, hm'.1, besselLoop_sum .., by rw [mul_comm]; exact hm'.2, fun j h1 hj => ?_⟩
  by_contra hc
  refine Nat.notMem_of_lt_sInf hj ((besselStops_iff ..).2 ⟨h1, ?_⟩)
  rw [mul_comm]
  exact not_lt.1 hc

/-- Every value of a Kaiser window is the quotient of two such series. -/
theorem kaiser_value (eps : ℝ) (he : 0 < eps) (beta : ℝ) (n : ℕ) (w : List (Option ℝ)) (h : create eps .kaiser beta n = some w)
    (i : ℕ) (hi : i < n) :
    ∃ a b, w[i]? = some (some (a / b)) ∧ IsI0 eps beta b ∧ IsI0 eps (beta * Real.sqrt (1 - (2 * i / ((n : ℝ) - 1) - 1) ^ 2)) a := by
  have hnot : ¬ (0 < n ∧ (beta < 0 ∨ n = 1)) := fun hc => by
    rw [((create_length eps .kaiser beta n).1).2 ⟨rfl, hc⟩] at h; cases h
  have hn : 2 ≤ n := by
    by_contra hb
    exact hnot ⟨by omega, .inr (by omega)⟩
  have hcast : ((n - 1 : ℕ) : ℝ) = (n : ℝ) - 1 := by rw [Nat.cast_sub (by omega)]; simp
  have hc : (0 : ℝ) < (n : ℝ) - 1 := by
    have : (2 : ℝ) ≤ n := by exact_mod_cast hn
    linarith
  have hile : (i : ℝ) ≤ (n : ℝ) - 1 := by
    have : (i : ℝ) + 1 ≤ n := by exact_mod_cast hi
    linarith
  refine ⟨_, _, ?_, bessel_isI0 he _, bessel_isI0 he _⟩
  have hw : w[i]? = some (value eps .kaiser beta n i) := by rw [create_eq h]; simp [hi]
  rw [hw]
  simp only [value, hcast]
  generalize hq : (i : ℝ) / ((n : ℝ) - 1) = q
  have hq0 : 0 ≤ q := by rw [← hq]; positivity
  have hq1 : q ≤ 1 := by rw [← hq]; exact (div_le_one hc).2 hile
  have e1 : 2 * (i : ℝ) * (1 / ((n : ℝ) - 1)) - 1 = 2 * q - 1 := by rw [← hq]; ring
  have e2 : 2 * (i : ℝ) / ((n : ℝ) - 1) - 1 = 2 * q - 1 := by rw [← hq]; ring
  rw [e1, e2, abs_of_nonneg (by nlinarith), ← pow_two]

/-- Non-trivial case: a Kaiser window of five samples with shape 2 is made. -/
example : ∃ w, create 1 .kaiser 2 5 = some w ∧ w.length = 5 ∧ w[2]? = some (some 1) := by
  cases h : create 1 .kaiser 2 5 with
  | none =>
    have := ((create_length 1 .kaiser 2 5).1).1 h
    norm_num at this
  | some w =>
    exact ⟨w, rfl, (create_length 1 .kaiser 2 5).2 w h, (middle 1 .kaiser 2 2 (by omega) w h).1 (by simp) (by simp) (by simp)⟩

/-- The Hann window is the square of a sine over half a turn. -/
theorem hann_value (eps beta : ℝ) (n : ℕ) (hn : 2 ≤ n) (w : List (Option ℝ)) (h : create eps .hann beta n = some w) (i : ℕ) (hi : i < n) :
    w[i]? = some (some (Real.sin (Real.pi * i / ((n : ℝ) - 1)) ^ 2)) := by
  have hcast : ((n - 1 : ℕ) : ℝ) = (n : ℝ) - 1 := by rw [Nat.cast_sub (by omega)]; simp
  have hw : w[i]? = some (value eps .hann beta n i) := by rw [create_eq h]; simp [hi]
  rw [hw]
  simp only [value, angle_some (n := n) (i := i) (by omega), Option.map_some, hcast]
  have : 2 * Real.pi / ((n : ℝ) - 1) * i = 2 * (Real.pi * i / ((n : ℝ) - 1)) := by ring
  rw [this, Real.cos_two_mul, Real.sin_sq]
  congr 2
  ring

/-- `HannExp` is the square of a sine over a whole turn. -/
theorem hannExp_value (eps beta : ℝ) (n : ℕ) (hn : 2 ≤ n) (w : List (Option ℝ)) (h : create eps .hannExp beta n = some w) (i : ℕ)
    (hi : i < n) : w[i]? = some (some (Real.sin (2 * Real.pi * i / ((n : ℝ) - 1)) ^ 2)) := by
  have hcast : ((n - 1 : ℕ) : ℝ) = (n : ℝ) - 1 := by rw [Nat.cast_sub (by omega)]; simp
  have hw : w[i]? = some (value eps .hannExp beta n i) := by rw [create_eq h]; simp [hi]
  rw [hw]
  simp only [value, angle_some (n := n) (i := i) (by omega), Option.map_some, hcast]
  congr 4
  ring

/-- Non-trivial case: a Hann window of five samples is 0, 1/2, 1, 1/2, 0. -/
example : create 1 .hann 0 5 = some [some 0, some (1 / 2), some 1, some (1 / 2), some 0] := by
  have h3 : 2 * Real.pi / 4 * 3 = 2 * Real.pi - Real.pi / 2 := by ring
  have h1 : 2 * Real.pi / 4 = Real.pi / 2 := by ring
  have h2 : Real.pi / 2 * 2 = Real.pi := by ring
  have h4 : 2 * Real.pi / 4 * 4 = 2 * Real.pi := by ring
  have e : List.range 5 = [0, 1, 2, 3, 4] := rfl
  simp only [create, e, List.map_cons, List.map_nil, value, angle]
  norm_num [h3, h4, Real.cos_two_pi_sub]
  norm_num [h1, h2]

end Verif.Window
