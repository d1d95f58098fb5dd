import Verif.Uncert.Model
/-!
# C146: propagation of uncertainties
-/
namespace Verif.Uncert

theorem hypot_nonneg (a b : ℝ) : 0 ≤ hypot a b := Real.sqrt_nonneg _

theorem hypot_sq (a b : ℝ) : hypot a b ^ 2 = a ^ 2 + b ^ 2 := by
  unfold hypot
  rw [Real.sq_sqrt (add_nonneg (mul_self_nonneg a) (mul_self_nonneg b))]
  ring

theorem hypot_comm (a b : ℝ) : hypot a b = hypot b a := by unfold hypot; rw [add_comm]

theorem hypot_zero (a : ℝ) : hypot a 0 = |a| := by
  unfold hypot
  rw [mul_zero, add_zero, Real.sqrt_mul_self_eq_abs]

/-- What it means that `r` is the result of a function of one uncertain value: its value is that of the function, and its uncertainty is
the derivative's magnitude times that of the argument. -/
def Propagates₁ (f : ℝ → ℝ) (x r : UV) : Prop :=
  r.v = f x.v ∧ ∃ d, HasDerivAt f d x.v ∧ r.u = |d| * x.u

/-- The same for a function of two uncertain values which are not correlated: the squares of what each of them brings add up. -/
def Propagates₂ (f : ℝ → ℝ → ℝ) (x y r : UV) : Prop :=
  r.v = f x.v y.v ∧ 0 ≤ r.u ∧ ∃ dx dy, HasDerivAt (fun t => f t y.v) dx x.v ∧ HasDerivAt (fun t => f x.v t) dy y.v ∧
    r.u ^ 2 = (dx * x.u) ^ 2 + (dy * y.u) ^ 2

/-- **Sums, differences, products and quotients** propagate uncertainties to first order. -/
theorem add_propagates (x y : UV) : Propagates₂ (· + ·) x y (add x y) :=
  ⟨rfl, hypot_nonneg _ _, 1, 1, (hasDerivAt_id _).add_const _, (hasDerivAt_id _).const_add _, by
    show hypot x.u y.u ^ 2 = _
    rw [hypot_sq]; ring⟩

theorem sub_propagates (x y : UV) : Propagates₂ (· - ·) x y (sub x y) :=
  ⟨rfl, hypot_nonneg _ _, 1, -1, (hasDerivAt_id _).sub_const _, (hasDerivAt_id _).const_sub _, by
    show hypot x.u y.u ^ 2 = _
    rw [hypot_sq]; ring⟩

theorem mul_propagates (x y : UV) : Propagates₂ (· * ·) x y (mul x y) :=
  ⟨rfl, hypot_nonneg _ _, y.v, x.v, by simpa using (hasDerivAt_id x.v).mul_const y.v, by simpa using (hasDerivAt_id y.v).const_mul x.v, by
    show hypot (x.v * y.u) (y.v * x.u) ^ 2 = _
    rw [hypot_sq]; ring⟩

theorem div_propagates (x y : UV) (hy : y.v ≠ 0) : Propagates₂ (· / ·) x y (div x y) := by
  refine ⟨rfl, hypot_nonneg _ _, 1 / y.v, -x.v / (y.v ^ 2), by simpa using (hasDerivAt_id x.v).div_const y.v, ?_, ?_⟩
  · have := (hasDerivAt_const y.v x.v).div (hasDerivAt_id y.v) hy
    have e : (0 * id y.v - x.v * 1) / id y.v ^ 2 = -x.v / y.v ^ 2 := by simp
    rw [e] at this
    exact this
  · show hypot (x.u / y.v) (y.u * x.v / (y.v * y.v)) ^ 2 = _
    rw [hypot_sq]
    field_simp

/-- **Powers with an uncertain exponent**, for a positive base. -/
theorem pow_propagates (x e : UV) (hx : 0 < x.v) : Propagates₂ (fun a b => a ^ b) x e (pow x e) := by
  have hne : x.v ≠ 0 := hx.ne'
  unfold pow
  rw [if_neg hne]
  refine ⟨rfl, mul_nonneg (abs_nonneg _) (hypot_nonneg _ _), e.v * x.v ^ (e.v - 1), Real.log x.v * x.v ^ e.v, ?_, ?_, ?_⟩
  · simpa using Real.hasDerivAt_rpow_const (x := x.v) (p := e.v) (.inl hne)
  · have := (Real.hasStrictDerivAt_const_rpow hx e.v).hasDerivAt
    simpa [mul_comm] using this
  · show (|x.v ^ e.v| * hypot _ _) ^ 2 = _
    rw [mul_pow, sq_abs, hypot_sq, Real.rpow_sub_one hne]
    field_simp

/-- **Powers with a plain exponent, roots, sines, cosines, logarithms and exponentials.** -/
theorem powNum_propagates (x : UV) (e : ℝ) (hx : 0 < x.v) (hu : 0 ≤ x.u) : Propagates₁ (· ^ e) x (powNum x e) := by
  have hne : x.v ≠ 0 := hx.ne'
  unfold powNum
  rw [if_neg hne]
  refine ⟨rfl, e * x.v ^ (e - 1), Real.hasDerivAt_rpow_const (.inl hne), ?_⟩
  show |x.v ^ e * e * x.u / x.v| = _
  rw [Real.rpow_sub_one hne, show x.v ^ e * e * x.u / x.v = (e * (x.v ^ e / x.v)) * x.u by field_simp, abs_mul, abs_of_nonneg hu]

theorem sqrt_propagates (x : UV) (hx : 0 < x.v) (hu : 0 ≤ x.u) : Propagates₁ Real.sqrt x (sqrt x) := by
  have h := powNum_propagates x (1 / 2) hx hu
  have e : (fun t : ℝ => t ^ (1 / 2 : ℝ)) = Real.sqrt := by
    funext t
    exact (Real.sqrt_eq_rpow t).symm
  rw [e] at h
  exact h

theorem sin_propagates (x : UV) (hu : 0 ≤ x.u) : Propagates₁ Real.sin x (sin x) :=
  ⟨rfl, _, Real.hasDerivAt_sin _, by show |_ * x.u| = _; rw [abs_mul, abs_of_nonneg hu]⟩

theorem cos_propagates (x : UV) (hu : 0 ≤ x.u) : Propagates₁ Real.cos x (cos x) :=
  ⟨rfl, _, Real.hasDerivAt_cos _, by show |_ * x.u| = _; rw [abs_mul, abs_of_nonneg hu, abs_neg]⟩

theorem log_propagates (x : UV) (hx : 0 < x.v) (hu : 0 ≤ x.u) : Propagates₁ Real.log x (log x) :=
  ⟨rfl, _, Real.hasDerivAt_log hx.ne', by
    show |x.u / x.v| = _
    rw [div_eq_inv_mul, abs_mul, abs_of_nonneg hu]⟩

theorem log10_propagates (x : UV) (hx : 0 < x.v) (hu : 0 ≤ x.u) : Propagates₁ (Real.logb 10) x (log10 x) := by
  refine ⟨rfl, x.v⁻¹ / Real.log 10, (Real.hasDerivAt_log hx.ne').div_const _, ?_⟩
  show |x.u / (x.v * Real.log 10)| = _
  rw [show x.u / (x.v * Real.log 10) = x.v⁻¹ / Real.log 10 * x.u by
    rw [div_eq_mul_inv, mul_inv, div_eq_mul_inv]; ring, abs_mul, abs_of_nonneg hu]

theorem exp_propagates (x : UV) (hu : 0 ≤ x.u) : Propagates₁ Real.exp x (exp x) := by
  have hne : Real.exp 1 ≠ 0 := (Real.exp_pos 1).ne'
  unfold exp pow
  dsimp only
  rw [if_neg hne]
  refine ⟨?_, Real.exp x.v, Real.hasDerivAt_exp _, ?_⟩
  · show Real.exp 1 ^ x.v = _
    rw [← Real.exp_mul, one_mul]
  · show |Real.exp 1 ^ x.v| * hypot (x.v / Real.exp 1 * 0) (Real.log (Real.exp 1) * x.u) = _
    rw [Real.log_exp, one_mul, mul_zero, hypot_comm, hypot_zero, abs_of_nonneg hu, ← Real.exp_mul, one_mul]

/-- A concrete case: 3 with uncertainty 0.3, times 4 with uncertainty 0.3, is 12 with uncertainty 1.5. -/
example : mul ⟨3, 3 / 10⟩ ⟨4, 3 / 10⟩ = ⟨12, 3 / 2⟩ := by
  unfold mul hypot
  ext
  · norm_num
  · show √(3 * (3 / 10) * (3 * (3 / 10)) + 4 * (3 / 10) * (4 * (3 / 10))) = 3 / 2
    rw [show (3 * (3 / 10) * (3 * (3 / 10)) + 4 * (3 / 10) * (4 * (3 / 10)) : ℝ) = (3 / 2) * (3 / 2) by norm_num]
    exact Real.sqrt_mul_self (by norm_num)

/-- **A plain number is a value without uncertainty**: for sums, differences and quotients, and for products with a number that is not
negative. -/
theorem plain_number (x : UV) (c : ℝ) (hu : 0 ≤ x.u) :
    addNum x c = add x ⟨c, 0⟩ ∧ numAdd c x = add ⟨c, 0⟩ x ∧ subNum x c = sub x ⟨c, 0⟩ ∧ numSub c x = sub ⟨c, 0⟩ x ∧
    (c ≠ 0 → divNum x c = div x ⟨c, 0⟩) ∧ (x.v ≠ 0 → numDiv c x = div ⟨c, 0⟩ x) ∧
    (0 ≤ c → mulNum x c = mul x ⟨c, 0⟩ ∧ numMul c x = mul ⟨c, 0⟩ x) := by
  have h1 : hypot x.u 0 = x.u := by rw [hypot_zero, abs_of_nonneg hu]
  have h2 : hypot 0 x.u = x.u := by rw [hypot_comm, h1]
  refine ⟨?_, ?_, ?_, ?_, fun hc => ?_, fun hx => ?_, fun hc => ⟨?_, ?_⟩⟩
  · unfold addNum add; rw [h1]
  · unfold numAdd add; rw [h2]
  · unfold subNum sub; rw [h1]
  · unfold numSub sub; rw [h2]
  · unfold divNum div
    simp only [zero_mul, zero_div]
    rw [hypot_zero, abs_div, abs_of_nonneg hu]
  · unfold numDiv div
    simp only [zero_div]
    rw [hypot_comm, hypot_zero, abs_div, abs_mul, abs_of_nonneg hu, abs_mul_self]
  · unfold mulNum mul
    simp only [mul_zero]
    rw [hypot_comm, hypot_zero, abs_mul, abs_of_nonneg hc, abs_of_nonneg hu, mul_comm c]
  · unfold numMul mul
    simp only [mul_zero]
    rw [hypot_zero, abs_mul, abs_of_nonneg hc, abs_of_nonneg hu]

/-- But a product with a negative number has a negative uncertainty, unlike the same product with an uncertain value and unlike the
negated value. -/
theorem negative_factor (x : UV) (c : ℝ) (hc : c < 0) (hu : 0 < x.u) :
    (mulNum x c).u < 0 ∧ (numMul c x).u < 0 ∧ 0 < (mul x ⟨c, 0⟩).u ∧ numMul (-1) x ≠ neg x := by
  refine ⟨mul_neg_of_pos_of_neg hu hc, mul_neg_of_neg_of_pos hc hu, ?_, fun h => ?_⟩
  · show 0 < hypot (x.v * 0) (c * x.u)
    rw [mul_zero, hypot_comm, hypot_zero]
    exact abs_pos.2 (mul_ne_zero hc.ne hu.ne')
  · have : -1 * x.u = x.u := congrArg UV.u h
    linarith

/-- **The order of sums and products does not matter.** -/
theorem add_comm' (x y : UV) : add x y = add y x := by unfold add; rw [hypot_comm, add_comm]

theorem mul_comm' (x y : UV) : mul x y = mul y x := by unfold mul; rw [hypot_comm, mul_comm]

theorem add_assoc' (x y z : UV) : add (add x y) z = add x (add y z) := by
  unfold add
  ext
  · exact add_assoc _ _ _
  · show √(hypot x.u y.u * hypot x.u y.u + z.u * z.u) = √(x.u * x.u + hypot y.u z.u * hypot y.u z.u)
    have a := hypot_sq x.u y.u
    have b := hypot_sq y.u z.u
    congr 1
    nlinarith [a, b]

/-- Values are taken as not correlated, even a value with itself: `x - x` has an uncertainty. -/
theorem self_difference (x : UV) (hu : 0 < x.u) : (sub x x).v = 0 ∧ 0 < (sub x x).u := by
  refine ⟨sub_self _, ?_⟩
  show 0 < √(x.u * x.u + x.u * x.u)
  exact Real.sqrt_pos.2 (by positivity)

/-- The unary plus takes the absolute value. -/
theorem plus_is_abs (x : UV) (hx : x.v < 0) : (plus x).v = -x.v ∧ plus x ≠ x := by
  refine ⟨abs_of_neg hx, fun h => ?_⟩
  have h : |x.v| = x.v := congrArg UV.v h
  rw [abs_of_neg hx] at h
  linarith

/-- **`abs` is the absolute value** with the same uncertainty. -/
theorem abs_value (x : UV) : (abs x).v = |x.v| ∧ (abs x).u = x.u := by
  unfold abs
  split
  · next h => exact ⟨(abs_of_pos h).symm, rfl⟩
  · next h => exact ⟨(abs_of_nonpos (not_lt.1 h)).symm, rfl⟩

/-- A power of zero loses its uncertainty, even the first power, and a negative power of zero is zero. -/
theorem pow_of_zero (u : ℝ) : powNum ⟨0, u⟩ 1 = ⟨0, 0⟩ ∧ powNum ⟨0, u⟩ (-1) = ⟨0, 0⟩ ∧ sqrt ⟨0, u⟩ = ⟨0, 0⟩ := by
  unfold sqrt powNum
  norm_num

/-- **Sums of complex values** propagate by parts. -/
theorem cadd_parts (x y : CV) :
    Propagates₂ (· + ·) ⟨x.re, x.ure⟩ ⟨y.re, y.ure⟩ ⟨(cadd x y).re, (cadd x y).ure⟩ ∧
    Propagates₂ (· + ·) ⟨x.im, x.uim⟩ ⟨y.im, y.uim⟩ ⟨(cadd x y).im, (cadd x y).uim⟩ :=
  ⟨add_propagates ⟨x.re, x.ure⟩ ⟨y.re, y.ure⟩, add_propagates ⟨x.im, x.uim⟩ ⟨y.im, y.uim⟩⟩

/-- A product of complex values does not: `i` times `0 + 1i`, whose imaginary part has uncertainty 1, is -1 with a real part that has
uncertainty 1 and an imaginary part that has none, and the code says the opposite. -/
theorem cmul_wrong_part :
    let r := cmul { re := 0, im := 1 } { re := 0, im := 1, uim := 1 }
    r.re = -1 ∧ r.im = 0 ∧ r.ure = 0 ∧ r.uim = 1 ∧
    (∀ t : ℝ, (cmul { re := 0, im := 1 } { re := 0, im := t }).re = -t ∧ (cmul { re := 0, im := 1 } { re := 0, im := t }).im = 0) := by
  refine ⟨?_, ?_, ?_, ?_, fun t => ⟨?_, ?_⟩⟩ <;> simp [cmul, hypot]

end Verif.Uncert
