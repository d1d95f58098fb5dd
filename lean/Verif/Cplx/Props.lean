import Verif.Cplx.Model
import Mathlib.Analysis.SpecialFunctions.Complex.Arg

/-!
# Property C164: the complex type of devices computes with complex numbers

The specification is the field `ℂ` of Mathlib.
-/

namespace Verif.Cplx

/-- The complex number a value stands for. -/
noncomputable def toC (z : Cx) : ℂ := ⟨z.re, z.im⟩

/-- An expression over variables. -/
inductive Expr where
  | var (i : Nat)
  | real (r : ℝ)
  | add (a b : Expr)
  | sub (a b : Expr)
  | neg (a : Expr)
  | mul (a b : Expr)
  | mulR (a : Expr) (s : ℝ)
  | mulL (s : ℝ) (a : Expr)
  | div (a b : Expr)
  | divR (a : Expr) (s : ℝ)
  | conj (a : Expr)

/-- The value computed with the operators of the type. -/
noncomputable def run (v : Nat → Cx) : Expr → Cx
  | .var i => v i
  | .real r => ofReal r
  | .add a b => add (run v a) (run v b)
  | .sub a b => sub (run v a) (run v b)
  | .neg a => neg (run v a)
  | .mul a b => mul (run v a) (run v b)
  | .mulR a s => mulR (run v a) s
  | .mulL s a => mulL s (run v a)
  | .div a b => div (run v a) (run v b)
  | .divR a s => divR (run v a) s
  | .conj a => conj (run v a)

/-- The value in the complex numbers. -/
noncomputable def value (v : Nat → ℂ) : Expr → ℂ
  | .var i => v i
  | .real r => r
  | .add a b => value v a + value v b
  | .sub a b => value v a - value v b
  | .neg a => -value v a
  | .mul a b => value v a * value v b
  | .mulR a s => value v a * s
  | .mulL s a => s * value v a
  | .div a b => value v a / value v b
  | .divR a s => value v a / s
  | .conj a => starRingEnd ℂ (value v a)

/-- Nothing is divided by zero. -/
def Defined (v : Nat → ℂ) : Expr → Prop
  | .var _ | .real _ => True
  | .add a b | .sub a b | .mul a b => Defined v a ∧ Defined v b
  | .neg a | .mulR a _ | .mulL _ a | .conj a => Defined v a
  | .div a b => Defined v a ∧ Defined v b ∧ value v b ≠ 0
  | .divR a s => Defined v a ∧ s ≠ 0

theorem toC_add (a b : Cx) : toC (add a b) = toC a + toC b := rfl
theorem toC_sub (a b : Cx) : toC (sub a b) = toC a - toC b := by
  apply Complex.ext <;> simp [toC, sub]
theorem toC_mul (a b : Cx) : toC (mul a b) = toC a * toC b := by
  apply Complex.ext <;> simp [toC, mul]
theorem toC_mulR (a : Cx) (s : ℝ) : toC (mulR a s) = toC a * s := by
  apply Complex.ext <;> simp [toC, mulR]
theorem toC_mulL (a : Cx) (s : ℝ) : toC (mulL s a) = s * toC a := by
  apply Complex.ext <;> simp [toC, mulL]

theorem toC_div (a b : Cx) (hb : toC b ≠ 0) : toC (div a b) = toC a / toC b := by
  have hd : b.re * b.re + b.im * b.im ≠ 0 := by
    intro h
    apply hb
    have h1 : b.re = 0 := by nlinarith [mul_self_nonneg b.re, mul_self_nonneg b.im]
    have h2 : b.im = 0 := by nlinarith [mul_self_nonneg b.re, mul_self_nonneg b.im]
    apply Complex.ext <;> simp [toC, h1, h2]
  have hd' : b.re ^ 2 + b.im ^ 2 ≠ 0 := by rw [pow_two, pow_two]; exact hd
  rw [eq_div_iff hb]
  apply Complex.ext
  · simp [toC, div]; field_simp; ring
  · simp [toC, div]; field_simp; ring

theorem toC_divR (a : Cx) (s : ℝ) : toC (divR a s) = toC a / s := by
  apply Complex.ext <;> simp [toC, divR]

/-- Every expression in which nothing is divided by zero has the value it has in the complex numbers. -/
theorem run_value (v : Nat → Cx) (e : Expr) (h : Defined (fun i => toC (v i)) e) : toC (run v e) = value (fun i => toC (v i)) e := by
  induction e with
  | var i => rfl
  | real r => rfl
  | add a b iha ihb => rw [run, toC_add, iha h.1, ihb h.2, value]
  | sub a b iha ihb => rw [run, toC_sub, iha h.1, ihb h.2, value]
  | neg a iha =>
    have : toC (neg (run v a)) = -toC (run v a) := by apply Complex.ext <;> simp [toC, neg]
    rw [run, this, iha h, value]
  | mul a b iha ihb => rw [run, toC_mul, iha h.1, ihb h.2, value]
  | mulR a s iha => rw [run, toC_mulR, iha h, value]
  | mulL s a iha => rw [run, toC_mulL, iha h, value]
  | div a b iha ihb => rw [run, toC_div _ _ (by rw [ihb h.2.1]; exact h.2.2), iha h.1, ihb h.2.1, value]
  | divR a s iha => rw [run, toC_divR, iha h.1, value]
  | conj a iha =>
    have : toC (conj (run v a)) = starRingEnd ℂ (toC (run v a)) := by apply Complex.ext <;> simp [toC, conj]
    rw [run, this, iha h, value]

/-- `(1 + 2i) / (3 - i)` is `(1 + 7i) / 10`. -/
example : Defined (fun i => toC (if i = 0 then ⟨1, 2⟩ else ⟨3, -1⟩)) (.div (.var 0) (.var 1)) ∧
    run (fun i => if i = 0 then ⟨1, 2⟩ else ⟨3, -1⟩) (.div (.var 0) (.var 1)) = ⟨1 / 10, 7 / 10⟩ := by
  constructor
  · refine ⟨trivial, trivial, fun h => ?_⟩
    have := congrArg Complex.re h
    simp [value, toC] at this
  · simp only [run, div]
    norm_num

/-- The operators that change a variable leave what the operator with two arguments gives, also if both are the same variable. -/
theorem assign (z w : Cx) (s : ℝ) :
    addTo z w = add z w ∧ subFrom z w = sub z w ∧ mulBy z w = mul z w ∧ divBy z w = div z w ∧ mulByR z s = mulR z s ∧ divByR z s = divR z s :=
  ⟨rfl, rfl, rfl, rfl, rfl, rfl⟩

example : toC (mulBy ⟨1, 2⟩ ⟨1, 2⟩) = ⟨-3, 4⟩ := by
  apply Complex.ext <;> simp [toC, mulBy] <;> norm_num

/-- Absolute value, its square, and polar form are those of the complex numbers. -/
theorem size (z : Cx) (r t : ℝ) :
    abs z = ‖toC z‖ ∧ norm z = ‖toC z‖ ^ 2 ∧ toC (polar r t) = r * Complex.exp (t * Complex.I) := by
  have hn : norm z = Complex.normSq (toC z) := by simp [norm, toC, Complex.normSq_apply]
  refine ⟨?_, by rw [hn, Complex.normSq_eq_norm_sq], ?_⟩
  · rw [Complex.norm_def, ← hn]; rfl
  · rw [Complex.exp_mul_I, ← Complex.ofReal_cos, ← Complex.ofReal_sin]
    apply Complex.ext <;> simp [toC, polar, -Complex.ofReal_cos, -Complex.ofReal_sin]

/-- What the standard says of `atan2`: the angle of the point `(x, y)`, in `(-π, π]`. -/
def IsAtan2 (f : ℝ → ℝ → ℝ) : Prop :=
  f 0 0 = 0 ∧ ∀ x y, (x ≠ 0 ∨ y ≠ 0) → -Real.pi < f y x ∧ f y x ≤ Real.pi ∧
    x = Real.sqrt (x * x + y * y) * Real.cos (f y x) ∧ y = Real.sqrt (x * x + y * y) * Real.sin (f y x)

/-- The angle is the argument of the complex number. -/
theorem angle (f : ℝ → ℝ → ℝ) (hf : IsAtan2 f) (z : Cx) : arg f z = Complex.arg (toC z) := by
  by_cases hz : z.re ≠ 0 ∨ z.im ≠ 0
  · obtain ⟨h1, h2, h3, h4⟩ := hf.2 z.re z.im hz
    have hpos : 0 < Real.sqrt (z.re * z.re + z.im * z.im) := by
      apply Real.sqrt_pos.mpr
      rcases hz with h | h
      · nlinarith [mul_self_pos.mpr h, mul_self_nonneg z.im]
      · nlinarith [mul_self_pos.mpr h, mul_self_nonneg z.re]
    have e : toC z = (Real.sqrt (z.re * z.re + z.im * z.im) : ℂ) * (Complex.cos (f z.im z.re) + Complex.sin (f z.im z.re) * Complex.I) := by
      rw [← Complex.ofReal_cos, ← Complex.ofReal_sin]
      apply Complex.ext
      · simpa [toC, -Complex.ofReal_cos, -Complex.ofReal_sin] using h3
      · simpa [toC, -Complex.ofReal_cos, -Complex.ofReal_sin] using h4
    rw [e, Complex.arg_mul_cos_add_sin_mul_I hpos ⟨h1, h2⟩]
    rfl
  · have h1 : z.re = 0 := by by_contra h; exact hz (Or.inl h)
    have h2 : z.im = 0 := by by_contra h; exact hz (Or.inr h)
    have : toC z = 0 := by apply Complex.ext <;> simp [toC, h1, h2]
    rw [this, Complex.arg_zero, arg, h1, h2, hf.1]

/-- There is such a function, so the theorem above is about something. -/
example : IsAtan2 fun y x => Complex.arg ⟨x, y⟩ := by
  refine ⟨Complex.arg_zero, fun x y _ => ⟨Complex.neg_pi_lt_arg _, Complex.arg_le_pi _, ?_, ?_⟩⟩
  · have := Complex.norm_mul_cos_arg (⟨x, y⟩ : ℂ)
    rw [Complex.norm_def, Complex.normSq_mk] at this
    exact this.symm
  · have := Complex.norm_mul_sin_arg (⟨x, y⟩ : ℂ)
    rw [Complex.norm_def, Complex.normSq_mk] at this
    exact this.symm

/-- The finding: in a type with greatest value `m` the sum of squares is infinite for a number whose absolute value is `m`, or any above
the root of `m`: `abs` then gives infinity and division zero, where `std::abs` and the quotient are finite. -/
theorem overflow (m x : Rat) (hx : m < x * x) : normMax m x 0 = none := by
  simp [normMax, mulMax, hx]

example : normMax 100 11 0 = none ∧ normMax 100 6 8 = some 100 := by decide +kernel

end Verif.Cplx
