import Verif.Window.Model
import Mathlib.Topology.Algebra.Order.Floor
import Mathlib.Analysis.SpecificLimits.Basic
import Mathlib.Tactic.Linarith
import Mathlib.Tactic.FieldSimp
import Mathlib.Tactic.Ring

/-! Helper lemmas for the window functions. -/

namespace Verif.Window

open Finset

theorem besselLoop_k (x : ℝ) (m : ℕ) : (besselLoop x m).2.2 = m + 1 := by
  induction m with
  | zero => rfl
  | succ m ih => simp [besselLoop, ih]

theorem besselLoop_term (x : ℝ) (m : ℕ) : (besselLoop x m).2.1 = (x / 2) ^ m / (m.factorial : ℝ) := by
  induction m with
  | zero => simp [besselLoop]
  | succ m ih =>
    have h : (m.factorial : ℝ) ≠ 0 := by exact_mod_cast m.factorial_ne_zero
    have h' : ((m : ℝ) + 1) ≠ 0 := by positivity
    simp only [besselLoop, ih, besselLoop_k, Nat.factorial_succ]
    push_cast
    field_simp
    ring

theorem besselLoop_sum (x : ℝ) (m : ℕ) :
    (besselLoop x m).1 = ∑ k ∈ range (m + 1), ((x / 2) ^ k / (k.factorial : ℝ)) ^ 2 := by
  induction m with
  | zero => simp [besselLoop]
  | succ m ih =>
    rw [sum_range_succ, ← ih, ← besselLoop_term]
    simp only [besselLoop]
    ring

theorem besselLoop_sum_ge_one (x : ℝ) (m : ℕ) : 1 ≤ (besselLoop x m).1 := by
  induction m with
  | zero => simp [besselLoop]
  | succ m ih =>
    simp only [besselLoop]
    nlinarith [mul_self_nonneg ((besselLoop x m).2.1 * (x / 2 / (besselLoop x m).2.2))]

theorem besselStops_iff (eps x : ℝ) (m : ℕ) : besselStops eps x m ↔
    1 ≤ m ∧ ((x / 2) ^ m / (m.factorial : ℝ)) ^ 2 ≤ (∑ k ∈ range (m + 1), ((x / 2) ^ k / (k.factorial : ℝ)) ^ 2) * eps := by
  unfold besselStops
  rw [besselLoop_term, besselLoop_sum, not_lt, ← pow_two]

/-- The loop always ends. -/
theorem besselStops_exists (eps x : ℝ) (h : 0 < eps) : ∃ m, besselStops eps x m := by
  have ht := FloorSemiring.tendsto_pow_div_factorial_atTop (x / 2)
  have ht2 : Filter.Tendsto (fun m : ℕ => ((x / 2) ^ m / (m.factorial : ℝ)) ^ 2) Filter.atTop (nhds 0) := by
    have := ht.pow 2
    simpa using this
  have he := (ht2.eventually (gt_mem_nhds h)).and (Filter.eventually_ge_atTop 1)
  obtain ⟨m, h1, h2⟩ := he.exists
  refine ⟨m, (besselStops_iff ..).2 ⟨h2, ?_⟩⟩
  have := besselLoop_sum_ge_one x m
  rw [besselLoop_sum] at this
  nlinarith

theorem besselStops_mono {eps x y : ℝ} (he : 0 < eps) (h0 : 0 ≤ x) (hxy : x ≤ y) {m : ℕ} (h : besselStops eps y m) :
    besselStops eps x m := by
  rw [besselStops_iff] at h ⊢
  refine ⟨h.1, ?_⟩
  rcases eq_or_lt_of_le (h0.trans hxy) with hy | hy
  · have : x = y := by linarith
    rw [this]; exact h.2
  · have hr0 : 0 ≤ x / y := by positivity
    have hr1 : x / y ≤ 1 := (div_le_one hy).2 hxy
    have hx : ∀ k : ℕ, ((x / 2) ^ k / (k.factorial : ℝ)) ^ 2 = (x / y) ^ (2 * k) * ((y / 2) ^ k / (k.factorial : ℝ)) ^ 2 := by
      intro k
      have : x / 2 = (x / y) * (y / 2) := by field_simp
      rw [this, mul_pow, mul_div_assoc, mul_pow, ← pow_mul, mul_comm k 2]
    rw [hx m]
    calc (x / y) ^ (2 * m) * ((y / 2) ^ m / (m.factorial : ℝ)) ^ 2
        ≤ (x / y) ^ (2 * m) * ((∑ k ∈ range (m + 1), ((y / 2) ^ k / (k.factorial : ℝ)) ^ 2) * eps) :=
          mul_le_mul_of_nonneg_left h.2 (by positivity)
      _ = (∑ k ∈ range (m + 1), (x / y) ^ (2 * m) * ((y / 2) ^ k / (k.factorial : ℝ)) ^ 2) * eps := by
          rw [← mul_assoc, mul_sum]
      _ ≤ (∑ k ∈ range (m + 1), ((x / 2) ^ k / (k.factorial : ℝ)) ^ 2) * eps := by
          refine mul_le_mul_of_nonneg_right (sum_le_sum fun k hk => ?_) he.le
          rw [hx k]
          refine mul_le_mul_of_nonneg_right (pow_le_pow_of_le_one hr0 hr1 ?_) (by positivity)
          have := mem_range.1 hk
          omega

theorem besselLoop_mono_arg {x y : ℝ} (h0 : 0 ≤ x) (hxy : x ≤ y) (m : ℕ) : (besselLoop x m).1 ≤ (besselLoop y m).1 := by
  rw [besselLoop_sum, besselLoop_sum]
  refine sum_le_sum fun k _ => ?_
  gcongr

theorem besselLoop_mono_passes (x : ℝ) {m m' : ℕ} (h : m ≤ m') : (besselLoop x m).1 ≤ (besselLoop x m').1 := by
  rw [besselLoop_sum, besselLoop_sum]
  exact sum_le_sum_of_subset_of_nonneg (range_mono (by omega)) fun k _ _ => sq_nonneg _

theorem bessel_ge_one (eps x : ℝ) : 1 ≤ bessel eps x := besselLoop_sum_ge_one ..

theorem bessel_mono {eps x y : ℝ} (he : 0 < eps) (h0 : 0 ≤ x) (hxy : x ≤ y) : bessel eps x ≤ bessel eps y := by
  unfold bessel
  have hy : besselStops eps y (sInf {m | besselStops eps y m}) := Nat.sInf_mem (besselStops_exists eps y he)
  have hle : sInf {m | besselStops eps x m} ≤ sInf {m | besselStops eps y m} := Nat.sInf_le (besselStops_mono he h0 hxy hy)
  exact (besselLoop_mono_passes x hle).trans (besselLoop_mono_arg h0 hxy _)

theorem create_eq {eps : ℝ} {k : Kind} {beta : ℝ} {n : ℕ} {w : List (Option ℝ)} (h : create eps k beta n = some w) :
    w = (List.range n).map (value eps k beta n) := by
  unfold create at h
  split at h
  · rename_i h0
    subst h0
    simp at h
    simp [h]
  · split at h
    · simp at h
    · simpa using h.symm

theorem angle_some {n i : ℕ} (h : n ≠ 1) : angle n i = some (2 * Real.pi / (n - 1 : ℕ) * i) := if_neg h

/-- The angle of the mirrored sample. -/
theorem angle_mirror {n i : ℕ} (h2 : 2 ≤ n) (hi : i < n) :
    2 * Real.pi / (n - 1 : ℕ) * ((n - 1 - i : ℕ) : ℝ) = 2 * Real.pi - 2 * Real.pi / (n - 1 : ℕ) * i := by
  have h : ((n - 1 : ℕ) : ℝ) ≠ 0 := by
    have : n - 1 ≠ 0 := by omega
    exact_mod_cast this
  rw [Nat.cast_sub (by omega : i ≤ n - 1)]
  field_simp

theorem cos_mul_mirror (k : ℕ) (x : ℝ) : Real.cos (k * (2 * Real.pi - x)) = Real.cos (k * x) := by
  rw [mul_sub, Real.cos_nat_mul_two_pi_sub]

theorem cos_four (x : ℝ) : Real.cos (4 * x) = 8 * Real.cos x ^ 4 - 8 * Real.cos x ^ 2 + 1 := by
  have : 4 * x = 2 * (2 * x) := by ring
  rw [this, Real.cos_two_mul, Real.cos_two_mul]
  ring

end Verif.Window
