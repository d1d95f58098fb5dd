import Verif.Fft.Chirp
/-!
# The Fourier transform (C71)
-/
namespace Verif.Fft
open Complex

/-! ## C71, sizes at which the code is right -/

/-- C71: for every size that is a power of two, and every size handled by the vectorised transform, the result is the discrete Fourier
transform of the input, with the vectorised transform switched on or off. -/
theorem complex_transform_partial (v : Simd) (hv : SimdCorrect v) (useSimd : Bool) (N : Nat) (x : Nat → ℂ)
    (hN : (∃ t, N = 2 ^ t) ∨ useSimd = true ∧ canProcessSize false N = true) (k : Nat) (hk : k < N) :
    computeC v useSimd N x k = dft N x k := by
  unfold computeC
  split
  · rename_i h
    exact hv.c2c N (by simp at h; exact h.2) x k hk
  · rename_i h
    obtain ⟨t, rfl⟩ : ∃ t, N = 2 ^ t := by
      rcases hN with hN | ⟨h1, h2⟩
      · exact hN
      · exact absurd (by simp [h1, h2]) h
    rw [if_pos (hasSingleBit_pow t), radix2_dft t x k hk]

/-- C71, real input: the same, at the sizes handled by the vectorised transform of real numbers. -/
theorem real_transform_partial (v : Simd) (hv : SimdCorrect v) (useSimd : Bool) (N : Nat) (x : Nat → ℝ) (out : Nat → ℂ)
    (hN : (∃ t, N = 2 ^ t) ∨ useSimd = true ∧ canProcessSize true N = true) (k : Nat) (hk : k < N) :
    computeR v useSimd N x out k = dft N (fun i => (x i : ℂ)) k := by
  unfold computeR
  split
  · rename_i h
    have hc : canProcessSize true N = true := by simp at h; exact h.2
    have hev : 32 ≤ N ∧ N % 32 = 0 := by
      unfold canProcessSize at hc
      split at hc
      · simp at hc
      · rename_i h1
        split at hc
        · simp at hc
        · rename_i h2
          simp [minSize, lanes] at h1 h2
          omega
    rw [unpack_at N (by omega) _ _ k hk]
    by_cases h0 : k = 0
    · subst h0
      rw [if_pos rfl, hv.dc N hc x]
      have := dft_real_conj N (by omega) x 0 (by omega)
      have h2 := dft_shift N (by omega) (fun i => (x i : ℂ)) 0
      rw [Nat.zero_add] at h2
      rw [Nat.sub_zero, h2] at this
      apply Complex.ext
      · rfl
      · exact (Complex.conj_eq_iff_im.1 this.symm).symm
    rw [if_neg h0]
    by_cases h1 : k < N / 2
    · rw [if_pos h1, hv.re N hc x k (by omega) h1, hv.im N hc x k (by omega) h1]
    rw [if_neg h1]
    by_cases h2 : k = N / 2
    · rw [if_pos h2, hv.nyquist N hc x, ← h2]
      have := dft_real_conj N (by omega) x k (by omega)
      rw [show N - k = k by omega] at this
      apply Complex.ext
      · rfl
      · exact (Complex.conj_eq_iff_im.1 this.symm).symm
    · rw [if_neg h2, hv.re N hc x (N - k) (by omega) (by omega), hv.im N hc x (N - k) (by omega) (by omega)]
      have := dft_real_conj N (by omega) x (N - k) (by omega)
      rw [show N - (N - k) = k by omega] at this
      rw [this]
      rfl
  · rename_i h
    obtain ⟨t, rfl⟩ : ∃ t, N = 2 ^ t := by
      rcases hN with hN | ⟨h1, h2⟩
      · exact hN
      · exact absurd (by simp [h1, h2]) h
    rw [if_pos (hasSingleBit_pow t), radix2_dft t _ k hk]
    rfl

/-! ## C71, the other sizes -/

/-- A size falls back to the Bluestein transform. -/
def Falls (useSimd real : Bool) (N : Nat) : Prop := (¬ ∃ t, N = 2 ^ t) ∧ ¬ (useSimd = true ∧ canProcessSize real N = true)

theorem computeC_falls (v : Simd) (u : Bool) (N : Nat) (x : Buf) (h : Falls u false N) : computeC v u N x = bluestein v N x := by
  obtain ⟨h1, h2⟩ := h
  rw [computeC, if_neg (by simpa using h2), if_neg (by rw [hasSingleBit_iff]; exact h1)]

theorem computeR_falls (v : Simd) (u : Bool) (N : Nat) (x : Nat → ℝ) (out : Buf) (h : Falls u true N) :
    computeR v u N x out = bluestein v N (fun i => (x i : ℂ)) := by
  obtain ⟨h1, h2⟩ := h
  rw [computeR, if_neg (by simpa using h2), if_neg (by rw [hasSingleBit_iff]; exact h1)]
  rfl

/-- What is computed at the other sizes, in general: a term of the transform for every `i` with `i + k < N`, none for the `i` after that, and
something else for those `i` with `m - N < i + k`, where `m` is the length of the convolution. -/
theorem fallback_result (v : Simd) (hv : SimdCorrect v) (useSimd : Bool) (N : Nat) (h : Falls useSimd false N) (hN : 0 < N)
    (x : Nat → ℂ) (k : Nat) (hk : k < N) :
    ∃ m, (∃ t, m = 2 ^ t) ∧ 2 * N < m ∧
      computeC v useSimd N x k = ∑ i ∈ Finset.range N, x i *
        (if i + k < N then Complex.exp (-2 * Real.pi * I * (i * k) / N)
         else if m - N < i + k then Complex.exp (Real.pi * I * (i ^ 2 + k ^ 2 - ((m : ℂ) - i - k) ^ 2) / N)
         else 0) := by
  obtain ⟨ht, hle⟩ := bitCeil_spec (2 * N + 1)
  refine ⟨bitCeil (2 * N + 1), ht, hle, ?_⟩
  rw [computeC_falls v useSimd N x h, bluestein_sum v hv N hN x k hk]
  refine Finset.sum_congr rfl fun i hi => ?_
  have hi := Finset.mem_range.1 hi
  rw [back]
  by_cases h1 : i + k < N
  · rw [if_pos (by omega), if_pos h1, ← chirp_triple N i k hN]; ring
  rw [if_neg (by omega), if_neg h1]
  by_cases h2 : bitCeil (2 * N + 1) - N < i + k
  · rw [if_pos (by omega), if_pos h2, conj_chirp N _ hN, chirp_eq N i hN, chirp_eq N k hN, mul_assoc, mul_assoc, mul_assoc,
      ← Complex.exp_add, ← Complex.exp_add]
    congr 2
    rw [Nat.cast_sub (by omega)]
    push_cast
    ring
  · rw [if_neg (by omega), if_neg h2]; ring

/-- The constant component is right at every size. -/
theorem fallback_constant_component (v : Simd) (hv : SimdCorrect v) (useSimd : Bool) (N : Nat) (h : Falls useSimd false N) (hN : 0 < N)
    (x : Nat → ℂ) : computeC v useSimd N x 0 = dft N x 0 := by
  obtain ⟨m, _, _, he⟩ := fallback_result v hv useSimd N h hN x 0 hN
  rw [he]
  unfold dft
  refine Finset.sum_congr rfl fun i hi => ?_
  have hi := Finset.mem_range.1 hi
  rw [if_pos (by omega)]

/-- C71 is false at every size which is neither a power of two nor handled by the vectorised transform: for a single pulse in the last value
the component number 1 comes out as 0, but it has absolute value 1. -/
theorem fallback_wrong (v : Simd) (hv : SimdCorrect v) (useSimd : Bool) (N : Nat) (h : Falls useSimd false N) (hN : 2 ≤ N) :
    let x : Nat → ℂ := fun i => if i = N - 1 then 1 else 0
    computeC v useSimd N x 1 = 0 ∧ ‖dft N x 1‖ = 1 := by
  intro x
  constructor
  · obtain ⟨m, _, hm, he⟩ := fallback_result v hv useSimd N h (by omega) x 1 (by omega)
    rw [he]
    refine Finset.sum_eq_zero fun i hi => ?_
    have hi := Finset.mem_range.1 hi
    by_cases hi' : i = N - 1
    · rw [if_neg (by omega), if_neg (by omega), mul_zero]
    · simp only [x, if_neg hi', zero_mul]
  · unfold dft
    rw [Finset.sum_eq_single (N - 1)]
    · simp only [x, if_true, one_mul]
      rw [show (-2 * Real.pi * I * (((N - 1 : Nat) : ℂ) * ((1 : Nat) : ℂ)) / N : ℂ) = ((-2 * Real.pi * ((N - 1 : Nat) : ℝ) / N : ℝ) : ℂ) * I by
        push_cast; ring, Complex.norm_exp_ofReal_mul_I]
    · intro i _ hi'
      simp only [x, if_neg hi', zero_mul]
    · intro hi'
      exact absurd (Finset.mem_range.2 (by omega)) hi'

/-- The same for real input. -/
theorem real_fallback_wrong (v : Simd) (hv : SimdCorrect v) (useSimd : Bool) (N : Nat) (h : Falls useSimd true N) (hN : 2 ≤ N)
    (out : Nat → ℂ) :
    let x : Nat → ℝ := fun i => if i = N - 1 then 1 else 0
    computeR v useSimd N x out 1 = 0 ∧ ‖dft N (fun i => (x i : ℂ)) 1‖ = 1 := by
  intro x
  have hx : (fun i => (x i : ℂ)) = fun i => if i = N - 1 then (1 : ℂ) else 0 := by
    funext i; simp only [x]; split <;> simp
  have hf : Falls false false N := ⟨h.1, by simp⟩
  have := fallback_wrong v hv false N hf hN
  rw [computeR_falls v useSimd N x out h, hx]
  simp only [computeC_falls v false N _ hf] at this
  exact this

/-! ## The hypotheses are met -/

/-- A vectorised transform that satisfies the assumption -/
noncomputable def simdRef : Simd where
  c2c N x k := dft N x k
  r2c N x j := if j = 0 then (dft N (fun i => (x i : ℂ)) 0).re else if j = 1 then (dft N (fun i => (x i : ℂ)) (N / 2)).re
    else if j % 2 = 0 then (dft N (fun i => (x i : ℂ)) (j / 2)).re else (dft N (fun i => (x i : ℂ)) (j / 2)).im

theorem simdRef_correct : SimdCorrect simdRef where
  c2c := fun _ _ _ _ _ => rfl
  dc := fun _ _ _ => rfl
  nyquist := fun _ _ _ => rfl
  re := by
    intro N _ x k h0 _
    simp only [simdRef]
    rw [if_neg (by omega), if_neg (by omega), if_pos (by omega), show 2 * k / 2 = k by omega]
  im := by
    intro N _ x k h0 _
    simp only [simdRef]
    rw [if_neg (by omega), if_neg (by omega), if_neg (by omega), show (2 * k + 1) / 2 = k by omega]

example : canProcessSize false 48 = true ∧ canProcessSize true 96 = true ∧ canProcessSize false 1000 = false ∧
    canProcessSize false 1024 = true := by decide +kernel

/-- 1000 is such a size. -/
example : Falls true false 1000 := by
  refine ⟨?_, by decide +kernel⟩
  rw [← hasSingleBit_iff]; decide +kernel

example (x : Nat → ℂ) : computeC simdRef false 1024 x 5 = dft 1024 x 5 :=
  complex_transform_partial simdRef simdRef_correct false 1024 x (.inl ⟨10, by norm_num⟩) 5 (by norm_num)

example (x : Nat → ℝ) (out : Nat → ℂ) : computeR simdRef true 96 x out 50 = dft 96 (fun i => (x i : ℂ)) 50 :=
  real_transform_partial simdRef simdRef_correct true 96 x out (.inr ⟨rfl, by decide +kernel⟩) 50 (by norm_num)

example : ∃ x : Nat → ℂ, computeC simdRef true 1000 x 1 ≠ dft 1000 x 1 := by
  have hf : Falls true false 1000 := ⟨by rw [← hasSingleBit_iff]; decide +kernel, by decide +kernel⟩
  refine ⟨fun i => if i = 1000 - 1 then 1 else 0, fun he => ?_⟩
  have h := fallback_wrong simdRef simdRef_correct true 1000 hf (by norm_num)
  simp only at h
  rw [← he, h.1, norm_zero] at h
  exact zero_ne_one h.2

end Verif.Fft
