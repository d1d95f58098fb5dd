import Verif.Fft.Radix
import Mathlib.Analysis.SpecialFunctions.Complex.Log
/-!
# Lemmas: the Bluestein path
-/
namespace Verif.Fft
open Complex

theorem W_ne_one (m s : Nat) (hm : 0 < m) (h : ¬ m ∣ s) : W m ^ s ≠ 1 := by
  rw [W_pow]
  intro he
  obtain ⟨n, hn⟩ := Complex.exp_eq_one_iff.1 he
  apply h
  have hmc : (m : ℂ) ≠ 0 := by exact_mod_cast hm.ne'
  have hpi : (Real.pi : ℂ) ≠ 0 := by exact_mod_cast Real.pi_ne_zero
  have h1 : (s : ℂ) = (-n : ℤ) * m := by
    have h2 : -(2 * Real.pi * I) * s = (2 * Real.pi * I) * (n * m) := by
      have h3 : (-2 * Real.pi * I * s / m : ℂ) * m = -(2 * Real.pi * I) * s := by field_simp
      rw [← h3, hn]; ring
    have h4 : (2 * Real.pi * I : ℂ) ≠ 0 := by simp [hpi]
    have h5 : (2 * Real.pi * I : ℂ) * s = (2 * Real.pi * I) * ((-n : ℤ) * m) := by
      push_cast
      linear_combination -h2
    exact mul_left_cancel₀ h4 h5
  have h2 : (s : ℤ) = -n * m := by exact_mod_cast h1
  exact Int.natCast_dvd_natCast.1 ⟨-n, by rw [h2]; ring⟩

theorem sum_W (m s : Nat) (hm : 0 < m) : ∑ p ∈ Finset.range m, W m ^ (p * s) = if m ∣ s then (m : ℂ) else 0 := by
  have e : ∀ p, W m ^ (p * s) = (W m ^ s) ^ p := fun p => by rw [← pow_mul, Nat.mul_comm]
  simp only [e]
  split
  · rename_i h
    obtain ⟨c, rfl⟩ := h
    rw [pow_mul, W_self m hm]; simp
  · rename_i h
    have h1 := W_ne_one m s hm h
    have h2 := geom_sum_mul (W m ^ s) m
    rw [← pow_mul, Nat.mul_comm, pow_mul, W_self m hm, one_pow, sub_self] at h2
    exact (mul_eq_zero.1 h2).resolve_right (sub_ne_zero.2 h1)

theorem sum_dvd (m s : Nat) (hs : s < m) (f : Buf) :
    ∑ l ∈ Finset.range m, (if m ∣ s + l then f l else 0) = f (if s = 0 then 0 else m - s) := by
  rw [Finset.sum_eq_single (if s = 0 then 0 else m - s)]
  · rw [if_pos]
    split
    · rename_i h; simp [h]
    · rw [show s + (m - s) = m by omega]
  · intro l hl hne
    rw [if_neg]
    intro hd
    have hl := Finset.mem_range.1 hl
    apply hne
    by_cases h0 : s + l = 0
    · rw [if_pos (by omega)]; omega
    · obtain ⟨c, hc⟩ := hd
      have : c = 1 := by
        have : c < 2 := by
          by_contra h
          have : m * 2 ≤ m * c := Nat.mul_le_mul_left _ (by omega)
          omega
        have : c ≠ 0 := by intro h; subst h; omega
        omega
      subst this
      rw [if_neg (by omega)]; omega
  · intro h
    exact absurd (Finset.mem_range.2 (by split <;> omega)) h

/-- Two forward transforms with a product of spectra in between: a convolution, read backwards -/
theorem double_dft (m : Nat) (hm : 0 < m) (a b : Buf) (k : Nat) :
    dft m (fun p => dft m a p * dft m b p) k =
      m * ∑ i ∈ Finset.range m, a i * ∑ l ∈ Finset.range m, (if m ∣ k + i + l then b l else 0) := by
  simp only [dft_eq]
  have h1 : ∀ p, (∑ i ∈ Finset.range m, a i * W m ^ (i * p)) * (∑ l ∈ Finset.range m, b l * W m ^ (l * p)) * W m ^ (p * k) =
      ∑ i ∈ Finset.range m, ∑ l ∈ Finset.range m, a i * b l * W m ^ (p * (k + i + l)) := by
    intro p
    rw [Finset.sum_mul_sum, Finset.sum_mul]
    refine Finset.sum_congr rfl fun i _ => ?_
    rw [Finset.sum_mul]
    refine Finset.sum_congr rfl fun l _ => ?_
    rw [show p * (k + i + l) = p * k + i * p + l * p by ring, pow_add, pow_add]; ring
  simp only [h1]
  rw [Finset.sum_comm, Finset.mul_sum]
  refine Finset.sum_congr rfl fun i _ => ?_
  rw [Finset.sum_comm, Finset.mul_sum, Finset.mul_sum]
  refine Finset.sum_congr rfl fun l _ => ?_
  rw [← Finset.mul_sum, sum_W m _ hm]
  split <;> ring

theorem chirp_eq (n i : Nat) (hn : 0 < n) : chirp n i = Complex.exp (Real.pi * I * (i * i) / n) := by
  have hnc : (n : ℂ) ≠ 0 := by exact_mod_cast hn.ne'
  have hdiv : i * i = 2 * n * (i * i / (2 * n)) + i * i % (2 * n) := (Nat.div_add_mod _ _).symm
  have hc : (i : ℂ) * i = 2 * n * ((i * i / (2 * n) : Nat) : ℂ) + ((i * i % (2 * n) : Nat) : ℂ) := by exact_mod_cast hdiv
  rw [hc, show (Real.pi * I * (2 * n * ((i * i / (2 * n) : Nat) : ℂ) + ((i * i % (2 * n) : Nat) : ℂ)) / n : ℂ) =
    ((i * i / (2 * n) : Nat) : ℂ) * (2 * Real.pi * I) + ((Real.pi * (i * i % (2 * n) : Nat) / n : ℝ) : ℂ) * I by
      push_cast; field_simp, Complex.exp_add, Complex.exp_nat_mul_two_pi_mul_I, one_mul, Complex.exp_mul_I, ← Complex.ofReal_cos,
    ← Complex.ofReal_sin]
  apply Complex.ext
  · simp only [chirp, Complex.add_re, Complex.mul_re, Complex.ofReal_re, Complex.ofReal_im, Complex.I_re, Complex.I_im]
    ring_nf
  · simp only [chirp, Complex.add_im, Complex.mul_im, Complex.ofReal_re, Complex.ofReal_im, Complex.I_re, Complex.I_im]
    ring_nf

theorem conj_chirp (n i : Nat) (hn : 0 < n) : starRingEnd ℂ (chirp n i) = Complex.exp (-(Real.pi * I * (i * i) / n)) := by
  rw [chirp_eq n i hn, ← Complex.exp_conj]
  congr 1
  simp [neg_div]

theorem chirp_zero (n : Nat) (hn : 0 < n) : chirp n 0 = 1 := by rw [chirp_eq n 0 hn]; simp

theorem chirpBuf_at (n m : Nat) (hn : 0 < n) (hm : 2 * n < m) (p : Nat) (hp : p < m) :
    chirpBuf n m p = if p < n then starRingEnd ℂ (chirp n p) else if m - p < n then starRingEnd ℂ (chirp n (m - p)) else 0 := by
  have key : ∀ r ≤ n - 1, ∀ p < m,
      loop (fun i b => put (put b (m - (i + 1)) (starRingEnd ℂ (chirp n (i + 1)))) (i + 1) (starRingEnd ℂ (chirp n (i + 1))))
        (put (fun _ => 0) 0 (chirp n 0)) r p =
      if p < r + 1 then starRingEnd ℂ (chirp n p) else if m - p < r + 1 then starRingEnd ℂ (chirp n (m - p)) else 0 := by
    intro r
    induction r with
    | zero =>
      intro _ p hp
      simp only [loop, put]
      by_cases h : p = 0
      · subst h; simp [chirp_zero n hn]
      · rw [if_neg h, if_neg (by omega), if_neg (by omega)]
    | succ r ih =>
      intro hr p hp
      rw [loop_succ]
      simp only [put]
      by_cases h1 : p = r + 1
      · subst h1; rw [if_pos rfl, if_pos (by omega)]
      rw [if_neg h1]
      by_cases h2 : p = m - (r + 1)
      · subst h2
        rw [if_pos rfl, if_neg (by omega), if_pos (by omega), show m - (m - (r + 1)) = r + 1 by omega]
      rw [if_neg h2, ih (by omega) p hp]
      by_cases h3 : p < r + 1
      · rw [if_pos h3, if_pos (by omega)]
      rw [if_neg h3]
      have h3' : ¬ p < r + 1 + 1 := by omega
      rw [if_neg h3']
      by_cases h4 : m - p < r + 1
      · rw [if_pos h4, if_pos (by omega)]
      · have h4' : ¬ m - p < r + 1 + 1 := by omega
        rw [if_neg h4, if_neg h4']
  have := key (n - 1) (Nat.le_refl _) p hp
  rw [show n - 1 + 1 = n by omega] at this
  exact this

/-- The factor by which the code multiplies `x i` in the result number `k`, where `s = i + k` -/
noncomputable def back (n m s : Nat) : ℂ :=
  if s < n then starRingEnd ℂ (chirp n s) else if m - s < n then starRingEnd ℂ (chirp n (m - s)) else 0

theorem computePow2_dft (v : Simd) (hv : SimdCorrect v) (u : Bool) (t : Nat) (x : Buf) (k : Nat) (hk : k < 2 ^ t) :
    computePow2 v u (2 ^ t) x k = dft (2 ^ t) x k := by
  unfold computePow2
  split
  · rename_i h
    exact hv.c2c _ (by simp at h; exact h.2) x k hk
  · exact radix2_dft t x k hk

theorem bluestein_sum (v : Simd) (hv : SimdCorrect v) (n : Nat) (hn : 0 < n) (x : Buf) (k : Nat) (hk : k < n) :
    bluestein v n x k = ∑ i ∈ Finset.range n, x i * chirp n i * back n (bitCeil (2 * n + 1)) (k + i) * chirp n k := by
  obtain ⟨⟨t, ht⟩, hle⟩ := bitCeil_spec (2 * n + 1)
  generalize hm : bitCeil (2 * n + 1) = m at *
  subst ht
  have hm0 : 0 < 2 ^ t := Nat.two_pow_pos t
  have hmc : ((2 ^ t : Nat) : ℂ) ≠ 0 := by exact_mod_cast hm0.ne'
  simp only [bluestein, hm, if_pos hk]
  have step : computePow2 v true (2 ^ t) (fun p => computePow2 v true (2 ^ t) (fun i => if i < n then x i * chirp n i else 0) p *
      computePow2 v true (2 ^ t) (chirpBuf n (2 ^ t)) p) k =
      (2 ^ t : Nat) * ∑ i ∈ Finset.range n, x i * chirp n i * back n (2 ^ t) (k + i) := by
    rw [computePow2_dft v hv _ _ _ _ (by omega)]
    rw [dft_congr (y := fun p => dft (2 ^ t) (fun i => if i < n then x i * chirp n i else 0) p * dft (2 ^ t) (chirpBuf n (2 ^ t)) p)
      (fun p hp => by rw [computePow2_dft v hv _ _ _ _ hp, computePow2_dft v hv _ _ _ _ hp]) k]
    rw [double_dft _ hm0]
    congr 1
    rw [← Finset.sum_subset (Finset.range_mono (show n ≤ 2 ^ t by omega))]
    · refine Finset.sum_congr rfl fun i hi => ?_
      have hi := Finset.mem_range.1 hi
      rw [if_pos hi, sum_dvd _ _ (by omega)]
      congr 1
      by_cases h0 : k + i = 0
      · rw [if_pos h0, chirpBuf_at _ _ hn (by omega) _ hm0, if_pos hn, h0, back, if_pos hn]
      · rw [if_neg h0, chirpBuf_at _ _ hn (by omega) _ (by omega), back]
        by_cases h1 : k + i < n
        · rw [if_pos h1, if_neg (by omega), if_pos (by omega), show 2 ^ t - (2 ^ t - (k + i)) = k + i by omega]
        · rw [if_neg h1]
          by_cases h2 : 2 ^ t - (k + i) < n
          · rw [if_pos h2, if_pos h2]
          · rw [if_neg h2, if_neg h2, if_neg (by omega)]
    · intro i _ hi
      have hi : ¬ i < n := fun h => hi (Finset.mem_range.2 h)
      rw [if_neg hi, zero_mul]
  rw [step, ← Finset.sum_mul]
  push_cast
  push_cast at hmc
  field_simp

theorem chirp_triple (n i k : Nat) (hn : 0 < n) :
    chirp n i * starRingEnd ℂ (chirp n (k + i)) * chirp n k = Complex.exp (-2 * Real.pi * I * (i * k) / n) := by
  rw [conj_chirp n _ hn, chirp_eq n i hn, chirp_eq n k hn, ← Complex.exp_add, ← Complex.exp_add]
  congr 1
  push_cast
  ring

theorem dft_real_conj (N : Nat) (hN : 0 < N) (x : Nat → ℝ) (k : Nat) (hk : k ≤ N) :
    dft N (fun i => (x i : ℂ)) (N - k) = starRingEnd ℂ (dft N (fun i => (x i : ℂ)) k) := by
  have hNc : (N : ℂ) ≠ 0 := by exact_mod_cast hN.ne'
  unfold dft
  rw [map_sum]
  refine Finset.sum_congr rfl fun i _ => ?_
  rw [map_mul, Complex.conj_ofReal, ← Complex.exp_conj]
  congr 1
  rw [show (-2 * Real.pi * I * (i * ((N - k : Nat) : ℂ)) / N : ℂ) = (2 * Real.pi * I * (i * k) / N) - (i : ℂ) * (2 * Real.pi * I) by
    rw [Nat.cast_sub hk]; field_simp; ring, Complex.exp_sub, Complex.exp_nat_mul_two_pi_mul_I, div_one]
  congr 1
  have : (starRingEnd ℂ) 2 = 2 := Complex.conj_ofNat 2
  simp [this]

theorem unpack_at (N : Nat) (hN : 2 ≤ N) (p : Nat → ℝ) (out : Buf) (k : Nat) (hk : k < N) :
    unpack N p out k = if k = 0 then ⟨p 0, 0⟩ else if k < N / 2 then ⟨p (2 * k), p (2 * k + 1)⟩ else if k = N / 2 then ⟨p 1, 0⟩
      else ⟨p (2 * (N - k)), -p (2 * (N - k) + 1)⟩ := by
  have l1 : ∀ (o : Buf) r q, loop (fun i o => put o (i + 1) (⟨p (2 * (i + 1)), p (2 * (i + 1) + 1)⟩ : ℂ)) o r q =
      if 0 < q ∧ q ≤ r then ⟨p (2 * q), p (2 * q + 1)⟩ else o q := by
    intro o r
    induction r with
    | zero => intro q; rw [if_neg (by omega)]; rfl
    | succ r ih =>
      intro q
      rw [loop_succ]
      simp only [put]
      by_cases h : q = r + 1
      · subst h; rw [if_pos rfl, if_pos (by omega)]
      · rw [if_neg h, ih]
        by_cases h2 : 0 < q ∧ q ≤ r
        · rw [if_pos h2, if_pos (by omega)]
        · rw [if_neg h2, if_neg (by omega)]
  have l2 : ∀ (o : Buf) r q, loop (fun i o => put o (N / 2 + 1 + i)
      (⟨p (2 * (N - (N / 2 + 1 + i))), -p (2 * (N - (N / 2 + 1 + i)) + 1)⟩ : ℂ)) o r q =
      if N / 2 + 1 ≤ q ∧ q < N / 2 + 1 + r then ⟨p (2 * (N - q)), -p (2 * (N - q) + 1)⟩ else o q := by
    intro o r
    induction r with
    | zero => intro q; rw [if_neg (by omega)]; rfl
    | succ r ih =>
      intro q
      rw [loop_succ]
      simp only [put]
      by_cases h : q = N / 2 + 1 + r
      · subst h; rw [if_pos rfl, if_pos (by omega)]
      · rw [if_neg h, ih]
        by_cases h2 : N / 2 + 1 ≤ q ∧ q < N / 2 + 1 + r
        · rw [if_pos h2, if_pos (by omega)]
        · rw [if_neg h2, if_neg (by omega)]
  simp only [unpack, l2]
  by_cases c : N / 2 + 1 ≤ k ∧ k < N / 2 + 1 + (N - (N / 2 + 1))
  · rw [if_pos c, if_neg (by omega), if_neg (by omega), if_neg (by omega)]
  rw [if_neg c]
  simp only [put]
  by_cases c1 : k = N / 2
  · rw [if_pos c1, if_neg (by omega), if_neg (by omega), if_pos c1]
  rw [if_neg c1, l1]
  by_cases c2 : k = 0
  · rw [if_pos c2, if_neg (by omega), put, if_pos c2]
  · rw [if_neg c2, if_pos (by omega), if_pos (by omega)]

end Verif.Fft
