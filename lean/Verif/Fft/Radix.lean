import Verif.Fft.Bits
/-!
# Lemmas: roots of unity, kernels and stages
-/
namespace Verif.Fft
open Complex

/-- The root of unity of order `n` -/
noncomputable def W (n : Nat) : ℂ := Complex.exp (-2 * Real.pi * I / n)

theorem W_pow (n k : Nat) : W n ^ k = Complex.exp (-2 * Real.pi * I * k / n) := by
  rw [W, ← Complex.exp_nat_mul]; congr 1; ring

theorem W_self (n : Nat) (hn : 0 < n) : W n ^ n = 1 := by
  rw [W_pow, show (-2 * Real.pi * I * n / n : ℂ) = -(2 * Real.pi * I) by
    rw [mul_div_assoc, div_self (by exact_mod_cast hn.ne')]; ring, Complex.exp_neg, Complex.exp_two_pi_mul_I, inv_one]

theorem W_double (n : Nat) (hn : 0 < n) : W (2 * n) ^ 2 = W n := by
  rw [W_pow, W]; congr 1
  have : (n : ℂ) ≠ 0 := by exact_mod_cast hn.ne'
  push_cast; field_simp

theorem W_half (n : Nat) (hn : 0 < n) : W (2 * n) ^ n = -1 := by
  rw [W_pow, show (-2 * Real.pi * I * n / ((2 * n : Nat) : ℂ)) = -(Real.pi * I) by
    have : (n : ℂ) ≠ 0 := by exact_mod_cast hn.ne'
    push_cast; field_simp, Complex.exp_neg, Complex.exp_pi_mul_I]; norm_num

theorem W_two : W 2 = -1 := by simpa using W_half 1 (by norm_num)

theorem W_four : W 4 = ⟨0, -1⟩ := by
  rw [W, show (-2 * Real.pi * I / (4 : Nat) : ℂ) = ((-(Real.pi / 2) : ℝ) : ℂ) * I by push_cast; ring, Complex.exp_mul_I,
    ← Complex.ofReal_cos, ← Complex.ofReal_sin, Real.cos_neg, Real.sin_neg, Real.cos_pi_div_two, Real.sin_pi_div_two]
  apply Complex.ext <;> simp

theorem invSqrt2_eq : invSqrt2 = √2 / 2 := by
  rw [invSqrt2, div_eq_div_iff (by positivity) (by norm_num)]
  have := Real.mul_self_sqrt (show (0 : ℝ) ≤ 2 by norm_num)
  linarith

theorem invSqrt2_sq : invSqrt2 * invSqrt2 = 1 / 2 := by
  rw [invSqrt2_eq]
  have := Real.mul_self_sqrt (show (0 : ℝ) ≤ 2 by norm_num)
  nlinarith

theorem W_eight : W 8 = ⟨invSqrt2, -invSqrt2⟩ := by
  rw [W, show (-2 * Real.pi * I / (8 : Nat) : ℂ) = ((-(Real.pi / 4) : ℝ) : ℂ) * I by push_cast; ring, Complex.exp_mul_I,
    ← Complex.ofReal_cos, ← Complex.ofReal_sin, Real.cos_neg, Real.sin_neg, Real.cos_pi_div_four, Real.sin_pi_div_four, invSqrt2_eq]
  apply Complex.ext <;> simp

theorem W_eight_two : W 8 ^ 2 = ⟨0, -1⟩ := by
  have := W_double 4 (by norm_num)
  rw [show 2 * 4 = 8 by norm_num] at this
  rw [this, W_four]

theorem W_eight_three : W 8 ^ 3 = ⟨-invSqrt2, -invSqrt2⟩ := by
  rw [pow_succ, W_eight_two, W_eight]
  apply Complex.ext <;> simp

theorem dft_eq (N : Nat) (x : Buf) (k : Nat) : dft N x k = ∑ i ∈ Finset.range N, x i * W N ^ (i * k) := by
  unfold dft
  refine Finset.sum_congr rfl fun i _ => ?_
  rw [W_pow]; push_cast; rfl

/-- The butterflies on a block of `2 * h` at `o` -/
noncomputable def bfly (o h : Nat) (d : Buf) : Buf := fun p =>
  if o ≤ p ∧ p < o + h then d p + d (p + h) * W (2 * h) ^ (p - o)
  else if o + h ≤ p ∧ p < o + 2 * h then d (p - h) - d p * W (2 * h) ^ (p - o - h)
  else d p

theorem kernel2_eq (o : Nat) (d : Buf) : kernel2 o d = bfly o 1 d := by
  funext p
  simp only [kernel2, put, bfly]
  by_cases h1 : p = o + 1
  · subst h1; simp
  · by_cases h0 : p = o
    · subst h0; simp
    · rw [if_neg h1, if_neg h0, if_neg (by omega), if_neg (by omega)]

theorem kernel4_eq (o : Nat) (d : Buf) : kernel4 o d = bfly o 2 d := by
  funext p
  simp only [kernel4, put, bfly]
  by_cases h3 : p = o + 3
  · subst h3; simp [W_four]
  by_cases h2 : p = o + 2
  · subst h2; simp
  by_cases h1 : p = o + 1
  · subst h1; simp [W_four]
  by_cases h0 : p = o
  · subst h0; simp
  rw [if_neg h3, if_neg h2, if_neg h1, if_neg h0, if_neg (by omega), if_neg (by omega)]

theorem kernel8_eq (o : Nat) (d : Buf) : kernel8 o d = bfly o 4 d := by
  funext p
  simp only [kernel8, put, bfly]
  by_cases h7 : p = o + 7
  · subst h7; simp [W_eight_three, show o + 7 - o - 4 = 3 by omega, show o + 7 - 4 = o + 3 by omega]
  by_cases h6 : p = o + 6
  · subst h6; simp [W_eight_two, show o + 6 - o - 4 = 2 by omega, show o + 6 - 4 = o + 2 by omega]
  by_cases h5 : p = o + 5
  · subst h5; simp [W_eight, show o + 5 - o - 4 = 1 by omega, show o + 5 - 4 = o + 1 by omega]
  by_cases h4 : p = o + 4
  · subst h4; simp
  by_cases h3 : p = o + 3
  · subst h3; simp [W_eight_three]
  by_cases h2 : p = o + 2
  · subst h2; simp [W_eight_two]
  by_cases h1 : p = o + 1
  · subst h1; simp [W_eight]
  by_cases h0 : p = o
  · subst h0; simp
  simp only [h7, h6, h5, h4, h3, h2, h1, h0, if_false]
  rw [if_neg (by omega), if_neg (by omega)]

theorem twiddle_eq (size j : Nat) (h2 : size ≠ 2) (h8 : size ≠ 8) : twiddle size j = W size ^ j := by
  simp only [twiddle, if_neg h2, if_neg h8]
  have : Complex.exp (⟨0, (-2) * Real.pi / size⟩ : ℂ) = W size := by
    rw [W]; congr 1
    apply Complex.ext
    · simp
    · simp [Complex.div_natCast_im]
  rw [this]
  induction j with
  | zero => simp [loop]
  | succ j ih => rw [loop_succ, ih, pow_succ]

theorem kernel_eq (o h : Nat) (hh : 0 < h) (h2 : 2 * h ≠ 2) (h8 : 2 * h ≠ 8) (d : Buf) : kernel o h (twiddle (2 * h)) d = bfly o h d := by
  have key : ∀ n ≤ h, ∀ p, loop (kernelStep o h (twiddle (2 * h))) d n p =
      if o ≤ p ∧ p < o + n then d p + d (p + h) * W (2 * h) ^ (p - o)
      else if o + h ≤ p ∧ p < o + h + n then d (p - h) - d p * W (2 * h) ^ (p - o - h)
      else d p := by
    intro n
    induction n with
    | zero => intro _ p; rw [if_neg (by omega), if_neg (by omega)]; rfl
    | succ n ih =>
      intro hn p
      have ih := ih (by omega)
      rw [loop_succ, kernelStep]
      simp only [put]
      have e1 : loop (kernelStep o h (twiddle (2 * h))) d n (o + n + h) = d (o + n + h) := by
        rw [ih, if_neg (by omega), if_neg (by omega)]
      have e2 : loop (kernelStep o h (twiddle (2 * h))) d n (o + n) = d (o + n) := by
        rw [ih, if_neg (by omega), if_neg (by omega)]
      rw [e1, e2, twiddle_eq _ _ h2 h8]
      by_cases c1 : p = o + n
      · subst c1
        rw [if_pos rfl, if_neg (by omega), if_pos (by omega), show o + n - o = n by omega]
      · rw [if_neg c1]
        by_cases c2 : p = o + n + h
        · subst c2
          rw [if_pos rfl, if_neg (by omega), if_pos (by omega), show o + n + h - h = o + n by omega, show o + n + h - o - h = n by omega]
        · rw [if_neg c2, ih]
          by_cases c3 : o ≤ p ∧ p < o + n
          · rw [if_pos c3, if_pos (by omega)]
          · have c3' : ¬ (o ≤ p ∧ p < o + (n + 1)) := by omega
            rw [if_neg c3, if_neg c3']
            by_cases c4 : o + h ≤ p ∧ p < o + h + n
            · rw [if_pos c4, if_pos (by omega)]
            · have c4' : ¬ (o + h ≤ p ∧ p < o + h + (n + 1)) := by omega
              rw [if_neg c4, if_neg c4']
  funext p
  rw [kernel, key h (Nat.le_refl _), bfly, show o + h + h = o + 2 * h by omega]

theorem block_eq (o h : Nat) (hh : 0 < h) (d : Buf) : block (2 * h) o d = bfly o h d := by
  unfold block
  by_cases h2 : 2 * h = 2
  · have : h = 1 := by omega
    subst this; rw [if_pos rfl, kernel2_eq]
  rw [if_neg h2]
  by_cases h4 : 2 * h = 4
  · have : h = 2 := by omega
    subst this; rw [if_pos rfl, kernel4_eq]
  rw [if_neg h4]
  by_cases h8 : 2 * h = 8
  · have : h = 4 := by omega
    subst this; rw [if_pos rfl, kernel8_eq]
  rw [if_neg h8, show 2 * h / 2 = h by omega, kernel_eq o h hh h2 h8]

theorem stage_at (B h : Nat) (hh : 0 < h) (d : Buf) (q j : Nat) (hq : q < B) (hj : j < h) :
    stage (B * (2 * h)) (2 * h) d (q * (2 * h) + j) = d (q * (2 * h) + j) + d (q * (2 * h) + j + h) * W (2 * h) ^ j ∧
    stage (B * (2 * h)) (2 * h) d (q * (2 * h) + j + h) = d (q * (2 * h) + j) - d (q * (2 * h) + j + h) * W (2 * h) ^ j := by
  have hB : (B * (2 * h) + 2 * h - 1) / (2 * h) = B := by
    rw [show B * (2 * h) + 2 * h - 1 = (2 * h - 1) + B * (2 * h) by omega, Nat.add_mul_div_right _ _ (by omega),
      Nat.div_eq_of_lt (by omega)]; omega
  have low : ∀ n, ∀ p, n * (2 * h) ≤ p → loop (fun q d => block (2 * h) (q * (2 * h)) d) d n p = d p := by
    intro n
    induction n with
    | zero => intros; rfl
    | succ n ih =>
      intro p hp
      rw [Nat.add_mul] at hp
      rw [loop_succ, block_eq _ _ hh, bfly, if_neg (by omega), if_neg (by omega), ih p (by omega)]
  have high : ∀ n, q < n → ∀ p, q * (2 * h) ≤ p → p < (q + 1) * (2 * h) →
      loop (fun q d => block (2 * h) (q * (2 * h)) d) d n p = bfly (q * (2 * h)) h d p := by
    intro n hqn
    induction n with
    | zero => omega
    | succ n ih =>
      intro p hp hp'
      rw [loop_succ, block_eq _ _ hh]
      by_cases hq' : q = n
      · subst hq'
        rw [Nat.add_mul] at hp'
        simp only [bfly]
        by_cases c : q * (2 * h) ≤ p ∧ p < q * (2 * h) + h
        · rw [if_pos c, if_pos c, low _ _ hp, low _ _ (by omega)]
        · rw [if_neg c, if_neg c, if_pos (by omega), if_pos (by omega), low _ _ hp, low _ _ (by omega)]
      · have hle : (q + 1) * (2 * h) ≤ n * (2 * h) := Nat.mul_le_mul_right _ (by omega)
        rw [bfly, if_neg (by omega), if_neg (by omega), ih (by omega) p hp hp']
  simp only [stage, hB]
  constructor
  · rw [high B hq _ (by omega) (by rw [Nat.add_mul]; omega), bfly, if_pos (by omega), show q * (2 * h) + j - q * (2 * h) = j by omega]
  · rw [high B hq _ (by omega) (by rw [Nat.add_mul]; omega), bfly, if_neg (by omega), if_pos (by omega),
      show q * (2 * h) + j + h - h = q * (2 * h) + j by omega, show q * (2 * h) + j + h - q * (2 * h) - h = j by omega]

theorem sum_even_odd (n : Nat) (f : Nat → ℂ) :
    ∑ i ∈ Finset.range (2 * n), f i = ∑ i ∈ Finset.range n, f (2 * i) + ∑ i ∈ Finset.range n, f (2 * i + 1) := by
  induction n with
  | zero => simp
  | succ n ih =>
    rw [show 2 * (n + 1) = 2 * n + 1 + 1 by omega, Finset.sum_range_succ, Finset.sum_range_succ, ih, Finset.sum_range_succ,
      Finset.sum_range_succ]
    ring

/-- The transform of `2 * h` values from those of the even and of the odd ones -/
theorem dft_split (h : Nat) (hh : 0 < h) (y : Buf) (k : Nat) :
    dft (2 * h) y k = dft h (fun i => y (2 * i)) k + dft h (fun i => y (2 * i + 1)) k * W (2 * h) ^ k := by
  simp only [dft_eq]
  rw [sum_even_odd, Finset.sum_mul]
  congr 1
  · refine Finset.sum_congr rfl fun i _ => ?_
    rw [show 2 * i * k = 2 * (i * k) by ring, pow_mul, W_double h hh]
  · refine Finset.sum_congr rfl fun i _ => ?_
    rw [show (2 * i + 1) * k = 2 * (i * k) + k by ring, pow_add, pow_mul, W_double h hh]; ring

theorem dft_shift (h : Nat) (hh : 0 < h) (y : Buf) (k : Nat) : dft h y (k + h) = dft h y k := by
  simp only [dft_eq]
  refine Finset.sum_congr rfl fun i _ => ?_
  rw [show i * (k + h) = i * k + h * i by ring, pow_add, pow_mul _ h i, W_self h hh, one_pow, mul_one]

theorem dft_congr {N : Nat} {x y : Buf} (h : ∀ i < N, x i = y i) (k : Nat) : dft N x k = dft N y k := by
  unfold dft
  exact Finset.sum_congr rfl fun i hi => by rw [h i (Finset.mem_range.1 hi)]

/-- After the stages with blocks up to `2 ^ s`, the block number `q` holds the transform of the values at distance `2 ^ (t - s)`. -/
theorem stages_inv (x : Buf) (s u : Nat) (q k : Nat) (hq : q < 2 ^ u) (hk : k < 2 ^ s) (d : Buf)
    (hd : ∀ p < 2 ^ (u + s), d p = x (rev (u + s) p)) :
    stages (2 ^ (u + s)) d s (q * 2 ^ s + k) = dft (2 ^ s) (fun i => x (rev u q + 2 ^ u * i)) k := by
  induction s generalizing u q k with
  | zero =>
    have : k = 0 := by simpa using hk
    subst this
    simp only [stages, loop, dft_eq]
    have := hd q (by simpa using hq)
    simpa using this
  | succ s ih =>
    have hpos : 0 < 2 ^ s := Nat.two_pow_pos s
    have hup : 2 ^ (u + 1) = 2 * 2 ^ u := by rw [Nat.pow_succ]; omega
    have hsp : 2 ^ (s + 1) = 2 * 2 ^ s := by rw [Nat.pow_succ]; omega
    have hN : 2 ^ (u + (s + 1)) = 2 ^ u * (2 * 2 ^ s) := by rw [Nat.pow_add, hsp]
    have hN' : u + (s + 1) = u + 1 + s := by omega
    have hst : stages (2 ^ (u + (s + 1))) d (s + 1) =
        stage (2 ^ u * (2 * 2 ^ s)) (2 * 2 ^ s) (stages (2 ^ (u + (s + 1))) d s) := by
      rw [← hN]; rfl
    have ev : ∀ j < 2 ^ s, stages (2 ^ (u + (s + 1))) d s (q * (2 * 2 ^ s) + j) =
        dft (2 ^ s) (fun i => x (rev u q + 2 ^ u * (2 * i))) j := by
      intro j hj
      have := ih (u + 1) (2 * q) j (by omega) hj (by rw [← hN']; exact hd)
      rw [← hN', show 2 * q * 2 ^ s = q * (2 * 2 ^ s) by ring] at this
      rw [this]
      refine dft_congr (fun i _ => ?_) j
      rw [rev_succ, show 2 * q % 2 = 0 by omega, show 2 * q / 2 = q by omega, hup]
      congr 1; ring
    have od : ∀ j < 2 ^ s, stages (2 ^ (u + (s + 1))) d s (q * (2 * 2 ^ s) + j + 2 ^ s) =
        dft (2 ^ s) (fun i => x (rev u q + 2 ^ u * (2 * i + 1))) j := by
      intro j hj
      have := ih (u + 1) (2 * q + 1) j (by omega) hj (by rw [← hN']; exact hd)
      rw [← hN', show (2 * q + 1) * 2 ^ s + j = q * (2 * 2 ^ s) + j + 2 ^ s by ring] at this
      rw [this]
      refine dft_congr (fun i _ => ?_) j
      rw [rev_succ, show (2 * q + 1) % 2 = 1 by omega, show (2 * q + 1) / 2 = q by omega, hup]
      congr 1; ring
    rw [hst, hsp, dft_split _ hpos]
    by_cases hk' : k < 2 ^ s
    · rw [(stage_at (2 ^ u) (2 ^ s) hpos _ q k hq hk').1, ev k hk', od k hk']
    · obtain ⟨j, rfl⟩ : ∃ j, k = j + 2 ^ s := ⟨k - 2 ^ s, by omega⟩
      have hj : j < 2 ^ s := by omega
      rw [← Nat.add_assoc (q * _), (stage_at (2 ^ u) (2 ^ s) hpos _ q j hq hj).2, ev j hj, od j hj, dft_shift _ hpos, dft_shift _ hpos,
        pow_add, W_half _ hpos]
      ring

theorem radix2_dft (t : Nat) (x : Buf) (k : Nat) (hk : k < 2 ^ t) : radix2 (2 ^ t) x k = dft (2 ^ t) x k := by
  rw [radix2, ctz_pow]
  have := stages_inv x t 0 0 k (by simp) hk (loop (swapStep (2 ^ t)) x (2 ^ t))
    (by intro p hp; rw [Nat.zero_add] at hp ⊢; exact permuted t x p hp)
  simp only [Nat.zero_add, Nat.zero_mul, Nat.pow_zero, Nat.one_mul] at this
  rw [this]
  exact dft_congr (fun i _ => by simp [rev, revLoop]) k

end Verif.Fft
