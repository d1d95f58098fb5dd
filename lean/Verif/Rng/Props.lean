import Verif.Rng.Model
/-!
# C131: the random number generator
-/
namespace Verif.Rng

/-! ## Seeding -/

theorem xor_cancel_left {w : Nat} {a b c : BitVec w} (h : a ^^^ b = a ^^^ c) : b = c := by
  have h' := congrArg (a ^^^ ·) h
  simpa only [← BitVec.xor_assoc, BitVec.xor_self, BitVec.zero_xor] using h'

/-- A number that equals itself shifted is 0. -/
theorem eq_shift {d : BitVec 64} {k : Nat} (hk : 0 < k) (h : d = d >>> k) : d = 0#64 := by
  have key : ∀ n i, 64 ≤ i + n → d.getLsbD i = false := by
    intro n
    induction n with
    | zero => intro i hi; exact BitVec.getLsbD_of_ge d i (by omega)
    | succ n ih =>
      intro i hi
      rw [h, BitVec.getLsbD_ushiftRight]
      exact ih (k + i) (by omega)
  apply BitVec.eq_of_getLsbD_eq
  intro i _
  rw [key 64 i (by omega)]
  simp

theorem xorShift_injective {k : Nat} (hk : 0 < k) {x y : BitVec 64} (h : x ^^^ (x >>> k) = y ^^^ (y >>> k)) :
    x = y := by
  have hd : x ^^^ y = (x ^^^ y) >>> k := by
    rw [BitVec.ushiftRight_xor_distrib]
    have h1 : x ^^^ (x >>> k) ^^^ (x >>> k ^^^ y) = y ^^^ (y >>> k) ^^^ (x >>> k ^^^ y) := by rw [h]
    have e1 : x ^^^ (x >>> k) ^^^ (x >>> k ^^^ y) = x ^^^ y := by
      rw [BitVec.xor_assoc, ← BitVec.xor_assoc (x >>> k), BitVec.xor_self, BitVec.zero_xor]
    have e2 : y ^^^ (y >>> k) ^^^ (x >>> k ^^^ y) = x >>> k ^^^ y >>> k := by
      rw [BitVec.xor_comm y, BitVec.xor_comm (x >>> k) y, BitVec.xor_assoc, ← BitVec.xor_assoc y, BitVec.xor_self,
        BitVec.zero_xor, BitVec.xor_comm]
    rw [e1, e2] at h1
    exact h1
  have hz := eq_shift hk hd
  have h2 := congrArg (x ^^^ ·) hz
  simp only [← BitVec.xor_assoc, BitVec.xor_self, BitVec.zero_xor, BitVec.xor_zero] at h2
  exact h2.symm

theorem mul_injective {c d : BitVec 64} (h1 : c * d = 1#64) {x y : BitVec 64} (h : x * c = y * c) : x = y := by
  have h' := congrArg (· * d) h
  simpa only [BitVec.mul_assoc, h1, BitVec.mul_one] using h'

/-- Different numbers are mixed to different numbers. -/
theorem mix_injective {x y : BitVec 64} (h : mix x = mix y) : x = y := by
  unfold mix at h
  have h1 := xorShift_injective (by omega) h
  have h2 := mul_injective (d := 0x319642b2d24d8ec3#64) (by decide) h1
  have h3 := xorShift_injective (by omega) h2
  have h4 := mul_injective (d := 0x96de1b173f119089#64) (by decide) h3
  exact xorShift_injective (by omega) h4

/-- **No seed gives the state 0**, in which the generator would give zeros for ever. -/
theorem seed_nonzero (x : BitVec 64) : seed x ≠ ⟨0#64, 0#64, 0#64, 0#64⟩ := by
  intro h
  have h0 : mix (x + increment) = 0#64 := congrArg Xo.s0 h
  have h1 : mix (x + increment + increment) = 0#64 := congrArg Xo.s1 h
  have h2 := mix_injective (h0.trans h1.symm)
  have h3 : increment = 0#64 := by
    have h4 : x + increment - (x + increment) = x + increment + increment - (x + increment) :=
      congrArg (· - (x + increment)) h2
    rw [BitVec.sub_self, BitVec.add_comm (x + increment) increment, BitVec.add_sub_cancel] at h4
    exact h4.symm
  exact absurd h3 (by decide)

/-- Different seeds give different states. -/
theorem seed_injective {x y : BitVec 64} (h : seed x = seed y) : x = y := by
  have h0 : mix (x + increment) = mix (y + increment) := congrArg Xo.s0 h
  have h1 := mix_injective h0
  have := congrArg (· - increment) h1
  simpa only [BitVec.add_sub_cancel] using this

/-! ## The sequence of states -/

/-- `x ^ (x << 17)` undone. -/
def unshift (y : BitVec 64) : BitVec 64 := y ^^^ y <<< 17 ^^^ y <<< 34 ^^^ y <<< 51

theorem unshift_left (x : BitVec 64) : unshift (x ^^^ x <<< 17) = x := by
  have h : ∀ a : BitVec 64, a <<< 17 <<< 51 = 0#64 := by
    intro a; rw [← BitVec.shiftLeft_add]; exact BitVec.shiftLeft_eq_zero (by omega)
  unfold unshift
  simp only [BitVec.shiftLeft_xor_distrib, ← BitVec.shiftLeft_add]
  have h68 : x <<< (17 + 51) = 0#64 := BitVec.shiftLeft_eq_zero (by omega)
  simp only [Nat.reduceAdd] at h68 ⊢
  rw [h68, BitVec.xor_zero]
  generalize x <<< 17 = a
  generalize x <<< 34 = b
  generalize x <<< 51 = c
  rw [BitVec.xor_assoc x a, ← BitVec.xor_assoc a a, BitVec.xor_self, BitVec.zero_xor, BitVec.xor_assoc x b,
    ← BitVec.xor_assoc b b, BitVec.xor_self, BitVec.zero_xor, BitVec.xor_assoc x c, BitVec.xor_self, BitVec.xor_zero]

/-- The state before. -/
def prev (s : Xo) : Xo :=
  -- the state after is (a ^ d ^ b, b ^ c ^ a, c ^ a ^ (b << 17), rotl (d ^ b) 45)
  let db := s.s3.rotateRight 45
  let a := s.s0 ^^^ db
  -- s1 ^ s2 = b ^ (b << 17)
  let b := unshift (s.s1 ^^^ s.s2)
  ⟨a, b, s.s1 ^^^ b ^^^ a, db ^^^ b⟩

theorem rotate_back (x : BitVec 64) : (x.rotateLeft 45).rotateRight 45 = x := by
  apply BitVec.eq_of_getLsbD_eq
  intro i hi
  rw [BitVec.getLsbD_rotateRight, BitVec.getLsbD_rotateLeft, BitVec.getLsbD_rotateLeft]
  simp only [Nat.reduceMod, Nat.reduceSub]
  by_cases h : i < 19
  · have h1 : ¬ 45 + i < 45 := by omega
    have h2 : 45 + i < 64 := by omega
    simp only [h, h1, h2, decide_true, decide_false, cond_true, cond_false, Bool.true_and,
      show 45 + i - 45 = i by omega]
  · have h1 : i - 19 < 45 := by omega
    simp only [h, hi, h1, decide_true, decide_false, cond_true, cond_false, Bool.true_and,
      show 19 + (i - 19) = i by omega]

/-- **No two states have the same successor**: the step can be undone. -/
theorem step_undone (s : Xo) : prev (next s).2 = s := by
  obtain ⟨a, b, c, d⟩ := s
  simp only [prev, next, rotate_back]
  have hb : b ^^^ (c ^^^ a) ^^^ (c ^^^ a ^^^ b <<< 17) = b ^^^ b <<< 17 := by
    rw [BitVec.xor_assoc b, ← BitVec.xor_assoc (c ^^^ a) (c ^^^ a), BitVec.xor_self, BitVec.zero_xor]
  rw [hb, unshift_left]
  have ha : a ^^^ (d ^^^ b) ^^^ (d ^^^ b) = a := by rw [BitVec.xor_assoc, BitVec.xor_self, BitVec.xor_zero]
  have hc : b ^^^ (c ^^^ a) ^^^ b ^^^ a = c := by
    rw [BitVec.xor_comm b (c ^^^ a), BitVec.xor_assoc (c ^^^ a) b b, BitVec.xor_self, BitVec.xor_zero,
      BitVec.xor_assoc, BitVec.xor_self, BitVec.xor_zero]
  have hd : d ^^^ b ^^^ b = d := by rw [BitVec.xor_assoc, BitVec.xor_self, BitVec.xor_zero]
  rw [ha, hc, hd]

/-- The state after `n` numbers. -/
def stateAfter (n : Nat) (s : Xo) : Xo := (fillRaw n s).2

theorem stateAfter_succ (n : Nat) (s : Xo) : stateAfter (n + 1) s = (next (stateAfter n s)).2 := by
  induction n generalizing s with
  | zero => rfl
  | succ n ih => exact ih (next s).2

/-- **The state 0 is never reached** from a seed. -/
theorem never_zero (x : BitVec 64) (n : Nat) : stateAfter n (seed x) ≠ ⟨0#64, 0#64, 0#64, 0#64⟩ := by
  induction n with
  | zero => exact seed_nonzero x
  | succ n ih =>
    intro h
    rw [stateAfter_succ] at h
    have h1 := step_undone (stateAfter n (seed x))
    rw [h] at h1
    exact ih (h1.symm.trans (by decide))

/-! ## Ranges -/

theorem uniform01_eq (F : Prec) (raw : BitVec 64) : ∃ k n : Nat, uniform01 F raw = (k : Rat) / (n : Rat) ∧ k < n ∧
    (F = .single → n = 2 ^ 24 ∧ k = raw.toNat / 2 ^ 40) ∧ (F = .double → n = 2 ^ 53 ∧ k = raw.toNat / 2 ^ 11) := by
  cases F with
  | single =>
    refine ⟨(raw >>> 40).toNat, 2 ^ 24, rfl, ?_, fun _ => ⟨rfl, ?_⟩, nofun⟩
    · rw [BitVec.toNat_ushiftRight, Nat.shiftRight_eq_div_pow]
      have := raw.isLt
      omega
    · rw [BitVec.toNat_ushiftRight, Nat.shiftRight_eq_div_pow]
  | double =>
    refine ⟨(raw >>> 11).toNat, 2 ^ 53, rfl, ?_, nofun, fun _ => ⟨rfl, ?_⟩⟩
    · rw [BitVec.toNat_ushiftRight, Nat.shiftRight_eq_div_pow]
      have := raw.isLt
      omega
    · rw [BitVec.toNat_ushiftRight, Nat.shiftRight_eq_div_pow]

/-- Numbers between 0 and 1, without 1. -/
theorem uniform01_range (F : Prec) (raw : BitVec 64) : 0 ≤ uniform01 F raw ∧ uniform01 F raw < 1 := by
  obtain ⟨k, n, h, hk, -⟩ := uniform01_eq F raw
  have hn : (0 : Rat) < n := Rat.natCast_pos.2 (by omega)
  rw [h]
  constructor
  · rw [← Rat.not_lt, Rat.div_lt_iff hn, Rat.zero_mul]
    exact Rat.not_lt.2 Rat.natCast_nonneg
  · rw [Rat.div_lt_iff hn, Rat.one_mul]
    exact Rat.natCast_lt_natCast.2 hk

/-- Numbers between -1 and 1, without 1. -/
theorem uniformM11_range (F : Prec) (raw : BitVec 64) : -1 ≤ uniformM11 F raw ∧ uniformM11 F raw < 1 := by
  obtain ⟨h1, h2⟩ := uniform01_range F raw
  unfold uniformM11
  constructor <;> grind

/-- So are the sums of two, less one. -/
theorem triangular_range (F : Prec) (s : Xo) : -1 ≤ (triangular F s).1 ∧ (triangular F s).1 < 1 := by
  obtain ⟨h1, h2⟩ := uniform01_range F (next s).1
  obtain ⟨h3, h4⟩ := uniform01_range F (next (next s).2).1
  unfold triangular
  constructor <;> simp only <;> grind

/-- **Every one of the numbers 0, 1/n, 2/n, … below 1 comes about, and each from equally many raw
numbers**: those with the same leading bits. -/
theorem uniform01_even (k : Nat) :
    (k < 2 ^ 24 → ∀ raw : BitVec 64, uniform01 .single raw = (k : Rat) / (2 ^ 24 : Nat) ↔
      k * 2 ^ 40 ≤ raw.toNat ∧ raw.toNat < (k + 1) * 2 ^ 40) ∧
    (k < 2 ^ 53 → ∀ raw : BitVec 64, uniform01 .double raw = (k : Rat) / (2 ^ 53 : Nat) ↔
      k * 2 ^ 11 ≤ raw.toNat ∧ raw.toNat < (k + 1) * 2 ^ 11) := by
  have key : ∀ (j n : Nat), 0 < n → ((j : Rat) / (n : Rat) = (k : Rat) / (n : Rat) ↔ j = k) := by
    intro j n hn
    have hn' : ((n : Nat) : Rat) ≠ 0 := fun hz => by
      have := Rat.natCast_eq_zero_iff.1 hz
      omega
    constructor
    · intro h
      have h1 : (j : Rat) = k := by
        have : (j : Rat) / (n : Rat) * (n : Rat) = (k : Rat) / (n : Rat) * (n : Rat) := congrArg (· * (n : Rat)) h
        rwa [Rat.div_mul_cancel hn', Rat.div_mul_cancel hn'] at this
      exact Rat.natCast_inj.1 h1
    · rintro rfl; rfl
  constructor
  · intro hk raw
    obtain ⟨j, n, h, -, h1, -⟩ := uniform01_eq .single raw
    obtain ⟨rfl, rfl⟩ := h1 rfl
    rw [h, key _ _ (by omega)]
    omega
  · intro hk raw
    obtain ⟨j, n, h, -, -, h1⟩ := uniform01_eq .double raw
    obtain ⟨rfl, rfl⟩ := h1 rfl
    rw [h, key _ _ (by omega)]
    omega

/-- The first numbers after the seed 0; the reference implementation gives the same. -/
example : (fillRaw 2 (seed 0)).1 = [0x53175d61490b23df#64, 0x61da6f3dc380d507#64] := by decide +kernel

end Verif.Rng
