import Verif.Crc.Spec
namespace Verif.Crc

variable {w : Nat}

theorem bitStep_xor (p a b : BitVec w) : bitStep p (a ^^^ b) = bitStep p a ^^^ bitStep p b := by
  unfold bitStep
  rw [BitVec.ushiftRight_xor_distrib]
  simp only [BitVec.getLsbD_xor]
  cases a.getLsbD 0 <;> cases b.getLsbD 0 <;> simp
  · ac_rfl
  · ac_rfl
  · have : a >>> 1 ^^^ p ^^^ (b >>> 1 ^^^ p) = a >>> 1 ^^^ b >>> 1 ^^^ (p ^^^ p) := by ac_rfl
    rw [this]; simp

theorem bitSteps_xor (p : BitVec w) (k : Nat) (a b : BitVec w) :
    bitSteps p k (a ^^^ b) = bitSteps p k a ^^^ bitSteps p k b := by
  induction k generalizing a b with
  | zero => rfl
  | succ k ih => simp only [bitSteps, bitStep_xor, ih]

theorem bitSteps_add (p : BitVec w) (j k : Nat) (a : BitVec w) :
    bitSteps p (j + k) a = bitSteps p k (bitSteps p j a) := by
  induction j generalizing a with
  | zero => simp [bitSteps]
  | succ j ih => rw [Nat.succ_add]; simp only [bitSteps, ih]

theorem bitSteps_zero (p : BitVec w) (k : Nat) : bitSteps p k 0#w = 0#w := by
  have := bitSteps_xor p k 0#w 0#w
  simpa using this

/-- shifting out zero bits is a plain shift. -/
theorem bitSteps_low_zero (p : BitVec w) (k : Nat) (a : BitVec w) (h : ∀ i, i < k → a.getLsbD i = false) :
    bitSteps p k a = a >>> k := by
  induction k generalizing a with
  | zero => simp [bitSteps]
  | succ k ih =>
    simp only [bitSteps]
    have h0 : bitStep p a = a >>> 1 := by
      simp [bitStep, h 0 (by omega)]
    rw [h0, ih]
    · rw [← BitVec.shiftRight_add, Nat.add_comm]
    · intro i hi
      rw [BitVec.getLsbD_ushiftRight]
      exact h _ (by omega)

/-- eight steps: the low byte goes through the table, the rest is shifted. -/
theorem bitSteps8_split (p a : BitVec w) :
    bitSteps p 8 a = (a >>> 8) ^^^ bitSteps p 8 ((a.setWidth 8).setWidth w) := by
  have hsplit : a = (a ^^^ (a.setWidth 8).setWidth w) ^^^ (a.setWidth 8).setWidth w := by
    rw [BitVec.xor_assoc]; simp
  conv => lhs; rw [hsplit]
  rw [bitSteps_xor, bitSteps_low_zero]
  · congr 1
    rw [BitVec.ushiftRight_xor_distrib]
    have : (((a.setWidth 8).setWidth w) >>> 8 : BitVec w) = 0#w := by
      apply BitVec.eq_of_getLsbD_eq
      intro i hi
      simp [BitVec.getLsbD_ushiftRight, BitVec.getLsbD_setWidth]
    rw [this]; simp
  · intro i hi
    simp [BitVec.getLsbD_xor, BitVec.getLsbD_setWidth, hi]
    intro h
    rcases Nat.lt_or_ge i w with h1 | h1
    · exact h1
    · rw [BitVec.getLsbD_of_ge _ _ h1] at h; cases h

theorem table_eq (p : BitVec w) (i : Nat) (b : Byte) :
    table p i b = bitSteps p (8 * (i + 1)) (b.setWidth w) := by
  induction i with
  | zero => rfl
  | succ i ih =>
    rw [table, ih]
    rw [← bitSteps8_split, ← bitSteps_add]
    rfl

/-- the byte at position `k` (counted in bits) zero-extended; what the C++ index expression selects. -/
theorem setWidth8_xor (a b : BitVec w) : (a ^^^ b).setWidth 8 = a.setWidth 8 ^^^ b.setWidth 8 := by
  simp

theorem setWidth_byte_shift (b : Byte) (hw : True) : ((b.setWidth w) >>> 8 : BitVec w) = 0#w := by
  apply BitVec.eq_of_getLsbD_eq
  intro i hi
  rw [BitVec.getLsbD_ushiftRight, BitVec.getLsbD_setWidth]
  simp [BitVec.getLsbD_of_ge b (8 + i) (by omega)]

theorem step_eq (p c : BitVec w) (b : Byte) : step p c b = bitSteps p 8 (c ^^^ b.setWidth w) := by
  rw [bitSteps8_split p (c ^^^ b.setWidth w), step, BitVec.ushiftRight_xor_distrib, setWidth_byte_shift b trivial]
  simp [table]

theorem lfsr_eq (p c : BitVec w) (b : Bool) (hw : 0 < w) :
    lfsr p c b = bitStep p (c ^^^ (BitVec.ofBool b).setWidth w) := by
  have hs : (((BitVec.ofBool b).setWidth w) >>> 1 : BitVec w) = 0#w := by
    apply BitVec.eq_of_getLsbD_eq
    intro i hi
    rw [BitVec.getLsbD_ushiftRight, BitVec.getLsbD_setWidth]
    simp [BitVec.getLsbD_of_ge (BitVec.ofBool b) (1 + i) (by omega)]
  unfold lfsr bitStep
  rw [BitVec.ushiftRight_xor_distrib, hs]
  simp only [BitVec.xor_zero, BitVec.getLsbD_xor]
  have hb : ((BitVec.ofBool b).setWidth w).getLsbD 0 = b := by
    rw [BitVec.getLsbD_setWidth]; cases b <;> simp [hw]
  rw [hb]
  split <;> simp

/-- The bit vector with the given low bits. -/
def ofBits (w : Nat) : List Bool → BitVec w
  | [] => 0#w
  | b :: bs => (BitVec.ofBool b).setWidth w ^^^ (ofBits w bs <<< 1)

theorem ofBits_getLsbD (bs : List Bool) (i : Nat) (hi : i < w) :
    (ofBits w bs).getLsbD i = (bs[i]?).getD false := by
  induction bs generalizing i with
  | nil => simp [ofBits]
  | cons b bs ih =>
    simp only [ofBits, BitVec.getLsbD_xor, BitVec.getLsbD_setWidth, BitVec.getLsbD_shiftLeft, hi]
    cases i with
    | zero => cases b <;> simp
    | succ i =>
      rw [BitVec.getLsbD_of_ge _ (i+1) (by omega)]
      simp [ih i (by omega)]

/-- shifting in a list of at most `w` bits. -/
theorem lfsr_foldl (p : BitVec w) (bs : List Bool) (hlen : bs.length ≤ w) (c : BitVec w) :
    bs.foldl (lfsr p) c = bitSteps p bs.length (c ^^^ ofBits w bs) := by
  induction bs generalizing c with
  | nil => simp [ofBits, bitSteps]
  | cons b bs ih =>
    simp only [List.length_cons] at hlen
    simp only [List.foldl_cons, List.length_cons, ofBits, bitSteps]
    rw [ih (by omega), lfsr_eq p c b (by omega), ← BitVec.xor_assoc, bitStep_xor _ (c ^^^ _)]
    congr 2
    apply BitVec.eq_of_getLsbD_eq
    intro i hi
    have hlow : (ofBits w bs <<< 1).getLsbD 0 = false := by
      simp [BitVec.getLsbD_shiftLeft]
    simp only [bitStep, hlow]
    simp only [Bool.false_eq_true, if_false, BitVec.xor_zero, BitVec.getLsbD_ushiftRight,
      BitVec.getLsbD_shiftLeft]
    by_cases h1 : 1 + i < w
    · simp [h1]
    · have : i = w - 1 := by omega
      rw [ofBits_getLsbD bs i hi, List.getElem?_eq_none (by omega)]
      simp [h1]

theorem ofBits_bits (b : Byte) (hw : 8 ≤ w) : ofBits w (bits b) = b.setWidth w := by
  apply BitVec.eq_of_getLsbD_eq
  intro i hi
  rw [ofBits_getLsbD _ _ hi, BitVec.getLsbD_setWidth]
  simp only [hi, decide_true, Bool.true_and, bits]
  by_cases h : i < 8
  · match i, h with
    | 0, _ => rfl
    | 1, _ => rfl
    | 2, _ => rfl
    | 3, _ => rfl
    | 4, _ => rfl
    | 5, _ => rfl
    | 6, _ => rfl
    | 7, _ => rfl
  · rw [List.getElem?_eq_none (by simp; omega), BitVec.getLsbD_of_ge _ _ (by omega)]; rfl

theorem step_eq_lfsr (p c : BitVec w) (b : Byte) (hw : 8 ≤ w) : step p c b = (bits b).foldl (lfsr p) c := by
  rw [lfsr_foldl p (bits b) (by simpa [bits] using hw), ofBits_bits b hw, step_eq]
  rfl

theorem foldl_step_eq (p c : BitVec w) (m : List Byte) (hw : 8 ≤ w) :
    m.foldl (step p) c = (msgBits m).foldl (lfsr p) c := by
  induction m generalizing c with
  | nil => rfl
  | cons b m ih =>
    simp only [List.foldl_cons, msgBits, List.flatMap_cons, List.foldl_append]
    rw [step_eq_lfsr p c b hw]
    exact ih _

/-! ### slice-by-eight -/

theorem or_step (x : BitVec 64) (b : Byte) (k : Nat) (hx : x.toNat < 2 ^ k) (hk : k + 8 ≤ 64) :
    (x ||| (b.setWidth 64 <<< k)).toNat = x.toNat + b.toNat * 2 ^ k := by
  have hb : b.toNat < 2 ^ 8 := b.isLt
  have hbk : b.toNat * 2 ^ k < 2 ^ 64 := by
    calc b.toNat * 2 ^ k < 2 ^ 8 * 2 ^ k := by
            exact Nat.mul_lt_mul_of_pos_right hb (Nat.two_pow_pos k)
      _ = 2 ^ (8 + k) := by rw [Nat.pow_add]
      _ ≤ 2 ^ 64 := Nat.pow_le_pow_right (by omega) (by omega)
  have h1 : (b.setWidth 64 <<< k).toNat = b.toNat * 2 ^ k := by
    rw [BitVec.toNat_shiftLeft, BitVec.toNat_setWidth, Nat.mod_eq_of_lt (by omega : b.toNat < 2 ^ 64),
      Nat.shiftLeft_eq, Nat.mod_eq_of_lt hbk]
  rw [BitVec.toNat_or, h1]
  have := Nat.shiftLeft_add_eq_or_of_lt hx b.toNat
  rw [Nat.shiftLeft_eq] at this
  rw [Nat.or_comm, ← this, Nat.add_comm]

theorem block_toNat (b0 b1 b2 b3 b4 b5 b6 b7 : Byte) :
    (block b0 b1 b2 b3 b4 b5 b6 b7).toNat =
      b0.toNat + b1.toNat * 2 ^ 8 + b2.toNat * 2 ^ 16 + b3.toNat * 2 ^ 24 + b4.toNat * 2 ^ 32 + b5.toNat * 2 ^ 40
        + b6.toNat * 2 ^ 48 + b7.toNat * 2 ^ 56 := by
  have h0 := b0.isLt
  have h1 := b1.isLt
  have h2 := b2.isLt
  have h3 := b3.isLt
  have h4 := b4.isLt
  have h5 := b5.isLt
  have h6 := b6.isLt
  have h7 := b7.isLt
  have e0 : (0#64 ||| (b0.setWidth 64 <<< 0)).toNat = b0.toNat := by
    rw [or_step _ _ _ (by simp) (by omega)]; simp
  unfold block
  have e1 := or_step (0#64 ||| (b0.setWidth 64 <<< 0)) b1 8 (by omega) (by omega)
  have e2 := or_step _ b2 16 (by rw [e1]; omega) (by omega)
  have e3 := or_step _ b3 24 (by rw [e2, e1]; omega) (by omega)
  have e4 := or_step _ b4 32 (by rw [e3, e2, e1]; omega) (by omega)
  have e5 := or_step _ b5 40 (by rw [e4, e3, e2, e1]; omega) (by omega)
  have e6 := or_step _ b6 48 (by rw [e5, e4, e3, e2, e1]; omega) (by omega)
  have e7 := or_step _ b7 56 (by rw [e6, e5, e4, e3, e2, e1]; omega) (by omega)
  rw [e7, e6, e5, e4, e3, e2, e1, e0]

theorem block_byte (b0 b1 b2 b3 b4 b5 b6 b7 : Byte) :
    (block b0 b1 b2 b3 b4 b5 b6 b7).setWidth 8 = b0 ∧
    ((block b0 b1 b2 b3 b4 b5 b6 b7) >>> 8).setWidth 8 = b1 ∧
    ((block b0 b1 b2 b3 b4 b5 b6 b7) >>> 16).setWidth 8 = b2 ∧
    ((block b0 b1 b2 b3 b4 b5 b6 b7) >>> 24).setWidth 8 = b3 ∧
    ((block b0 b1 b2 b3 b4 b5 b6 b7) >>> 32).setWidth 8 = b4 ∧
    ((block b0 b1 b2 b3 b4 b5 b6 b7) >>> 40).setWidth 8 = b5 ∧
    ((block b0 b1 b2 b3 b4 b5 b6 b7) >>> 48).setWidth 8 = b6 ∧
    ((block b0 b1 b2 b3 b4 b5 b6 b7) >>> 56).setWidth 8 = b7 := by
  have h0 := b0.isLt
  have h1 := b1.isLt
  have h2 := b2.isLt
  have h3 := b3.isLt
  have h4 := b4.isLt
  have h5 := b5.isLt
  have h6 := b6.isLt
  have h7 := b7.isLt
  have hb := block_toNat b0 b1 b2 b3 b4 b5 b6 b7
  refine ⟨?_, ?_, ?_, ?_, ?_, ?_, ?_, ?_⟩ <;> apply BitVec.eq_of_toNat_eq <;>
    simp only [BitVec.toNat_setWidth, BitVec.toNat_ushiftRight, Nat.shiftRight_eq_div_pow, hb] <;> omega

/-- low byte of a shifted, truncated block. -/
theorem trunc_byte (x : BitVec 64) (n k : Nat) (h : k + 8 ≤ n) :
    ((x.setWidth n) >>> k).setWidth 8 = (x >>> k).setWidth 8 := by
  apply BitVec.eq_of_getLsbD_eq
  intro i hi
  simp only [BitVec.getLsbD_setWidth, BitVec.getLsbD_ushiftRight]
  simp [hi, show k + i < n by omega]

/-- peel one byte off the register. -/
theorem bitSteps_peel (p a : BitVec w) (k : Nat) :
    bitSteps p (8 + k) a = bitSteps p (8 + k) ((a.setWidth 8).setWidth w) ^^^ bitSteps p k (a >>> 8) := by
  rw [bitSteps_add, bitSteps8_split, bitSteps_xor, ← bitSteps_add, BitVec.xor_comm]

theorem shr_shr (a : BitVec w) (i j : Nat) : (a >>> i) >>> j = a >>> (i + j) := by
  rw [BitVec.shiftRight_add]

theorem advance8_32_eq (p c : BitVec 32) (b0 b1 b2 b3 b4 b5 b6 b7 : Byte) :
    advance8_32 p c (block b0 b1 b2 b3 b4 b5 b6 b7) = [b0, b1, b2, b3, b4, b5, b6, b7].foldl (step p) c := by
  obtain ⟨e0, e1, e2, e3, e4, e5, e6, e7⟩ := block_byte b0 b1 b2 b3 b4 b5 b6 b7
  have hc : bitSteps p 64 c = bitSteps p 64 ((c.setWidth 8).setWidth 32) ^^^
      (bitSteps p 56 (((c >>> 8).setWidth 8).setWidth 32) ^^^
      (bitSteps p 48 (((c >>> 16).setWidth 8).setWidth 32) ^^^
       bitSteps p 40 (((c >>> 24).setWidth 8).setWidth 32))) := by
    rw [bitSteps_peel p c 56, bitSteps_peel p (c >>> 8) 48, shr_shr, bitSteps_peel p (c >>> 16) 40, shr_shr,
      bitSteps_peel p (c >>> 24) 32, shr_shr]
    have : c >>> (24 + 8) = 0#32 := by
      apply BitVec.eq_of_getLsbD_eq; intro i hi
      rw [BitVec.getLsbD_ushiftRight, BitVec.getLsbD_of_ge _ _ (by omega)]; simp
    rw [this, bitSteps_zero, BitVec.xor_zero]
  simp only [advance8_32, List.foldl_cons, List.foldl_nil, step_eq, bitSteps_xor, ← bitSteps_add, table_eq]
  simp only [BitVec.ushiftRight_xor_distrib, setWidth8_xor]
  rw [trunc_byte _ 32 8 (by omega), trunc_byte _ 32 16 (by omega), trunc_byte _ 32 24 (by omega),
    trunc_byte _ 32 8 (by omega), trunc_byte _ 32 16 (by omega), trunc_byte _ 32 24 (by omega)]
  have f0 : ((block b0 b1 b2 b3 b4 b5 b6 b7).setWidth 32).setWidth 8 = b0 := by
    have := trunc_byte (block b0 b1 b2 b3 b4 b5 b6 b7) 32 0 (by omega)
    simpa [e0] using this
  have f4 : (((block b0 b1 b2 b3 b4 b5 b6 b7) >>> 32).setWidth 32).setWidth 8 = b4 := by
    have := trunc_byte ((block b0 b1 b2 b3 b4 b5 b6 b7) >>> 32) 32 0 (by omega)
    simpa [e4] using this
  simp only [shr_shr, Nat.reduceAdd, e0, e1, e2, e3, e4, e5, e6, e7, f0, f4, BitVec.setWidth_xor, bitSteps_xor]
  simp only [Nat.reduceMul, Nat.reduceAdd, hc]
  ac_rfl

theorem advance8_16_eq (p c : BitVec 16) (b0 b1 b2 b3 b4 b5 b6 b7 : Byte) :
    advance8_16 p c (block b0 b1 b2 b3 b4 b5 b6 b7) = [b0, b1, b2, b3, b4, b5, b6, b7].foldl (step p) c := by
  obtain ⟨e0, e1, e2, e3, e4, e5, e6, e7⟩ := block_byte b0 b1 b2 b3 b4 b5 b6 b7
  have hc : bitSteps p 64 c = bitSteps p 64 ((c.setWidth 8).setWidth 16) ^^^
       bitSteps p 56 (((c >>> 8).setWidth 8).setWidth 16) := by
    rw [bitSteps_peel p c 56, bitSteps_peel p (c >>> 8) 48, shr_shr]
    have : c >>> (8 + 8) = 0#16 := by
      apply BitVec.eq_of_getLsbD_eq; intro i hi
      rw [BitVec.getLsbD_ushiftRight, BitVec.getLsbD_of_ge _ _ (by omega)]; simp
    rw [this, bitSteps_zero, BitVec.xor_zero]
  simp only [advance8_16, List.foldl_cons, List.foldl_nil, step_eq, bitSteps_xor, ← bitSteps_add, table_eq]
  simp only [BitVec.ushiftRight_xor_distrib, setWidth8_xor]
  rw [trunc_byte _ 16 8 (by omega)]
  have f0 : ((block b0 b1 b2 b3 b4 b5 b6 b7).setWidth 16).setWidth 8 = b0 := by
    have := trunc_byte (block b0 b1 b2 b3 b4 b5 b6 b7) 16 0 (by omega)
    simpa [e0] using this
  simp only [e0, e1, e2, e3, e4, e5, e6, e7, f0, BitVec.setWidth_xor, bitSteps_xor]
  simp only [Nat.reduceMul, Nat.reduceAdd, hc]
  ac_rfl

/-- what the proofs need of an engine: a register of at least one byte and an `advance8` that equals eight steps. -/
structure Engine.Good (e : Engine) : Prop where
  wide : 8 ≤ e.w
  adv : ∀ c b0 b1 b2 b3 b4 b5 b6 b7, e.advance8 c (block b0 b1 b2 b3 b4 b5 b6 b7)
    = [b0, b1, b2, b3, b4, b5, b6, b7].foldl (step e.poly) c

theorem engine_good (f : Flavour) : f.engine.Good := by
  cases f
  · exact ⟨by decide, fun c => advance8_32_eq _ c⟩
  · exact ⟨by decide, fun c => advance8_32_eq _ c⟩
  · exact ⟨by decide, fun c => advance8_16_eq _ c⟩

theorem updateScalar_eq (e : Engine) (h : e.Good) (c : BitVec e.w) (m : List Byte) :
    updateScalar e c m = m.foldl (step e.poly) c := by
  fun_induction updateScalar e c m with
  | case1 c b0 b1 b2 b3 b4 b5 b6 b7 rest ih =>
    rw [ih, h.adv]; rfl
  | case2 => rfl

theorem staged_eq (e : Engine) (h : e.Good) (c : BitVec e.w) (m : List Byte) (hm : m.length % 8 = 0) :
    staged e c m = m.foldl (step e.poly) c := by
  fun_induction staged e c m with
  | case1 c b0 b1 b2 b3 b4 b5 b6 b7 rest ih =>
    rw [ih (by simp at hm; omega), h.adv]; rfl
  | case2 c m hne =>
    match m, hm, hne with
    | [], _, _ => rfl
    | b0 :: b1 :: b2 :: b3 :: b4 :: b5 :: b6 :: b7 :: rest, _, hne => exact absurd rfl (hne _ _ _ _ _ _ _ _ _)
    | [_], hm, _ | [_, _], hm, _ | [_, _, _], hm, _ | [_, _, _, _], hm, _ | [_, _, _, _, _], hm, _
    | [_, _, _, _, _, _], hm, _ | [_, _, _, _, _, _, _], hm, _ => simp at hm

theorem simdLoop_eq (e : Engine) (h : e.Good) (W : Nat) (hW : 0 < W) (h8 : W % 8 = 0) (c : BitVec e.w)
    (m : List Byte) : simdLoop e W hW c m = m.foldl (step e.poly) c := by
  fun_induction simdLoop e W hW c m with
  | case1 c p hle ih =>
    rw [ih, staged_eq e h _ _ (by simp [Nat.min_eq_left hle, h8]), ← List.foldl_append, List.take_append_drop]
  | case2 c p hle => exact updateScalar_eq e h c p

theorem updateSimd_eq (e : Engine) (h : e.Good) (W : Nat) (c : BitVec e.w) (m : List Byte) :
    updateSimd e W c m = m.foldl (step e.poly) c := by
  unfold updateSimd
  split
  · rename_i hW; exact simdLoop_eq e h W _ hW.2 c m
  · exact updateScalar_eq e h c m

/-! ### injectivity -/

theorem bitStep_eq_zero (p a : BitVec w) (hp : p.getLsbD (w - 1) = true) (h : bitStep p a = 0#w) : a = 0#w := by
  have hw : 0 < w := by
    rcases Nat.eq_zero_or_pos w with rfl | h
    · simp at hp
    · exact h
  have hbit : a.getLsbD 0 = false := by
    cases hb : a.getLsbD 0 with
    | false => rfl
    | true =>
      have := congrArg (fun x => BitVec.getLsbD x (w - 1)) h
      simp only [bitStep, hb, if_true, BitVec.getLsbD_xor, BitVec.getLsbD_ushiftRight, hp] at this
      rw [BitVec.getLsbD_of_ge a (1 + (w - 1)) (by omega)] at this
      simp at this
  apply BitVec.eq_of_getLsbD_eq
  intro i hi
  simp only [BitVec.getLsbD_zero]
  cases i with
  | zero => exact hbit
  | succ i =>
    have := congrArg (fun x => BitVec.getLsbD x i) h
    simp only [bitStep, hbit, Bool.false_eq_true, if_false, BitVec.xor_zero, BitVec.getLsbD_ushiftRight,
      BitVec.getLsbD_zero] at this
    rwa [Nat.add_comm] at this

theorem bitSteps_eq_zero (p : BitVec w) (hp : p.getLsbD (w - 1) = true) (k : Nat) (a : BitVec w)
    (h : bitSteps p k a = 0#w) : a = 0#w := by
  induction k generalizing a with
  | zero => exact h
  | succ k ih => exact bitStep_eq_zero p a hp (ih _ h)

theorem xor_eq_zero' {a b : BitVec w} (h : a ^^^ b = 0#w) : a = b := by
  have : a ^^^ b ^^^ b = 0#w ^^^ b := by rw [h]
  rw [BitVec.xor_assoc] at this
  simpa using this

theorem bitSteps_inj (p : BitVec w) (hp : p.getLsbD (w - 1) = true) (k : Nat) (a b : BitVec w)
    (h : bitSteps p k a = bitSteps p k b) : a = b := by
  apply xor_eq_zero'
  apply bitSteps_eq_zero p hp k
  rw [bitSteps_xor, h, BitVec.xor_self]

theorem lfsr_inj (p : BitVec w) (hp : p.getLsbD (w - 1) = true) (b : Bool) (c d : BitVec w)
    (h : lfsr p c b = lfsr p d b) : c = d := by
  have hw : 0 < w := by
    rcases Nat.eq_zero_or_pos w with rfl | h
    · simp at hp
    · exact h
  rw [lfsr_eq p c b hw, lfsr_eq p d b hw] at h
  have := bitSteps_inj p hp 1 _ _ (by simpa [bitSteps] using h)
  have h2 : c ^^^ (BitVec.ofBool b).setWidth w ^^^ (BitVec.ofBool b).setWidth w =
      d ^^^ (BitVec.ofBool b).setWidth w ^^^ (BitVec.ofBool b).setWidth w := by rw [this]
  simpa [BitVec.xor_assoc] using h2

theorem lfsr_foldl_inj (p : BitVec w) (hp : p.getLsbD (w - 1) = true) (s : List Bool) (c d : BitVec w)
    (h : s.foldl (lfsr p) c = s.foldl (lfsr p) d) : c = d := by
  induction s generalizing c d with
  | nil => exact h
  | cons b s ih => exact lfsr_inj p hp b _ _ (ih _ _ h)

theorem ofBits_inj (u v : List Bool) (hl : u.length = v.length) (hw : u.length ≤ w)
    (h : ofBits w u = ofBits w v) : u = v := by
  apply List.ext_getElem hl
  intro i h1 h2
  have := congrArg (fun x => BitVec.getLsbD x i) h
  simp only [ofBits_getLsbD _ _ (show i < w by omega)] at this
  simpa [h1, h2] using this

/-- two bit strings that differ only in a window no longer than the register give different registers. -/
theorem burst (p : BitVec w) (hp : p.getLsbD (w - 1) = true) (c : BitVec w) (pre u v post : List Bool)
    (hl : u.length = v.length) (hw : u.length ≤ w)
    (h : (pre ++ u ++ post).foldl (lfsr p) c = (pre ++ v ++ post).foldl (lfsr p) c) : u = v := by
  simp only [List.foldl_append] at h
  have h1 := lfsr_foldl_inj p hp _ _ _ h
  rw [lfsr_foldl p u hw, lfsr_foldl p v (by omega), hl] at h1
  have h2 := bitSteps_inj p hp _ _ _ h1
  apply ofBits_inj (w := w) u v hl hw
  have : pre.foldl (lfsr p) c ^^^ (pre.foldl (lfsr p) c ^^^ ofBits w u) =
      pre.foldl (lfsr p) c ^^^ (pre.foldl (lfsr p) c ^^^ ofBits w v) := by rw [h2]
  simpa [← BitVec.xor_assoc] using this

theorem engine_poly_top (f : Flavour) : f.engine.poly.getLsbD (f.engine.w - 1) = true := by
  cases f <;> decide

theorem bits_length (b : Byte) : (bits b).length = 8 := rfl

theorem bits_inj {a b : Byte} (h : bits a = bits b) : a = b := by
  have e := congrArg (ofBits 8) h
  rw [ofBits_bits a (by omega), ofBits_bits b (by omega)] at e
  simpa using e

theorem msgBits_append (a b : List Byte) : msgBits (a ++ b) = msgBits a ++ msgBits b := by
  simp [msgBits]

theorem msgBits_length (a : List Byte) : (msgBits a).length = 8 * a.length := by
  induction a with
  | nil => rfl
  | cons x xs ih =>
    simp only [msgBits, List.flatMap_cons, List.length_append, bits_length, List.length_cons] at *
    omega

theorem msgBits_inj {a b : List Byte} (h : msgBits a = msgBits b) : a = b := by
  induction a generalizing b with
  | nil =>
    have := congrArg List.length h
    rw [msgBits_length, msgBits_length] at this
    simp at this
    cases b with
    | nil => rfl
    | cons y ys => simp at this
  | cons x xs ih =>
    cases b with
    | nil =>
      have := congrArg List.length h
      rw [msgBits_length, msgBits_length] at this
      simp at this
    | cons y ys =>
      simp only [msgBits, List.flatMap_cons] at h
      have := List.append_inj h (by simp [bits_length])
      rw [bits_inj this.1, ih this.2]

end Verif.Crc
