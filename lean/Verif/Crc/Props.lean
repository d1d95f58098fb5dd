import Verif.Crc.Lemmas
/-!
# Property theorems C12, C13, C14: CRC
-/
namespace Verif.Crc

/-- **C12.** The scalar path computes the bit-serial CRC, for every message and flavour. -/
theorem scalar_ieee (m : List Byte) : computeScalar .ieee m = crc32 m := by
  unfold computeScalar; rw [updateScalar_eq _ (engine_good _), foldl_step_eq _ _ _ (engine_good _).wide]; rfl
theorem scalar_castagnoli (m : List Byte) : computeScalar .castagnoli m = crc32c m := by
  unfold computeScalar; rw [updateScalar_eq _ (engine_good _), foldl_step_eq _ _ _ (engine_good _).wide]; rfl
theorem scalar_modbus (m : List Byte) : computeScalar .modbus m = crc16modbus m := by
  unfold computeScalar; rw [updateScalar_eq _ (engine_good _), foldl_step_eq _ _ _ (engine_good _).wide]; rfl

/-- **C12.** The SIMD path computes the bit-serial CRC, for every message, flavour and register width `W`. -/
theorem simd_ieee (W : Nat) (m : List Byte) : compute .ieee W m = crc32 m := by
  unfold compute; rw [updateSimd_eq _ (engine_good _), foldl_step_eq _ _ _ (engine_good _).wide]; rfl
theorem simd_castagnoli (W : Nat) (m : List Byte) : compute .castagnoli W m = crc32c m := by
  unfold compute; rw [updateSimd_eq _ (engine_good _), foldl_step_eq _ _ _ (engine_good _).wide]; rfl
theorem simd_modbus (W : Nat) (m : List Byte) : compute .modbus W m = crc16modbus m := by
  unfold compute; rw [updateSimd_eq _ (engine_good _), foldl_step_eq _ _ _ (engine_good _).wide]; rfl

/-- **C12.** All code paths agree. -/
theorem simd_eq_scalar (f : Flavour) (W : Nat) (m : List Byte) : compute f W m = computeScalar f m := by
  unfold compute computeScalar; rw [updateSimd_eq _ (engine_good _), updateScalar_eq _ (engine_good _)]

/-- the nine ASCII bytes "123456789". -/
def check : List Byte := [0x31#8, 0x32#8, 0x33#8, 0x34#8, 0x35#8, 0x36#8, 0x37#8, 0x38#8, 0x39#8]

/-- the specification meets the published check values (CRC.hpp `kCheck_123456789`), exercising the eight-byte path. -/
example : crc32 check = 0xCBF43926#32 := by decide +kernel
example : crc32c check = 0xE3069283#32 := by decide +kernel
example : crc16modbus check = 0x4B37#16 := by decide +kernel
example : (computeScalar .ieee check).toNat = 0xCBF43926 := by decide +kernel

/-- **C13.** Updating chunk by chunk, each chunk through the scalar or the SIMD path of any width, equals one update
with the whole data. `none` selects the scalar, `some W` the SIMD path. -/
theorem incremental (f : Flavour) (crc : BitVec f.engine.w) (chunks : List (Option Nat × List Byte)) :
    chunks.foldl (fun c x => match x.1 with
      | none => updateScalar f.engine c x.2
      | some W => updateSimd f.engine W c x.2) crc
    = updateScalar f.engine crc (chunks.flatMap (·.2)) := by
  rw [updateScalar_eq _ (engine_good f)]
  induction chunks generalizing crc with
  | nil => rfl
  | cons x xs ih =>
    simp only [List.foldl_cons, List.flatMap_cons, List.foldl_append]
    rw [ih]
    obtain ⟨o, m⟩ := x
    cases o with
    | none => simp only [updateScalar_eq _ (engine_good f)]
    | some W => simp only [updateSimd_eq _ (engine_good f)]

example : (updateScalar Flavour.ieee.engine (updateScalar Flavour.ieee.engine 0xFFFFFFFF#32 (check.take 4)) (check.drop 4)).toNat
    = 0xCBF43926 ^^^ 0xFFFFFFFF := by decide +kernel

/-- **C14.** Burst error detection: two messages whose bit strings agree except within a window of at most as many
consecutive bits as the register is wide (32 resp. 16) have the same CRC only if they are equal. -/
theorem burst_detected (f : Flavour) (m m' : List Byte) (pre u v post : List Bool)
    (hm : msgBits m = pre ++ u ++ post) (hm' : msgBits m' = pre ++ v ++ post)
    (hlen : u.length = v.length) (hw : u.length ≤ f.engine.w)
    (hcrc : computeScalar f m = computeScalar f m') : m = m' := by
  have h : (msgBits m).foldl (lfsr f.engine.poly) f.engine.init
      = (msgBits m').foldl (lfsr f.engine.poly) f.engine.init := by
    unfold computeScalar at hcrc
    rw [updateScalar_eq _ (engine_good f), updateScalar_eq _ (engine_good f),
      foldl_step_eq _ _ _ (engine_good f).wide, foldl_step_eq _ _ _ (engine_good f).wide] at hcrc
    have h2 := congrArg (· ^^^ f.engine.xorOut) hcrc
    simpa [BitVec.xor_assoc] using h2
  rw [hm, hm'] at h
  have := burst _ (engine_poly_top f) _ pre u v post hlen hw h
  apply msgBits_inj
  rw [hm, hm', this]

/-- two 5-byte messages that differ in four consecutive bytes. -/
example : msgBits [1#8, 2#8, 3#8, 4#8, 5#8] = bits 1#8 ++ msgBits [2#8, 3#8, 4#8, 5#8] ++ [] ∧
    msgBits [1#8, 9#8, 8#8, 7#8, 6#8] = bits 1#8 ++ msgBits [9#8, 8#8, 7#8, 6#8] ++ [] ∧
    (msgBits [2#8, 3#8, 4#8, 5#8]).length ≤ Flavour.ieee.engine.w := by decide

/-- **C14.** Byte-level form: changing any `k` consecutive bytes with `8 k ≤` register width changes the CRC. -/
theorem byte_burst_detected (f : Flavour) (pre u v post : List Byte) (hlen : u.length = v.length)
    (hw : 8 * u.length ≤ f.engine.w) (hne : u ≠ v) :
    computeScalar f (pre ++ u ++ post) ≠ computeScalar f (pre ++ v ++ post) := by
  intro h
  have := burst_detected f (pre ++ u ++ post) (pre ++ v ++ post) (msgBits pre) (msgBits u) (msgBits v) (msgBits post)
    (by simp [msgBits_append]) (by simp [msgBits_append]) (by simp [msgBits_length, hlen]) (by simpa [msgBits_length])
    h
  simp at this
  exact hne this

example : 8 * ([1#8, 2#8, 3#8, 4#8] : List Byte).length ≤ Flavour.castagnoli.engine.w := by decide
example : 8 * ([1#8, 2#8] : List Byte).length ≤ Flavour.modbus.engine.w := by decide

/-! ### odd numbers of flipped bits (flavours whose polynomial has the factor x+1) -/

/-- parity of the first `n` bits of `f`. -/
def par (f : Nat → Bool) : Nat → Bool
  | 0 => false
  | n + 1 => par f n ^^ f n

theorem par_xor (f g : Nat → Bool) (n : Nat) : par (fun i => f i ^^ g i) n = (par f n ^^ par g n) := by
  induction n with
  | zero => rfl
  | succ n ih => simp only [par, ih]; cases par f n <;> cases par g n <;> cases f n <;> cases g n <;> rfl

theorem par_shift (f : Nat → Bool) (n : Nat) : (f 0 ^^ par (fun i => f (1 + i)) n) = par f (n + 1) := by
  induction n with
  | zero => simp [par]
  | succ n ih =>
    have : par f (n + 1 + 1) = (par f (n + 1) ^^ f (n + 1)) := rfl
    rw [this, ← ih]; simp only [par, Nat.add_comm 1 n]
    cases f 0 <;> cases par (fun i => f (1 + i)) n <;> cases f (n + 1) <;> rfl

/-- parity of a register. -/
def parity {w : Nat} (c : BitVec w) : Bool := par (fun i => c.getLsbD i) w

/-- number of set bits of a bit string, modulo two. -/
def oddWeight (l : List Bool) : Bool := l.foldl (fun a b => a ^^ b) false

theorem parity_xor {w : Nat} (a b : BitVec w) : parity (a ^^^ b) = (parity a ^^ parity b) := by
  unfold parity; rw [← par_xor]; congr 1; funext i; simp

theorem parity_shr {w : Nat} (a : BitVec w) : parity (a >>> 1) = (parity a ^^ a.getLsbD 0) := by
  unfold parity
  have h := par_shift (fun i => a.getLsbD i) w
  have e : par (fun i => a.getLsbD i) (w + 1) = par (fun i => a.getLsbD i) w := by
    show (par (fun i => a.getLsbD i) w ^^ a.getLsbD w) = _
    rw [BitVec.getLsbD_of_ge a w (Nat.le_refl w)]; simp
  rw [e] at h
  have e2 : (fun i => (a >>> 1).getLsbD i) = fun i => a.getLsbD (1 + i) := by
    funext i; rw [BitVec.getLsbD_ushiftRight]
  rw [e2, ← h]; cases a.getLsbD 0 <;> simp

theorem parity_lfsr {w : Nat} (p c : BitVec w) (b : Bool) (hp : parity p = true) :
    parity (lfsr p c b) = (parity c ^^ b) := by
  unfold lfsr
  split <;> rename_i h
  · rw [parity_xor, parity_shr, hp]; revert h; cases c.getLsbD 0 <;> cases b <;> cases parity c <;> simp
  · rw [parity_shr]; revert h; cases c.getLsbD 0 <;> cases b <;> cases parity c <;> simp

theorem oddWeight_cons (l : List Bool) (a : Bool) : l.foldl (fun a b => a ^^ b) a = (a ^^ oddWeight l) := by
  induction l generalizing a with
  | nil => simp [oddWeight]
  | cons x xs ih =>
    unfold oddWeight
    simp only [List.foldl_cons, ih]; cases a <;> cases x <;> simp

theorem parity_foldl {w : Nat} (p c : BitVec w) (l : List Bool) (hp : parity p = true) :
    parity (l.foldl (lfsr p) c) = (parity c ^^ oddWeight l) := by
  induction l generalizing c with
  | nil => simp [oddWeight]
  | cons x xs ih =>
    simp only [List.foldl_cons, ih, parity_lfsr p c x hp]
    have : oddWeight (x :: xs) = (x ^^ oddWeight xs) := by
      unfold oddWeight; simp only [List.foldl_cons]; rw [oddWeight_cons, oddWeight]; simp
    rw [this, Bool.xor_assoc]

/-- **C14.** CRC-32C and CRC-16/MODBUS additionally detect every error pattern with an odd number of flipped bits:
messages with equal CRC have bit counts of equal parity. -/
theorem odd_error_detected (f : Flavour) (hf : f = .castagnoli ∨ f = .modbus) (m m' : List Byte)
    (h : computeScalar f m = computeScalar f m') : oddWeight (msgBits m) = oddWeight (msgBits m') := by
  have hp : parity f.engine.poly = true := by rcases hf with rfl | rfl <;> decide +kernel
  unfold computeScalar at h
  rw [updateScalar_eq _ (engine_good f), updateScalar_eq _ (engine_good f),
    foldl_step_eq _ _ _ (engine_good f).wide, foldl_step_eq _ _ _ (engine_good f).wide] at h
  have h2 := congrArg (fun x => parity (x ^^^ f.engine.xorOut)) h
  simp only [BitVec.xor_assoc, BitVec.xor_self, BitVec.xor_zero, parity_foldl _ _ _ hp] at h2
  revert h2
  cases parity f.engine.init <;> cases oddWeight (msgBits m) <;> cases oddWeight (msgBits m') <;> simp

example : oddWeight (msgBits [1#8, 3#8]) = true ∧ oddWeight (msgBits [1#8, 2#8]) = false := by decide

end Verif.Crc
