import Verif.Deflate.Bits
/-! # Lemmas on the bit writer and the bit reader: both move sequences of bits, least significant bit of a byte first -/
namespace Verif.Deflate
open Verif.Bytes (Byte)

/-- the low `width` bits of a number, least significant first -/
def bitsLE : Nat → Nat → List Bool
  | 0, _ => []
  | w + 1, v => decide (v % 2 = 1) :: bitsLE w (v / 2)

/-- the number with these bits -/
def ofBits : List Bool → Nat
  | [] => 0
  | b :: r => b.toNat + 2 * ofBits r

def byteBits (b : Byte) : List Bool := bitsLE 8 b.toNat

@[simp] theorem bitsLE_length (w v : Nat) : (bitsLE w v).length = w := by
  induction w generalizing v with
  | zero => rfl
  | succ w ih => simp [bitsLE, ih]

theorem ofBits_bitsLE (w v : Nat) : ofBits (bitsLE w v) = v % 2 ^ w := by
  induction w generalizing v with
  | zero => simp [bitsLE, ofBits, Nat.mod_one]
  | succ w ih =>
    simp only [bitsLE, ofBits, ih]
    rw [Nat.pow_succ, Nat.mul_comm (2 ^ w) 2, Nat.mod_mul]
    congr 1
    by_cases h : v % 2 = 1
    · simp [h]
    · have : v % 2 = 0 := by omega
      simp [this]

theorem bitsLE_ofBits (l : List Bool) : bitsLE l.length (ofBits l) = l := by
  induction l with
  | nil => rfl
  | cons b r ih =>
    simp only [List.length_cons, bitsLE, ofBits]
    have h1 : (b.toNat + 2 * ofBits r) / 2 = ofBits r := by cases b <;> simp <;> omega
    have h2 : decide ((b.toNat + 2 * ofBits r) % 2 = 1) = b := by cases b <;> simp <;> omega
    rw [h1, h2, ih]

theorem ofBits_lt (l : List Bool) : ofBits l < 2 ^ l.length := by
  induction l with
  | nil => simp [ofBits]
  | cons b r ih => cases b <;> simp only [ofBits, List.length_cons, Nat.pow_succ, Bool.toNat_true, Bool.toNat_false] <;> omega

theorem bitsLE_add (a b v : Nat) : bitsLE (a + b) v = bitsLE a v ++ bitsLE b (v / 2 ^ a) := by
  induction a generalizing v with
  | zero => simp [bitsLE]
  | succ a ih =>
    rw [Nat.succ_add_eq_add_succ a b, Nat.add_succ]
    simp only [bitsLE, List.cons_append]
    rw [ih, Nat.div_div_eq_div_mul, Nat.pow_succ, Nat.mul_comm 2]

theorem bitsLE_mod (w v : Nat) : bitsLE w (v % 2 ^ w) = bitsLE w v := by
  have h := bitsLE_ofBits (bitsLE w v)
  rw [bitsLE_length, ofBits_bitsLE] at h
  exact h

theorem bitsLE_mod' {w k : Nat} (v : Nat) (h : w ≤ k) : bitsLE w (v % 2 ^ k) = bitsLE w v := by
  rw [← bitsLE_mod w (v % 2 ^ k), Nat.mod_mod_of_dvd _ (Nat.pow_dvd_pow 2 h), bitsLE_mod]

theorem bitsLE_or {a : Nat} (c w v : Nat) (ha : a < 2 ^ c) : bitsLE (c + w) (a ||| v <<< c) = bitsLE c a ++ bitsLE w v := by
  rw [Nat.or_comm, ← Nat.shiftLeft_add_eq_or_of_lt ha, bitsLE_add, Nat.shiftLeft_eq]
  have h2 : (v * 2 ^ c + a) / 2 ^ c = v := by
    rw [Nat.mul_comm, Nat.mul_add_div (Nat.two_pow_pos c), Nat.div_eq_of_lt ha, Nat.add_zero]
  rw [← bitsLE_mod c (v * 2 ^ c + a), Nat.mul_comm, Nat.mul_add_mod, Nat.mod_eq_of_lt ha, Nat.mul_comm, h2]

theorem or_lt {a v c w : Nat} (ha : a < 2 ^ c) (hv : v < 2 ^ w) : a ||| v <<< c < 2 ^ (c + w) := by
  apply Nat.or_lt_two_pow
  · exact Nat.lt_of_lt_of_le ha (Nat.pow_le_pow_right (by omega) (by omega))
  · rw [Nat.shiftLeft_eq, Nat.pow_add, Nat.mul_comm]
    exact Nat.mul_lt_mul_of_pos_left hv (Nat.two_pow_pos c)

@[simp] theorem byteBits_length (b : Byte) : (byteBits b).length = 8 := bitsLE_length 8 _

theorem flatMap_byteBits_length (bs : List Byte) : (bs.flatMap byteBits).length = 8 * bs.length := by
  induction bs with
  | nil => rfl
  | cons b bs ih => simp only [List.flatMap_cons, List.length_append, byteBits_length, List.length_cons, ih]; omega

theorem byteBits_ofNat (v : Nat) : byteBits (BitVec.ofNat 8 v) = bitsLE 8 v := by
  rw [byteBits, BitVec.toNat_ofNat, bitsLE_mod]

theorem byteBits_ofNat_and (v : Nat) : byteBits (BitVec.ofNat 8 (v &&& 0xff)) = bitsLE 8 v := by
  rw [byteBits_ofNat, show (0xff : Nat) = 2 ^ 8 - 1 from rfl, Nat.and_two_pow_sub_one_eq_mod, bitsLE_mod]

theorem byteBits_inj {a b : Byte} (h : byteBits a = byteBits b) : a = b := by
  have h' := congrArg ofBits h
  rw [byteBits, byteBits, ofBits_bitsLE, ofBits_bitsLE, Nat.mod_eq_of_lt a.isLt, Nat.mod_eq_of_lt b.isLt] at h'
  exact BitVec.eq_of_toNat_eq h'

theorem flatMap_byteBits_inj : ∀ {p q : List Byte}, p.flatMap byteBits = q.flatMap byteBits → p = q
  | [], [], _ => rfl
  | [], b :: q, h => by have := congrArg List.length h; simp only [flatMap_byteBits_length, List.length_cons, List.length_nil] at this; omega
  | a :: p, [], h => by have := congrArg List.length h; simp only [flatMap_byteBits_length, List.length_cons, List.length_nil] at this; omega
  | a :: p, b :: q, h => by
    simp only [List.flatMap_cons] at h
    have h' := List.append_inj h (by simp)
    rw [byteBits_inj h'.1, flatMap_byteBits_inj h'.2]

/-! ## writer -/

/-- everything written so far -/
def Writer.bits (w : Writer) : List Bool := w.out.flatMap byteBits ++ bitsLE w.count w.acc

/-- a writer between calls -/
structure Writer.Ok (w : Writer) : Prop where
  acc : w.acc < 2 ^ w.count
  count : w.count < 8

theorem Writer.fresh_ok : Writer.fresh.Ok := ⟨by decide, by decide⟩
theorem Writer.fresh_bits : Writer.fresh.bits = [] := rfl

theorem Writer.put_bits {w : Writer} (h : 8 ≤ w.count) : w.put.bits = w.bits := by
  simp only [Writer.put, Writer.bits, List.flatMap_append, List.flatMap_cons, List.flatMap_nil, List.append_nil, List.append_assoc]
  rw [byteBits_ofNat_and, Nat.shiftRight_eq_div_pow, ← bitsLE_add, show 8 + (w.count - 8) = w.count by omega]

theorem Writer.put_acc {w : Writer} (h : 8 ≤ w.count) (ha : w.acc < 2 ^ w.count) : w.put.acc < 2 ^ w.put.count := by
  simp only [Writer.put]
  rw [Nat.shiftRight_eq_div_pow, Nat.div_lt_iff_lt_mul (by decide), ← Nat.pow_add, show w.count - 8 + 8 = w.count by omega]
  exact ha

theorem Writer.flush_bits (n : Nat) {w : Writer} (h : w.count / 8 = n) (ha : w.acc < 2 ^ w.count) :
    (w.flush n).bits = w.bits ∧ (w.flush n).Ok := by
  induction n generalizing w with
  | zero => exact ⟨rfl, ha, by show w.count < 8; omega⟩
  | succ n ih =>
    have h8 : 8 ≤ w.count := by omega
    have := ih (w := w.put) (by show (w.count - 8) / 8 = n; omega) (Writer.put_acc h8 ha)
    exact ⟨this.1.trans (Writer.put_bits h8), this.2⟩

theorem Writer.writeBits_bits {w : Writer} (hw : w.Ok) {value width : Nat} (hv : value < 2 ^ width) (hwidth : width ≤ 32) :
    (w.writeBits value width).bits = w.bits ++ bitsLE width value ∧ (w.writeBits value width).Ok := by
  have hc := hw.count
  have hlt : value <<< w.count < 2 ^ 64 := by
    rw [Nat.shiftLeft_eq]
    have : value * 2 ^ w.count < 2 ^ width * 2 ^ w.count := Nat.mul_lt_mul_of_pos_right hv (Nat.two_pow_pos _)
    rw [← Nat.pow_add] at this
    exact Nat.lt_of_lt_of_le this (Nat.pow_le_pow_right (by omega) (by omega))
  have h := Writer.flush_bits _ (w := ⟨w.out, w.acc ||| value <<< w.count, w.count + width⟩) rfl (or_lt hw.acc hv)
  simp only [Writer.writeBits, Nat.mod_eq_of_lt hlt]
  refine ⟨h.1.trans ?_, h.2⟩
  simp only [Writer.bits]
  rw [bitsLE_or _ _ _ hw.acc, List.append_assoc]

/-- zeros up to the next byte -/
def padBits (bits : List Bool) : List Bool := bits ++ List.replicate ((8 - bits.length % 8) % 8) false

theorem bitsLE_zero (w : Nat) : bitsLE w 0 = List.replicate w false := by
  induction w with
  | zero => rfl
  | succ w ih => simp [bitsLE, ih, List.replicate_succ]

theorem Writer.bits_length (w : Writer) : w.bits.length = 8 * w.out.length + w.count := by
  simp only [Writer.bits, List.length_append, flatMap_byteBits_length, bitsLE_length]

theorem Writer.alignByte_bits {w : Writer} (hw : w.Ok) : w.alignByte.bits = padBits w.bits ∧ w.alignByte.Ok ∧ w.alignByte.count = 0 := by
  have hc := hw.count
  have hl := w.bits_length
  by_cases h : w.count ≠ 0
  · simp only [Writer.alignByte, if_pos h]
    refine ⟨?_, ⟨by simp, by simp⟩, by simp⟩
    have e : (8 - w.bits.length % 8) % 8 = 8 - w.count := by omega
    rw [padBits, e]
    simp only [Writer.bits, List.flatMap_append, List.flatMap_cons, List.flatMap_nil, List.append_nil, List.append_assoc, bitsLE]
    rw [byteBits_ofNat_and, show (8 : Nat) = w.count + (8 - w.count) by omega, bitsLE_add, Nat.div_eq_of_lt hw.acc, bitsLE_zero]
    rw [show w.count + (8 - w.count) - w.count = 8 - w.count by omega]
  · have h0 : w.count = 0 := by omega
    simp only [Writer.alignByte, if_neg h]
    refine ⟨?_, hw, h0⟩
    have e : (8 - w.bits.length % 8) % 8 = 0 := by omega
    rw [padBits, e]; simp

/-- the bits after a call -/
def execBits (bits : List Bool) : Op → List Bool
  | .bits v n => bits ++ bitsLE n v
  | .align => padBits bits
  | .bytes bs => bits ++ bs.flatMap byteBits

/-- a call keeps to the contract of the writer -/
def Op.Ok (bits : List Bool) : Op → Prop
  | .bits v n => v < 2 ^ n ∧ n ≤ 32
  | .align => True
  | .bytes _ => bits.length % 8 = 0

def opsBits (bits : List Bool) (ops : List Op) : List Bool := ops.foldl execBits bits

def OpsOk : List Bool → List Op → Prop
  | _, [] => True
  | bits, op :: r => op.Ok bits ∧ OpsOk (execBits bits op) r

theorem opsBits_append (bits : List Bool) (p q : List Op) : opsBits bits (p ++ q) = opsBits (opsBits bits p) q := List.foldl_append

theorem opsOk_append : ∀ {bits : List Bool} {p q : List Op}, OpsOk bits (p ++ q) ↔ OpsOk bits p ∧ OpsOk (opsBits bits p) q
  | _, [], _ => by simp [OpsOk, opsBits]
  | bits, op :: p, q => by
    have := opsOk_append (bits := execBits bits op) (p := p) (q := q)
    simp only [List.cons_append, OpsOk, this, and_assoc]
    rfl

theorem Writer.exec_bits {w : Writer} (hw : w.Ok) {op : Op} (h : op.Ok w.bits) : (w.exec op).bits = execBits w.bits op ∧ (w.exec op).Ok := by
  cases op with
  | bits v n => exact Writer.writeBits_bits hw h.1 h.2
  | align => exact ⟨(Writer.alignByte_bits hw).1, (Writer.alignByte_bits hw).2.1⟩
  | bytes bs =>
    have hl := w.bits_length
    have hc := hw.count
    have h' : w.bits.length % 8 = 0 := h
    have h0 : w.count = 0 := by omega
    refine ⟨?_, hw.acc, hw.count⟩
    simp only [Writer.exec, execBits, Writer.bits, List.flatMap_append, h0, bitsLE, List.append_nil]

theorem Writer.run_bits {w : Writer} (hw : w.Ok) {ops : List Op} (h : OpsOk w.bits ops) : (w.run ops).bits = opsBits w.bits ops ∧ (w.run ops).Ok := by
  induction ops generalizing w with
  | nil => exact ⟨rfl, hw⟩
  | cons op ops ih =>
    have h1 := Writer.exec_bits hw h.1
    have := ih (w := w.exec op) h1.2 (by rw [h1.1]; exact h.2)
    rw [h1.1] at this
    exact this

theorem padBits_length (bits : List Bool) : (padBits bits).length = (bits.length + 7) / 8 * 8 := by
  simp only [padBits, List.length_append, List.length_replicate]; omega

theorem countOp_eq (bits : List Bool) (op : Op) : countOp bits.length op = (execBits bits op).length := by
  cases op with
  | bits v n => simp [countOp, execBits]
  | align => rw [countOp, execBits, padBits_length]
  | bytes bs => simp only [countOp, execBits, List.length_append, flatMap_byteBits_length]

/-- the counting writer measures what the other one writes -/
theorem countOps_eq (ops : List Op) : ∀ bits : List Bool, countOps bits.length ops = (opsBits bits ops).length := by
  induction ops with
  | nil => intro bits; rfl
  | cons op ops ih => intro bits; simp only [countOps, opsBits, List.foldl_cons, countOp_eq]; exact ih _

/-! ## reader -/

/-- everything still to be read -/
def Reader.bits (r : Reader) : List Bool := bitsLE r.count r.acc ++ r.rest.flatMap byteBits

/-- a reader of `total` bytes between calls -/
structure Reader.Ok (r : Reader) (total : Nat) : Prop where
  acc : r.acc < 2 ^ r.count
  count : r.count < 8
  pos : r.pos + r.rest.length = total

theorem Reader.bits_length (r : Reader) : r.bits.length = r.left := by
  simp only [Reader.bits, Reader.left, List.length_append, flatMap_byteBits_length, bitsLE_length]

theorem Reader.new_ok (input : List Byte) : (Reader.new input).Ok input.length := ⟨by simp [Reader.new], by simp [Reader.new], by simp [Reader.new]⟩
theorem Reader.new_bits (input : List Byte) : (Reader.new input).bits = input.flatMap byteBits := rfl

theorem fillGo_spec (w total : Nat) : ∀ (rest : List Byte) (pos acc count : Nat), acc < 2 ^ count → pos + rest.length = total → count < w + 8 →
    (w ≤ count + 8 * rest.length → ∃ r', fillGo w rest pos acc count = some r' ∧ r'.bits = (⟨rest, pos, acc, count⟩ : Reader).bits ∧
      r'.acc < 2 ^ r'.count ∧ r'.pos + r'.rest.length = total ∧ w ≤ r'.count ∧ r'.count < w + 8) ∧
    (count + 8 * rest.length < w → fillGo w rest pos acc count = none) := by
  intro rest
  induction rest with
  | nil =>
    intro pos acc count ha hp hc
    simp only [List.length_nil, fillGo] at hp ⊢
    refine ⟨fun h => ⟨_, if_neg (by omega), rfl, ha, hp, by show w ≤ count; omega, hc⟩, fun h => if_pos (by omega)⟩
  | cons b rest ih =>
    intro pos acc count ha hp hc
    simp only [List.length_cons, fillGo] at hp ⊢
    by_cases h : count < w
    · rw [if_pos h]
      have := ih (pos + 1) (acc ||| b.toNat <<< count) (count + 8) (or_lt ha b.isLt) (by omega) (by omega)
      refine ⟨fun hw => ?_, fun hw => this.2 (by omega)⟩
      obtain ⟨r', h1, h2, h3⟩ := this.1 (by omega)
      refine ⟨r', h1, ?_, h3⟩
      rw [h2]
      simp only [Reader.bits, List.flatMap_cons]
      rw [bitsLE_or _ _ _ ha, List.append_assoc]
      rfl
    · rw [if_neg h]
      exact ⟨fun _ => ⟨_, rfl, rfl, ha, hp, by show w ≤ count; omega, hc⟩, fun hw => absurd hw (by omega)⟩

theorem Reader.fill_spec {r : Reader} {total : Nat} (h : r.Ok total) (w : Nat) :
    (w ≤ r.bits.length → ∃ r', r.fill w = some r' ∧ r'.bits = r.bits ∧ r'.acc < 2 ^ r'.count ∧ r'.pos + r'.rest.length = total ∧
      w ≤ r'.count ∧ r'.count < w + 8) ∧ (r.bits.length < w → r.fill w = none) := by
  have hc := h.count
  rw [r.bits_length]
  exact fillGo_spec w total r.rest r.pos r.acc r.count h.acc h.pos (by omega)

/-- dropping the low bits of the accumulator -/
theorem Reader.shift_spec {r : Reader} {total w : Nat} (ha : r.acc < 2 ^ r.count) (hp : r.pos + r.rest.length = total) (hw : w ≤ r.count)
    (hc : r.count < w + 8) : (⟨r.rest, r.pos, r.acc >>> w, r.count - w⟩ : Reader).bits = r.bits.drop w ∧
      (⟨r.rest, r.pos, r.acc >>> w, r.count - w⟩ : Reader).Ok total ∧ r.acc &&& (2 ^ w - 1) = ofBits (r.bits.take w) := by
  have e : bitsLE r.count r.acc = bitsLE w r.acc ++ bitsLE (r.count - w) (r.acc / 2 ^ w) := by
    rw [← bitsLE_add, show w + (r.count - w) = r.count by omega]
  refine ⟨?_, ⟨?_, ?_, hp⟩, ?_⟩
  · simp only [Reader.bits]
    rw [e, List.append_assoc, List.drop_append_of_le_length (by simp), List.drop_of_length_le (by simp), Nat.shiftRight_eq_div_pow]
    rfl
  · show r.acc >>> w < 2 ^ (r.count - w)
    rw [Nat.shiftRight_eq_div_pow, Nat.div_lt_iff_lt_mul (Nat.two_pow_pos w), ← Nat.pow_add, show r.count - w + w = r.count by omega]
    exact ha
  · show r.count - w < 8; omega
  · simp only [Reader.bits]
    rw [e, List.append_assoc, List.take_append_of_le_length (by simp), List.take_of_length_le (by simp), ofBits_bitsLE,
      Nat.and_two_pow_sub_one_eq_mod]

theorem Reader.readBits_spec {r : Reader} {total : Nat} (h : r.Ok total) (w : Nat) :
    (w ≤ r.bits.length → ∃ r', r.readBits w = .ok (ofBits (r.bits.take w), r') ∧ r'.bits = r.bits.drop w ∧ r'.Ok total) ∧
    (r.bits.length < w → r.readBits w = .error (.err .truncatedInput)) := by
  constructor
  · intro hw
    obtain ⟨r', h1, h2, h3, h4, h5, h6⟩ := (r.fill_spec h w).1 hw
    have hs := Reader.shift_spec h3 h4 h5 h6
    refine ⟨_, ?_, ?_, hs.2.1⟩
    · simp only [Reader.readBits, h1, hs.2.2, h2]
    · rw [hs.1, h2]
  · intro hw
    simp only [Reader.readBits, (r.fill_spec h w).2 hw]

/-- reading back a number -/
theorem Reader.readBits_bits {r : Reader} {total : Nat} (h : r.Ok total) {w v : Nat} {s : List Bool} (hv : v < 2 ^ w)
    (hb : r.bits = bitsLE w v ++ s) : ∃ r', r.readBits w = .ok (v, r') ∧ r'.bits = s ∧ r'.Ok total := by
  obtain ⟨r', h1, h2, h3⟩ := (r.readBits_spec h w).1 (by rw [hb]; simp)
  refine ⟨r', ?_, ?_, h3⟩
  · rw [h1, hb, List.take_append_of_le_length (by simp), List.take_of_length_le (by simp), ofBits_bitsLE, Nat.mod_eq_of_lt hv]
  · rw [h2, hb, List.drop_append_of_le_length (by simp), List.drop_of_length_le (by simp), List.nil_append]

theorem Reader.fill_takeBit {r : Reader} {total : Nat} (h : r.Ok total) : (r.bits = [] → r.fill 1 = none) ∧
    (∀ b s, r.bits = b :: s → ∃ r', r.fill 1 = some r' ∧ r'.takeBit.1 = b.toNat ∧ r'.takeBit.2.bits = s ∧ r'.takeBit.2.Ok total) := by
  refine ⟨fun hb => (r.fill_spec h 1).2 (by simp [hb]), fun b s hb => ?_⟩
  obtain ⟨r', h1, h2, h3, h4, h5, h6⟩ := (r.fill_spec h 1).1 (by simp [hb])
  have hs := Reader.shift_spec h3 h4 h5 h6
  refine ⟨r', h1, ?_, ?_, hs.2.1⟩
  · show r'.acc &&& 1 = _
    have := hs.2.2
    rw [h2, hb] at this
    simpa [ofBits] using this
  · have := hs.1
    rw [h2, hb] at this
    exact this

theorem Reader.alignByte_spec {r : Reader} {total : Nat} (h : r.Ok total) : r.alignByte.bits = r.bits.drop (r.bits.length % 8) ∧ r.alignByte.Ok total ∧
    r.alignByte.count = 0 ∧ r.alignByte.pos = r.pos := by
  have hc := h.count
  have he : r.count &&& 7 = r.count := by
    rw [show (7 : Nat) = 2 ^ 3 - 1 from rfl, Nat.and_two_pow_sub_one_eq_mod]; omega
  have hl : r.bits.length % 8 = r.count := by rw [r.bits_length, Reader.left]; omega
  have hs := Reader.shift_spec h.acc h.pos (Nat.le_refl r.count) (by omega)
  rw [hl]
  simp only [Reader.alignByte, he]
  exact ⟨hs.1, hs.2.1, by simp, trivial⟩

/-- the position tells how much is left -/
theorem Reader.pos_eq {r : Reader} {total : Nat} (h : r.Ok total) (h0 : r.count = 0) : 8 * r.pos + r.bits.length = 8 * total := by
  have := h.pos
  rw [r.bits_length, Reader.left, h0]; omega

end Verif.Deflate
