import Verif.Deflate.Encoder
import Verif.Deflate.RoundLemmas
import Verif.Deflate.StreamOnce
/-! # Lemmas on the streaming encoder: blocks one after the other, and what the object holds between calls -/
namespace Verif.Deflate
open Verif.Bytes (Byte)

/-! ## a writer that has written something already -/

theorem Writer.flush_prefix (p : List Byte) : ∀ (n : Nat) (w : Writer),
    Writer.flush n ⟨p ++ w.out, w.acc, w.count⟩ = ⟨p ++ (w.flush n).out, (w.flush n).acc, (w.flush n).count⟩
  | 0, _ => rfl
  | n + 1, w => by
    have h := Writer.flush_prefix p n w.put
    simp only [Writer.flush, Writer.put, List.append_assoc] at h ⊢
    exact h

theorem Writer.exec_prefix (p : List Byte) (w : Writer) (op : Op) :
    Writer.exec ⟨p ++ w.out, w.acc, w.count⟩ op = ⟨p ++ (w.exec op).out, (w.exec op).acc, (w.exec op).count⟩ := by
  cases op with
  | bits v n => exact Writer.flush_prefix p ((w.count + n) / 8) ⟨w.out, w.acc ||| (v <<< w.count) % 2 ^ 64, w.count + n⟩
  | align =>
    simp only [Writer.exec, Writer.alignByte]
    by_cases h : w.count ≠ 0
    · rw [if_pos h, if_pos h]; simp only [List.append_assoc]
    · rw [if_neg h, if_neg h]
  | bytes bs => simp only [Writer.exec, List.append_assoc]

theorem Writer.run_prefix (p : List Byte) : ∀ (ops : List Op) (w : Writer),
    Writer.run ⟨p ++ w.out, w.acc, w.count⟩ ops = ⟨p ++ (w.run ops).out, (w.run ops).acc, (w.run ops).count⟩
  | [], _ => rfl
  | op :: ops, w => by
    have h := Writer.run_prefix p ops (w.exec op)
    rw [← Writer.exec_prefix] at h
    exact h

/-! ## blocks one after the other -/

/-- the bits `D`, which begin after `n` bits, hold blocks that extend an output from a position of `data` to its end; `last`: they end the stream -/
def BlocksAt (n : Nat) (D : List Bool) (last : Bool) (data : List Byte) (pos : Nat) : Prop :=
  ∀ (X : List Byte) (cap hb total : Nat) (rest : List Bool) (r : Reader) (o : Span), X.length + data.length ≤ cap → hb ≤ X.length → r.Ok total →
    r.bits = D ++ rest → (n + D.length + rest.length) % 8 = 0 → o.At X data cap hb pos →
    ∃ k r' o', k ≤ D.length ∧ (∀ m, blocksGo (k + m) r o = if last then .ok (r', o') else blocksGo m r' o') ∧ r'.bits = rest ∧ r'.Ok total ∧
      o'.At X data cap hb data.length

theorem BlocksTo.blocks {D : List Bool} {last al : Bool} {data : List Byte} {pos n : Nat} (h : BlocksTo D last al data pos)
    (hal : al = true → (n + D.length) % 8 = 0) : BlocksAt n D last data pos :=
  fun X cap hb total rest r o h1 h2 h3 h4 h5 h6 => h X cap hb total rest r o h1 h2 h3 h4 (fun ha => by have := hal ha; omega) h6

theorem BlocksAt.nil (n : Nat) : BlocksAt n [] false [] 0 := by
  intro X cap hb total rest r o h1 h2 h3 h4 h5 h6
  refine ⟨0, r, o, Nat.le_refl _, fun m => ?_, h4, h3, h6⟩
  rw [Nat.zero_add]; rfl

theorem BlocksAt.append {n p : Nat} {D E : List Bool} {last : Bool} {data : List Byte} (hp : p ≤ data.length) (h : BlocksAt n D false (data.take p) 0)
    (h' : BlocksAt (n + D.length) E last data p) : BlocksAt n (D ++ E) last data 0 := by
  intro X cap hb total rest r o h1 h2 h3 h4 h5 h6
  rw [List.length_append] at h5
  have hl : (data.take p).length = p := by rw [List.length_take]; omega
  obtain ⟨k, r1, o1, a1, a2, a3, a4, a5⟩ := h X cap hb total (E ++ rest) r o (by omega) h2 h3 (by rw [h4, List.append_assoc])
    (by rw [List.length_append]; omega) ⟨by rw [h6.data]; simp, h6.capacity, h6.history⟩
  rw [hl] at a5
  have h5' : o1.At X data cap hb p := ⟨by rw [a5.data, List.take_take, Nat.min_self], a5.capacity, a5.history⟩
  obtain ⟨k', r2, o2, b1, b2, b3, b4, b5⟩ := h' X cap hb total rest r1 o1 h1 h2 a4 a3 (by omega) h5'
  refine ⟨k + k', r2, o2, by rw [List.length_append]; omega, fun m => ?_, b3, b4, b5⟩
  rw [Nat.add_assoc, a2]
  exact b2 m

/-- a whole stream of blocks, decoded -/
theorem BlocksAt.decode {n : Nat} {D pad : List Bool} {data : List Byte} (hD : BlocksAt n D true data 0) (hpad : pad.length < 8)
    (h8 : (n + D.length + pad.length) % 8 = 0) {input trailer : List Byte} (hin : input.flatMap byteBits = D ++ (pad ++ trailer.flatMap byteBits))
    {X : List Byte} {cap hb : Nat} (hc : X.length + data.length ≤ cap) :
    decodeDeflate input (⟨X, cap, hb⟩ : Span) = .ok (input.length - trailer.length, ⟨X ++ data, cap, X.length⟩) := by
  have htl : (trailer.flatMap byteBits).length % 8 = 0 := by rw [flatMap_byteBits_length]; omega
  obtain ⟨k, r', o', h1, h2, h3, h4, h5⟩ := hD X cap X.length input.length (pad ++ trailer.flatMap byteBits) (Reader.new input) ⟨X, cap, X.length⟩ hc
    (Nat.le_refl _) (Reader.new_ok input) (by rw [Reader.new_bits]; exact hin) (by rw [List.length_append]; omega) ⟨by simp, rfl, rfl⟩
  have ho : o' = ⟨X ++ data, cap, X.length⟩ := by
    cases o'
    have e1 := h5.data
    have e2 := h5.capacity
    have e3 := h5.history
    simp only [List.take_length] at e1 e2 e3
    rw [e1, e2, e3]
  have hl : (Reader.new input).left + 1 = k + ((Reader.new input).left + 1 - k) := by
    have : (Reader.new input).left = (D ++ (pad ++ trailer.flatMap byteBits)).length := by rw [← hin, ← Reader.new_bits, Reader.bits_length]
    rw [List.length_append] at this
    omega
  have ⟨a1, a2, a3, _⟩ := alignByte_pad h4 h3 hpad htl
  have hp := Reader.pos_eq a2 a3
  rw [a1, flatMap_byteBits_length] at hp
  have hs : Output.resetHistory (⟨X, cap, hb⟩ : Span) = ⟨X, cap, X.length⟩ := rfl
  rw [decodeDeflate, hs, hl, h2]
  simp only [if_true, ho]
  rw [show r'.alignByte.pos = input.length - trailer.length by omega]

/-! ## tokens of a window of a longer stream -/

theorem Repeats.shift {w : List Byte} {pos len d : Nat} (p : List Byte) (h : Repeats w pos len d) : Repeats (p ++ w) (p.length + pos) len d := by
  have h1 := h.history
  refine ⟨h.near, h.window, by omega, h.min, h.max, by rw [List.length_append]; have := h.stop; omega, fun i hi => ?_⟩
  rw [List.getElem?_append_right (by omega), List.getElem?_append_right (by omega), show p.length + pos + i - p.length = pos + i by omega,
    show p.length + pos + i - d - p.length = pos + i - d by omega]
  exact h.same i hi

theorem Covers.shift {w : List Byte} (p : List Byte) : ∀ {ts : List Token} {pos : Nat}, Covers w pos ts → Covers (p ++ w) (p.length + pos) ts
  | [], pos, h => by
    show p.length + pos = (p ++ w).length
    rw [show pos = w.length from h, List.length_append]
  | t :: ts, pos, h => by
    rcases h with ⟨a, b, c, d⟩ | ⟨a, b⟩
    · refine .inl ⟨a, b, ?_, ?_⟩
      · rw [List.getElem?_append_right (by omega), Nat.add_sub_cancel_left]; exact c
      · have := Covers.shift p d
        rwa [← Nat.add_assoc] at this
    · refine .inr ⟨a.shift p, ?_⟩
      have := Covers.shift p b
      rwa [← Nat.add_assoc] at this

/-! ## bytes of the containers -/

theorem toByte_eq (v : Nat) : toByte v = BitVec.ofNat 8 v := by
  rw [toByte, show (0xff : Nat) = 2 ^ 8 - 1 from rfl, Nat.and_two_pow_sub_one_eq_mod]
  apply BitVec.eq_of_toNat_eq
  simp

theorem little32_eq (v : Nat) : little32 v = Bytes.le 4 v := by
  simp only [little32, toByte_eq, Bytes.le, Nat.shiftRight_eq_div_pow, Nat.div_div_eq_div_mul, Nat.reducePow, Nat.reduceMul]

theorem big32_eq (v : Nat) : big32 v = (Bytes.le 4 v).reverse := by rw [← little32_eq]; rfl

theorem le_mod (v : Nat) : Bytes.le 4 (v % 2 ^ 32) = Bytes.le 4 v := by
  apply Bytes.leNat_inj (by simp)
  rw [Bytes.leNat_le, Bytes.leNat_le, show (256 ^ 4 : Nat) = 2 ^ 32 from rfl, Nat.mod_mod]

theorem queueHeader_eq (e : Enc) : e.queueHeader = { e with pending := e.pending ++ headBytes e.format e.level } := by
  cases e with
  | mk format level => cases format <;> cases level <;> simp [Enc.queueHeader, headBytes, toByte, zlibHeader, gzipHeader]

end Verif.Deflate
