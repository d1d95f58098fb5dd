import Verif.Wire.Format
/-!
# Property theorems C18: element prefix and annotations
-/
namespace Verif.Wire
open Verif.Bytes

theorem slice_some' {bs : List Byte} {o l : Nat} (h : o + l ≤ bs.length) :
    slice bs o l = some ((bs.drop o).take l) := by simp [slice, h]

theorem le1 (n : Nat) : le 1 n = [BitVec.ofNat 8 n] := rfl

/-- **C18.** The prefix reads back what was written, for all field values, and the bytes after the prefix are untouched. -/
theorem prefix_roundtrip (h : List Byte) (hl : 8 ≤ h.length) (p : Prefix) (hs : p.size < 2 ^ 32) :
    ∃ h', writeHeaderSized h p = some h' ∧ readPrefix h' = some p ∧ h'.drop 8 = h.drop 8 ∧ h'.length = h.length := by
  match h, hl with
  | a0 :: a1 :: a2 :: a3 :: a4 :: a5 :: a6 :: a7 :: rest, _ =>
    have e : le 4 p.size = [BitVec.ofNat 8 p.size, BitVec.ofNat 8 (p.size / 256), BitVec.ofNat 8 (p.size / 256 / 256),
        BitVec.ofNat 8 (p.size / 256 / 256 / 256)] := rfl
    refine ⟨le 4 p.size ++ p.valueType :: p.containerType :: p.flags :: p.payloadOffset :: rest, ?_, ?_, ?_, ?_⟩
    · simp [writeHeaderSized, patch, e]
    · have h4 : leNat (le 4 p.size) = p.size := by rw [leNat_le]; exact Nat.mod_eq_of_lt (by omega)
      have hs1 : slice (le 4 p.size ++ p.valueType :: p.containerType :: p.flags :: p.payloadOffset :: rest) 0 4
          = some (le 4 p.size) := by rw [slice_some' (by simp)]; simp
      simp only [readPrefix, hs1]
      simp only [e] at *
      simp [h4]
    · simp [e]
    · simp; omega

example : 8 ≤ (List.replicate 12 0xAA#8 : List Byte).length ∧ (1234567 : Nat) < 2 ^ 32 := by decide

/-- **C18.** An annotation is refused exactly when a field exceeds what its length prefix can express or the output is too small. -/
theorem annotation_refused_iff (cap : Nat) (a : Annotation) :
    writeAnnotation cap a = none ↔
      a.quantity.length ≥ 256 ∨ a.unit.length ≥ 256 ∨ a.description.length ≥ 65536 ∨
      cap < 4 + a.quantity.length + a.unit.length + a.description.length := by
  unfold writeAnnotation annotationByteSize
  split
  · rename_i h; simp at h; simp; omega
  · rename_i h
    split
    · rename_i h2; simp at h; simp; omega
    · rename_i h2; simp at h; simp; omega

/-- **C18.** Whatever is written reads back exactly, also with arbitrary bytes following, and consumes exactly the bytes written. -/
theorem annotation_roundtrip (cap : Nat) (a : Annotation) (bytes rest : List Byte)
    (h : writeAnnotation cap a = some bytes) :
    readAnnotation (bytes ++ rest) = some (some (a, bytes.length)) ∧ bytes.length ≤ cap := by
  unfold writeAnnotation at h
  split at h
  · simp at h
  · rename_i hlen
    split at h
    · simp at h
    · rename_i hcap
      simp only [Bool.or_eq_true, decide_eq_true_eq, not_or, Nat.not_lt] at hlen
      obtain ⟨⟨hq, hu⟩, hd⟩ := hlen
      have hb := (Option.some.inj h).symm
      clear h
      have hbl : bytes.length = annotationByteSize a := by
        rw [hb]; simp [annotationByteSize]; omega
      refine ⟨?_, by omega⟩
      obtain ⟨q, u, d⟩ := a
      simp only [annotationByteSize] at *
      have eq8 : (BitVec.ofNat 8 q.length).toNat = q.length := by simp; omega
      have eu8 : (BitVec.ofNat 8 u.length).toNat = u.length := by simp; omega
      have ed : leNat (le 2 d.length) = d.length := by rw [leNat_le]; exact Nat.mod_eq_of_lt (by omega)
      have hB : bytes ++ rest = BitVec.ofNat 8 q.length :: (q ++ (BitVec.ofNat 8 u.length :: (u ++ (le 2 d.length ++ (d ++ rest))))) := by
        rw [hb, le1, le1]; simp
      have hBl : (bytes ++ rest).length = 1 + q.length + 1 + u.length + 2 + d.length + rest.length := by simp [hbl]
      generalize bytes ++ rest = B at hB hBl
      have g0 : B[0]? = some (BitVec.ofNat 8 q.length) := by rw [hB]; rfl
      have g1 : slice B 1 q.length = some q := by
        rw [slice_some' (by omega), hB]; simp
      have g2 : B[1 + q.length]? = some (BitVec.ofNat 8 u.length) := by
        rw [hB, Nat.add_comm, List.getElem?_cons_succ, List.getElem?_append_right (by omega)]; simp
      have g3 : slice B (1 + q.length + 1) u.length = some u := by
        rw [slice_some' (by omega), hB,
          show 1 + q.length + 1 = (q.length + 1) + 1 by omega, List.drop_succ_cons, List.drop_append]
        simp [List.drop_eq_nil_of_le]
      have g4 : slice B (1 + q.length + 1 + u.length) 2 = some (le 2 d.length) := by
        rw [slice_some' (by omega), hB,
          show 1 + q.length + 1 + u.length = (q.length + (u.length + 1)) + 1 by omega, List.drop_succ_cons,
          ← List.drop_drop, List.drop_left, List.drop_succ_cons, List.drop_left]
        rw [List.take_append_of_le_length (by simp), List.take_of_length_le (by simp)]
      have g5 : slice B (1 + q.length + 1 + u.length + 2) d.length = some d := by
        rw [slice_some' (by omega), hB,
          show 1 + q.length + 1 + u.length + 2 = (q.length + ((u.length + 2) + 1)) + 1 by omega, List.drop_succ_cons,
          ← List.drop_drop, List.drop_left, List.drop_succ_cons, ← List.drop_drop, List.drop_left]
        rw [List.drop_append, List.drop_eq_nil_of_le (by simp)]; simp
      have n0 : ¬ B.length < 0 + 1 := by omega
      have n1 : ¬ B.length < 1 + q.length := by omega
      have n2 : ¬ B.length < 1 + q.length + 1 := by omega
      have n3 : ¬ B.length < 1 + q.length + 1 + u.length := by omega
      have n4 : ¬ B.length < 1 + q.length + 1 + u.length + 2 := by omega
      have n5 : ¬ B.length < 1 + q.length + 1 + u.length + 2 + d.length := by omega
      simp only [readAnnotation, n0, if_false, g0, Option.pure_def, Option.bind_eq_bind, Option.bind_some, eq8,
        Nat.zero_add, n1, g1, n2, g2, eu8, n3, g3, n4, g4, ed, n5, g5]
      rw [hbl]

example : writeAnnotation 64 ⟨[0x41#8], [0x56#8, 0x73#8], []⟩ = some [1#8, 0x41#8, 2#8, 0x56#8, 0x73#8, 0#8, 0#8] := by decide
example : writeAnnotation 1000 ⟨List.replicate 256 0#8, [], []⟩ = none := by decide +kernel

/-- **C18.** Decoding arbitrary bytes never reads out of bounds, and what it accepts is the canonical encoding of the
annotation it returns: writing it again gives exactly the consumed bytes. -/
theorem annotation_decode_safe (bs : List Byte) :
    readAnnotation bs = some none ∨
    ∃ a k, readAnnotation bs = some (some (a, k)) ∧ k ≤ bs.length ∧ writeAnnotation k a = some (bs.take k) := by
  unfold readAnnotation
  by_cases n0 : bs.length < 0 + 1
  · left; simp [n0]
  · match bs with
    | [] => simp at n0
    | q0 :: t =>
    simp only [n0, if_false, Nat.zero_add, Option.pure_def, Option.bind_eq_bind, List.getElem?_cons_zero,
      Option.bind_some]
    by_cases n1 : (q0 :: t).length < 1 + q0.toNat
    · left; simp only [n1, if_true]
    · simp only [n1, if_false]
      have hq := q0.isLt
      rw [slice_some' (by omega)]
      simp only [Option.bind_some, List.drop_succ_cons, List.drop_zero]
      by_cases n2 : (q0 :: t).length < 1 + q0.toNat + 1
      · left; simp only [n2, if_true]
      · simp only [n2, if_false]
        simp only [List.length_cons] at n1 n2
        have hidx : (q0 :: t)[1 + q0.toNat]? = some (t[q0.toNat]'(by omega)) := by
          rw [Nat.add_comm, List.getElem?_cons_succ]; exact List.getElem?_eq_getElem _
        rw [hidx]
        generalize hu0 : t[q0.toNat]'(by omega) = u0
        have hu := u0.isLt
        simp only [Option.bind_some]
        by_cases n3 : (q0 :: t).length < 1 + q0.toNat + 1 + u0.toNat
        · left; simp only [n3, if_true]
        · simp only [n3, if_false]
          rw [slice_some' (by omega)]
          simp only [Option.bind_some]
          by_cases n4 : (q0 :: t).length < 1 + q0.toNat + 1 + u0.toNat + 2
          · left; simp only [n4, if_true]
          · simp only [n4, if_false]
            rw [slice_some' (by omega)]
            simp only [Option.bind_some]
            generalize hdb : List.take 2 (List.drop (1 + q0.toNat + 1 + u0.toNat) (q0 :: t)) = db
            have hdbl : db.length = 2 := by
              rw [← hdb]; simp only [List.length_take, List.length_drop]; omega
            by_cases n5 : (q0 :: t).length < 1 + q0.toNat + 1 + u0.toNat + 2 + leNat db
            · left; simp only [n5, if_true]
            · right
              simp only [n5, if_false]
              rw [slice_some' (by omega)]
              simp only [Option.bind_some]
              refine ⟨_, _, rfl, by omega, ?_⟩
              have hd : leNat db < 65536 := by have := leNat_lt db; rw [hdbl] at this; simpa using this
              simp only [List.length_cons] at n3 n4 n5
              have l1 : (List.take q0.toNat t).length = q0.toNat := by simp; omega
              have l2 : (List.take u0.toNat (List.drop (1 + q0.toNat + 1) (q0 :: t))).length = u0.toNat := by
                simp only [List.length_take, List.length_drop, List.length_cons]; omega
              have l3 : (List.take (leNat db) (List.drop (1 + q0.toNat + 1 + u0.toNat + 2) (q0 :: t))).length = leNat db := by
                simp only [List.length_take, List.length_drop, List.length_cons]; omega
              unfold writeAnnotation annotationByteSize
              simp only [l1, l2, l3]
              rw [if_neg (by simp; omega), if_neg (by omega)]
              congr 1
              have e1 : le 1 q0.toNat = [q0] := by rw [le1]; simp
              have e2 : le 1 u0.toNat = [u0] := by rw [le1]; simp
              have e3 : le 2 (leNat db) = db := by rw [← hdbl]; exact le_leNat db
              rw [e1, e2, e3]
              -- reassemble the list
              have s1 : q0 :: t = [q0] ++ (t.take q0.toNat ++ t.drop q0.toNat) := by simp
              have s2 : t.drop q0.toNat = u0 :: (q0 :: t).drop (1 + q0.toNat + 1) := by
                rw [show 1 + q0.toNat + 1 = (q0.toNat + 1) + 1 by omega, List.drop_succ_cons,
                  List.drop_eq_getElem_cons (by omega), hu0]
              generalize hR : (q0 :: t).drop (1 + q0.toNat + 1) = R at *
              have s3 : (q0 :: t).drop (1 + q0.toNat + 1 + u0.toNat) = R.drop u0.toNat := by
                rw [← hR, List.drop_drop]
              have s4 : (q0 :: t).drop (1 + q0.toNat + 1 + u0.toNat + 2) = (R.drop u0.toNat).drop 2 := by
                rw [← hR, List.drop_drop, List.drop_drop, Nat.add_assoc (1 + q0.toNat + 1)]
              rw [s3] at hdb
              rw [s4]
              conv => rhs; rw [s1, s2]
              have s5 : R = R.take u0.toNat ++ (db ++ ((R.drop u0.toNat).drop 2).take (leNat db) ++ ((R.drop u0.toNat).drop 2).drop (leNat db)) := by
                rw [List.append_assoc, List.take_append_drop, ← hdb, List.take_append_drop, List.take_append_drop]
              have hbig : ([q0] ++ (t.take q0.toNat ++ u0 :: R)) =
                  ([q0] ++ t.take q0.toNat ++ [u0] ++ R.take u0.toNat ++ db ++ ((R.drop u0.toNat).drop 2).take (leNat db))
                    ++ ((R.drop u0.toNat).drop 2).drop (leNat db) := by
                conv => lhs; rw [s5]
                simp
              rw [hbig, List.take_left']
              rw [s4] at l3
              simp only [List.length_append, List.length_cons, List.length_nil, l1, l2, hdbl, l3]

example : readAnnotation [1#8, 0x41#8, 0#8, 1#8, 0#8, 0x42#8, 0x99#8] = some (some (⟨[0x41#8], [], [0x42#8]⟩, 6)) := by decide

end Verif.Wire
