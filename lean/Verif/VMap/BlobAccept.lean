import Verif.VMap.BlobLemmas
/-! Lemmas: the bytes of a map pass the checks. -/
namespace Verif.VMap
open Verif.Bytes

/-- values that are read back: everything but nested maps and tensors of more than 2^24 elements -/
def Val.plain : Val → Bool
  | .map _ => false
  | .other => false
  | .tensor vt _ data => decide (data.length ≤ 2 ^ 24 * scalarSize vt)
  | _ => true

theorem reject_not {c : Prop} [Decidable c] {e : Err} (h : ¬c) : reject c e = .ok () := if_neg h

theorem ok_bind {α β : Type} (a : α) (f : α → Check β) : ((Except.ok a : Check α) >>= f) = f a := rfl

theorem readAt_blob {m : VMap} {d : Dict} (h : Inv m d) {slack : List Byte} (hs : Slack m slack) (extra : List Byte) {off n : Nat} {x : List Byte}
    (hp : m.peek off n = some x) : readAt (m.blob slack ++ extra) off n = .ok x := by
  obtain ⟨h1, h2⟩ := peek_eq_some.1 hp
  refine readAt_ok.2 ⟨by rw [List.length_append, blob_length h hs]; omega, ?_⟩
  rw [show off = m.base + (off - m.base) by omega, ← List.drop_drop, blob_pool h hs, List.drop_append_of_le_length (by omega),
    List.take_append_of_le_length (by rw [List.length_drop]; omega)]
  exact h2

/-- the bytes of a tensor pass -/
theorem checkTensor_ok {inner : Bool → Nat → List Byte → Check Unit} {addr vt : Nat} {c : List Byte} {ext : List Nat} {data : List Byte}
    (h : tensorAt c 0 vt = some (.tensor vt ext data)) (h1 : c.take 1 = le 1 vt) (h2 : vt < 256) (h3 : scalarSize vt ≠ 0)
    (h4 : data.length ≤ 2 ^ 24 * scalarSize vt) : checkTensor inner addr c = .ok () := by
  unfold tensorAt at h
  dsimp only [Option.bind_eq_bind] at h
  obtain ⟨head, g1, h⟩ := Option.bind_eq_some_iff.1 h
  split at h
  · simp at h
  rename_i hc
  obtain ⟨e, g2, h⟩ := Option.bind_eq_some_iff.1 h
  obtain ⟨dt, g3, h⟩ := Option.bind_eq_some_iff.1 h
  simp only [Option.some.injEq, Val.tensor.injEq, true_and] at h
  obtain ⟨_, rfl⟩ := h
  obtain ⟨g1, rfl⟩ := bytesAt_eq_some.1 g1
  obtain ⟨g3, hd⟩ := bytesAt_eq_some.1 g3
  have hdl : dt.length = leNat (((c.drop 0).take 8).drop 4) * scalarSize vt := by rw [← hd, List.length_take, List.length_drop]; omega
  have f0 : field ((c.drop 0).take 8) 0 1 = vt := by
    unfold field
    rw [List.drop_zero, List.drop_zero, List.take_take]
    show leNat (c.take 1) = vt
    rw [h1]; exact leNat_one vt h2
  have f1 : field ((c.drop 0).take 8) 1 1 = leNat ((((c.drop 0).take 8).drop 1).take 1) := rfl
  have f2 : field ((c.drop 0).take 8) 2 1 = leNat ((((c.drop 0).take 8).drop 2).take 1) := rfl
  have f4 : field ((c.drop 0).take 8) 4 4 = leNat (((c.drop 0).take 8).drop 4) := by
    unfold field
    rw [List.take_of_length_le (by simp; omega)]
  have hcount : leNat (((c.drop 0).take 8).drop 4) ≤ 2 ^ 24 := by
    rw [hdl] at h4
    exact Nat.le_of_mul_le_mul_right h4 (by omega)
  have hvar : bit (field ((c.drop 0).take 8) 2 1) 1 = false := by
    unfold bit
    rw [f2, Nat.div_one]
    simp only [beq_eq_false_iff_ne, ne_eq]
    omega
  have hvt := scalarSize_cases h3
  unfold checkTensor
  rw [reject_not (by omega), ok_bind, readAt_ok.2 ⟨by omega, rfl⟩, ok_bind]
  dsimp only
  rw [f0, hvar, f1, f4, reject_not (by omega), ok_bind, reject_not (by omega), ok_bind, reject_not (by unfold extentsBytes; omega), ok_bind,
    reject_not, ok_bind, Bool.not_false, if_pos rfl, reject_not h3, ok_bind, reject_not]
  · unfold extentsBytes
    rw [Nat.not_lt, Nat.le_div_iff_mul_le (by omega)]
    omega
  · have : (vt == vtValue || vt == vtString) = false := by
      simp only [vtValue, vtString, Bool.or_eq_false_iff, beq_eq_false_iff_ne]
      omega
    rw [this]
    simp

theorem body_tensor_inv {s vt : Nat} {c : List Byte} {v : Val} (h : body s vt 3 c = some v) (hp : v.plain = true) : scalarSize vt ≠ 0 ∧ ∃ ext data,
    v = .tensor vt ext data ∧ tensorAt c 0 vt = some (.tensor vt ext data) := by
  unfold body at h
  rw [if_neg (by decide), if_pos rfl] at h
  split at h
  · simp only [Option.some.injEq] at h
    subst h
    exact absurd hp (by decide)
  · rename_i hc
    refine ⟨by omega, ?_⟩
    have h' := h
    unfold tensorAt at h
    dsimp only [Option.bind_eq_bind] at h
    obtain ⟨head, g1, h⟩ := Option.bind_eq_some_iff.1 h
    split at h
    · simp only [Option.some.injEq] at h
      subst h
      exact absurd hp (by decide)
    · obtain ⟨e, g2, h⟩ := Option.bind_eq_some_iff.1 h
      obtain ⟨dt, g3, h⟩ := Option.bind_eq_some_iff.1 h
      simp only [Option.some.injEq] at h
      subst h
      exact ⟨_, _, rfl, h'⟩

theorem body_map_inv {s vt : Nat} {c : List Byte} {v : Val} (h : body s vt 4 c = some v) : v.plain = false := by
  unfold body at h
  rw [if_neg (by decide), if_neg (by decide), if_pos rfl] at h
  split at h
  · simp only [Option.some.injEq] at h
    subst h; rfl
  · obtain ⟨a, g1, h⟩ := Option.bind_eq_some_iff.1 h
    obtain ⟨b, g2, h⟩ := Option.bind_eq_some_iff.1 h
    simp only [Option.some.injEq] at h
    subst h; rfl

theorem align_32 {n : Nat} (h : align n < 2 ^ 32) : align32 n = align n := by
  unfold align32
  unfold align at h ⊢
  omega

theorem decode_length {bs : List Byte} {v : Val} (h : decode bs = some v) : 8 ≤ bs.length := by
  unfold decode at h
  dsimp only [Option.bind_eq_bind] at h
  obtain ⟨head, h1, _⟩ := Option.bind_eq_some_iff.1 h
  have := (bytesAt_eq_some.1 h1).1
  omega

theorem checkRow_ok {m : VMap} {d : Dict} (h : Inv m d) {slack : List Byte} (hs : Slack m slack) (extra : List Byte) {r : Row} (hr : r ∈ m.rows)
    (hd : ∀ e ∈ d, e.2.plain = true) (n addr : Nat) :
    checkRow (validate (n + 2)) false addr (m.blob slack ++ extra) m.base (m.base + m.pool.length) (.ofBytes r.pack) = .ok () := by
  obtain ⟨k, v, hkv, hk, hv⟩ := h.at hr
  have hpl : v.plain = true := hd _ hkv
  have htot := h.total
  obtain ⟨e1, e2, e3, e4, e5, e6, e7, e8⟩ := ofBytes_pack (r := r)
  have hkey : (do
      reject ((Packed.ofBytes r.pack).keyId = kInlineKeyId ∧ kMaxInlineKeyLength < field (Packed.ofBytes r.pack).inlineKey 0 1) .corrupt
      reject ((Packed.ofBytes r.pack).keyId = kSpilledKeyId ∧ (field (Packed.ofBytes r.pack).inlineKey 0 4 < m.base ∨
        m.base + m.pool.length < field (Packed.ofBytes r.pack).inlineKey 0 4 ∨
        m.base + m.pool.length - field (Packed.ofBytes r.pack).inlineKey 0 4 < field (Packed.ofBytes r.pack).inlineKey 4 4)) .corrupt : Check Unit) = .ok () := by
    cases hkk : r.key with
    | canonical id =>
      rw [hkk] at hk e3
      obtain ⟨_, h2⟩ := hk
      obtain ⟨h3, _⟩ := List.getElem?_eq_some_iff.1 h2
      rw [canonical_length] at h3
      have e3 : (Packed.ofBytes r.pack).keyId = id % 65536 := e3
      rw [reject_not (by unfold kInlineKeyId; omega), ok_bind, reject_not (by unfold kSpilledKeyId; omega)]
    | inline name =>
      rw [hkk] at hk e3 e8
      have h3 : name.length ≤ 34 := hk.2
      have e3 : (Packed.ofBytes r.pack).keyId = kInlineKeyId := e3
      have e8 : (Packed.ofBytes r.pack).inlineKey = le 1 name.length ++ name ++ List.replicate (35 - name.length) 0#8 := e8
      rw [e8, List.append_assoc, field_le, reject_not, ok_bind, reject_not]
      · rw [e3]; unfold kInlineKeyId kSpilledKeyId; omega
      · unfold kMaxInlineKeyLength; omega
    | spilled off len =>
      rw [hkk] at hk e3 e8
      obtain ⟨h3, _⟩ := peek_eq_some.1 (show m.peek off len = some k from hk)
      have e3 : (Packed.ofBytes r.pack).keyId = kSpilledKeyId := e3
      have e8 : (Packed.ofBytes r.pack).inlineKey = le 4 off ++ le 4 len ++ List.replicate 28 0#8 := e8
      have f0 : field (Packed.ofBytes r.pack).inlineKey 0 4 = off := by
        rw [e8, List.append_assoc, field_le, Nat.mod_eq_of_lt (by omega)]
      have f4 : field (Packed.ofBytes r.pack).inlineKey 4 4 = len := by
        rw [e8, List.append_assoc, field_skip (by simp), le_length, Nat.sub_self, field_le, Nat.mod_eq_of_lt (by omega)]
      rw [f0, f4, reject_not, ok_bind, reject_not]
      · omega
      · rw [e3]; unfold kInlineKeyId kSpilledKeyId; omega
  unfold checkRow
  rw [e5]
  rcases hv with ⟨hh, _⟩ | ⟨hh, hlen, ct, fl, c, hpk, hdec, hvt, hct, htens, _, hcut, hsnd⟩
  · rw [hh, if_neg (by decide), ok_bind]
    exact hkey
  · obtain ⟨hin, _⟩ := peek_eq_some.1 hpk
    have hal := align_ge r.len
    have hwin := peek_length hpk
    have hlen8 : 8 ≤ r.len := by
      have := decode_length hcut
      rw [List.length_take] at this
      omega
    rw [hh, if_pos rfl, e1, e2, e4, Nat.mod_eq_of_lt (by omega), Nat.mod_eq_of_lt (show r.len < 2 ^ 32 by omega), Nat.mod_eq_of_lt hvt, reject_not (by omega), ok_bind,
      reject_not (by omega), ok_bind]
    have hhead : m.peek r.off 8 = some (recHeader (align r.len) r.vt ct fl) := by
      have := peek_sub hpk 0 8 (by omega)
      rw [Nat.add_zero, List.drop_zero, List.take_left' (recHeader_length ..)] at this
      exact this
    rw [readAt_blob h hs extra hhead, ok_bind]
    obtain ⟨f1, f2, f3, f4⟩ := recHeader_fields (fl := fl) (show align r.len < 2 ^ 32 by omega) hvt hct
    have g1 : field (recHeader (align r.len) r.vt ct fl) 0 4 = align32 r.len := by
      unfold field; rw [List.drop_zero, f1, align_32 (by omega)]
    have g4 : field (recHeader (align r.len) r.vt ct fl) 7 1 = 8 := f4
    obtain ⟨s1, s2, s3⟩ := hsnd
    have hvv : ¬ vtValue < r.vt := by show ¬ 15 < r.vt; omega
    rw [g1, g4, reject_not (by omega), ok_bind, reject_not (by omega), ok_bind, reject_not hvv, ok_bind, e6, e7]
    rw [decode_rec (by omega) hvt hct] at hdec
    have hnn : r.nested = false := by
      rw [s2]
      cases hb : ct == 4 with
      | false => rfl
      | true =>
        rw [beq_iff_eq] at hb
        subst hb
        rw [body_map_inv hdec] at hpl
        exact absurd hpl (by decide)
    rw [hnn]
    cases ht : r.tensor with
    | false => rw [if_neg (by simp), ok_bind]; exact hkey
    | true =>
      have h3 : ct = 3 := by rw [ht] at htens; simpa using htens.symm
      subst h3
      rw [if_pos (.inr rfl), reject_not (by decide), ok_bind]
      rw [List.take_append, recHeader_length, List.take_of_length_le (by rw [recHeader_length]; omega), decode_rec (by omega) hvt hct] at hcut
      obtain ⟨q1, ext, data, rfl, q2⟩ := body_tensor_inv hcut hpl
      have hq : 8 ≤ (c.take (r.len - 8)).length := by
        unfold tensorAt at q2
        dsimp only [Option.bind_eq_bind] at q2
        obtain ⟨head, q3, _⟩ := Option.bind_eq_some_iff.1 q2
        exact Nat.le_trans (by omega) (bytesAt_eq_some.1 q3).1
      rw [List.length_take] at hq
      have hsub : m.peek (r.off + 8) (r.len - 8) = some (c.take (r.len - 8)) := by
        have := peek_sub hpk 8 (r.len - 8) (by omega)
        rw [List.drop_left' (recHeader_length ..)] at this
        exact this
      rw [if_neg (by decide), reject_not (by omega), ok_bind, readAt_blob h hs extra hsub, ok_bind]
      unfold validate
      rw [if_neg (by omega), checkTensor_ok q2 ?_ hvt q1 (by simpa [Val.plain] using hpl), ok_bind]
      · exact hkey
      · rw [List.take_take, Nat.min_eq_left (by omega)]
        exact s3 rfl

theorem checkRows_of {inner : Bool → Nat → List Byte → Check Unit} {deep : Bool} {addr : Nat} {bs : List Byte} {base total : Nat} :
    ∀ is : List Nat, (∀ i ∈ is, 32 + 48 * i + 48 ≤ bs.length ∧ checkRow inner deep addr bs base total (.ofBytes ((bs.drop (32 + 48 * i)).take 48)) = .ok ()) →
      checkRows inner deep addr bs base total is = .ok ()
  | [], _ => rfl
  | i :: is, h => by
    obtain ⟨h1, h2⟩ := h i (List.mem_cons_self ..)
    unfold checkRows
    rw [readAt_ok.2 ⟨h1, rfl⟩, ok_bind, h2, ok_bind]
    exact checkRows_of is fun j hj => h j (List.mem_cons_of_mem _ hj)

theorem checkChain_ok {m : VMap} {d : Dict} (h : Inv m d) {slack : List Byte} (hs : Slack m slack) (extra : List Byte) :
    ∀ (cs : List Reg) (head fuel : Nat), Chain m head cs → (∀ c ∈ cs, m.base ≤ c.1 ∧ c.1 + c.2 ≤ m.base + m.pool.length ∧ 8 ≤ c.2) → cs.length ≤ fuel →
      checkChain (m.blob slack ++ extra) m.base (m.base + m.pool.length) fuel head = .ok ()
  | [], head, fuel, hc, _, _ => by
    have hc : head = 0 := hc
    unfold checkChain
    rw [if_pos hc]
  | c :: cs, head, fuel, ⟨h1, next, h2, h3⟩, hb, hf => by
    obtain ⟨b1, b2, b3⟩ := hb c (List.mem_cons_self ..)
    have h32 : 32 ≤ m.base := by obtain ⟨x, hm⟩ := h.mem; exact hm.base
    cases fuel with
    | zero => simp at hf
    | succ fuel =>
      unfold checkChain
      unfold VMap.chunk at h2
      obtain ⟨bs, h4, h5⟩ := Option.map_eq_some_iff.1 h2
      have hl := peek_length h4
      simp only [Prod.mk.injEq] at h5
      have g0 : field bs 0 4 = c.2 := h5.1
      have g4 : field bs 4 4 = next := by
        unfold field
        rw [List.take_of_length_le (by rw [List.length_drop]; omega)]
        exact h5.2
      rw [if_neg (by omega), h1]
      dsimp only
      rw [reject_not (by omega), ok_bind, readAt_blob h hs extra h4, ok_bind, g0, g4, reject_not (by omega), ok_bind]
      exact checkChain_ok h hs extra cs next fuel h3 (fun x hx => hb x (List.mem_cons_of_mem _ hx)) (by simpa using hf)

/-- the checks accept the bytes of a map of plain values -/
theorem fromBlob_ok {m : VMap} {d : Dict} (h : Inv m d) {slack : List Byte} (hs : Slack m slack) (extra : List Byte) (hd : ∀ e ∈ d, e.2.plain = true) {addr : Nat}
    (ha : addr % 16 = 0) : fromBlob addr (m.blob slack ++ extra) = .ok m.reread := by
  obtain ⟨h1, h2, h3, h4, h5, h6⟩ := blob_header h slack extra
  obtain ⟨cs, hm⟩ := h.mem
  have hlen : (m.blob slack ++ extra).length = m.base + m.pool.length + extra.length := by rw [List.length_append, blob_length h hs]
  have hbase := hm.base
  have hsl : 32 + 48 * m.rows.length + slack.length = m.base := hs
  have hv : validate 33 true addr (m.blob slack ++ extra) = .ok () := by
    have hf : ∀ off n, off + n ≤ 32 → field (((m.blob slack ++ extra).drop 0).take 32) off n = field (m.blob slack ++ extra) off n := by
      intro off n ho
      unfold field
      rw [List.drop_zero, List.drop_take, List.take_take, Nat.min_eq_left (by omega)]
    have hmag : (((m.blob slack ++ extra).drop 0).take 32).take 4 = blobMagic := by
      rw [List.drop_zero, List.take_take]
      unfold VMap.blob
      rw [List.append_assoc, List.append_assoc, List.append_assoc]
      show List.take 4 (_ ++ _) = _
      rw [List.take_append_of_le_length (by rw [header_length]; decide), header_magic]
    have hver : field (m.blob slack ++ extra) 4 1 = 1 := by rw [blob_field (by decide)]; exact (header_fields m).1
    unfold validate checkMap
    rw [reject_not (by omega), ok_bind, reject_not (by omega), ok_bind, readAt_ok.2 ⟨by omega, rfl⟩, ok_bind, reject_not (by rw [hmag]; simp), ok_bind,
      hf 4 1 (by decide), hver, reject_not (by decide), ok_bind]
    dsimp only
    rw [hf 12 4 (by decide), hf 16 4 (by decide), hf 6 2 (by decide), hf 28 4 (by decide), h1, h3, h4, h6, reject_not (by omega), ok_bind, reject_not (by omega),
      ok_bind, checkRows_of, ok_bind]
    · refine checkChain_ok h hs extra cs _ _ hm.chain (fun c hc => ?_) ?_
      · have := hm.inside c (List.mem_append_right _ hc)
        have := hm.big c hc
        have := hm.used
        omega
      · have := hm.chunks
        omega
    · intro i hi
      have hi := List.mem_range.1 hi
      refine ⟨by omega, ?_⟩
      rw [blob_row h slack extra (List.getElem?_eq_getElem hi)]
      exact checkRow_ok h hs extra (List.getElem_mem hi) hd 30 addr
  unfold fromBlob
  rw [hv, ok_bind, ofBlob_blob h hs]
  rfl

end Verif.VMap
