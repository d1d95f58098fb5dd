import Verif.VMap.BlobSafe
import Verif.VMap.Lemmas
/-! Lemmas: reading back the bytes of a map. -/
namespace Verif.VMap
open Verif.Bytes

/-! ### Fields -/

theorem field_skip {a b : List Byte} {off n : Nat} (h : a.length ≤ off) : field (a ++ b) off n = field b (off - a.length) n := by
  unfold field
  rw [List.drop_append, List.drop_eq_nil_iff.2 h, List.nil_append]

theorem field_le (n v : Nat) (b : List Byte) : field (le n v ++ b) 0 n = v % 256 ^ n := by
  unfold field
  rw [List.drop_zero, List.take_left' (le_length n v), leNat_le]

theorem field_le_end (n v : Nat) : field (le n v) 0 n = v % 256 ^ n := by
  have := field_le n v []
  rwa [List.append_nil] at this

theorem field_append {a b : List Byte} {off n : Nat} (h : off + n ≤ a.length) : field (a ++ b) off n = field a off n := by
  unfold field
  rw [List.drop_append_of_le_length (by omega), List.take_append_of_le_length (by rw [List.length_drop]; omega)]

theorem magic_length : blobMagic.length = 4 := by decide

theorem header_length (m : VMap) : m.header.length = 32 := by
  unfold VMap.header
  simp only [List.length_append, le_length, magic_length]

theorem header_magic (m : VMap) : m.header.take 4 = blobMagic := by
  unfold VMap.header
  simp only [List.append_assoc]
  exact List.take_left' magic_length

theorem header_fields (m : VMap) : field m.header 4 1 = 1 ∧ bit (field m.header 5 1) 1 = m.overflow ∧ field m.header 6 2 = m.rows.length % 65536 ∧
    field m.header 8 2 = m.entryCapacity % 65536 ∧ field m.header 12 4 = (m.base + m.pool.length) % 2 ^ 32 ∧ field m.header 16 4 = m.base % 2 ^ 32 ∧
    field m.header 20 4 = m.used % 2 ^ 32 ∧ field m.header 28 4 = m.freeHead % 2 ^ 32 := by
  unfold VMap.header
  simp only [List.append_assoc]
  refine ⟨?_, ?_, ?_, ?_, ?_, ?_, ?_, ?_⟩
  · simp [field_skip, field_le, magic_length, le_length]
  · rw [show field _ 5 1 = if m.overflow then 1 else 0 by cases m.overflow <;> simp [field_skip, field_le, magic_length, le_length]]
    cases m.overflow <;> rfl
  · simp [field_skip, field_le, magic_length, le_length]
  · simp [field_skip, field_le, magic_length, le_length]
  · simp [field_skip, field_le, magic_length, le_length]
  · simp [field_skip, field_le, magic_length, le_length]
  · simp [field_skip, field_le, magic_length, le_length]
  · simp [field_skip, field_le_end, magic_length, le_length]

/-! ### Rows -/

/-- a key that fits into a row -/
def KeyRef.Fits : KeyRef → Prop
  | .canonical id => id < 32768
  | .inline name => name.length ≤ 34
  | .spilled off len => off < 2 ^ 32 ∧ len < 2 ^ 32

/-- a row as its bytes remember it: what a row without a record says about one may lose digits -/
def Row.trunc (r : Row) : Row := { r with off := r.off % 2 ^ 32, len := r.len % 2 ^ 32, vt := r.vt % 256 }

theorem KeyRef.pack_length {k : KeyRef} (h : k.Fits) : k.pack.2.length = 36 := by
  cases k with
  | canonical id => simp [KeyRef.pack]
  | inline name =>
    have : name.length ≤ 34 := h
    simp only [KeyRef.pack, List.length_append, le_length, List.length_replicate]
    omega
  | spilled off len => simp [KeyRef.pack]

theorem Row.pack_length {r : Row} (h : r.key.Fits) : r.pack.length = 48 := by
  simp only [Row.pack, List.length_append, le_length, KeyRef.pack_length h]

theorem drop_le (n v : Nat) (b : List Byte) (off : Nat) : (le n v ++ b).drop (n + off) = b.drop off := by
  rw [← List.drop_drop, List.drop_left' (le_length n v)]

theorem ofBytes_pack {r : Row} : (Packed.ofBytes r.pack).off = r.off % 2 ^ 32 ∧ (Packed.ofBytes r.pack).len = r.len % 2 ^ 32 ∧
    (Packed.ofBytes r.pack).keyId = r.key.pack.1 % 65536 ∧ (Packed.ofBytes r.pack).vt = r.vt % 256 ∧ bit (Packed.ofBytes r.pack).flags 2 = r.hasRec ∧
    bit (Packed.ofBytes r.pack).flags 8 = r.nested ∧ bit (Packed.ofBytes r.pack).flags 16 = r.tensor ∧ (Packed.ofBytes r.pack).inlineKey = r.key.pack.2 := by
  have hf : (Packed.ofBytes r.pack).flags = (if r.hasRec then 2 else 0) + (if r.nested then 8 else 0) + (if r.tensor then 16 else 0) := by
    unfold Packed.ofBytes Row.pack
    simp only [List.append_assoc]
    cases r.hasRec <;> cases r.nested <;> cases r.tensor <;> simp [field_skip, field_le, le_length]
  have hb : ∀ mask, bit (Packed.ofBytes r.pack).flags mask = bit ((if r.hasRec then 2 else 0) + (if r.nested then 8 else 0) + (if r.tensor then 16 else 0)) mask :=
    fun mask => by rw [hf]
  rw [hb, hb, hb]
  refine ⟨?_, ?_, ?_, ?_, ?_, ?_, ?_, ?_⟩
  · unfold Packed.ofBytes Row.pack; simp [field_le, le_length]
  · unfold Packed.ofBytes Row.pack; simp [field_skip, field_le, le_length]
  · unfold Packed.ofBytes Row.pack; simp [field_skip, field_le, le_length]
  · unfold Packed.ofBytes Row.pack; simp [field_skip, field_le, le_length]
  · cases r.hasRec <;> cases r.nested <;> cases r.tensor <;> rfl
  · cases r.hasRec <;> cases r.nested <;> cases r.tensor <;> rfl
  · cases r.hasRec <;> cases r.nested <;> cases r.tensor <;> rfl
  · unfold Packed.ofBytes Row.pack
    simp only [List.append_assoc]
    rw [show 12 = 4 + (4 + (2 + (1 + (1 + 0)))) by rfl, drop_le, drop_le, drop_le, drop_le, drop_le, List.drop_zero]

theorem pack_key {r : Row} (h : r.key.Fits) : (Packed.ofBytes r.pack).key = r.key := by
  obtain ⟨_, _, h1, _, _, _, _, h2⟩ := ofBytes_pack (r := r)
  cases hk : r.key with
  | canonical id =>
    rw [hk] at h h1
    have h : id < 32768 := h
    have h1 : (Packed.ofBytes r.pack).keyId = id % 65536 := h1
    rw [Nat.mod_eq_of_lt (by omega)] at h1
    unfold Packed.key
    rw [if_neg (by rw [h1]; unfold kInlineKeyId; omega), if_neg (by rw [h1]; unfold kSpilledKeyId; omega), h1]
  | inline name =>
    rw [hk] at h h1 h2
    have h : name.length ≤ 34 := h
    have h1 : (Packed.ofBytes r.pack).keyId = kInlineKeyId := h1
    have h2 : (Packed.ofBytes r.pack).inlineKey = le 1 name.length ++ name ++ List.replicate (35 - name.length) 0#8 := h2
    unfold Packed.key
    rw [if_pos h1, h2, List.append_assoc, field_le, drop_le 1 name.length _ 0, List.drop_zero, Nat.mod_eq_of_lt (by omega)]
    congr 1
    exact List.take_left' rfl
  | spilled off len =>
    rw [hk] at h h1 h2
    have h : off < 2 ^ 32 ∧ len < 2 ^ 32 := h
    have h1 : (Packed.ofBytes r.pack).keyId = kSpilledKeyId := h1
    have h2 : (Packed.ofBytes r.pack).inlineKey = le 4 off ++ le 4 len ++ List.replicate 28 0#8 := h2
    unfold Packed.key
    rw [if_neg (by rw [h1]; decide), if_pos h1, h2, List.append_assoc, field_le, field_skip (by simp), le_length, Nat.sub_self, field_le,
      Nat.mod_eq_of_lt (by omega), Nat.mod_eq_of_lt (by omega)]

theorem pack_row {r : Row} (h : r.key.Fits) : (Packed.ofBytes r.pack).row = r.trunc := by
  obtain ⟨h1, h2, _, h4, h5, h6, h7, _⟩ := ofBytes_pack (r := r)
  unfold Packed.row Row.trunc
  rw [pack_key h, h1, h2, h4, h5, h6, h7]

theorem flatMap_window {α : Type} {f : α → List Byte} {w : Nat} (rest : List Byte) : ∀ (l : List α), (∀ x ∈ l, (f x).length = w) → ∀ (i : Nat) (x : α), l[i]? = some x →
    ((l.flatMap f ++ rest).drop (w * i)).take w = f x
  | [], _, i, x, h => by simp at h
  | y :: l, hf, 0, x, h => by
    simp only [List.getElem?_cons_zero, Option.some.injEq] at h
    subst h
    rw [Nat.mul_zero, List.drop_zero, List.flatMap_cons, List.append_assoc]
    exact List.take_left' (hf y (List.mem_cons_self ..))
  | y :: l, hf, i + 1, x, h => by
    rw [List.getElem?_cons_succ] at h
    rw [List.flatMap_cons, List.append_assoc, Nat.mul_succ, Nat.add_comm, ← List.drop_drop, List.drop_left' (hf y (List.mem_cons_self ..))]
    exact flatMap_window rest l (fun x hx => hf x (List.mem_cons_of_mem _ hx)) i x h

theorem flatMap_width {α : Type} {f : α → List Byte} {w : Nat} : ∀ (l : List α), (∀ x ∈ l, (f x).length = w) → (l.flatMap f).length = w * l.length
  | [], _ => rfl
  | y :: l, hf => by
    rw [List.flatMap_cons, List.length_append, hf y (List.mem_cons_self ..), flatMap_width l fun x hx => hf x (List.mem_cons_of_mem _ hx), List.length_cons,
      Nat.mul_succ, Nat.add_comm]

/-! ### The whole map -/

/-- rows not in use -/
def Slack (m : VMap) (slack : List Byte) : Prop := 32 + 48 * m.rows.length + slack.length = m.base

theorem KeyIs.fits {m : VMap} {k : KeyRef} {n : Key} (h : KeyIs m k n) (ht : m.base + m.pool.length < 2 ^ 32) : k.Fits := by
  cases k with
  | canonical id =>
    obtain ⟨h1, h2⟩ := h
    obtain ⟨h3, _⟩ := List.getElem?_eq_some_iff.1 h2
    rw [canonical_length] at h3
    show id < 32768
    omega
  | inline name => exact h.2
  | spilled off len =>
    obtain ⟨h1, _⟩ := peek_eq_some.1 (show m.peek off len = some n from h)
    show off < 2 ^ 32 ∧ len < 2 ^ 32
    omega

theorem ValIs.trunc {m : VMap} {r : Row} {v : Val} (h : ValIs m r v) (ht : m.base + m.pool.length < 2 ^ 32) (hr : r.hasRec = true) : r.trunc = r := by
  rcases h with ⟨h1, _⟩ | ⟨_, _, ct, fl, c, h2, _, h4, _⟩
  · rw [h1] at hr; exact absurd hr (by decide)
  · obtain ⟨h5, _⟩ := peek_eq_some.1 h2
    have := align_ge r.len
    unfold Row.trunc
    rw [Nat.mod_eq_of_lt (by omega), Nat.mod_eq_of_lt (by omega), Nat.mod_eq_of_lt (by omega)]

theorem Inv.at {m : VMap} {d : Dict} (h : Inv m d) {r : Row} (hr : r ∈ m.rows) : ∃ k v, (k, v) ∈ d ∧ KeyIs m r.key k ∧ ValIs m r v := by
  obtain ⟨i, hi, rfl⟩ := List.mem_iff_getElem.1 hr
  have hd : i < d.length := by rw [← h.len]; exact hi
  exact ⟨d[i].1, d[i].2, List.getElem_mem hd, h.key i _ d[i] (List.getElem?_eq_getElem hi) (List.getElem?_eq_getElem hd),
    h.val i _ d[i] (List.getElem?_eq_getElem hi) (List.getElem?_eq_getElem hd)⟩

theorem Inv.total {m : VMap} {d : Dict} (h : Inv m d) : m.base + m.pool.length < 2 ^ 32 := by
  obtain ⟨cs, hm⟩ := h.mem
  exact hm.total

theorem Inv.fits {m : VMap} {d : Dict} (h : Inv m d) : ∀ r ∈ m.rows, r.key.Fits := by
  intro r hr
  obtain ⟨k, v, _, hk, _⟩ := h.at hr
  exact hk.fits h.total

theorem Inv.head {m : VMap} {d : Dict} (h : Inv m d) : m.freeHead < 2 ^ 32 := by
  obtain ⟨cs, hm⟩ := h.mem
  rw [hm.chain.head]
  cases cs with
  | nil => show 0 < 2 ^ 32; omega
  | cons c cs =>
    have := hm.inside c (List.mem_append_right _ (List.mem_cons_self ..))
    have := hm.total
    have := hm.used
    show c.1 < 2 ^ 32
    omega

theorem trunc_regs {m : VMap} {d : Dict} (h : Inv m d) {r : Row} (hr : r ∈ m.rows) : r.trunc.regs = r.regs := by
  obtain ⟨k, v, _, _, hv⟩ := h.at hr
  cases hh : r.hasRec with
  | true => rw [hv.trunc h.total hh]
  | false =>
    unfold Row.regs Row.trunc
    dsimp only
    rw [hh]
    rfl

/-- the map that reading the bytes of `m` gives -/
def VMap.reread (m : VMap) : VMap := { m with rows := m.rows.map Row.trunc, fixed := false, gen := 0 }

theorem blob_field {m : VMap} {slack extra : List Byte} {off n : Nat} (h : off + n ≤ 32) : field (m.blob slack ++ extra) off n = field m.header off n := by
  unfold VMap.blob
  rw [List.append_assoc, List.append_assoc, List.append_assoc]
  exact field_append (by rw [header_length]; omega)

theorem blob_length {m : VMap} {d : Dict} (h : Inv m d) {slack : List Byte} (hs : Slack m slack) : (m.blob slack).length = m.base + m.pool.length := by
  unfold VMap.blob
  unfold Slack at hs
  rw [List.length_append, List.length_append, List.length_append, header_length, flatMap_width m.rows fun r hr => Row.pack_length (h.fits r hr)]
  omega

theorem blob_row {m : VMap} {d : Dict} (h : Inv m d) (slack extra : List Byte) {i : Nat} {r : Row} (hi : m.rows[i]? = some r) :
    ((m.blob slack ++ extra).drop (32 + 48 * i)).take 48 = r.pack := by
  unfold VMap.blob
  rw [List.append_assoc, List.append_assoc, List.append_assoc, ← List.drop_drop, List.drop_left' (header_length m)]
  exact flatMap_window _ m.rows (fun r hr => Row.pack_length (h.fits r hr)) i r hi

theorem blob_pool {m : VMap} {d : Dict} (h : Inv m d) {slack extra : List Byte} (hs : Slack m slack) : (m.blob slack ++ extra).drop m.base = m.pool ++ extra := by
  unfold VMap.blob
  rw [List.append_assoc]
  refine List.drop_left' ?_
  unfold Slack at hs
  rw [List.length_append, List.length_append, header_length, flatMap_width m.rows fun r hr => Row.pack_length (h.fits r hr)]
  omega

theorem blob_header {m : VMap} {d : Dict} (h : Inv m d) (slack extra : List Byte) : field (m.blob slack ++ extra) 6 2 = m.rows.length ∧
    field (m.blob slack ++ extra) 8 2 = m.entryCapacity ∧ field (m.blob slack ++ extra) 12 4 = m.base + m.pool.length ∧
    field (m.blob slack ++ extra) 16 4 = m.base ∧ field (m.blob slack ++ extra) 20 4 = m.used ∧ field (m.blob slack ++ extra) 28 4 = m.freeHead := by
  obtain ⟨_, _, h3, h4, h5, h6, h7, h8⟩ := header_fields m
  obtain ⟨cs, hm⟩ := h.mem
  obtain ⟨e, _, he, _⟩ := h.layout
  have := h.total
  have := hm.used
  have := h.count
  rw [blob_field (by decide), blob_field (by decide), blob_field (by decide), blob_field (by decide), blob_field (by decide), blob_field (by decide), h3, h4, h5, h6, h7,
    h8]
  refine ⟨Nat.mod_eq_of_lt h.count, Nat.mod_eq_of_lt ?_, Nat.mod_eq_of_lt h.total, Nat.mod_eq_of_lt ?_, Nat.mod_eq_of_lt ?_, Nat.mod_eq_of_lt h.head⟩
  · omega
  · omega
  · omega

theorem ofBlob_blob {m : VMap} {d : Dict} (h : Inv m d) {slack : List Byte} (hs : Slack m slack) (extra : List Byte) :
    VMap.ofBlob (m.blob slack ++ extra) = m.reread := by
  obtain ⟨h1, h2, h3, h4, h5, h6⟩ := blob_header h slack extra
  have hp : ((m.blob slack ++ extra).take (m.base + m.pool.length)).drop m.base = m.pool := by
    rw [List.drop_take, blob_pool h hs, Nat.add_sub_cancel_left]
    exact List.take_left' rfl
  have hr : ((List.range m.rows.length).map fun i => (Packed.ofBytes (((m.blob slack ++ extra).drop (32 + 48 * i)).take 48)).row) = m.rows.map Row.trunc := by
    apply List.ext_getElem?
    intro i
    rw [List.getElem?_map, List.getElem?_map]
    by_cases hi : i < m.rows.length
    · rw [List.getElem?_range hi, List.getElem?_eq_getElem hi, Option.map_some, Option.map_some, blob_row h slack extra (List.getElem?_eq_getElem hi),
        pack_row (h.fits _ (List.getElem_mem hi))]
    · rw [List.getElem?_eq_none (by simpa using hi), List.getElem?_eq_none (by omega)]
      rfl
  unfold VMap.ofBlob VMap.reread
  rw [h1, h2, h3, h4, h5, h6, hp, hr, blob_field (by decide), (header_fields m).2.1]

theorem reread_peek (m : VMap) (off n : Nat) : m.reread.peek off n = m.peek off n := rfl

theorem Inv.reread {m : VMap} {d : Dict} (h : Inv m d) : Inv m.reread d := by
  obtain ⟨cs, hm⟩ := h.mem
  have hrow : ∀ (i : Nat) (r : Row), m.reread.rows[i]? = some r → ∃ s, m.rows[i]? = some s ∧ r = s.trunc := by
    intro i r hr
    have hr : (m.rows.map Row.trunc)[i]? = some r := hr
    rw [List.getElem?_map] at hr
    obtain ⟨s, h1, h2⟩ := Option.map_eq_some_iff.1 hr
    exact ⟨s, h1, h2.symm⟩
  refine ⟨⟨cs, ?_⟩, ?_, ?_, ?_, ?_, ?_, h.keys⟩
  · have : m.reread.rows.flatMap Row.regs = m.rows.flatMap Row.regs := by
      show (m.rows.map Row.trunc).flatMap Row.regs = _
      rw [List.flatMap_map]
      rw [List.flatMap_def, List.flatMap_def, List.map_congr_left fun r hr => trunc_regs h hr]
    rw [this]
    exact hm.rows m.reread rfl rfl rfl rfl
  · obtain ⟨e, h1, h2, h3⟩ := h.layout
    exact ⟨e, h1, h2, by show (m.rows.map Row.trunc).length ≤ e; rw [List.length_map]; exact h3⟩
  · show (m.rows.map Row.trunc).length < _; rw [List.length_map]; exact h.count
  · show (m.rows.map Row.trunc).length = _; rw [List.length_map]; exact h.len
  · intro i r e hr he
    obtain ⟨s, h1, rfl⟩ := hrow i r hr
    exact h.key i s e h1 he
  · intro i r e hr he
    obtain ⟨s, h1, rfl⟩ := hrow i r hr
    have hv := h.val i s e h1 he
    cases hh : s.hasRec with
    | true =>
      rw [hv.trunc h.total hh]
      exact hv
    | false =>
      rcases hv with ⟨_, h3⟩ | ⟨h2, _⟩
      · exact .inl ⟨hh, h3⟩
      · rw [hh] at h2; exact absurd h2 (by decide)

end Verif.VMap
