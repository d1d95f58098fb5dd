import Verif.VMap.Decode
import Verif.VMap.Spec
/-! Lemmas: the invariant that relates a map to a dictionary, and what the operations do to it. -/
namespace Verif.VMap
open Verif.Bytes

/-! ### Rows -/

def KeyRef.regs : KeyRef → List Reg
  | .spilled off len => [(off, len + 1)]
  | _ => []

/-- regions of a row -/
def Row.regs (r : Row) : List Reg := (if r.hasRec then [(r.off, align r.len)] else []) ++ r.key.regs

def KeyRef.rebase (k : KeyRef) (old new : Nat) : KeyRef :=
  match k with
  | .spilled off len => .spilled (new + (off - old)) len
  | k => k

theorem Row.rebase_key (r : Row) (a b : Nat) : (r.rebase a b).key = r.key.rebase a b := by
  unfold Row.rebase KeyRef.rebase; rfl

theorem KeyRef.regs_rebase (k : KeyRef) (a b : Nat) : (k.rebase a b).regs = k.regs.map (shift a b) := by
  cases k <;> rfl

theorem Row.regs_rebase (r : Row) (a b : Nat) : (r.rebase a b).regs = r.regs.map (shift a b) := by
  unfold Row.regs
  rw [Row.rebase_key, KeyRef.regs_rebase, List.map_append]
  congr 1
  unfold Row.rebase
  dsimp only
  cases h : r.hasRec <;> simp [shift]

/-- what the checks of received blobs ask of a record with content `c` -/
def Sound (vt ct : Nat) (nested : Bool) (c : List Byte) : Prop := vt ≤ 15 ∧ nested = (ct == 4) ∧ (ct = 3 → c.take 1 = le 1 vt)

/-- the record of a row and the value read from it -/
def ValIs (m : VMap) (r : Row) (v : Val) : Prop :=
  (r.hasRec = false ∧ v = .unset) ∨
  (r.hasRec = true ∧ 0 < r.len ∧ ∃ ct fl c, m.peek r.off (align r.len) = some (recHeader (align r.len) r.vt ct fl ++ c) ∧
    decode (recHeader (align r.len) r.vt ct fl ++ c) = some v ∧ r.vt < 256 ∧ ct < 256 ∧ r.tensor = (ct == 3) ∧
    (scalarSize r.vt ≠ 0 → r.vt ≤ 12 → ct ≠ 3 → ct = scalarCt r.vt) ∧ decode ((recHeader (align r.len) r.vt ct fl ++ c).take r.len) = some v ∧
    Sound r.vt ct r.nested c)

def KeyIs (m : VMap) (key : KeyRef) (k : Key) : Prop :=
  match key with
  | .canonical id => 1 ≤ id ∧ canonicalNames[id - 1]? = some k
  | .inline name => name = k ∧ name.length ≤ 34
  | .spilled off len => m.peek off len = some k

theorem KeyIs.read {m : VMap} {r : Row} {k : Key} (h : KeyIs m r.key k) : m.readKey r = some k := by
  unfold VMap.readKey
  unfold KeyIs at h
  cases hk : r.key with
  | canonical id => rw [hk] at h; dsimp only at h ⊢; rw [if_neg (by omega), h.2]; rfl
  | inline name => rw [hk] at h; dsimp only at h ⊢; rw [h.1]
  | spilled off len => rw [hk] at h; exact h

theorem ValIs.read {m : VMap} {r : Row} {v : Val} (h : ValIs m r v) (hb : 32 ≤ m.base) : m.readVal r = some v := by
  unfold VMap.readVal
  rcases h with ⟨h1, h2⟩ | ⟨h1, _, ct, fl, c, h2, h3, _⟩
  · rw [h1, h2]; rfl
  · obtain ⟨h4, h5⟩ := peek_eq_some.1 h2
    rw [h1, if_pos (by simp; omega), if_pos h4.1]
    have := decode_append ((m.pool.drop (r.off - m.base)).drop (align r.len)) h3
    rw [← h5, List.take_append_drop] at this
    exact this

theorem lookupId_name : ∀ i < 22, ∀ n, canonicalNames[i]? = some n → lookupId n = i + 1 := by
  have h : ∀ i < 22, (canonicalNames[i]?.map lookupId) = some (i + 1) := by decide +kernel
  intro i hi n hn
  have := h i hi
  rw [hn] at this
  simpa using this

theorem canonical_length : canonicalNames.length = 22 := by decide +kernel

theorem lookupId_found {n : List Byte} (h : lookupId n ≠ 0) : canonicalNames[lookupId n - 1]? = some n := by
  unfold lookupId at h ⊢
  by_cases hp : n.take 3 ≠ chars "gr:"
  · rw [if_pos hp] at h; exact absurd rfl h
  · rw [if_neg hp] at h ⊢
    cases hf : canonicalNames.findIdx? (· == n) with
    | none => rw [hf] at h; exact absurd rfl h
    | some i =>
      dsimp only
      rw [Nat.add_sub_cancel]
      obtain ⟨h1, h2, _⟩ := List.findIdx?_eq_some_iff_getElem.1 hf
      rw [List.getElem?_eq_getElem h1]
      congr 1
      exact eq_of_beq h2

theorem keyMatches_ok {m : VMap} {r : Row} {k : Key} (h : KeyIs m r.key k) (key : Key) : m.keyMatches r key = some (k == key) := by
  unfold VMap.keyMatches
  unfold KeyIs at h
  cases hk : r.key with
  | canonical id =>
    rw [hk] at h
    dsimp only at h ⊢
    congr 1
    have hlt : id - 1 < 22 := by
      obtain ⟨h1, _⟩ := List.getElem?_eq_some_iff.1 h.2
      rw [canonical_length] at h1; exact h1
    have hid := lookupId_name (id - 1) hlt k h.2
    rw [Bool.eq_iff_iff]
    simp only [Bool.and_eq_true, decide_eq_true_eq, beq_iff_eq]
    constructor
    · rintro ⟨h1, h2⟩
      have := lookupId_found h1
      rw [← h2, h.2] at this
      simpa using this
    · intro he
      subst he
      omega
  | inline name =>
    rw [hk] at h
    dsimp only at h ⊢
    rw [h.1]
  | spilled off len =>
    rw [hk] at h
    dsimp only at h ⊢
    have hl := peek_length h
    by_cases hn : len ≠ key.length
    · rw [if_pos hn]
      congr 1
      symm
      rw [beq_eq_false_iff_ne]
      intro he
      subst he
      exact hn hl.symm
    · rw [if_neg hn, h]; rfl

theorem KeyIs.move {m m' : VMap} {key : KeyRef} {k : Key} (h : KeyIs m key k)
    (hd : ∀ g ∈ key.regs, (m.base ≤ g.1 ∧ g.1 + g.2 ≤ m.base + m.pool.length) ∧ m'.peek (m'.base + (g.1 - m.base)) g.2 = m.peek g.1 g.2) :
    KeyIs m' (key.rebase m.base m'.base) k := by
  cases key with
  | canonical id => exact h
  | inline name => exact h
  | spilled off len =>
    obtain ⟨⟨h1, h2⟩, h3⟩ := hd (off, len + 1) (by simp [KeyRef.regs])
    dsimp only at h1 h2 h3
    have := peek_congr h1 (by omega) h3 h2 len (by omega)
    exact this.trans h

theorem ValIs.move {m m' : VMap} {r : Row} {v : Val} (h : ValIs m r v)
    (hd : r.hasRec = true → m'.peek (m'.base + (r.off - m.base)) (align r.len) = m.peek r.off (align r.len)) :
    ValIs m' (r.rebase m.base m'.base) v := by
  rcases h with h | ⟨h1, h2, ct, fl, c, h3, h4⟩
  · exact .inl h
  · refine .inr ⟨h1, h2, ct, fl, c, ?_, h4⟩
    unfold Row.rebase
    dsimp only
    rw [if_pos h1, hd h1]
    exact h3

/-- the map holds the dictionary -/
structure Inv (m : VMap) (d : Dict) : Prop where
  mem : ∃ cs, Mem m (m.rows.flatMap Row.regs) cs
  layout : Layout m
  count : m.rows.length < 65536
  len : m.rows.length = d.length
  key : ∀ (i : Nat) (r : Row) (e : Key × Val), m.rows[i]? = some r → d[i]? = some e → KeyIs m r.key e.1
  val : ∀ (i : Nat) (r : Row) (e : Key × Val), m.rows[i]? = some r → d[i]? = some e → ValIs m r e.2
  keys : (d.map (·.1)).Nodup

theorem Mem.placed {m : VMap} {cs : List Reg} {x : List Reg} (h : Mem m (x ++ m.rows.flatMap Row.regs) cs) : Placed m := by
  intro r hr
  have hreg : ∀ g ∈ r.regs, m.base ≤ g.1 := fun g hg =>
    (h.inside g (by
      rw [List.append_assoc]
      exact List.mem_append_right _ (List.mem_append_left _ (List.mem_flatMap.2 ⟨r, hr, hg⟩)))).1
  refine ⟨fun hh => ?_, fun off len hk => ?_⟩
  · exact hreg (r.off, align r.len) (by simp [Row.regs, hh])
  · exact hreg (off, len + 1) (by simp [Row.regs, hk, KeyRef.regs])

theorem flatMap_rebase (rows : List Row) (a b : Nat) : (rows.map (·.rebase a b)).flatMap Row.regs = (rows.flatMap Row.regs).map (shift a b) := by
  rw [List.flatMap_map, List.map_flatMap]
  congr 1
  funext r
  exact Row.regs_rebase r a b

/-- the relation survives a move of the pool -/
theorem Inv.moved {m m' : VMap} {d : Dict} (h : Inv m d) (hv : Moves m m' (m.rows.flatMap Row.regs)) (hl : Layout m')
    (hm : ∃ cs, Mem m' (m'.rows.flatMap Row.regs) cs) : Inv m' d := by
  obtain ⟨cs, hmem⟩ := h.mem
  have hdat : ∀ r ∈ m.rows, ∀ g ∈ r.regs, (m.base ≤ g.1 ∧ g.1 + g.2 ≤ m.base + m.pool.length) ∧
      m'.peek (m'.base + (g.1 - m.base)) g.2 = m.peek g.1 g.2 := by
    intro r hr g hg
    have hgm : g ∈ m.rows.flatMap Row.regs := List.mem_flatMap.2 ⟨r, hr, hg⟩
    have := hmem.inside g (List.mem_append_left _ hgm)
    have hu := hmem.used
    exact ⟨⟨this.1, by omega⟩, hv.data g hgm⟩
  have hrow : ∀ (i : Nat) (r' : Row), m'.rows[i]? = some r' → ∃ r, m.rows[i]? = some r ∧ r' = r.rebase m.base m'.base := by
    intro i r' hr
    rw [hv.rows, List.getElem?_map] at hr
    obtain ⟨r, h1, h2⟩ := Option.map_eq_some_iff.1 hr
    exact ⟨r, h1, h2.symm⟩
  refine ⟨hm, hl, ?_, ?_, ?_, ?_, h.keys⟩
  · rw [hv.rows, List.length_map]; exact h.count
  · rw [hv.rows, List.length_map]; exact h.len
  · intro i r' e hr he
    obtain ⟨r, h1, rfl⟩ := hrow i r' hr
    rw [Row.rebase_key]
    exact (h.key i r e h1 he).move fun g hg => hdat r (List.mem_of_getElem? h1) g (by simp [Row.regs, hg])
  · intro i r' e hr he
    obtain ⟨r, h1, rfl⟩ := hrow i r' hr
    exact (h.val i r e h1 he).move fun hh => (hdat r (List.mem_of_getElem? h1) (r.off, align r.len) (by simp [Row.regs, hh])).2

theorem Inv.kept {m m' : VMap} {d : Dict} (h : Inv m d) {cs : List Reg} (hm : Mem m' (m.rows.flatMap Row.regs) cs)
    (hk : Kept m m' (m.rows.flatMap Row.regs)) : Inv m' d := by
  obtain ⟨cs0, hmem⟩ := h.mem
  exact h.moved (hk.moves (Mem.placed (x := []) hmem) hmem.low) (h.layout.kept hk.base hk.cap hk.rows) ⟨cs, by rw [hk.rows]; exact hm⟩

/-! ### Finding -/

theorem findIn_ok {m : VMap} (key : Key) : ∀ (rows : List Row) (d : Dict) (n : Nat), rows.length = d.length →
    (∀ (i : Nat) (r : Row) (e : Key × Val), rows[i]? = some r → d[i]? = some e → KeyIs m r.key e.1) →
    m.findIn key rows n = some ((d.findIdx? (·.1 == key)).map (n + ·))
  | [], [], n, _, _ => rfl
  | r :: rows, e :: d, n, hl, hk => by
    have h0 := hk 0 r e rfl rfl
    rw [VMap.findIn, keyMatches_ok h0, List.findIdx?_cons]
    dsimp only [Option.bind_eq_bind, Option.bind_some]
    by_cases hc : (e.1 == key) = true
    · rw [if_pos hc, if_pos hc]; rfl
    · rw [if_neg hc, if_neg hc, findIn_ok key rows d (n + 1) (by simpa using hl) fun i r e h1 h2 => hk (i + 1) r e h1 h2]
      rw [Option.map_map]
      congr 2
      funext x
      simp only [Function.comp]; omega
  | [], _ :: _, _, hl, _ => by simp at hl
  | _ :: _, [], _, hl, _ => by simp at hl

theorem find_ok {m : VMap} {d : Dict} (h : Inv m d) (key : Key) : m.find key = some (d.findIdx? (·.1 == key)) := by
  unfold VMap.find
  rw [findIn_ok key m.rows d 0 h.len h.key]
  congr 1
  cases d.findIdx? (·.1 == key) <;> simp

/-! ### Changing one row -/

theorem KeyIs.same {m m' : VMap} {key : KeyRef} {k : Key} (h : KeyIs m key k) (hb : m'.base = m.base)
    (hd : ∀ g ∈ key.regs, m'.peek g.1 g.2 = m.peek g.1 g.2 ∧ m.base ≤ g.1 ∧ g.1 + g.2 ≤ m.base + m.pool.length) : KeyIs m' key k := by
  cases key with
  | canonical id => exact h
  | inline name => exact h
  | spilled off len =>
    obtain ⟨h1, h2, h3⟩ := hd (off, len + 1) (by simp [KeyRef.regs])
    exact (peek_congr h2 (by rw [hb]; exact h2) h1 h3 len (by omega)).trans h

theorem ValIs.same {m m' : VMap} {r : Row} {v : Val} (h : ValIs m r v)
    (hd : r.hasRec = true → m'.peek r.off (align r.len) = m.peek r.off (align r.len)) : ValIs m' r v := by
  rcases h with h | ⟨h1, h2, ct, fl, c, h3, h4⟩
  · exact .inl h
  · exact .inr ⟨h1, h2, ct, fl, c, (hd h1).trans h3, h4⟩

theorem split_at {α : Type} {l : List α} {i : Nat} {x : α} (h : l[i]? = some x) : ∃ pre post, l = pre ++ x :: post ∧ pre.length = i := by
  obtain ⟨h1, h2⟩ := List.getElem?_eq_some_iff.1 h
  refine ⟨l.take i, l.drop (i + 1), ?_, by simp; omega⟩
  rw [← h2, List.getElem_cons_drop, List.take_append_drop]

theorem set_split {α : Type} {pre post : List α} {x y : α} : (pre ++ x :: post).set pre.length y = pre ++ y :: post := by
  rw [List.set_append_right _ _ (Nat.le_refl _), Nat.sub_self, List.set_cons_zero]

theorem mem_other {pre post : List Row} {x r : Row} {j : Nat} (hj : j ≠ pre.length) (hr : (pre ++ x :: post)[j]? = some r) {g : Reg} (hg : g ∈ r.regs) :
    g ∈ pre.flatMap Row.regs ++ post.flatMap Row.regs := by
  rw [List.getElem?_append] at hr
  split at hr
  · exact List.mem_append_left _ (List.mem_flatMap.2 ⟨r, List.mem_of_getElem? hr, hg⟩)
  · rw [List.getElem?_cons, if_neg (by omega)] at hr
    exact List.mem_append_right _ (List.mem_flatMap.2 ⟨r, List.mem_of_getElem? hr, hg⟩)

theorem keys_set {d : Dict} {i : Nat} {k : Key} {v v0 : Val} (h : d[i]? = some (k, v0)) : (d.set i (k, v)).map (·.1) = d.map (·.1) := by
  obtain ⟨pre, post, rfl, rfl⟩ := split_at h
  rw [set_split]; simp

/-- row `i` has a new record; the other rows' regions are as before -/
theorem Inv.update {m m' : VMap} {d : Dict} {pre post : List Row} {r r' : Row} {k : Key} {v v0 : Val} (h : Inv m d) (hs : m.rows = pre ++ r :: post)
    (hd : d[pre.length]? = some (k, v0)) (hr : m'.rows = pre ++ r' :: post) (hb : m'.base = m.base) (hc : m'.entryCapacity = m.entryCapacity)
    (hm : ∃ cs, Mem m' (m'.rows.flatMap Row.regs) cs) (hk : r'.key = r.key)
    (hdat : ∀ g ∈ pre.flatMap Row.regs ++ post.flatMap Row.regs ++ r.key.regs, m'.peek g.1 g.2 = m.peek g.1 g.2) (hv : ValIs m' r' v) :
    Inv m' (d.set pre.length (k, v)) := by
  obtain ⟨cs, hmem⟩ := h.mem
  have hin : ∀ r ∈ m.rows, ∀ g ∈ r.regs, m.base ≤ g.1 ∧ g.1 + g.2 ≤ m.base + m.pool.length := by
    intro r hr g hg
    have := hmem.inside g (List.mem_append_left _ (List.mem_flatMap.2 ⟨r, hr, hg⟩))
    have hu := hmem.used
    omega
  have hlt : pre.length < d.length := (List.getElem?_eq_some_iff.1 hd).1
  have hri : m.rows[pre.length]? = some r := by rw [hs]; simp
  have hother : ∀ (j : Nat) (x : Row), j ≠ pre.length → m'.rows[j]? = some x → m.rows[j]? = some x ∧
      ∀ g ∈ x.regs, m'.peek g.1 g.2 = m.peek g.1 g.2 := by
    intro j x hj hx
    rw [hr] at hx
    refine ⟨?_, fun g hg => hdat g (List.mem_append_left _ (mem_other hj hx hg))⟩
    rw [hs, ← hx, List.getElem?_append, List.getElem?_append]
    split
    · rfl
    · rw [List.getElem?_cons, List.getElem?_cons, if_neg (by omega), if_neg (by omega)]
  refine ⟨hm, ?_, ?_, ?_, ?_, ?_, ?_⟩
  · obtain ⟨e, h1, h2, h3⟩ := h.layout
    refine ⟨e, hb.trans h1, hc.trans h2, ?_⟩
    rw [hr]; rw [hs] at h3; simpa using h3
  · have := h.count; rw [hr]; rw [hs] at this; simpa using this
  · have := h.len; rw [hr]; rw [hs] at this; simpa using this
  · intro j x e hx he
    rw [List.getElem?_set] at he
    by_cases hj : pre.length = j
    · rw [if_pos hj, if_pos (by omega)] at he
      simp only [Option.some.injEq] at he
      subst he hj
      rw [hr] at hx
      simp at hx
      subst hx
      rw [hk]
      refine (h.key _ r _ hri hd).same hb fun g hg => ⟨hdat g (List.mem_append_right _ hg), hin r (List.mem_of_getElem? hri) g ?_⟩
      simp [Row.regs, hg]
    · rw [if_neg hj] at he
      obtain ⟨h1, h2⟩ := hother j x (Ne.symm hj) hx
      exact (h.key j x e h1 he).same hb fun g hg => ⟨h2 g (by simp [Row.regs, hg]), hin x (List.mem_of_getElem? h1) g (by simp [Row.regs, hg])⟩
  · intro j x e hx he
    rw [List.getElem?_set] at he
    by_cases hj : pre.length = j
    · rw [if_pos hj, if_pos (by omega)] at he
      simp only [Option.some.injEq] at he
      subst he hj
      rw [hr] at hx
      simp at hx
      subst hx
      exact hv
    · rw [if_neg hj] at he
      obtain ⟨h1, h2⟩ := hother j x (Ne.symm hj) hx
      exact (h.val j x e h1 he).same fun hh => h2 (x.off, align x.len) (by simp [Row.regs, hh])
  · rw [keys_set hd]; exact h.keys

/-! ### Storing a value in a row -/

/-- how much the blob may have grown -/
structure Step (m m' : VMap) (n : Nat) : Prop where
  fixed : m'.fixed = m.fixed
  bound : m'.total ≤ m.total + m.total / 2 + n + 600

/-- outcome of storing -/
def Put (m m' : VMap) (ok : Bool) (before after : Dict) : Prop :=
  (ok = true ∧ Inv m' after) ∨ (ok = false ∧ m.fixed = true ∧ m'.overflow = true ∧ Inv m' before)

theorem Kept.step {m m' : VMap} {l : List Reg} (h : Kept m m' l) (n : Nat) : Step m m' n :=
  ⟨h.fixed, by unfold VMap.total; rw [h.base, h.len]; omega⟩

theorem Inv.room {m : VMap} {d : Dict} (h : Inv m d) : m.used ≤ m.total ∧ 32 ≤ m.base ∧ m.total < 2 ^ 32 := by
  obtain ⟨cs, hm⟩ := h.mem
  have h1 := hm.used
  have h2 := hm.base
  have h3 := hm.total
  unfold VMap.total; omega

theorem replaceRecord_ok {m : VMap} {d : Dict} {i : Nat} {k : Key} {v v0 : Val} {vt ct flags len : Nat} {content : List Byte} (h : Inv m d)
    (hd : d[i]? = some (k, v0)) (hfit : Fits m (align (8 + content.length))) (hlen : align len = align (8 + content.length)) (hl0 : 0 < len) (hvt : vt < 256)
    (hct : ct < 256) (hdec : align (8 + content.length) < 2 ^ 32 → decode (recordBytes vt ct flags content) = some v)
    (hcut : align (8 + content.length) < 2 ^ 32 → decode ((recordBytes vt ct flags content).take len) = some v)
    (hsc : align (8 + content.length) < 2 ^ 32 → scalarSize vt ≠ 0 → vt ≤ 12 → ct ≠ 3 → ct = scalarCt vt)
    (hsnd : align (8 + content.length) < 2 ^ 32 → vt ≤ 15 ∧ (ct = 4 → vt = 15) ∧ (ct = 3 → content.take 1 = le 1 vt)) :
    ∃ m' ok, m.replaceRecord i vt ct flags content len = some (m', ok) ∧ Step m m' (align (8 + content.length)) ∧ Put m m' ok d (d.set i (k, v)) := by
  obtain ⟨cs, hmem⟩ := h.mem
  have hil : i < m.rows.length := by rw [h.len]; exact (List.getElem?_eq_some_iff.1 hd).1
  obtain ⟨r, hri⟩ : ∃ r, m.rows[i]? = some r := ⟨_, List.getElem?_eq_getElem hil⟩
  have hroom := h.room
  have hlen2 := recordBytes_length vt ct flags content
  have ha := align_ge (8 + content.length)
  unfold VMap.replaceRecord
  rw [hri]
  dsimp only [Option.bind_eq_bind, Option.bind_some]
  obtain ⟨m1, o, h1, h2⟩ := appendRecord_ok hmem (Mem.placed (x := []) hmem) h.layout (vt := vt) (ct := ct) (flags := flags) hfit
  rw [h1]
  dsimp only [Option.bind_some]
  rcases h2 with ⟨rfl, hf, ho, hk, cs1, hm1⟩ | ⟨off, cs1, rfl, hm1, hal, hpk⟩
  · refine ⟨m1, false, rfl, hk.step _, .inr ⟨rfl, ?_, ho, h.kept hm1 hk⟩⟩
    rcases hf with hf | hf
    · exact hf
    · rcases hfit with hf2 | hf2
      · exact hf2
      · rw [hlen2] at hf; omega
  · rw [hlen2] at hpk hal hm1
    have hm1' : Mem m1 (m1.rows.flatMap Row.regs) cs1 := by
      rw [hal.moves.rows, flatMap_rebase]
      exact Mem.drop (l := [_]) hm1
    have hi1 : Inv m1 d := h.moved hal.moves hal.layout ⟨cs1, hm1'⟩
    have hri1 : m1.rows[i]? = some (r.rebase m.base m1.base) := by rw [hal.moves.rows, List.getElem?_map, hri]; rfl
    rw [hri1]
    dsimp only [Option.bind_some]
    have hlow := Mem.placed (x := []) hmem r (List.mem_of_getElem? hri)
    obtain ⟨pre, post, hsp, rfl⟩ := split_at hri1
    generalize hrow : (Row.mk (r.rebase m.base m1.base).key vt true (vt == vtValue && ct == 4) (ct == 3) off len) = row
    have hset : m1.rows.set pre.length row = pre ++ row :: post := by rw [hsp, set_split]
    rw [hset]
    have hfreed : (if m1.gen ≠ m.gen then m1.base + (r.off - m.base) else r.off) = m1.base + (r.off - m.base) ∨ r.hasRec = false := by
      cases hh : r.hasRec with
      | false => exact .inr rfl
      | true =>
        left
        by_cases hg : m1.gen = m.gen
        · rw [if_neg (by simpa using hg), hal.moves.gen hg]
          have := hlow.1 hh; omega
        · rw [if_pos hg]
    have hregs : row.regs = (off, align (8 + content.length)) :: (r.rebase m.base m1.base).key.regs := by
      rw [← hrow]; simp [Row.regs, hlen]
    have hmemr : Mem { m1 with rows := pre ++ row :: post } ((if r.hasRec then [(m1.base + (r.off - m.base), align r.len)] else []) ++
        ((pre ++ row :: post).flatMap Row.regs)) cs1 := by
      refine Mem.rows (m := m1) ?_ _ rfl rfl rfl rfl
      refine hm1.perm ?_
      rw [← flatMap_rebase, ← hal.moves.rows, hsp]
      rw [List.flatMap_append, List.flatMap_append, List.flatMap_cons, List.flatMap_cons, hregs]
      have hx : (r.rebase m.base m1.base).regs =
          (if r.hasRec then [(m1.base + (r.off - m.base), align r.len)] else []) ++ (r.rebase m.base m1.base).key.regs := by
        unfold Row.regs
        congr 1
        unfold Row.rebase
        dsimp only
        cases r.hasRec <;> rfl
      rw [hx]
      generalize (if r.hasRec then [(m1.base + (r.off - m.base), align r.len)] else []) = A
      generalize pre.flatMap Row.regs = P
      generalize post.flatMap Row.regs = Q
      generalize (r.rebase m.base m1.base).key.regs = K
      have e1 : ((off, align (8 + content.length)) :: (P ++ (A ++ K ++ Q))).Perm ((off, align (8 + content.length)) :: (A ++ (P ++ (K ++ Q)))) := by
        refine List.Perm.cons _ ?_
        rw [show P ++ (A ++ K ++ Q) = (P ++ A) ++ (K ++ Q) by simp, show A ++ (P ++ (K ++ Q)) = (A ++ P) ++ (K ++ Q) by simp]
        exact List.Perm.append_right _ List.perm_append_comm
      refine e1.trans ?_
      have e2 : (A ++ (P ++ ((off, align (8 + content.length)) :: K ++ Q))).Perm (A ++ ((off, align (8 + content.length)) :: (P ++ (K ++ Q)))) :=
        List.Perm.append_left _ List.perm_middle
      exact (List.perm_middle.symm).trans e2.symm
    have hstep1 : m1.total ≤ m.total + m.total / 2 + align (8 + content.length) + 600 := hal.bound
    have hsz : align (8 + content.length) < 2 ^ 32 := by
      have h5 := hm1.inside _ (List.mem_append_left _ (List.mem_cons_self ..))
      have h6 := hm1.used
      have h7 := hm1.total
      dsimp only at h5
      omega
    have hval : ∀ m2 : VMap, m2.peek off (align (8 + content.length)) = some (recordBytes vt ct flags content) → ValIs m2 row v := by
      intro m2 hp2
      refine .inr ⟨by rw [← hrow], by rw [← hrow]; exact hl0, ct, flags,
        content ++ List.replicate (align (8 + content.length) - 8 - content.length) 0#8, ?_⟩
      rw [← hrow]
      dsimp only
      rw [hlen, ← List.append_assoc]
      refine ⟨hp2, hdec hsz, hvt, hct, rfl, hsc hsz, hcut hsz, (hsnd hsz).1, ?_, fun h3 => ?_⟩
      · have := (hsnd hsz).2.1
        by_cases h4 : ct = 4
        · rw [h4, this h4]; rfl
        · simp [h4]
      · have := (hsnd hsz).2.2 h3
        cases content with
        | nil => rw [List.take_nil] at this; exact absurd (congrArg List.length this) (by simp)
        | cons b bs => rw [← this]; rfl
    have hkey : row.key = (r.rebase m.base m1.base).key := by rw [← hrow]
    have hfin : ∀ (m2 : VMap) cs2, Kept { m1 with rows := pre ++ row :: post } m2 ((pre ++ row :: post).flatMap Row.regs) →
        Mem m2 ((pre ++ row :: post).flatMap Row.regs) cs2 →
        Step m m2 (align (8 + content.length)) ∧ Put m m2 true d (d.set pre.length (k, v)) := by
      intro m2 cs2 hk2 hm2
      have hdat := hk2.data
      rw [List.flatMap_append, List.flatMap_cons, hregs] at hdat
      refine ⟨⟨hk2.fixed.trans hal.moves.fixed, ?_⟩, .inl ⟨rfl, ?_⟩⟩
      · have h1 := hk2.base
        have h2 := hk2.len
        unfold VMap.total at hstep1 ⊢
        dsimp only at h1 h2
        rw [h1, h2]; exact hstep1
      · refine hi1.update hsp hd hk2.rows hk2.base hk2.cap ⟨cs2, ?_⟩ hkey ?_ (hval m2 ?_)
        · have := hk2.rows
          dsimp only at this
          rw [this]; exact hm2
        · intro g hg
          refine (hdat g ?_).trans rfl
          simp only [List.mem_append, List.mem_cons] at hg ⊢
          rcases hg with (hg | hg) | hg
          · exact .inl hg
          · exact .inr (.inr hg)
          · exact .inr (.inl (.inr hg))
        · rw [hdat (off, align (8 + content.length)) (by simp)]
          exact hpk
    cases hh : r.hasRec with
    | false =>
      rw [hh] at hmemr
      refine ⟨_, true, rfl, hfin _ cs1 (Kept.refl _ _) (by simpa using hmemr)⟩
    | true =>
      rw [hh, if_pos rfl, List.singleton_append] at hmemr
      have hpos : 0 < r.len := by
        rcases h.val _ _ _ hri hd with hx | hx
        · rw [hh] at hx; exact absurd hx.1 (by decide)
        · exact hx.2.1
      have hal2 := align_ge r.len
      obtain ⟨m2, h3, h4, h5⟩ := push_ok hmemr (by dsimp only; omega)
      rcases hfreed with hfreed | hfreed
      · dsimp only at h3
        rw [if_pos (by simpa using hpos), hfreed, h3]
        exact ⟨m2, true, rfl, hfin m2 _ h5 h4⟩
      · rw [hh] at hfreed; exact absurd hfreed (by decide)

end Verif.VMap
