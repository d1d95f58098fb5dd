import Verif.VMap.Insert
/-! Lemmas: the operations of the map against those of the dictionary. -/
namespace Verif.VMap
open Verif.Bytes

/-! ### Dictionary -/

theorem has_iff {d : Dict} {k : Key} : d.has k = true ↔ k ∈ d.map (·.1) := by
  unfold Dict.has
  rw [List.any_eq_true, List.mem_map]
  constructor
  · rintro ⟨x, h1, h2⟩; exact ⟨x, h1, eq_of_beq h2⟩
  · rintro ⟨x, h1, h2⟩; exact ⟨x, h1, by rw [h2]; exact BEq.rfl⟩

theorem found_none {d : Dict} {k : Key} (h : d.findIdx? (·.1 == k) = none) : d.has k = false := by
  cases hh : d.has k with
  | false => rfl
  | true =>
    unfold Dict.has at hh
    obtain ⟨x, h1, h2⟩ := List.any_eq_true.1 hh
    have := List.findIdx?_eq_none_iff.1 h x h1
    rw [h2] at this; exact absurd this (by decide)

theorem found_some {d : Dict} {k : Key} {i : Nat} (h : d.findIdx? (·.1 == k) = some i) :
    ∃ pre v post, d = pre ++ (k, v) :: post ∧ pre.length = i ∧ k ∉ pre.map (·.1) := by
  obtain ⟨h1, h2, h3⟩ := List.findIdx?_eq_some_iff_getElem.1 h
  have hk : d[i].1 = k := eq_of_beq h2
  obtain ⟨pre, post, hs, hl⟩ := split_at (List.getElem?_eq_getElem h1)
  refine ⟨pre, d[i].2, post, ?_, hl, ?_⟩
  · rw [← hk]; exact hs
  · intro hm
    obtain ⟨x, hx, hxk⟩ := List.mem_map.1 hm
    obtain ⟨j, hj, hjx⟩ := List.getElem_of_mem hx
    have hne := h3 j (by omega)
    apply hne
    have : d[j]? = some x := by rw [hs, List.getElem?_append_left hj, List.getElem?_eq_getElem hj, hjx]
    rw [List.getElem?_eq_getElem (by omega)] at this
    simp only [Option.some.injEq] at this
    rw [this, hxk]; exact BEq.rfl

theorem has_split {k : Key} {v : Val} {pre post : Dict} : Dict.has (pre ++ (k, v) :: post) k = true := by
  rw [has_iff]; simp

theorem get_split {k : Key} {v : Val} {pre post : Dict} (h : k ∉ pre.map (·.1)) : Dict.get (pre ++ (k, v) :: post) k = some v := by
  unfold Dict.get
  rw [List.find?_append]
  have : pre.find? (·.1 == k) = none := by
    rw [List.find?_eq_none]
    intro x hx hk
    exact h (List.mem_map.2 ⟨x, hx, eq_of_beq hk⟩)
  rw [this]
  simp

theorem not_mem_split {k : Key} {v : Val} {pre post : Dict} (h : ((pre ++ (k, v) :: post).map (·.1)).Nodup) :
    k ∉ pre.map (·.1) ∧ k ∉ post.map (·.1) := by
  rw [List.map_append, List.map_cons, List.nodup_append, List.nodup_cons] at h
  exact ⟨fun hm => h.2.2 k hm k (by simp) rfl, h.2.1.1⟩

theorem put_split {k : Key} {v w : Val} {pre post : Dict} (h : ((pre ++ (k, w) :: post).map (·.1)).Nodup) :
    Dict.put (pre ++ (k, w) :: post) k v = pre ++ (k, v) :: post := by
  obtain ⟨h1, h2⟩ := not_mem_split h
  have hid : ∀ l : Dict, k ∉ l.map (·.1) → l.map (fun e => if e.1 = k then (k, v) else e) = l := by
    intro l hl
    conv => rhs; rw [← List.map_id l]
    refine List.map_congr_left fun x hx => ?_
    rw [if_neg fun he => hl (List.mem_map.2 ⟨x, hx, he⟩)]; rfl
  unfold Dict.put
  rw [if_pos has_split, List.map_append, List.map_cons, hid pre h1, hid post h2, if_pos rfl]

theorem remove_split {k : Key} {w : Val} {pre post : Dict} (h : ((pre ++ (k, w) :: post).map (·.1)).Nodup) :
    Dict.remove (pre ++ (k, w) :: post) k = pre ++ post := by
  obtain ⟨h1, h2⟩ := not_mem_split h
  have hid : ∀ l : Dict, k ∉ l.map (·.1) → l.filter (·.1 ≠ k) = l := by
    intro l hl
    rw [List.filter_eq_self]
    intro x hx
    simp only [ne_eq, decide_not, Bool.not_eq_true', decide_eq_false_iff_not]
    exact fun he => hl (List.mem_map.2 ⟨x, hx, he⟩)
  unfold Dict.remove
  rw [List.filter_append, List.filter_cons, if_neg (by simp), hid pre h1, hid post h2]

theorem remove_none {d : Dict} {k : Key} (h : d.has k = false) : d.remove k = d := by
  unfold Dict.remove
  rw [List.filter_eq_self]
  intro x hx
  simp only [ne_eq, decide_not, Bool.not_eq_true', decide_eq_false_iff_not]
  intro he
  have := has_iff.2 (List.mem_map.2 ⟨x, hx, he⟩)
  rw [h] at this; exact absurd this (by decide)

theorem get_none {d : Dict} {k : Key} (h : d.has k = false) : d.get k = none := by
  unfold Dict.get
  rw [Option.map_eq_none_iff, List.find?_eq_none]
  intro x hx hk
  have := has_iff.2 (List.mem_map.2 ⟨x, hx, eq_of_beq hk⟩)
  rw [h] at this; exact absurd this (by decide)

/-! ### Reading -/

theorem read_ok {m : VMap} {d : Dict} (h : Inv m d) {i : Nat} {r : Row} {e : Key × Val} (hr : m.rows[i]? = some r) (he : d[i]? = some e) : m.read r = some e := by
  unfold VMap.read
  rw [(h.key i r e hr he).read]
  dsimp only [Option.bind_eq_bind, Option.bind_some]
  rw [(h.val i r e hr he).read h.room.2.1]
  rfl

theorem mapM_read {m : VMap} : ∀ (rows : List Row) (d : Dict), rows.length = d.length →
    (∀ (i : Nat) (r : Row) (e : Key × Val), rows[i]? = some r → d[i]? = some e → m.read r = some e) → rows.mapM m.read = some d
  | [], [], _, _ => rfl
  | r :: rows, e :: d, hl, h => by
    rw [List.mapM_cons, h 0 r e rfl rfl, Option.bind_eq_bind, Option.bind_some,
      mapM_read rows d (by simpa using hl) fun i r e h1 h2 => h (i + 1) r e h1 h2]
    rfl
  | [], _ :: _, hl, _ => by simp at hl
  | _ :: _, [], hl, _ => by simp at hl

theorem contents_ok {m : VMap} {d : Dict} (h : Inv m d) : m.contents = some d :=
  mapM_read m.rows d h.len fun _ _ _ h1 h2 => read_ok h h1 h2

theorem lookup_ok {m : VMap} {d : Dict} (h : Inv m d) (k : Key) : m.lookup k = some (d.get k) := by
  unfold VMap.lookup
  rw [find_ok h]
  dsimp only [Option.bind_eq_bind, Option.bind_some]
  cases hf : d.findIdx? (·.1 == k) with
  | none => dsimp only; rw [get_none (found_none hf)]
  | some i =>
    obtain ⟨pre, v, post, rfl, hl, hn⟩ := found_some hf
    have hd : (pre ++ (k, v) :: post)[i]? = some (k, v) := by rw [← hl]; simp
    have hil : i < m.rows.length := by rw [h.len]; exact (List.getElem?_eq_some_iff.1 hd).1
    obtain ⟨r, hri⟩ : ∃ r, m.rows[i]? = some r := ⟨_, List.getElem?_eq_getElem hil⟩
    dsimp only
    rw [hri, Option.bind_some, (h.val i r _ hri hd).read h.room.2.1, get_split hn]
    rfl

/-! ### Storing -/

theorem emplace_ok {m : VMap} {d : Dict} {key : Key} {a : Arg} {v : Val} (h : Inv m d) (ha : Means m a v) (ho : a.outside) (hc : d.length < 43689)
    (hfit : Plenty m (key.length + a.size)) :
    ∃ m' ok, m.emplace key a = some (m', ok) ∧ m'.fixed = m.fixed ∧
      ((d.has key = true ∧ ok = false ∧ m' = m) ∨ (d.has key = false ∧ Put m m' ok d (d.add key v))) := by
  unfold VMap.emplace
  rw [find_ok h]
  dsimp only [Option.bind_eq_bind, Option.bind_some]
  cases hf : d.findIdx? (·.1 == key) with
  | none =>
    have hh := found_none hf
    obtain ⟨m', ok, g1, g2, g3⟩ := insertNew_ok (key := key) h (fun hm => by rw [has_iff.2 hm] at hh; exact absurd hh (by decide)) ha ho hc hfit
    refine ⟨m', ok, g1, g2, .inr ⟨hh, ?_⟩⟩
    unfold Dict.add
    rw [hh]; exact g3
  | some i =>
    obtain ⟨pre, w, post, rfl, hl, hn⟩ := found_some hf
    exact ⟨m, false, rfl, rfl, .inl ⟨has_split, rfl, rfl⟩⟩

theorem put_none {d : Dict} {k : Key} {v : Val} (h : d.has k = false) : d.put k v = d ++ [(k, v)] := by
  unfold Dict.put; rw [h]; rfl

theorem assign_ok {m : VMap} {d : Dict} {key : Key} {a : Arg} {v : Val} (h : Inv m d) (ha : Means m a v) (hd : d.has key = true)
    (hfit : Fits m (a.size + 32)) :
    ∃ m' ok, m.insertOrAssign key a = some (m', ok) ∧ m'.fixed = m.fixed ∧ Put m m' ok d (d.put key v) := by
  unfold VMap.insertOrAssign
  rw [find_ok h]
  dsimp only [Option.bind_eq_bind, Option.bind_some]
  cases hf : d.findIdx? (·.1 == key) with
  | none => rw [found_none hf] at hd; exact absurd hd (by decide)
  | some i =>
    obtain ⟨pre, w, post, rfl, hl, hn⟩ := found_some hf
    have hd : (pre ++ (key, w) :: post)[i]? = some (key, w) := by rw [← hl]; simp
    obtain ⟨m', ok, g1, g2, g3⟩ := assignAt_ok h hd ha hfit
    refine ⟨m', ok, g1, g2.fixed, ?_⟩
    rw [← hl, set_split] at g3
    rw [put_split h.keys]; exact g3

theorem insertOrAssign_ok {m : VMap} {d : Dict} {key : Key} {a : Arg} {v : Val} (h : Inv m d) (ha : Means m a v) (ho : a.outside) (hc : d.length < 43689)
    (hfit : Plenty m (key.length + a.size)) :
    ∃ m' ok, m.insertOrAssign key a = some (m', ok) ∧ m'.fixed = m.fixed ∧ Put m m' ok d (d.put key v) := by
  cases hd : d.has key with
  | true =>
    refine assign_ok h ha hd ?_
    rcases hfit with hh | hh
    · exact .inl hh
    · exact .inr (by omega)
  | false =>
    unfold VMap.insertOrAssign
    rw [find_ok h]
    dsimp only [Option.bind_eq_bind, Option.bind_some]
    cases hf : d.findIdx? (·.1 == key) with
    | none =>
      obtain ⟨m', ok, g1, g2, g3⟩ := insertNew_ok (key := key) h (fun hm => by rw [has_iff.2 hm] at hd; exact absurd hd (by decide)) ha ho hc hfit
      refine ⟨m', ok, g1, g2, ?_⟩
      rw [put_none hd]; exact g3
    | some i =>
      obtain ⟨pre, w, post, rfl, hl, hn⟩ := found_some hf
      rw [has_split] at hd; exact absurd hd (by decide)

/-! ### Removing -/

theorem push_any {m : VMap} {l cs : List Reg} {g : Reg} (h : Mem m (g :: l) cs) : ∃ m' cs', m.push g.1 g.2 = some m' ∧ Mem m' l cs' ∧ Kept m m' l := by
  by_cases hg : 8 ≤ g.2
  · obtain ⟨m', h1, h2, h3⟩ := push_ok h hg
    exact ⟨m', _, h1, h2, h3⟩
  · refine ⟨m, cs, ?_, Mem.drop (l := [g]) h, Kept.refl _ _⟩
    unfold VMap.push
    rw [if_pos (by omega)]

theorem reclaim_ok {m : VMap} {l cs : List Reg} {r : Row} (h : Mem m (r.regs ++ l) cs) (hl : r.hasRec = true → 0 < r.len) :
    ∃ m' cs', m.reclaim r = some m' ∧ Mem m' l cs' ∧ Kept m m' l := by
  have h1 : ∃ m1 cs1, (if r.hasRec && decide (0 < r.len) then m.push r.off (align r.len) else some m) = some m1 ∧ Mem m1 (r.key.regs ++ l) cs1 ∧
      Kept m m1 (r.key.regs ++ l) := by
    cases hh : r.hasRec with
    | false =>
      refine ⟨m, cs, rfl, ?_, Kept.refl _ _⟩
      simpa [Row.regs, hh] using h
    | true =>
      have hp := hl hh
      have hm : Mem m ((r.off, align r.len) :: (r.key.regs ++ l)) cs := by simpa [Row.regs, hh] using h
      rw [if_pos (by simpa using hp)]
      exact push_any hm
  obtain ⟨m1, cs1, g1, g2, g3⟩ := h1
  unfold VMap.reclaim
  rw [g1]
  dsimp only [Option.bind_eq_bind, Option.bind_some]
  cases hk : r.key with
  | canonical id => rw [hk] at g2 g3; exact ⟨m1, cs1, rfl, g2, g3⟩
  | inline name => rw [hk] at g2 g3; exact ⟨m1, cs1, rfl, g2, g3⟩
  | spilled off len =>
    rw [hk] at g2 g3
    obtain ⟨m2, cs2, k1, k2, k3⟩ := push_any (g := (off, len + 1)) g2
    exact ⟨m2, cs2, k1, k2, (g3.mono fun g hg => List.mem_append_right _ hg).trans k3⟩

theorem erase_get {α : Type} {pre post : List α} {x : α} (j : Nat) :
    (pre ++ post)[j]? = (pre ++ x :: post)[if j < pre.length then j else j + 1]? := by
  by_cases h : j < pre.length
  · rw [if_pos h, List.getElem?_append_left h, List.getElem?_append_left h]
  · rw [if_neg h, List.getElem?_append_right (by omega), List.getElem?_append_right (by omega), show j + 1 - pre.length = (j - pre.length) + 1 by omega,
      List.getElem?_cons_succ]

theorem eraseIdx_split {α : Type} {pre post : List α} {x : α} : (pre ++ x :: post).eraseIdx pre.length = pre ++ post := by
  rw [List.eraseIdx_append_of_length_le (Nat.le_refl _), Nat.sub_self, List.eraseIdx_cons_zero]

theorem eraseAt_ok {m : VMap} {d pre post : Dict} {e : Key × Val} (h : Inv m d) (hd : d = pre ++ e :: post) :
    ∃ m', m.eraseAt pre.length = some m' ∧ m'.fixed = m.fixed ∧ m'.total = m.total ∧ Inv m' (pre ++ post) := by
  obtain ⟨cs, hmem⟩ := h.mem
  have hde : d[pre.length]? = some e := by rw [hd]; simp
  have hil : pre.length < m.rows.length := by rw [h.len]; exact (List.getElem?_eq_some_iff.1 hde).1
  obtain ⟨r, hri⟩ : ∃ r, m.rows[pre.length]? = some r := ⟨_, List.getElem?_eq_getElem hil⟩
  obtain ⟨rpre, rpost, hsp, hrl⟩ := split_at hri
  have hm2 : Mem m (r.regs ++ (rpre ++ rpost).flatMap Row.regs) cs := by
    refine hmem.perm ?_
    rw [hsp, List.flatMap_append, List.flatMap_cons, List.flatMap_append, ← List.append_assoc, ← List.append_assoc]
    exact List.Perm.append_right _ List.perm_append_comm
  obtain ⟨m', cs', g1, g2, g3⟩ := reclaim_ok hm2 (fun hh => by
    rcases h.val _ _ _ hri hde with hx | hx
    · rw [hh] at hx; exact absurd hx.1 (by decide)
    · exact hx.2.1)
  unfold VMap.eraseAt
  rw [hri]
  dsimp only
  rw [g1]
  have hrows : m'.rows.eraseIdx pre.length = rpre ++ rpost := by rw [g3.rows, hsp, ← hrl, eraseIdx_split]
  have hget : ∀ (j : Nat) (x : Row) (y : Key × Val), (rpre ++ rpost)[j]? = some x → (pre ++ post)[j]? = some y →
      ∃ i : Nat, m.rows[i]? = some x ∧ d[i]? = some y := by
    intro j x y h1 h2
    rw [erase_get (x := r), ← hsp, hrl] at h1
    rw [erase_get (x := e), ← hd] at h2
    exact ⟨_, h1, h2⟩
  have hin : ∀ (x : Row), x ∈ rpre ++ rpost → ∀ g ∈ x.regs, (m'.peek g.1 g.2 = m.peek g.1 g.2) ∧ m.base ≤ g.1 ∧ g.1 + g.2 ≤ m.base + m.pool.length := by
    intro x hx g hg
    have hg' : g ∈ (rpre ++ rpost).flatMap Row.regs := List.mem_flatMap.2 ⟨x, hx, hg⟩
    have h1 := hm2.inside g (List.mem_append_left _ (List.mem_append_right _ hg'))
    have h2 := hmem.used
    exact ⟨g3.data g hg', h1.1, by omega⟩
  refine ⟨_, rfl, g3.fixed, ?_, ?_⟩
  · simp only [VMap.total]; rw [g3.base, g3.len]
  have hlen := h.len
  have hlen2 : (rpre ++ rpost).length + 1 = m.rows.length := by rw [hsp]; simp; omega
  have hlen3 : (pre ++ post).length + 1 = d.length := by rw [hd]; simp; omega
  refine ⟨⟨cs', ?_⟩, ?_, ?_, ?_, ?_, ?_, ?_⟩
  · refine Mem.rows (m := m') ?_ _ rfl rfl rfl rfl
    dsimp only; rw [hrows]; exact g2
  · obtain ⟨c, h1, h2, h3⟩ := h.layout
    refine ⟨c, g3.base.trans h1, g3.cap.trans h2, ?_⟩
    dsimp only; rw [hrows]; omega
  · have := h.count
    dsimp only; rw [hrows]; omega
  · dsimp only; rw [hrows]; omega
  · intro j x y h1 h2
    dsimp only at h1
    rw [hrows] at h1
    obtain ⟨i, h3, h4⟩ := hget j x y h1 h2
    exact (h.key i x y h3 h4).same g3.base fun g hg => hin x (List.mem_of_getElem? h1) g (by simp [Row.regs, hg])
  · intro j x y h1 h2
    dsimp only at h1
    rw [hrows] at h1
    obtain ⟨i, h3, h4⟩ := hget j x y h1 h2
    exact (h.val i x y h3 h4).same fun hh => (hin x (List.mem_of_getElem? h1) (x.off, align x.len) (by simp [Row.regs, hh])).1
  · have := h.keys
    rw [hd] at this
    refine this.sublist ?_
    refine List.Sublist.map _ ?_
    exact List.Sublist.append_left (List.sublist_cons_self _ _) _

theorem erase_ok {m : VMap} {d : Dict} (h : Inv m d) (key : Key) :
    ∃ m', m.erase key = some (m', d.has key) ∧ m'.fixed = m.fixed ∧ m'.total = m.total ∧ Inv m' (d.remove key) := by
  unfold VMap.erase
  rw [find_ok h]
  dsimp only [Option.bind_eq_bind, Option.bind_some]
  cases hf : d.findIdx? (·.1 == key) with
  | none =>
    have hh := found_none hf
    refine ⟨m, by rw [hh], rfl, rfl, ?_⟩
    rw [remove_none hh]; exact h
  | some i =>
    obtain ⟨pre, w, post, rfl, hl, hn⟩ := found_some hf
    obtain ⟨m', g1, g2, g3, g4⟩ := eraseAt_ok h rfl
    refine ⟨m', ?_, g2, g3, ?_⟩
    · dsimp only
      rw [← hl, g1, has_split]; rfl
    · rw [remove_split h.keys]; exact g4

/-! ### The rest -/

theorem clear_ok {m : VMap} {d : Dict} (h : Inv m d) : Inv m.clear [] := by
  obtain ⟨cs, hmem⟩ := h.mem
  have h1 := hmem.used
  have h2 := hmem.total
  have h3 := hmem.base
  unfold VMap.clear
  refine ⟨⟨[], ?_⟩, ?_, by simp, rfl, by simp, by simp, by simp⟩
  · refine ⟨rfl, by simp, by simp, by simp, by simp, h2, h3⟩
  · obtain ⟨e, e1, e2, _⟩ := h.layout
    exact ⟨e, e1, e2, by simp⟩

theorem fresh_ok {entries payload : Nat} (h : 32 + 48 * entries + payload < 2 ^ 32) : Inv (VMap.fresh entries payload) [] := by
  unfold VMap.fresh
  refine ⟨⟨[], ?_⟩, ⟨entries, rfl, rfl, by simp⟩, by simp, rfl, by simp, by simp, by simp⟩
  exact ⟨rfl, by simp, by simp, by simp, by simp, by simpa using h, by dsimp only; omega⟩

theorem grown_ok {m : VMap} {d : Dict} {entries payload : Nat} {shrink : Bool} (h : Inv m d) (hfit : m.fixed = true ∨
    32 + 48 * (if shrink then max entries m.rows.length else max (max entries m.rows.length) (max (m.entryCapacity + m.entryCapacity / 2) 8)) +
      (if shrink then max payload m.used else max (max payload m.used) (m.pool.length + m.pool.length / 2)) < 2 ^ 32) :
    ∃ m', m.grow entries payload shrink = some m' ∧ m'.fixed = m.fixed ∧ Inv m' d := by
  obtain ⟨cs, hmem⟩ := h.mem
  cases hf : m.fixed with
  | true =>
    refine ⟨{ m with overflow := true }, by unfold VMap.grow; rw [if_pos hf], hf, ?_⟩
    refine h.kept (cs := cs) ?_ ⟨rfl, rfl, rfl, rfl, rfl, rfl, rfl, fun _ _ => rfl⟩
    exact Mem.rows (m := m) hmem _ rfl rfl rfl rfl
  | false =>
    rw [hf] at hfit
    have hfit := hfit.resolve_left (by decide)
    obtain ⟨m', g1, g2, g3, g4, g5, g6, g7, g8⟩ := grow_ok hmem hf rfl rfl hfit
    refine ⟨m', g1, g3.fixed.trans hf, h.moved g3 ⟨_, g4, g5, ?_⟩ ⟨cs.map (shift m.base m'.base), ?_⟩⟩
    · rw [g3.rows, List.length_map]; split <;> omega
    · rw [g3.rows, flatMap_rebase]; exact g2

theorem reserve_ok {m : VMap} {d : Dict} {entries payload : Nat} (h : Inv m d)
    (hfit : m.fixed = true ∨ 48 * entries + payload + 2 * m.total + 1000 < 2 ^ 32) :
    ∃ m', m.reserve entries payload = some m' ∧ m'.fixed = m.fixed ∧ Inv m' d := by
  unfold VMap.reserve
  dsimp only
  split
  · refine grown_ok h ?_
    rcases hfit with hf | hf
    · exact .inl hf
    · right
      obtain ⟨e, e1, e2, e3⟩ := h.layout
      obtain ⟨cs, hmem⟩ := h.mem
      have hu := hmem.used
      rw [if_neg (by decide), if_neg (by decide)]
      unfold VMap.total at hf
      omega
  · exact ⟨m, rfl, rfl, h⟩

theorem shrink_ok {m : VMap} {d : Dict} (h : Inv m d) : ∃ m', m.shrinkToFit = some m' ∧ m'.fixed = m.fixed ∧ Inv m' d := by
  unfold VMap.shrinkToFit
  refine grown_ok h (.inr ?_)
  rw [if_pos rfl, if_pos rfl]
  obtain ⟨e, e1, e2, e3⟩ := h.layout
  have := h.room
  obtain ⟨cs, hmem⟩ := h.mem
  have hu := hmem.used
  unfold VMap.total at this
  omega

end Verif.VMap
