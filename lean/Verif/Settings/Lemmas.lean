import Verif.Settings.Spec
/-! Helper lemmas for the settings model. -/
namespace Verif.Settings

open Verif.Work.Tags (Key Map settingsKey insertOrAssign)

variable {V : Type}

/-! ## Maps -/

theorem get_insertOrAssign (m : Map V) (k j : Key) (v : V) :
    get (insertOrAssign m k v) j = if j = k then some v else get m j := by
  unfold insertOrAssign
  split
  · rename_i h
    induction m with
    | nil => simp at h
    | cons e r ih =>
      rw [List.map_cons]
      by_cases he : e.1 = k
      · rw [if_pos he]
        by_cases hj : j = k
        · subst hj; simp [get]
        · rw [if_neg hj]
          have h1 : ∀ (r : Map V), get (r.map (fun e => if e.1 = k then (k, v) else e)) j = get r j := by
            intro r
            induction r with
            | nil => rfl
            | cons x r ih2 =>
              rw [List.map_cons]
              by_cases hx : x.1 = k
              · rw [if_pos hx]
                have a1 : get ((k, v) :: r.map (fun e => if e.1 = k then (k, v) else e)) j
                    = get (r.map (fun e => if e.1 = k then (k, v) else e)) j := by
                  have hkj : ¬ k = j := fun h => hj h.symm
                  simp [get, List.find?_cons, hkj]
                have a2 : get (x :: r) j = get r j := by
                  have hkj : ¬ x.1 = j := fun h => hj (h.symm.trans hx)
                  simp [get, List.find?_cons, hkj]
                rw [a1, a2, ih2]
              · rw [if_neg hx]
                by_cases hxj : x.1 = j
                · simp [get, List.find?_cons, hxj]
                · have a1 : get (x :: r.map (fun e => if e.1 = k then (k, v) else e)) j
                      = get (r.map (fun e => if e.1 = k then (k, v) else e)) j := by simp [get, List.find?_cons, hxj]
                  have a2 : get (x :: r) j = get r j := by simp [get, List.find?_cons, hxj]
                  rw [a1, a2, ih2]
          have hkj : ¬ k = j := fun h => hj h.symm
          have hej : ¬ e.1 = j := fun h => hj (h.symm.trans he)
          have a1 : get ((k, v) :: r.map (fun e => if e.1 = k then (k, v) else e)) j
              = get (r.map (fun e => if e.1 = k then (k, v) else e)) j := by simp [get, List.find?_cons, hkj]
          have a2 : get (e :: r) j = get r j := by simp [get, List.find?_cons, hej]
          rw [a1, a2, h1]
      · rw [if_neg he]
        have hr : (r.any fun e => decide (e.1 = k)) = true := by simpa [he] using h
        have ih' := ih hr
        by_cases hej : e.1 = j
        · have hjk : ¬ j = k := fun h => he (hej.trans h)
          rw [if_neg hjk]
          simp [get, List.find?_cons, hej]
        · have a1 : get (e :: r.map (fun e => if e.1 = k then (k, v) else e)) j
              = get (r.map (fun e => if e.1 = k then (k, v) else e)) j := by simp [get, List.find?_cons, hej]
          have a2 : get (e :: r) j = get r j := by simp [get, List.find?_cons, hej]
          rw [a1, a2, ih']
  · rename_i h
    have h' : ∀ e ∈ m, ¬ e.1 = k := fun e he hk => h (List.any_eq_true.2 ⟨e, he, decide_eq_true hk⟩)
    unfold get
    rw [List.find?_append]
    by_cases hj : j = k
    · subst hj
      have : m.find? (fun e => decide (e.1 = j)) = none :=
        List.find?_eq_none.2 (fun e he hk => h' e he (of_decide_eq_true hk))
      rw [this]; simp
    · have hkj : ¬ k = j := fun h => hj h.symm
      rw [if_neg hj]
      simp [List.find?_cons, hkj]

theorem keys_insertOrAssign (m : Map V) (k j : Key) (v : V) (h : j ∈ (insertOrAssign m k v).map (·.1)) : j = k ∨ j ∈ m.map (·.1) := by
  unfold insertOrAssign at h
  split at h
  · simp only [List.map_map, List.mem_map, Function.comp] at h
    obtain ⟨e, he, hj⟩ := h
    split at hj
    · exact Or.inl hj.symm
    · exact Or.inr (List.mem_map.2 ⟨e, he, hj⟩)
  · simp only [List.map_append, List.mem_append, List.map_cons, List.map_nil, List.mem_singleton] at h
    exact h.symm

theorem nodup_insertOrAssign (m : Map V) (k : Key) (v : V) (h : (m.map (·.1)).Nodup) :
    ((insertOrAssign m k v).map (·.1)).Nodup := by
  unfold insertOrAssign
  split
  · have : (m.map fun e => if e.1 = k then (k, v) else e).map (·.1) = m.map (·.1) := by
      rw [List.map_map]
      apply List.map_congr_left
      intro e _
      show (if e.1 = k then (k, v) else e).1 = e.1
      split
      · rename_i h; exact h.symm
      · rfl
    rw [this]; exact h
  · rename_i hn
    have h' : ∀ e ∈ m, ¬ e.1 = k := fun e he hk => hn (List.any_eq_true.2 ⟨e, he, decide_eq_true hk⟩)
    rw [List.map_append, List.nodup_append]
    refine ⟨h, by simp, ?_⟩
    intro a ha b hb
    simp only [List.map_cons, List.map_nil, List.mem_singleton] at hb
    obtain ⟨e, he, rfl⟩ := List.mem_map.1 ha
    rw [hb]; exact h' e he

theorem get_eq_none_iff (m : Map V) (k : Key) : get m k = none ↔ k ∉ m.map (·.1) := by
  unfold get
  rw [Option.map_eq_none_iff, List.find?_eq_none]
  constructor
  · intro h hm
    obtain ⟨e, he, hk⟩ := List.mem_map.1 hm
    exact h e he (decide_eq_true hk)
  · intro h e he hk
    exact h (List.mem_map.2 ⟨e, he, of_decide_eq_true hk⟩)

theorem get_of_mem (m : Map V) (h : (m.map (·.1)).Nodup) (e : Key × V) (he : e ∈ m) : get m e.1 = some e.2 := by
  induction m with
  | nil => simp at he
  | cons x r ih =>
    rw [List.map_cons, List.nodup_cons] at h
    rcases List.mem_cons.1 he with rfl | he
    · simp [get]
    · have hx : ¬ x.1 = e.1 := fun hh => h.1 (hh ▸ List.mem_map.2 ⟨e, he, rfl⟩)
      have : get (x :: r) e.1 = get r e.1 := by simp [get, List.find?_cons, hx]
      rw [this]; exact ih h.2 he

/-! ## Stored vectors -/

theorem storedFind_put (s : Stored V) (c d : Nat) (v : List (Entry V)) (hs : s.Pairwise (fun a b => a.1 < b.1)) :
    storedFind (storedPut s c v) d = if d = c then some v else storedFind s d := by
  induction s with
  | nil =>
    by_cases h : d = c
    · subst h; simp [storedPut, storedFind]
    · have h2 : ¬ c = d := fun e => h e.symm
      simp [storedPut, storedFind, h, h2]
  | cons e r ih =>
    rw [List.pairwise_cons] at hs
    unfold storedPut
    by_cases he : e.1 = c
    · rw [if_pos he]
      by_cases h : d = c
      · subst h; simp [storedFind]
      · have h2 : ¬ c = d := fun e => h e.symm
        have h3 : ¬ e.1 = d := fun x => h (x.symm.trans he)
        simp [storedFind, h, h2, h3]
    · rw [if_neg he]
      by_cases hlt : c < e.1
      · rw [if_pos hlt]
        by_cases h : d = c
        · subst h; simp [storedFind]
        · have h2 : ¬ c = d := fun e => h e.symm
          simp [storedFind, h, h2]
      · rw [if_neg hlt]
        by_cases h3 : e.1 = d
        · have : ¬ d = c := fun x => he (h3.trans x)
          simp [storedFind, h3, this]
        · have a1 : storedFind (e :: storedPut r c v) d = storedFind (storedPut r c v) d := by simp [storedFind, h3]
          have a2 : storedFind (e :: r) d = storedFind r d := by simp [storedFind, h3]
          rw [a1, a2, ih hs.2]

theorem mem_storedPut (s : Stored V) (c : Nat) (v : List (Entry V)) (p : Nat × List (Entry V)) (hp : p ∈ storedPut s c v) :
    p = (c, v) ∨ p ∈ s := by
  induction s with
  | nil => simp [storedPut] at hp; exact Or.inl hp
  | cons e r ih =>
    unfold storedPut at hp
    split at hp
    · rcases List.mem_cons.1 hp with h | h
      · exact Or.inl h
      · exact Or.inr (List.mem_cons_of_mem _ h)
    · split at hp
      · rcases List.mem_cons.1 hp with h | h
        · exact Or.inl h
        · exact Or.inr h
      · rcases List.mem_cons.1 hp with h | h
        · exact Or.inr (h ▸ List.mem_cons_self)
        · rcases ih h with h | h
          · exact Or.inl h
          · exact Or.inr (List.mem_cons_of_mem _ h)

theorem pairwise_storedPut (s : Stored V) (c : Nat) (v : List (Entry V)) (hs : s.Pairwise (fun a b => a.1 < b.1)) :
    (storedPut s c v).Pairwise (fun a b => a.1 < b.1) := by
  induction s with
  | nil => simp [storedPut]
  | cons e r ih =>
    have hs' := List.pairwise_cons.1 hs
    unfold storedPut
    split
    · rename_i h
      rw [List.pairwise_cons]
      exact ⟨fun b hb => h ▸ hs'.1 b hb, hs'.2⟩
    · split
      · rename_i h1 h2
        rw [List.pairwise_cons]
        refine ⟨fun b hb => ?_, hs⟩
        rcases List.mem_cons.1 hb with rfl | hb
        · exact h2
        · exact Nat.lt_trans h2 (hs'.1 b hb)
      · rename_i h1 h2
        rw [List.pairwise_cons]
        refine ⟨fun b hb => ?_, ih hs'.2⟩
        rcases mem_storedPut r c v b hb with rfl | hb
        · show e.1 < c
          omega
        · exact hs'.1 b hb

/-- times in order -/
def Sorted (v : List (Entry V)) : Prop := v.Pairwise (fun a b => a.ctx.time ≤ b.ctx.time)

/-- the shape of the stored parameters: names in order, every set filed under its own name, times in order -/
structure WF (s : Stored V) : Prop where
  names : s.Pairwise (fun a b => a.1 < b.1)
  own : ∀ p ∈ s, ∀ e ∈ p.2, e.ctx.context = p.1
  sorted : ∀ p ∈ s, Sorted p.2

theorem mem_of_storedFind (s : Stored V) (c : Nat) (v : List (Entry V)) (h : storedFind s c = some v) : (c, v) ∈ s := by
  unfold storedFind at h
  rw [Option.map_eq_some_iff] at h
  obtain ⟨a, ha, rfl⟩ := h
  have h1 := List.find?_some ha
  have h2 := List.mem_of_find?_eq_some ha
  have h3 : a.1 = c := by simpa using h1
  rw [← h3]; exact h2

theorem storedFind_of_mem (s : Stored V) (hs : s.Pairwise (fun a b => a.1 < b.1)) (p : Nat × List (Entry V)) (hp : p ∈ s) :
    storedFind s p.1 = some p.2 := by
  induction s with
  | nil => simp at hp
  | cons e r ih =>
    rw [List.pairwise_cons] at hs
    rcases List.mem_cons.1 hp with rfl | hp
    · simp [storedFind]
    · have := hs.1 p hp
      have h3 : ¬ e.1 = p.1 := by omega
      have a2 : storedFind (e :: r) p.1 = storedFind r p.1 := by simp [storedFind, h3]
      rw [a2]; exact ih hs.2 hp

theorem WF.entries_sorted {s : Stored V} (h : WF s) (c : Nat) : Sorted (entriesOf s c) := by
  unfold entriesOf
  cases hf : storedFind s c with
  | none => exact List.Pairwise.nil
  | some v => exact h.sorted _ (mem_of_storedFind s c v hf)

theorem WF.entries_own {s : Stored V} (h : WF s) (c : Nat) (e : Entry V) (he : e ∈ entriesOf s c) : e.ctx.context = c := by
  unfold entriesOf at he
  cases hf : storedFind s c with
  | none => rw [hf] at he; simp at he
  | some v => rw [hf] at he; exact h.own _ (mem_of_storedFind s c v hf) e he

theorem takeWhile_append_dropWhile' (p : Entry V → Bool) (v : List (Entry V)) : v.takeWhile p ++ v.dropWhile p = v :=
  List.takeWhile_append_dropWhile

theorem mem_takeWhile_pos {α : Type} (p : α → Bool) (l : List α) (x : α) (h : x ∈ l.takeWhile p) : p x = true := by
  induction l with
  | nil => simp at h
  | cons a r ih =>
    rw [List.takeWhile_cons] at h
    split at h
    · rcases List.mem_cons.1 h with rfl | h
      · assumption
      · exact ih h
    · simp at h

/-- in a sorted vector everything from the lower bound on is not earlier -/
theorem sorted_dropWhile (v : List (Entry V)) (t : Nat) (h : Sorted v) (x : Entry V)
    (hx : x ∈ v.dropWhile (fun e => decide (e.ctx.time < t))) : t ≤ x.ctx.time := by
  induction v with
  | nil => simp at hx
  | cons a r ih =>
    have h' := List.pairwise_cons.1 h
    rw [List.dropWhile_cons] at hx
    split at hx
    · exact ih h'.2 hx
    · rename_i hn
      have ha : t ≤ a.ctx.time := by
        have : ¬ a.ctx.time < t := by simpa using hn
        omega
      rcases List.mem_cons.1 hx with rfl | hx
      · exact ha
      · exact Nat.le_trans ha (h'.1 x hx)

theorem sorted_insertEntry (v : List (Entry V)) (e : Entry V) (h : Sorted v) : Sorted (insertEntry v e) := by
  unfold insertEntry Sorted
  rw [List.pairwise_append]
  refine ⟨h.sublist (List.takeWhile_sublist _), ?_, ?_⟩
  · rw [List.pairwise_cons]
    exact ⟨fun b hb => sorted_dropWhile v _ h b hb, h.sublist (List.dropWhile_sublist _)⟩
  · intro a ha b hb
    have hat : a.ctx.time < e.ctx.time := by simpa using mem_takeWhile_pos _ _ _ ha
    rcases List.mem_cons.1 hb with rfl | hb
    · omega
    · have := sorted_dropWhile v _ h b hb
      omega

theorem mem_insertEntry (v : List (Entry V)) (e x : Entry V) : x ∈ insertEntry v e ↔ x = e ∨ x ∈ v := by
  unfold insertEntry
  have h := List.takeWhile_append_dropWhile (p := fun x : Entry V => decide (x.ctx.time < e.ctx.time)) (l := v)
  constructor
  · intro hx
    rcases List.mem_append.1 hx with hx | hx
    · exact Or.inr (List.takeWhile_subset _ hx)
    · rcases List.mem_cons.1 hx with hx | hx
      · exact Or.inl hx
      · exact Or.inr (List.dropWhile_subset _ hx)
  · intro hx
    rcases hx with hx | hx
    · exact List.mem_append.2 (Or.inr (hx ▸ List.mem_cons_self))
    · rw [← h] at hx
      rcases List.mem_append.1 hx with hx | hx
      · exact List.mem_append.2 (Or.inl hx)
      · exact List.mem_append.2 (Or.inr (List.mem_cons_of_mem _ hx))

theorem find_insertEntry (v : List (Entry V)) (e : Entry V) :
    (insertEntry v e).find? (fun x => decide (x.ctx.time = e.ctx.time)) = some e := by
  unfold insertEntry
  rw [List.find?_append]
  have : (v.takeWhile (fun x => decide (x.ctx.time < e.ctx.time))).find? (fun x => decide (x.ctx.time = e.ctx.time)) = none := by
    rw [List.find?_eq_none]
    intro x hx
    have := mem_takeWhile_pos _ _ _ hx
    simp at this ⊢
    omega
  rw [this]; simp

theorem expireVec_sublist (cfg : Cfg V) (now : Nat) (v : List (Entry V)) (a : Auto) : ((expireVec cfg now v a).1).Sublist v := by
  unfold expireVec
  refine (List.drop_sublist _ _).trans ?_
  split
  · exact List.Sublist.refl _
  · exact List.filter_sublist

theorem expireAll_find (cfg : Cfg V) (now : Nat) (s : Stored V) (a : Auto) (c : Nat) :
    ∃ b, storedFind (expireAll cfg now s a).1 c = (storedFind s c).map (fun v => (expireVec cfg now v b).1) := by
  induction s generalizing a with
  | nil => exact ⟨a, rfl⟩
  | cons e r ih =>
    unfold expireAll
    by_cases h : e.1 = c
    · exact ⟨a, by simp [storedFind, h]⟩
    · obtain ⟨b, hb⟩ := ih (expireVec cfg now e.2 a).2
      refine ⟨b, ?_⟩
      have a2 : storedFind (e :: r) c = storedFind r c := by simp [storedFind, h]
      rw [a2, ← hb]
      simp [storedFind, h]

theorem expireVec_fst (cfg : Cfg V) (now : Nat) (v : List (Entry V)) (a b : Auto) :
    (expireVec cfg now v a).1 = (expireVec cfg now v b).1 := rfl

theorem expireAll_find' (cfg : Cfg V) (now : Nat) (s : Stored V) (a b : Auto) (c : Nat) :
    storedFind (expireAll cfg now s a).1 c = (storedFind s c).map (fun v => (expireVec cfg now v b).1) := by
  obtain ⟨x, hx⟩ := expireAll_find cfg now s a c
  rw [hx]; rfl

theorem expireAll_wf (cfg : Cfg V) (now : Nat) (s : Stored V) (a : Auto) (h : WF s) : WF (expireAll cfg now s a).1 := by
  have hn : ∀ (s : Stored V) (a : Auto), (expireAll cfg now s a).1.map (·.1) = s.map (·.1) := by
    intro s
    induction s with
    | nil => intro a; rfl
    | cons e r ih => intro a; unfold expireAll; simp [ih]
  have hm : ∀ (s : Stored V) (a : Auto) p, p ∈ (expireAll cfg now s a).1 → ∃ q ∈ s, p.1 = q.1 ∧ p.2.Sublist q.2 := by
    intro s
    induction s with
    | nil => intro a p hp; simp [expireAll] at hp
    | cons e r ih =>
      intro a p hp
      unfold expireAll at hp
      rcases List.mem_cons.1 hp with rfl | hp
      · exact ⟨e, List.mem_cons_self, rfl, expireVec_sublist cfg now e.2 a⟩
      · obtain ⟨q, hq, h1, h2⟩ := ih _ p hp
        exact ⟨q, List.mem_cons_of_mem _ hq, h1, h2⟩
  refine ⟨?_, ?_, ?_⟩
  · have h1 : ((expireAll cfg now s a).1.map (·.1)).Pairwise (· < ·) := by
      rw [hn]; exact List.pairwise_map.2 h.names
    exact List.pairwise_map.1 h1
  · intro p hp e he
    obtain ⟨q, hq, h1, h2⟩ := hm s a p hp
    rw [h1]; exact h.own q hq e (h2.subset he)
  · intro p hp
    obtain ⟨q, hq, h1, h2⟩ := hm s a p hp
    exact (h.sorted q hq).sublist h2

theorem storedPut_wf (s : Stored V) (c : Nat) (v : List (Entry V)) (h : WF s) (ho : ∀ e ∈ v, e.ctx.context = c) (hs : Sorted v) :
    WF (storedPut s c v) := by
  refine ⟨pairwise_storedPut s c v h.names, ?_, ?_⟩
  · intro p hp
    rcases mem_storedPut s c v p hp with rfl | hp
    · exact ho
    · exact h.own p hp
  · intro p hp
    rcases mem_storedPut s c v p hp with rfl | hp
    · exact hs
    · exact h.sorted p hp

theorem addStored_wf (s : Stored V) (m : Map V) (c : Ctx) (h : WF s) : WF (addStored s m c) := by
  show WF (storedPut s c.context (insertEntry (entriesOf s c.context) ⟨c, m⟩))
  refine storedPut_wf s _ _ h ?_ (sorted_insertEntry _ _ (h.entries_sorted _))
  intro e he
  rcases (mem_insertEntry _ _ _).1 he with rfl | he
  · rfl
  · exact h.entries_own _ e he

/-! ## Search in a vector -/

theorem takeWhile_length_getElem {α : Type} (p : α → Bool) (l : List α) (x : α) (h : l[(l.takeWhile p).length]? = some x) : p x = false := by
  induction l with
  | nil => simp at h
  | cons a r ih =>
    rw [List.takeWhile_cons] at h
    split at h
    · exact ih (by simpa using h)
    · rename_i hn
      have : a = x := by simpa using h
      rw [← this]; simpa using hn

theorem getElem_lt_takeWhile {α : Type} (p : α → Bool) (l : List α) (i : Nat) (hi : i < (l.takeWhile p).length) (x : α) (h : l[i]? = some x) :
    p x = true := by
  have h1 := List.takeWhile_prefix p (l := l)
  obtain ⟨t, ht⟩ := h1
  have h2 : (l.takeWhile p)[i]? = some x := by
    rw [← ht, List.getElem?_append_left hi] at h
    exact h
  exact mem_takeWhile_pos p l x (List.mem_of_getElem? h2)

theorem sorted_getElem (v : List (Entry V)) (h : Sorted v) (i j : Nat) (x y : Entry V) (hij : i ≤ j) (hx : v[i]? = some x)
    (hy : v[j]? = some y) : x.ctx.time ≤ y.ctx.time := by
  rcases Nat.lt_or_eq_of_le hij with hlt | rfl
  · have hi := (List.getElem?_eq_some_iff.1 hx)
    have hj := (List.getElem?_eq_some_iff.1 hy)
    obtain ⟨hi, rfl⟩ := hi
    obtain ⟨hj, rfl⟩ := hj
    exact (List.pairwise_iff_getElem.1 h) i j hi hj hlt
  · rw [hx] at hy
    cases hy; exact Nat.le_refl _

theorem mem_getElem? {α : Type} (l : List α) (x : α) (h : x ∈ l) : ∃ i : Nat, l[i]? = some x := by
  obtain ⟨i, hi, rfl⟩ := List.getElem_of_mem h
  exact ⟨i, List.getElem?_eq_getElem hi⟩

theorem getLast_ge (v : List (Entry V)) (h : Sorted v) (l x : Entry V) (hl : v.getLast? = some l) (hx : x ∈ v) :
    x.ctx.time ≤ l.ctx.time := by
  obtain ⟨i, hi⟩ := mem_getElem? v x hx
  rw [List.getLast?_eq_getElem?] at hl
  have : i ≤ v.length - 1 := by
    have := (List.getElem?_eq_some_iff.1 hi).1
    omega
  exact sorted_getElem v h i _ x l this hi hl

theorem searchVec_some (v : List (Entry V)) (t : Nat) (h : Sorted v) (ht : t ≠ 0) (b : Ctx) (hb : searchVec v t = some b) :
    ∃ e, InEffect v t e ∧ e.ctx = b := by
  unfold searchVec at hb
  cases hl : v.getLast? with
  | none => rw [hl] at hb; simp at hb
  | some l =>
    rw [hl] at hb
    simp only [] at hb
    have hlm : l ∈ v := List.mem_of_getLast? hl
    split at hb
    · rename_i hc
      have hle : l.ctx.time ≤ t := by
        rcases hc with h0 | h0
        · exact absurd h0 ht
        · exact h0
      cases hb
      exact ⟨l, ⟨hlm, hle, fun x hx _ => getLast_ge v h l x hl hx⟩, rfl⟩
    · rename_i hc
      have hlt : t < l.ctx.time := by
        apply Nat.lt_of_not_le
        intro hh; exact hc (Or.inr hh)
      cases hi : v[lowerIdx v t]? with
      | none =>
        exfalso
        have h1 : v.length ≤ lowerIdx v t := List.getElem?_eq_none_iff.1 hi
        obtain ⟨i, hi2⟩ := mem_getElem? v l hlm
        have h2 := (List.getElem?_eq_some_iff.1 hi2).1
        have h3 := getElem_lt_takeWhile (fun e : Entry V => decide (e.ctx.time < t)) v i (by unfold lowerIdx at h1; omega) l hi2
        have : l.ctx.time < t := by simpa using h3
        omega
      | some e =>
        rw [hi] at hb
        simp only [] at hb
        have hge : t ≤ e.ctx.time := by
          have := takeWhile_length_getElem (fun e : Entry V => decide (e.ctx.time < t)) v e hi
          have : ¬ e.ctx.time < t := by simpa using this
          omega
        split at hb
        · rename_i heq
          cases hb
          exact ⟨e, ⟨List.mem_of_getElem? hi, by omega, fun x _ hx => by omega⟩, rfl⟩
        · rename_i hne
          split at hb
          · rename_i hz
            rw [Option.map_eq_some_iff] at hb
            obtain ⟨q, hq, rfl⟩ := hb
            have hqlt : q.ctx.time < t := by
              have := getElem_lt_takeWhile (fun e : Entry V => decide (e.ctx.time < t)) v (lowerIdx v t - 1) (by unfold lowerIdx at hz ⊢; omega) q hq
              simpa using this
            refine ⟨q, ⟨List.mem_of_getElem? hq, by omega, fun x hx hxt => ?_⟩, rfl⟩
            obtain ⟨i, hi2⟩ := mem_getElem? v x hx
            by_cases hil : i ≤ lowerIdx v t - 1
            · exact sorted_getElem v h i _ x q hil hi2 hq
            · have := sorted_getElem v h (lowerIdx v t) i e x (by omega) hi hi2
              omega
          · cases hb

theorem searchVec_none (v : List (Entry V)) (t : Nat) (h : Sorted v) (ht : t ≠ 0) (hb : searchVec v t = none) :
    ∀ e ∈ v, t < e.ctx.time := by
  intro x hx
  unfold searchVec at hb
  cases hl : v.getLast? with
  | none =>
    have : v = [] := List.getLast?_eq_none_iff.1 hl
    subst this; simp at hx
  | some l =>
    rw [hl] at hb
    simp only [] at hb
    split at hb
    · cases hb
    · cases hi : v[lowerIdx v t]? with
      | none => rw [hi] at hb; simp at hb
      | some e =>
        rw [hi] at hb
        simp only [] at hb
        have hge : t ≤ e.ctx.time := by
          have := takeWhile_length_getElem (fun e : Entry V => decide (e.ctx.time < t)) v e hi
          have : ¬ e.ctx.time < t := by simpa using this
          omega
        split at hb
        · cases hb
        · rename_i hne
          split at hb
          · rename_i hz
            rw [Option.map_eq_none_iff] at hb
            have h1 := List.getElem?_eq_none_iff.1 hb
            have h2 := (List.getElem?_eq_some_iff.1 hi).1
            omega
          · rename_i hz
            have hz' : lowerIdx v t = 0 := Classical.not_not.1 hz
            obtain ⟨i, hi2⟩ := mem_getElem? v x hx
            have := sorted_getElem v h (lowerIdx v t) i e x (by omega) hi hi2
            omega

/-! ## The retry loop -/

theorem matchPass_some (pred : Nat → Nat → Nat → Option Bool) (search n : Nat) (cs : List Nat) (r : Option Nat)
    (h : matchPass pred search n cs = some r) :
    ∃ pre c post, cs = pre ++ c :: post ∧ (∀ x ∈ pre, pred x search n = some false) ∧
      ((r = none ∧ pred c search n = none) ∨ (r = some c ∧ pred c search n = some true)) := by
  induction cs with
  | nil => simp [matchPass] at h
  | cons c rest ih =>
    unfold matchPass at h
    cases hp : pred c search n with
    | none =>
      rw [hp] at h
      refine ⟨[], c, rest, rfl, by simp, Or.inl ⟨?_, hp⟩⟩
      simpa using h.symm
    | some b =>
      rw [hp] at h
      cases b with
      | true =>
        refine ⟨[], c, rest, rfl, by simp, Or.inr ⟨?_, hp⟩⟩
        simpa using h.symm
      | false =>
        obtain ⟨pre, d, post, rfl, h1, h2⟩ := ih h
        refine ⟨c :: pre, d, post, rfl, ?_, h2⟩
        intro x hx
        rcases List.mem_cons.1 hx with rfl | hx
        · exact hp
        · exact h1 x hx

theorem matchPass_none (pred : Nat → Nat → Nat → Option Bool) (search n : Nat) (cs : List Nat)
    (h : matchPass pred search n cs = none) : ∀ x ∈ cs, pred x search n = some false := by
  induction cs with
  | nil => simp
  | cons c rest ih =>
    unfold matchPass at h
    cases hp : pred c search n with
    | none => rw [hp] at h; simp at h
    | some b =>
      rw [hp] at h
      cases b with
      | true => simp at h
      | false =>
        intro x hx
        rcases List.mem_cons.1 hx with rfl | hx
        · exact hp
        · exact ih h x hx

theorem matchLoop_spec (pred : Nat → Nat → Nat → Option Bool) (search : Nat) (cs : List Nat) (fuel n : Nat) (r : Option Nat)
    (hprev : ∀ m, m < n → ∀ x ∈ cs, pred x search m = some false) (h : matchLoop pred search cs fuel n = some r) :
    (∀ c, r = some c → Chosen pred search cs c) ∧ (r = none → GivesUp pred search cs) := by
  induction fuel generalizing n with
  | zero => simp [matchLoop] at h
  | succ f ih =>
    unfold matchLoop at h
    cases hp : matchPass pred search n cs with
    | some q =>
      rw [hp] at h
      cases h
      obtain ⟨pre, c, post, he, h1, h2⟩ := matchPass_some pred search n cs _ hp
      rcases h2 with ⟨rfl, h2⟩ | ⟨rfl, h2⟩
      · exact ⟨fun c hc => (by cases hc), fun _ => ⟨n, pre, c, post, he, h2, h1, hprev⟩⟩
      · refine ⟨fun d hd => ?_, fun hd => (by cases hd)⟩
        cases hd
        exact ⟨n, pre, post, he, h2, h1, hprev⟩
    | none =>
      rw [hp] at h
      refine ih (n + 1) ?_ h
      intro m hm x hx
      rcases Nat.lt_or_ge m n with h' | h'
      · exact hprev m h' x hx
      · have : m = n := by omega
        subst this
        exact matchPass_none pred search m cs hp x hx

end Verif.Settings
