import Verif.Plug.Spec
/-! # Helper lemmas: maps, registries, loading -/
namespace Verif.Plug
open Spec

section maps
variable {ν : Type}

theorem find_nil (k : Name) : find ([] : List (Name × ν)) k = none := rfl

theorem find_cons (e : Name × ν) (m : List (Name × ν)) (k : Name) :
    find (e :: m) k = if e.1 = k then some e.2 else find m k := by
  unfold find
  rw [List.find?_cons]
  by_cases h : e.1 = k
  · simp [h]
  · have : (e.1 == k) = false := by simpa using h
    simp [this, h]

theorem find_assign (m : List (Name × ν)) (k j : Name) (v : ν) :
    find (assign m k v) j = if j = k then some v else find m j := by
  induction m with
  | nil => simp only [assign, find_cons, find_nil]; grind
  | cons e m ih =>
    simp only [assign]
    by_cases h : e.1 = k
    · simp only [h, beq_self_eq_true, if_true, find_cons]; grind
    · have : (e.1 == k) = false := by simpa using h
      simp only [this, Bool.false_eq_true, if_false, find_cons, ih]; grind

theorem find_append (m m' : List (Name × ν)) (j : Name) : find (m ++ m') j = (find m j).or (find m' j) := by
  induction m with
  | nil => simp [find_nil]
  | cons e m ih => simp only [List.cons_append, find_cons, ih]; split <;> simp

theorem find_emplace (m : List (Name × ν)) (k j : Name) (v : ν) :
    find (emplace m k v) j = if j = k then some ((find m k).getD v) else find m j := by
  unfold emplace
  split
  · rename_i h
    split
    · rename_i e; subst e
      obtain ⟨w, hw⟩ := Option.isSome_iff_exists.1 h
      simp [hw]
    · rfl
  · rename_i h
    have h' : find m k = none := by simpa using h
    rw [find_append, find_cons, find_nil]
    by_cases e : j = k
    · subst e; simp [h']
    · rw [if_neg (fun h => e h.symm), if_neg e]; simp

theorem find_mem {m : List (Name × ν)} {k : Name} {v : ν} (h : find m k = some v) : (k, v) ∈ m := by
  induction m with
  | nil => simp [find_nil] at h
  | cons e m ih =>
    rw [find_cons] at h
    split at h
    · rename_i he
      injection h with h
      subst he; subst h
      exact List.mem_cons_self
    · exact List.mem_cons_of_mem _ (ih h)

theorem find_none {m : List (Name × ν)} {k : Name} : find m k = none ↔ k ∉ m.map Prod.fst := by
  induction m with
  | nil => simp [find_nil]
  | cons e m ih => rw [find_cons]; grind

theorem find_of_mem {m : List (Name × ν)} (hm : (m.map Prod.fst).Nodup) {k : Name} {v : ν} (h : (k, v) ∈ m) :
    find m k = some v := by
  induction m with
  | nil => cases h
  | cons e m ih =>
    rw [List.map_cons, List.nodup_cons] at hm
    rw [find_cons]
    rcases List.mem_cons.1 h with h | h
    · subst h; simp
    · rw [if_neg, ih hm.2 h]
      intro he
      exact hm.1 (he ▸ List.mem_map_of_mem (f := Prod.fst) h)

theorem mem_keys_iff {m : List (Name × ν)} {k : Name} : k ∈ m.map Prod.fst ↔ ∃ v, find m k = some v := by
  rw [← Option.isSome_iff_exists, ← Option.ne_none_iff_isSome, Ne, find_none, Classical.not_not]

theorem nodup_assign {m : List (Name × ν)} (hm : (m.map Prod.fst).Nodup) (k : Name) (v : ν) :
    ((assign m k v).map Prod.fst).Nodup := by
  induction m with
  | nil => simp [assign]
  | cons e m ih =>
    rw [List.map_cons, List.nodup_cons] at hm
    simp only [assign]
    split
    · rename_i h
      have h : e.1 = k := by simpa using h
      rw [List.map_cons, List.nodup_cons]
      exact ⟨h ▸ hm.1, hm.2⟩
    · rename_i h
      have h : e.1 ≠ k := by simpa using h
      rw [List.map_cons, List.nodup_cons]
      refine ⟨fun hc => ?_, ih hm.2⟩
      obtain ⟨w, hw⟩ := mem_keys_iff.1 hc
      rw [find_assign, if_neg h] at hw
      exact hm.1 (mem_keys_iff.2 ⟨w, hw⟩)

theorem nodup_emplace {m : List (Name × ν)} (hm : (m.map Prod.fst).Nodup) (k : Name) (v : ν) :
    ((emplace m k v).map Prod.fst).Nodup := by
  unfold emplace
  split
  · exact hm
  · rename_i h
    have h' : find m k = none := by simpa using h
    rw [List.map_append, List.nodup_append]
    refine ⟨hm, by simp, ?_⟩
    intro a ha b hb hab
    simp only [List.map_cons, List.map_nil, List.mem_singleton] at hb
    exact find_none.1 h' (hb ▸ hab ▸ ha)

end maps

/-! ## registries -/

theorem find_insert (m : Registry) (t a n : Name) : find (m.insert t a).1 n =
    if n = a ∧ a ≠ "" then some ⟨"", t⟩ else if n = t then some ⟨a, t⟩ else find m n := by
  unfold Registry.insert
  by_cases h : a = ""
  · simp [h, find_assign]
  · simp only [ne_eq, h, not_false_eq_true, if_true, find_assign, and_true]
    grind

theorem nodup_insert {m : Registry} (hm : (m.map Prod.fst).Nodup) (t a : Name) :
    ((m.insert t a).1.map Prod.fst).Nodup := by
  unfold Registry.insert
  by_cases h : a = ""
  · simp only [ne_eq, h, not_true_eq_false, if_false]; exact nodup_assign hm _ _
  · simp only [ne_eq, h, not_false_eq_true, if_true]; exact nodup_assign (nodup_assign (nodup_assign hm _ _) _ _) _ _

theorem nodup_regs (rs : List Reg) : ∀ {m : Registry}, (m.map Prod.fst).Nodup → ((regs m rs).map Prod.fst).Nodup := by
  induction rs with
  | nil => intro m h; exact h
  | cons r rs ih => intro m h; exact ih (nodup_insert h _ _)

theorem regs_append (m : Registry) (a b : List Reg) : regs m (a ++ b) = regs (regs m a) b := List.foldl_append ..

theorem find_regs_keep (rs : List Reg) (n : Name) : ∀ (m : Registry), (∀ r ∈ rs, ¬ Claims r n) → find (regs m rs) n = find m n := by
  induction rs with
  | nil => intro m _; rfl
  | cons r rs ih =>
    intro m h
    show find (regs (m.insert r.1 r.2).1 rs) n = _
    rw [ih _ (fun x hx => h x (List.mem_cons_of_mem _ hx)), find_insert]
    have := h r List.mem_cons_self
    unfold Claims at this
    grind

theorem find_last {rs : List Reg} {n : Name} {r : Reg} (h : Last rs n r) (m : Registry) :
    find (regs m rs) n = some ⟨if n = r.2 then "" else r.2, r.1⟩ := by
  obtain ⟨b, l, rfl, hc, hl⟩ := h
  rw [regs_append]
  show find (regs ((regs m b).insert r.1 r.2).1 l) n = _
  rw [find_regs_keep _ _ _ hl, find_insert]
  unfold Claims at hc
  grind

theorem last_or_none (rs : List Reg) (n : Name) : (∃ r, Last rs n r) ∨ ∀ r ∈ rs, ¬ Claims r n := by
  induction rs with
  | nil => right; intro r h; cases h
  | cons r rs ih =>
    rcases ih with ⟨x, b, l, e, h⟩ | h
    · exact .inl ⟨x, r :: b, l, by rw [e]; rfl, h⟩
    · rcases Classical.em (Claims r n) with c | c
      · exact .inl ⟨r, [], rs, rfl, c, h⟩
      · refine .inr fun x hx => ?_
        rcases List.mem_cons.1 hx with rfl | hx
        · exact c
        · exact h x hx

theorem last_mem {rs : List Reg} {n : Name} {r : Reg} (h : Last rs n r) : r ∈ rs := by
  obtain ⟨b, l, rfl, _⟩ := h; simp

theorem find_merge (o m : Registry) (n : Name) : find (m.merge o) n = (find m n).or (find o n) := by
  unfold Registry.merge
  induction o generalizing m with
  | nil => simp [find_nil]
  | cons e o ih =>
    rw [List.foldl_cons, ih, find_emplace, find_cons]
    by_cases h : n = e.1
    · subst h; cases find m e.1 <;> simp
    · rw [if_neg h, if_neg (fun x => h x.symm)]

/-! ## making blocks -/

theorem each_made {f : Name → Ans} {ok : Ans} {xs : List Name} (h : ∀ x ∈ xs, ∃ m, f x = .made m) : each f ok xs = ok := by
  induction xs with
  | nil => rfl
  | cons x xs ih =>
    obtain ⟨m, hm⟩ := h x List.mem_cons_self
    rw [each, hm]
    exact ih fun y hy => h y (List.mem_cons_of_mem _ hy)

theorem made_of_each {f : Name → Ans} {ok : Ans} {xs : List Name} {m : Made} (h : each f ok xs = .made m) :
    ok = .made m ∧ ∀ x ∈ xs, ∃ m, f x = .made m := by
  induction xs with
  | nil => exact ⟨h, fun x hx => nomatch hx⟩
  | cons x xs ih =>
    rw [each] at h
    split at h
    · rename_i m' hm
      obtain ⟨a, b⟩ := ih h
      refine ⟨a, fun y hy => ?_⟩
      rcases List.mem_cons.1 hy with rfl | hy
      · exact ⟨_, hm⟩
      · exact b y hy
    · cases h
    · cases h

theorem each_congr {f g : Name → Ans} {ok : Ans} {xs : List Name} (hfg : ∀ x, f x ≠ .endless → g x = f x)
    (h : each f ok xs ≠ .endless) : each g ok xs = each f ok xs := by
  induction xs with
  | nil => rfl
  | cons x xs ih =>
    simp only [each] at h ⊢
    cases hx : f x with
    | endless => rw [hx] at h; exact absurd rfl h
    | none => rw [hfg x (by rw [hx]; nofun), hx]
    | made m =>
      rw [hfg x (by rw [hx]; nofun), hx]
      rw [hx] at h
      exact ih h

theorem make_succ {l : Loader} {n : Nat} : ∀ {x : Name}, l.make n x ≠ .endless → l.make (n + 1) x = l.make n x := by
  induction n with
  | zero => intro x h; exact absurd rfl h
  | succ n ih =>
    intro x h
    rw [Loader.make, Loader.make]
    rw [Loader.make] at h
    split
    · rfl
    · rename_i h1
      rw [h1] at h
      split
      · rfl
      · rename_i h2
        rw [h2] at h
        split
        · rename_i d h3
          rw [h3] at h
          exact each_congr (fun y hy => ih hy) h
        · rfl

theorem make_le {l : Loader} {n k : Nat} {x : Name} (h : l.make n x ≠ .endless) (hk : n ≤ k) : l.make k x = l.make n x := by
  induction hk with
  | refl => rfl
  | step _ ih => rw [make_succ (by rw [ih]; exact h), ih]

/-! ## sorting -/

theorem mem_unique {x : Name} {l : List Name} : x ∈ unique l ↔ x ∈ l := by
  induction l using unique.induct with
  | case1 => rfl
  | case2 => rfl
  | case3 y r ih => rw [unique, if_pos rfl, ih]; grind
  | case4 y z r h ih => rw [unique, if_neg h]; grind

theorem unique_sorted {le : Name → Name → Bool} (anti : ∀ a b, le a b → le b a → a = b) {l : List Name}
    (h : l.Pairwise (fun a b => le a b = true)) : (unique l).Pairwise (fun a b => le a b = true ∧ a ≠ b) := by
  induction l using unique.induct with
  | case1 => exact .nil
  | case2 => rw [unique]; simp
  | case3 y r ih => rw [unique, if_pos rfl]; exact ih h.tail
  | case4 y z r hne ih =>
    rw [unique, if_neg hne]
    refine List.Pairwise.cons (fun b hb => ?_) (ih h.tail)
    rw [mem_unique] at hb
    refine ⟨List.rel_of_pairwise_cons h hb, fun e => ?_⟩
    subst e
    rcases List.mem_cons.1 hb with e | hb
    · exact hne e
    · exact hne (anti _ _ (List.rel_of_pairwise_cons h List.mem_cons_self) (List.rel_of_pairwise_cons h.tail hb))

/-! ## loading -/

theorem find_register (ks : List Name) (r : Registry) (m : List (Name × Registry)) (n : Name) :
    find (ks.foldl (fun m k => emplace m k r) m) n = if n ∈ ks then some ((find m n).getD r) else find m n := by
  induction ks generalizing m with
  | nil => simp
  | cons k ks ih =>
    rw [List.foldl_cons, ih, find_emplace]
    by_cases h : n = k
    · subst h; by_cases h' : n ∈ ks <;> simp [h']
    · simp [h]

theorem nodup_register (ks : List Name) (r : Registry) {m : List (Name × Registry)} (hm : (m.map Prod.fst).Nodup) :
    ((ks.foldl (fun m k => emplace m k r) m).map Prod.fst).Nodup := by
  induction ks generalizing m with
  | nil => exact hm
  | cons k ks ih => exact ih (nodup_emplace hm _ _)

theorem report_fold (rs : List (Except String Unit)) : ∀ (k : Nat) (e : Option String) (c : List (Except String Unit)),
    rs ≠ [] → rs.length = k →
    (rs.foldl Many.report ⟨k, e, c⟩).calls = c ++ [match e with | some e => .error e | none => first rs] := by
  induction rs with
  | nil => intro k e c h; exact absurd rfl h
  | cons r rs ih =>
    intro k e c _ hk
    rw [List.length_cons] at hk
    subst hk
    cases rs with
    | nil => cases r <;> cases e <;> rfl
    | cons r' rs =>
      rw [List.foldl_cons]
      have hr : Many.report ⟨(r' :: rs).length + 1, e, c⟩ r
          = ⟨(r' :: rs).length, match r, e with | .error x, none => some x | _, _ => e, c⟩ := by
        cases r <;> cases e <;> simp [Many.report]
      rw [hr, ih _ _ _ (by simp) rfl]
      cases r <;> cases e <;> rfl

theorem report_early (rs : List (Except String Unit)) : ∀ (k : Nat) (e : Option String) (c : List (Except String Unit)),
    rs.length < k → (rs.foldl Many.report ⟨k, e, c⟩).calls = c := by
  induction rs with
  | nil => intro k e c _; rfl
  | cons r rs ih =>
    intro k e c hk
    rw [List.length_cons] at hk
    rw [List.foldl_cons]
    have hr : ∃ e', Many.report ⟨k, e, c⟩ r = ⟨k - 1, e', c⟩ := by
      have : ¬ (k - 1 + 1 = 1) := by omega
      cases r <;> cases e <;> simp only [Many.report, this, if_false] <;> exact ⟨_, rfl⟩
    obtain ⟨e', hr⟩ := hr
    rw [hr]
    exact ih _ _ _ (by omega)

/-- `Spec.Done` with look-ups in place of entries. -/
structure Done' (d : Disk) (asked : List Name) (s : Load) : Prop where
  once : s.opened.Nodup
  all : ∀ f, f ∈ s.opened ↔ f ∈ asked
  loaded : ∀ f, f ∈ s.loaded ↔ f ∈ s.opened
  failed : ∀ f e, find s.failed f = some e ↔ f ∈ asked ∧ d f = .error e
  blocks : ∀ n, (find s.plugins n).isSome ↔ ∃ f ∈ asked, ∃ r, d f = .ok r ∧ n ∈ r.map Prod.fst
  first : ∀ n r, find s.plugins n = some r → ∃ f ∈ asked, d f = .ok r ∧ n ∈ r.map Prod.fst
  keys : (s.plugins.map Prod.fst).Nodup
  fkeys : (s.failed.map Prod.fst).Nodup

theorem done_finish {d : Disk} {asked : List Name} {s : Load} (h : Done' d asked s) {f : Name} (hf : f ∉ asked) :
    Done' d (f :: asked) (({ s with loaded := f :: s.loaded, opened := s.opened ++ [f] } : Load).finish d f).1 := by
  have ho : f ∉ s.opened := fun hc => hf ((h.all f).1 hc)
  have hon : (s.opened ++ [f]).Nodup := by
    rw [List.nodup_append]
    exact ⟨h.once, by simp, fun a ha b hb e => ho (List.mem_singleton.1 hb ▸ e ▸ ha)⟩
  have hall : ∀ g, g ∈ s.opened ++ [f] ↔ g ∈ f :: asked := by
    intro g; have := h.all g; grind
  have hld : ∀ g, g ∈ f :: s.loaded ↔ g ∈ s.opened ++ [f] := by
    intro g; have := h.loaded g; grind
  unfold Load.finish
  cases hd : d f with
  | error e =>
    refine ⟨hon, hall, hld, ?_, ?_, ?_, h.keys, nodup_assign h.fkeys _ _⟩
    · intro g e'
      show find (assign s.failed f e) g = some e' ↔ _
      rw [find_assign]
      have := h.failed g e'
      grind
    · intro n
      show (find s.plugins n).isSome ↔ _
      rw [h.blocks n]; grind
    · intro n r hr
      obtain ⟨g, hg, x⟩ := h.first n r hr
      exact ⟨g, List.mem_cons_of_mem _ hg, x⟩
  | ok r =>
    refine ⟨hon, hall, hld, ?_, ?_, ?_, nodup_register _ _ h.keys, h.fkeys⟩
    · intro g e'
      show find s.failed g = some e' ↔ _
      have := h.failed g e'
      grind
    · intro n
      show (find (List.foldl _ s.plugins (Registry.keys r)) n).isSome ↔ _
      rw [find_register]
      have := h.blocks n
      unfold Registry.keys
      by_cases hn : n ∈ r.map Prod.fst
      · rw [if_pos hn]; exact ⟨fun _ => ⟨f, List.mem_cons_self, r, hd, hn⟩, fun _ => rfl⟩
      · rw [if_neg hn, this]; grind
    · intro n r'
      show find (List.foldl _ s.plugins (Registry.keys r)) n = some r' → _
      rw [find_register]
      unfold Registry.keys
      intro hr
      by_cases hn : n ∈ r.map Prod.fst
      · rw [if_pos hn] at hr
        cases hp : find s.plugins n with
        | none =>
          rw [hp] at hr
          have hr : r = r' := by simpa using hr
          exact ⟨f, List.mem_cons_self, hr ▸ hd, hr ▸ hn⟩
        | some q =>
          rw [hp] at hr
          have hr : q = r' := by simpa using hr
          obtain ⟨g, hg, x⟩ := h.first n q hp
          exact ⟨g, List.mem_cons_of_mem _ hg, hr ▸ x⟩
      · rw [if_neg hn] at hr
        obtain ⟨g, hg, x⟩ := h.first n r' hr
        exact ⟨g, List.mem_cons_of_mem _ hg, x⟩

theorem Done'.congr {d : Disk} {a b : List Name} {s : Load} (h : Done' d a s) (hab : ∀ f, f ∈ a ↔ f ∈ b) : Done' d b s := by
  refine ⟨h.once, fun f => (h.all f).trans (hab f), h.loaded, fun f e => by rw [h.failed, hab],
    fun n => ?_, fun n r hr => ?_, h.keys, h.fkeys⟩
  · rw [h.blocks]; exact ⟨fun ⟨f, hf, x⟩ => ⟨f, (hab f).1 hf, x⟩, fun ⟨f, hf, x⟩ => ⟨f, (hab f).2 hf, x⟩⟩
  · obtain ⟨f, hf, x⟩ := h.first n r hr; exact ⟨f, (hab f).1 hf, x⟩

theorem done_load {d : Disk} {asked : List Name} {s : Load} (h : Done' d asked s) (f : Name) :
    Done' d (f :: asked) (s.load d f).1 := by
  unfold Load.load Load.start
  by_cases hf : f ∈ s.loaded
  · rw [if_pos hf]
    have : f ∈ asked := (h.all f).1 ((h.loaded f).1 hf)
    exact h.congr fun g => by grind
  · rw [if_neg hf]
    exact done_finish h fun hc => hf ((h.loaded f).2 ((h.all f).2 hc))

theorem done_fresh (d : Disk) : Done' d [] fresh :=
  ⟨.nil, fun _ => Iff.rfl, fun _ => Iff.rfl, fun _ _ => ⟨fun h => (nomatch h), fun h => (nomatch h.1)⟩,
    fun _ => ⟨fun h => (nomatch h), fun ⟨_, h, _⟩ => (nomatch h)⟩, fun _ _ h => (nomatch h), .nil, .nil⟩

theorem done_loads {d : Disk} (fs : List Name) : ∀ {asked : List Name} {s : Load}, Done' d asked s → Done' d (fs ++ asked) (loads d s fs) := by
  induction fs with
  | nil => intro asked s h; exact h
  | cons f fs ih =>
    intro asked s h
    exact (ih (done_load h f)).congr fun g => by grind

theorem loads_done' (d : Disk) (fs : List Name) : Done' d fs (loads d fresh fs) :=
  (done_loads fs (done_fresh d)).congr fun f => by simp

theorem Done'.done {d : Disk} {a : List Name} {s : Load} (h : Done' d a s) : Done d a s := by
  refine ⟨h.once, h.all, fun f e => ?_, fun n => ?_, fun n r hr => h.first n r (find_of_mem h.keys hr)⟩
  · rw [← h.failed]; exact ⟨find_of_mem h.fkeys, find_mem⟩
  · rw [← h.blocks, Option.isSome_iff_exists]
    exact ⟨fun ⟨r, hr⟩ => ⟨r, find_of_mem h.keys hr⟩, fun ⟨r, hr⟩ => ⟨r, find_mem hr⟩⟩

end Verif.Plug
