import Verif.Selector.Spec

/-!
The maps of the routing block hold the pairs they were filled with.
-/
namespace Verif.Selector

/-- The values under a key. -/
def Map.get (m : Map) (k : Nat) : List Nat := ((m.find? fun e => e.1 == k).map (·.2)).getD []

/-- Keys in order, no key without values. -/
structure Map.Ok (m : Map) : Prop where
  sorted : m.Pairwise fun a b => a.1 < b.1
  full : ∀ e ∈ m, e.2 ≠ []

theorem Map.push_keys (k v : Nat) (m : Map) : ∀ e ∈ m.push k v, e.1 = k ∨ ∃ e' ∈ m, e'.1 = e.1 := by
  induction m with
  | nil => intro e he; simp [Map.push] at he; left; rw [he]
  | cons a m ih =>
    intro e he
    obtain ⟨k', vs⟩ := a
    simp only [Map.push] at he
    split at he
    · rcases List.mem_cons.1 he with rfl | he
      · left; rfl
      · right; exact ⟨e, he, rfl⟩
    · split at he
      · rcases List.mem_cons.1 he with rfl | he
        · right; exact ⟨(k', vs), by simp, rfl⟩
        · right; exact ⟨e, by simp [he], rfl⟩
      · rcases List.mem_cons.1 he with rfl | he
        · right; exact ⟨(k', vs), by simp, rfl⟩
        · rcases ih e he with h | ⟨e', he', h⟩
          · left; exact h
          · right; exact ⟨e', by simp [he'], h⟩

theorem Map.push_ok (k v : Nat) (m : Map) (h : m.Ok) : (m.push k v).Ok := by
  induction m with
  | nil => exact ⟨by simp [Map.push], by simp [Map.push]⟩
  | cons a m ih =>
    obtain ⟨k', vs⟩ := a
    obtain ⟨hs, hf⟩ := h
    have hs' := List.pairwise_cons.1 hs
    have ih := ih ⟨hs'.2, fun e he => hf e (by simp [he])⟩
    simp only [Map.push]
    split
    · rename_i hk
      refine ⟨List.pairwise_cons.2 ⟨?_, hs⟩, ?_⟩
      · intro e he
        rcases List.mem_cons.1 he with rfl | he
        · exact hk
        · exact Nat.lt_trans hk (hs'.1 e he)
      · intro e he
        rcases List.mem_cons.1 he with rfl | he
        · simp
        · exact hf e he
    · split
      · refine ⟨List.pairwise_cons.2 ⟨hs'.1, hs'.2⟩, ?_⟩
        intro e he
        rcases List.mem_cons.1 he with rfl | he
        · simp
        · exact hf e (by simp [he])
      · rename_i h1 h2
        refine ⟨List.pairwise_cons.2 ⟨?_, ih.sorted⟩, ?_⟩
        · intro e he
          rcases Map.push_keys k v m e he with h | ⟨e', he', h⟩
          · show k' < e.1; omega
          · have := hs'.1 e' he'; show k' < e.1; simp only at this; omega
        · intro e he
          rcases List.mem_cons.1 he with rfl | he
          · exact hf (k', vs) (by simp)
          · exact ih.full e he

theorem Map.get_none (m : Map) (k : Nat) (h : ∀ e ∈ m, e.1 ≠ k) : m.get k = [] := by
  unfold Map.get
  rw [List.find?_eq_none.2]
  · rfl
  · intro e he; simpa using h e he

theorem Map.get_cons (k' : Nat) (vs : List Nat) (m : Map) (k : Nat) :
    Map.get ((k', vs) :: m) k = if k' = k then vs else Map.get m k := by
  unfold Map.get
  rw [List.find?_cons]
  by_cases h : k' = k
  · simp [h]
  · have h' : (k' == k) = false := by simpa using h
    simp [h, h']

theorem Map.get_push (k v : Nat) (m : Map) (h : m.Ok) (q : Nat) :
    (m.push k v).get q = if q = k then m.get k ++ [v] else m.get q := by
  induction m with
  | nil =>
    simp only [Map.push, Map.get_cons]
    by_cases hq : q = k
    · simp [hq, Map.get]
    · rw [if_neg (Ne.symm hq), if_neg hq]
  | cons a m ih =>
    obtain ⟨k', vs⟩ := a
    have hs' := List.pairwise_cons.1 h.sorted
    have ih := ih ⟨hs'.2, fun e he => h.full e (by simp [he])⟩
    simp only [Map.push]
    split
    · rename_i hk
      have hn : Map.get ((k', vs) :: m) k = [] := by
        apply Map.get_none
        intro e he
        rcases List.mem_cons.1 he with rfl | he
        · show k' ≠ k; omega
        · have := hs'.1 e he; simp only at this; omega
      rw [Map.get_cons, hn]
      by_cases hq : q = k
      · simp [hq]
      · rw [if_neg (Ne.symm hq), if_neg hq]
    · split
      · rename_i h1 h2
        subst h2
        rw [Map.get_cons, Map.get_cons, Map.get_cons]
        by_cases hq : q = k
        · simp [hq]
        · rw [if_neg (Ne.symm hq), if_neg hq, if_neg (Ne.symm hq)]
      · rename_i h1 h2
        rw [Map.get_cons, Map.get_cons, Map.get_cons, ih]
        by_cases hq : q = k
        · subst hq; simp [Ne.symm h2]
        · simp [hq]

theorem Map.mem_iff (m : Map) (h : m.Ok) (e : Nat × List Nat) : e ∈ m ↔ m.get e.1 = e.2 ∧ e.2 ≠ [] := by
  induction m with
  | nil =>
    simp only [Map.get, List.not_mem_nil, List.find?_nil, false_iff]
    rintro ⟨h1, h2⟩
    exact h2 (by simpa using h1.symm)
  | cons a m ih =>
    obtain ⟨k', vs⟩ := a
    have hs' := List.pairwise_cons.1 h.sorted
    have ih := ih ⟨hs'.2, fun e he => h.full e (by simp [he])⟩
    rw [List.mem_cons, Map.get_cons]
    by_cases hk : k' = e.1
    · rw [if_pos hk]
      constructor
      · rintro (rfl | he)
        · exact ⟨rfl, h.full _ (by simp)⟩
        · have := hs'.1 e he; simp only at this; omega
      · rintro ⟨h1, _⟩
        left
        rw [hk, h1]
    · rw [if_neg hk, ← ih]
      constructor
      · rintro (rfl | he)
        · exact absurd rfl hk
        · exact he
      · exact Or.inr

/-- The values of the pairs with a key. -/
def valsOf (f g : Nat × Nat → Nat) (ps : List (Nat × Nat)) (k : Nat) : List Nat := (ps.filter fun p => f p == k).map g

/-- The map holds the pairs. -/
structure Holds (f g : Nat × Nat → Nat) (ps : List (Nat × Nat)) (m : Map) : Prop where
  ok : m.Ok
  get : ∀ k, m.get k = valsOf f g ps k

theorem Holds.nil (f g : Nat × Nat → Nat) : Holds f g [] [] := ⟨⟨.nil, by simp⟩, fun _ => rfl⟩

theorem Holds.push {f g : Nat × Nat → Nat} {ps : List (Nat × Nat)} {m : Map} (h : Holds f g ps m) (p : Nat × Nat) :
    Holds f g (ps ++ [p]) (m.push (f p) (g p)) := by
  refine ⟨Map.push_ok _ _ _ h.ok, fun k => ?_⟩
  rw [Map.get_push _ _ _ h.ok, h.get, h.get]
  unfold valsOf
  rw [List.filter_append, List.map_append]
  by_cases hk : k = f p
  · subst hk; simp
  · rw [if_neg hk]
    have : (f p == k) = false := by simpa using fun h => hk h.symm
    simp [this]

theorem Holds.mem {f g : Nat × Nat → Nat} {ps : List (Nat × Nat)} {m : Map} (h : Holds f g ps m) (e : Nat × List Nat) :
    e ∈ m ↔ e.2 = valsOf f g ps e.1 ∧ e.2 ≠ [] := by
  rw [Map.mem_iff m h.ok, h.get]
  exact ⟨fun ⟨a, b⟩ => ⟨a.symm, b⟩, fun ⟨a, b⟩ => ⟨a.symm, b⟩⟩

theorem Holds.mem_of {f g : Nat × Nat → Nat} {ps : List (Nat × Nat)} {m : Map} (h : Holds f g ps m) {p : Nat × Nat} (hp : p ∈ ps) :
    (f p, valsOf f g ps (f p)) ∈ m := by
  rw [h.mem]
  refine ⟨rfl, ?_⟩
  intro hn
  have : g p ∈ valsOf f g ps (f p) := List.mem_map.2 ⟨p, List.mem_filter.2 ⟨hp, by simp⟩, rfl⟩
  simp only at hn
  rw [hn] at this
  cases this

/-- What taking the pairs does. -/
theorem fill_spec (ps : List (Nat × Nat)) : ∀ (c : Cfg) (seen done : List (Nat × Nat)),
    Holds (·.1) (·.2) done c.inOut → Holds (·.2) (·.1) done c.outIn →
    ((fill c seen ps).2 = none ↔ (∀ p ∈ ps, p ∉ seen) ∧ Proper c.nIn c.nOut ps) ∧
    ((fill c seen ps).2 = none → Holds (·.1) (·.2) (done ++ ps) (fill c seen ps).1.inOut ∧
      Holds (·.2) (·.1) (done ++ ps) (fill c seen ps).1.outIn) ∧
    ((fill c seen ps).1.nIn = c.nIn ∧ (fill c seen ps).1.nOut = c.nOut ∧ (fill c seen ps).1.back = c.back ∧
      (fill c seen ps).1.sync = c.sync) := by
  induction ps with
  | nil =>
    intro c seen done h1 h2
    refine ⟨by simp [fill, Proper], ?_, by simp [fill]⟩
    intro _
    rw [List.append_nil]
    exact ⟨h1, h2⟩
  | cons p ps ih =>
    intro c seen done h1 h2
    simp only [fill]
    split
    · rename_i hs
      refine ⟨?_, by simp, by simp⟩
      simp only [reduceCtorEq, false_iff]
      rintro ⟨h, _⟩
      exact h p (by simp) hs
    · rename_i hs
      split
      · rename_i hi
        refine ⟨?_, by simp, by simp⟩
        simp only [reduceCtorEq, false_iff]
        rintro ⟨_, _, h⟩
        have := (h p (by simp)).1
        omega
      · rename_i hi
        split
        · rename_i ho
          refine ⟨?_, by simp, by simp⟩
          simp only [reduceCtorEq, false_iff]
          rintro ⟨_, _, h⟩
          have := (h p (by simp)).2
          omega
        · rename_i ho
          obtain ⟨a, b, d⟩ := ih { c with inOut := c.inOut.push p.1 p.2, outIn := c.outIn.push p.2 p.1 } (p :: seen) (done ++ [p])
            (h1.push p) (h2.push p)
          refine ⟨?_, ?_, d⟩
          · rw [a]
            unfold Proper
            constructor
            · rintro ⟨x, y, z⟩
              refine ⟨?_, List.nodup_cons.2 ⟨?_, y⟩, ?_⟩
              · intro q hq
                rcases List.mem_cons.1 hq with rfl | hq
                · exact hs
                · exact fun h => x q hq (by simp [h])
              · exact fun h => x p h (by simp)
              · intro q hq
                rcases List.mem_cons.1 hq with rfl | hq
                · exact ⟨by omega, by omega⟩
                · exact z q hq
            · rintro ⟨x, y, z⟩
              have y := List.nodup_cons.1 y
              refine ⟨?_, y.2, fun q hq => z q (by simp [hq])⟩
              intro q hq h
              rcases List.mem_cons.1 h with rfl | h
              · exact y.1 hq
              · exact x q (by simp [hq]) h
          · intro h
            have := b h
            rwa [List.append_assoc] at this

theorem remap_none (c : Cfg) (mi mo : List Nat) :
    (remap c mi mo).2 = none ↔ mi.length = mo.length ∧ Proper c.nIn c.nOut (mi.zip mo) := by
  unfold remap
  dsimp only
  split
  · rename_i h; simp [h]
  · rename_i h
    rw [(fill_spec (mi.zip mo) { c with inOut := [], outIn := [] } [] [] (Holds.nil _ _) (Holds.nil _ _)).1]
    have h : mi.length = mo.length := by omega
    simp [h]

/-- The maps after the pairs were taken. -/
structure Maps (c : Cfg) (ps : List (Nat × Nat)) : Prop where
  proper : Proper c.nIn c.nOut ps
  inOut : Holds (·.1) (·.2) ps c.inOut
  outIn : Holds (·.2) (·.1) ps c.outIn

theorem zip_map (ps : List (Nat × Nat)) : (ps.map (·.1)).zip (ps.map (·.2)) = ps := by
  induction ps with
  | nil => rfl
  | cons p ps ih => simp [ih]

theorem Took.maps {c : Cfg} {ps : List (Nat × Nat)} (h : Took c ps) : Maps c ps := by
  obtain ⟨c0, h⟩ := h
  have h2 : (remap c0 (ps.map (·.1)) (ps.map (·.2))).2 = none := by rw [h]
  have hp := (remap_none _ _ _).1 h2
  unfold remap at h
  dsimp only at h
  rw [if_neg (by simp), zip_map] at h
  obtain ⟨a, b, d⟩ := fill_spec ps { c0 with inOut := [], outIn := [] } [] [] (Holds.nil _ _) (Holds.nil _ _)
  rw [h] at b d
  obtain ⟨x, y⟩ := b rfl
  refine ⟨?_, by simpa using x, by simpa using y⟩
  have hp := hp.2
  rw [zip_map] at hp
  rw [d.1, d.2.1]
  exact hp

theorem Maps.mem_in {c : Cfg} {ps : List (Nat × Nat)} (h : Maps c ps) {e : Nat × List Nat} (he : e ∈ c.inOut) (o : Nat) :
    o ∈ e.2 ↔ (e.1, o) ∈ ps := by
  rw [((h.inOut.mem e).1 he).1]
  unfold valsOf
  rw [List.mem_map]
  constructor
  · rintro ⟨p, hp, rfl⟩
    have hp := List.mem_filter.1 hp
    have : p.1 = e.1 := by simpa using hp.2
    rw [← this]; exact hp.1
  · intro hp
    exact ⟨(e.1, o), List.mem_filter.2 ⟨hp, by simp⟩, rfl⟩

theorem Maps.feeds_eq {c : Cfg} {ps : List (Nat × Nat)} (h : Maps c ps) {e : Nat × List Nat} (he : e ∈ c.outIn) : e.2 = feeds ps e.1 :=
  ((h.outIn.mem e).1 he).1

theorem mem_feeds (ps : List (Nat × Nat)) (o i : Nat) : i ∈ feeds ps o ↔ (i, o) ∈ ps := by
  unfold feeds
  rw [List.mem_map]
  constructor
  · rintro ⟨p, hp, rfl⟩
    have hp := List.mem_filter.1 hp
    have : p.2 = o := by simpa using hp.2
    rw [← this]; exact hp.1
  · intro hp
    exact ⟨(i, o), List.mem_filter.2 ⟨hp, by simp⟩, rfl⟩

theorem nodup_feeds {ps : List (Nat × Nat)} (h : ps.Nodup) (o : Nat) : (feeds ps o).Nodup := by
  unfold feeds
  have h' : (ps.filter fun p => p.2 == o).Nodup := h.filter _
  unfold List.Nodup at *
  rw [List.pairwise_map]
  refine List.Pairwise.imp_of_mem ?_ h'
  intro a b ha hb hab he
  have ha := (List.mem_filter.1 ha).2
  have hb := (List.mem_filter.1 hb).2
  apply hab
  have h1 : a.2 = o := by simpa using ha
  have h2 : b.2 = o := by simpa using hb
  exact Prod.ext he (h1.trans h2.symm)

theorem nodup_vals {ps : List (Nat × Nat)} (h : ps.Nodup) (i : Nat) : (valsOf (·.1) (·.2) ps i).Nodup := by
  unfold valsOf
  have h' : (ps.filter fun p => p.1 == i).Nodup := h.filter _
  unfold List.Nodup at *
  rw [List.pairwise_map]
  refine List.Pairwise.imp_of_mem ?_ h'
  intro a b ha hb hab he
  have ha := (List.mem_filter.1 ha).2
  have hb := (List.mem_filter.1 hb).2
  apply hab
  have h1 : a.1 = i := by simpa using ha
  have h2 : b.1 = i := by simpa using hb
  exact Prod.ext (h1.trans h2.symm) he

end Verif.Selector
