import Verif.Graph.Spec
import Verif.Util
/-! Helper lemmas for weakly connected components. -/
namespace Verif.Graph

/-- reachable through the adjacency lists -/
inductive AReach (adj : Nat → List Nat) : Nat → Nat → Prop where
  | refl (a : Nat) : AReach adj a a
  | step {a b c : Nat} : AReach adj a b → c ∈ adj b → AReach adj a c

theorem AReach.trans {adj : Nat → List Nat} {a b c : Nat} (h1 : AReach adj a b) (h2 : AReach adj b c) : AReach adj a c := by
  induction h2 with
  | refl => exact h1
  | step _ h ih => exact .step ih h

theorem AReach.symm {adj : Nat → List Nat} (hs : ∀ x y, y ∈ adj x → x ∈ adj y) {a b : Nat} (h : AReach adj a b) : AReach adj b a := by
  induction h with
  | refl => exact .refl _
  | step _ h ih => exact (AReach.step (.refl _) (hs _ _ h)).trans ih

theorem labelNew_spec (c : Nat) (us : List Nat) : ∀ (q : List Nat) (ids : Nat → Option Nat), ∃ new ids',
    labelNew c us q ids = (q ++ new, ids') ∧ new.Nodup ∧ (∀ x ∈ new, x ∈ us ∧ ids x = none) ∧
    (∀ x, ids' x = if x ∈ new then some c else ids x) ∧ ∀ u ∈ us, ids' u ≠ none := by
  induction us with
  | nil => intro q ids; exact ⟨[], ids, by simp [labelNew]⟩
  | cons u us ih =>
    intro q ids
    unfold labelNew
    split
    · next hu =>
      obtain ⟨new, ids', h1, h2, h3, h4, h5⟩ := ih (q ++ [u]) (setId ids u c)
      have hunew : u ∉ new := by
        intro hm
        have := (h3 u hm).2
        simp [setId] at this
      refine ⟨u :: new, ids', by rw [h1]; simp, List.nodup_cons.2 ⟨hunew, h2⟩, ?_, ?_, ?_⟩
      · intro x hx
        rcases List.mem_cons.1 hx with e | hx
        · subst e; exact ⟨by simp, hu⟩
        · obtain ⟨a1, a2⟩ := h3 x hx
          refine ⟨by simp [a1], ?_⟩
          unfold setId at a2
          split at a2
          · cases a2
          · exact a2
      · intro x
        rw [h4]
        by_cases e : x = u
        · subst e; simp [hunew, setId]
        · by_cases hx : x ∈ new
          · simp [hx]
          · simp [hx, e, setId]
      · intro x hx
        rcases List.mem_cons.1 hx with e | hx
        · subst e; rw [h4]; simp [hunew, setId]
        · exact h5 x hx
    · next hu =>
      obtain ⟨new, ids', h1, h2, h3, h4, h5⟩ := ih q ids
      refine ⟨new, ids', h1, h2, fun x hx => ⟨by simp [(h3 x hx).1], (h3 x hx).2⟩, h4, ?_⟩
      intro x hx
      rcases List.mem_cons.1 hx with e | hx
      · subst e
        rw [h4]
        split
        · simp
        · exact hu
      · exact h5 x hx

/-- the state of the breadth-first search for the component number `c` starting at `s` -/
structure LInv (adj : Nat → List Nat) (n c s : Nat) (ids0 : Nat → Option Nat) (q comp : List Nat) (ids : Nat → Option Nat) : Prop where
  nodup : (comp ++ q).Nodup
  mem : ∀ x ∈ comp ++ q, x < n ∧ ids0 x = none ∧ AReach adj s x
  idsEq : ∀ x, ids x = if x ∈ comp ++ q then some c else ids0 x
  seen : ∀ x ∈ comp, ∀ u ∈ adj x, ids u ≠ none
  start : s ∈ comp ++ q

theorem labelLoop_spec {adj : Nat → List Nat} {n : Nat} (hn : ∀ v u, u ∈ adj v → u < n) (c s : Nat) (ids0 : Nat → Option Nat) :
    ∀ (fuel : Nat) (q comp : List Nat) (ids : Nat → Option Nat), LInv adj n c s ids0 q comp ids → n + 1 ≤ fuel + comp.length →
      ∃ comp' ids', labelLoop adj c fuel q comp ids = some (comp', ids') ∧ LInv adj n c s ids0 [] comp' ids' := by
  intro fuel
  induction fuel with
  | zero =>
    intro q comp ids h hf
    exfalso
    have h1 : comp.length ≤ (List.range n).length :=
      nodup_length_le _ _ ((List.nodup_append.1 h.nodup).1)
        (fun x hx => List.mem_range.2 (h.mem x (by simp [hx])).1)
    rw [List.length_range] at h1
    omega
  | succ fuel ih =>
    intro q comp ids h hf
    cases q with
    | nil => exact ⟨comp, ids, rfl, h⟩
    | cons v q =>
      obtain ⟨new, ids', h1, h2, h3, h4, h5⟩ := labelNew_spec c (adj v) q ids
      have hperm : (comp ++ [v] ++ (q ++ new)) = (comp ++ v :: q) ++ new := by simp
      have hnone : ∀ x ∈ new, x ∉ comp ++ v :: q := by
        intro x hx hm
        have := (h3 x hx).2
        rw [h.idsEq, if_pos hm] at this; cases this
      have hi : LInv adj n c s ids0 (q ++ new) (comp ++ [v]) ids' := by
        refine ⟨?_, ?_, ?_, ?_, ?_⟩
        · rw [hperm]
          refine List.nodup_append.2 ⟨h.nodup, h2, ?_⟩
          intro a ha b hb e
          subst e; exact hnone a hb ha
        · rw [hperm]
          intro x hx
          rcases List.mem_append.1 hx with hx | hx
          · exact h.mem x hx
          · obtain ⟨a1, a2⟩ := h3 x hx
            have hv := h.mem v (by simp)
            refine ⟨hn v x a1, ?_, .step hv.2.2 a1⟩
            rw [h.idsEq, if_neg (hnone x hx)] at a2; exact a2
        · intro x
          rw [hperm, h4, h.idsEq]
          by_cases hx : x ∈ new
          · simp [hx]
          · simp only [List.mem_append, hx, or_false, if_false]
        · intro x hx u hu
          rcases List.mem_append.1 hx with hx | hx
          · have := h.seen x hx u hu
            rw [h4]; split
            · simp
            · exact this
          · simp only [List.mem_singleton] at hx; subst hx; exact h5 u hu
        · rw [hperm]; exact List.mem_append_left _ h.start
      have := ih (q ++ new) (comp ++ [v]) ids' hi (by simp; omega)
      simp only [labelLoop, h1]; exact this

/-- the state between the searches -/
structure CInv (adj : Nat → List Nat) (n : Nat) (comps : List (List Nat)) (ids : Nat → Option Nat) : Prop where
  ids : ∀ (x c : Nat), ids x = some c ↔ ∃ l : List Nat, comps[c]? = some l ∧ x ∈ l
  nodup : ∀ l ∈ comps, l.Nodup ∧ l ≠ []
  lt : ∀ l ∈ comps, ∀ x ∈ l, x < n
  closed : ∀ l ∈ comps, ∀ x ∈ l, ∀ u ∈ adj x, u ∈ l
  conn : ∀ l ∈ comps, ∀ x ∈ l, ∀ y ∈ l, AReach adj x y

theorem labelFrom_spec {adj : Nat → List Nat} {n : Nat} (hn : ∀ v u, u ∈ adj v → u < n) (hs : ∀ x y, y ∈ adj x → x ∈ adj y)
    {comps : List (List Nat)} {ids : Nat → Option Nat} (h : CInv adj n comps ids) {s : Nat} (hsn : s < n) :
    ∃ comps' ids', labelFrom adj n (comps, ids) s = some (comps', ids') ∧ CInv adj n comps' ids' ∧ ids' s ≠ none ∧
      ∀ x, ids x ≠ none → ids' x ≠ none := by
  unfold labelFrom
  by_cases hc : ids s ≠ none
  · rw [if_pos hc]; exact ⟨comps, ids, rfl, h, hc, fun _ hx => hx⟩
  · rw [if_neg hc]
    have hc : ids s = none := Classical.not_not.1 hc
    have hi : LInv adj n comps.length s ids [s] [] (setId ids s comps.length) := by
      refine ⟨by simp, ?_, ?_, by simp, by simp⟩
      · intro x hx
        simp at hx; subst hx; exact ⟨hsn, hc, .refl _⟩
      · intro x; simp [setId]
    obtain ⟨comp, ids', h1, h2⟩ := labelLoop_spec hn comps.length s ids (n + 1) [s] [] _ hi (by simp)
    have hnodup := h2.nodup
    have hmem := h2.mem
    have hids := h2.idsEq
    have hstart := h2.start
    rw [List.append_nil] at hnodup hmem hids hstart
    refine ⟨comps ++ [comp], ids', by simp only [h1]; rfl, ?_, ?_, ?_⟩
    · refine ⟨?_, ?_, ?_, ?_, ?_⟩
      · intro x c
        rw [hids]
        by_cases hx : x ∈ comp
        · rw [if_pos hx]
          constructor
          · intro e; cases e; exact ⟨comp, by simp, hx⟩
          · rintro ⟨l, hl, hxl⟩
            by_cases hlt : c < comps.length
            · rw [List.getElem?_append_left hlt] at hl
              have := (h.ids x c).2 ⟨l, hl, hxl⟩
              rw [(hmem x hx).2.1] at this; cases this
            · have : c < comps.length + 1 := by
                have := (List.getElem?_eq_some_iff.1 hl).1
                simpa using this
              congr 1; omega
        · rw [if_neg hx, h.ids]
          constructor
          · rintro ⟨l, hl, hxl⟩
            exact ⟨l, by rw [List.getElem?_append_left (List.getElem?_eq_some_iff.1 hl).1]; exact hl, hxl⟩
          · rintro ⟨l, hl, hxl⟩
            by_cases hlt : c < comps.length
            · rw [List.getElem?_append_left hlt] at hl; exact ⟨l, hl, hxl⟩
            · have hle : comps.length ≤ c := by omega
              rw [List.getElem?_append_right hle, List.getElem?_singleton] at hl
              split at hl
              · cases hl; exact absurd hxl hx
              · cases hl
      · intro l hl
        rcases List.mem_append.1 hl with hl | hl
        · exact h.nodup l hl
        · simp only [List.mem_singleton] at hl; subst hl
          exact ⟨hnodup, fun e => by rw [e] at hstart; simp at hstart⟩
      · intro l hl x hx
        rcases List.mem_append.1 hl with hl | hl
        · exact h.lt l hl x hx
        · simp only [List.mem_singleton] at hl; subst hl; exact (hmem x hx).1
      · intro l hl x hx u hu
        rcases List.mem_append.1 hl with hl | hl
        · exact h.closed l hl x hx u hu
        · simp only [List.mem_singleton] at hl; subst hl
          have h3 := h2.seen x hx u hu
          rw [hids] at h3
          apply Classical.byContradiction
          intro hul
          rw [if_neg hul] at h3
          cases hu0 : ids u with
          | none => exact h3 hu0
          | some c =>
            obtain ⟨l', hl', hul'⟩ := (h.ids u c).1 hu0
            have hxl' := h.closed l' (List.mem_of_getElem? hl') u hul' x (hs x u hu)
            have := (h.ids x c).2 ⟨l', hl', hxl'⟩
            rw [(hmem x hx).2.1] at this; cases this
      · intro l hl x hx y hy
        rcases List.mem_append.1 hl with hl | hl
        · exact h.conn l hl x hx y hy
        · simp only [List.mem_singleton] at hl; subst hl
          exact ((hmem x hx).2.2.symm hs).trans (hmem y hy).2.2
    · rw [hids, if_pos hstart]; simp
    · intro x hx
      rw [hids]; split
      · simp
      · exact hx

theorem labelAll_fold {adj : Nat → List Nat} {n : Nat} (hn : ∀ v u, u ∈ adj v → u < n) (hs : ∀ x y, y ∈ adj x → x ∈ adj y) :
    ∀ (ss : List Nat) (comps : List (List Nat)) (ids : Nat → Option Nat), (∀ s ∈ ss, s < n) → CInv adj n comps ids →
      ∃ comps' ids', ss.foldlM (labelFrom adj n) (comps, ids) = some (comps', ids') ∧ CInv adj n comps' ids' ∧
        (∀ s ∈ ss, ids' s ≠ none) ∧ ∀ x, ids x ≠ none → ids' x ≠ none := by
  intro ss
  induction ss with
  | nil => intro comps ids _ h; exact ⟨comps, ids, rfl, h, by simp, fun _ hx => hx⟩
  | cons s ss ih =>
    intro comps ids hss h
    obtain ⟨comps1, ids1, h1, h2, h3, h4⟩ := labelFrom_spec hn hs h (hss s (by simp))
    obtain ⟨comps2, ids2, g1, g2, g3, g4⟩ := ih comps1 ids1 (fun x hx => hss x (by simp [hx])) h2
    refine ⟨comps2, ids2, by rw [List.foldlM_cons, h1]; exact g1, g2, ?_, fun x hx => g4 x (h4 x hx)⟩
    intro x hx
    rcases List.mem_cons.1 hx with e | hx
    · subst e; exact g4 x h3
    · exact g3 x hx

theorem mem_adjacency (blocks : List Nat) (es : List Edge) (v u : Nat) : u ∈ adjacency blocks es v ↔
    ∃ e ∈ es, e.1 ∈ blocks ∧ e.2 ∈ blocks ∧
      ((blocks.idxOf e.1 = v ∧ blocks.idxOf e.2 = u) ∨ (blocks.idxOf e.2 = v ∧ blocks.idxOf e.1 = u)) := by
  unfold adjacency
  rw [List.mem_flatMap]
  constructor
  · rintro ⟨e, he, hm⟩
    refine ⟨e, he, ?_⟩
    split at hm
    · next hc =>
      simp only [List.contains_eq_mem, decide_eq_true_eq] at hc
      refine ⟨hc.1, hc.2, ?_⟩
      rcases List.mem_append.1 hm with hm | hm
      · split at hm
        · next h => simp at hm; exact .inl ⟨h, hm.symm⟩
        · simp at hm
      · split at hm
        · next h => simp at hm; exact .inr ⟨h, hm.symm⟩
        · simp at hm
    · simp at hm
  · rintro ⟨e, he, h1, h2, h3⟩
    refine ⟨e, he, ?_⟩
    rw [if_pos (by simp [h1, h2])]
    rcases h3 with ⟨a, b⟩ | ⟨a, b⟩
    · exact List.mem_append_left _ (by rw [if_pos a]; simp [b])
    · exact List.mem_append_right _ (by rw [if_pos a]; simp [b])

theorem adjacency_lt {blocks : List Nat} {es : List Edge} {v u : Nat} (h : u ∈ adjacency blocks es v) : u < blocks.length := by
  obtain ⟨e, _, h1, h2, h3⟩ := (mem_adjacency _ _ _ _).1 h
  rcases h3 with ⟨_, e⟩ | ⟨_, e⟩ <;> subst e
  · exact List.idxOf_lt_length_of_mem h2
  · exact List.idxOf_lt_length_of_mem h1

theorem adjacency_symm {blocks : List Nat} {es : List Edge} (x y : Nat) (h : y ∈ adjacency blocks es x) : x ∈ adjacency blocks es y := by
  obtain ⟨e, he, h1, h2, h3⟩ := (mem_adjacency _ _ _ _).1 h
  exact (mem_adjacency _ _ _ _).2 ⟨e, he, h1, h2, h3.symm.imp (fun h => ⟨h.2, h.1⟩) (fun h => ⟨h.2, h.1⟩)⟩

theorem labelAll_spec (blocks : List Nat) (es : List Edge) : ∃ comps ids, labelAll blocks es = some (comps, ids) ∧
    CInv (adjacency blocks es) blocks.length comps ids ∧ ∀ i, i < blocks.length → ids i ≠ none := by
  obtain ⟨comps, ids, h1, h2, h3, _⟩ := labelAll_fold (adj := adjacency blocks es) (n := blocks.length) (fun _ _ => adjacency_lt)
    adjacency_symm (List.range blocks.length) [] (fun _ => none) (fun s hs => List.mem_range.1 hs) ⟨by simp, by simp, by simp, by simp, by simp⟩
  exact ⟨comps, ids, h1, h2, fun i hi => h3 i (List.mem_range.2 hi)⟩

theorem conn_trans {es : List Edge} {a b c : Nat} (h1 : Connected es a b) (h2 : Connected es b c) : Connected es a c := by
  induction h2 with
  | refl => exact h1
  | fwd _ h ih => exact .fwd ih h
  | bwd _ h ih => exact .bwd ih h

/-- adjacency reachability is connectedness in the graph -/
theorem areach_conn {blocks : List Nat} {es : List Edge} {a b : Nat}
    (ha : a ∈ blocks) (hb : b ∈ blocks) (h : AReach (adjacency blocks es) (blocks.idxOf a) (blocks.idxOf b)) : Connected es a b := by
  have key : ∀ {i j : Nat}, AReach (adjacency blocks es) i j → ∀ b, b ∈ blocks → i = blocks.idxOf a → j = blocks.idxOf b → Connected es a b := by
    intro i j h
    induction h with
    | refl =>
      intro b hb e1 e2
      have : a = b := by
        have h1 : blocks[blocks.idxOf a]? = some a := by rw [List.getElem?_eq_getElem (List.idxOf_lt_length_of_mem ha)]; rw [List.getElem_idxOf]
        have h2 : blocks[blocks.idxOf b]? = some b := by rw [List.getElem?_eq_getElem (List.idxOf_lt_length_of_mem hb)]; rw [List.getElem_idxOf]
        rw [← e2, e1, h1] at h2; cases h2; rfl
      subst this; exact .refl _
    | step hr hm ih =>
      intro b hb e1 e2
      obtain ⟨e, he, h1, h2, h3⟩ := (mem_adjacency _ _ _ _).1 hm
      have hinj : ∀ x y, x ∈ blocks → y ∈ blocks → blocks.idxOf x = blocks.idxOf y → x = y := by
        intro x y hx hy hxy
        have h1 : blocks[blocks.idxOf x]? = some x := by rw [List.getElem?_eq_getElem (List.idxOf_lt_length_of_mem hx)]; rw [List.getElem_idxOf]
        have h2 : blocks[blocks.idxOf y]? = some y := by rw [List.getElem?_eq_getElem (List.idxOf_lt_length_of_mem hy)]; rw [List.getElem_idxOf]
        rw [← hxy, h1] at h2; cases h2; rfl
      rcases h3 with ⟨a1, a2⟩ | ⟨a1, a2⟩
      · have := hinj e.2 b h2 hb (by rw [a2, e2])
        subst this
        exact .fwd (ih e.1 h1 e1 a1.symm) he
      · have := hinj e.1 b h1 hb (by rw [a2, e2])
        subst this
        exact .bwd (ih e.2 h2 e1 a1.symm) he
  exact key h b hb rfl rfl

theorem conn_areach {blocks : List Nat} {es : List Edge} (hin : ∀ e ∈ es, e.1 ∈ blocks ∧ e.2 ∈ blocks) {a b : Nat}
    (h : Connected es a b) : AReach (adjacency blocks es) (blocks.idxOf a) (blocks.idxOf b) := by
  induction h with
  | refl => exact .refl _
  | fwd _ he ih => exact .step ih ((mem_adjacency _ _ _ _).2 ⟨_, he, (hin _ he).1, (hin _ he).2, .inl ⟨rfl, rfl⟩⟩)
  | bwd _ he ih => exact .step ih ((mem_adjacency _ _ _ _).2 ⟨_, he, (hin _ he).1, (hin _ he).2, .inr ⟨rfl, rfl⟩⟩)

theorem closed_areach {adj : Nat → List Nat} {l : List Nat} (hc : ∀ x ∈ l, ∀ u ∈ adj x, u ∈ l) {a b : Nat} (h : AReach adj a b)
    (ha : a ∈ l) : b ∈ l := by
  induction h with
  | refl => exact ha
  | step _ hm ih => exact hc _ ih _ hm

theorem edgesFold_spec (p : Edge → Prop) [DecidablePred p] (es : List Edge) : ∀ acc : List Edge, acc.Nodup →
    (es.foldl (fun acc e => if p e then addEdge acc e else acc) acc).Nodup ∧
    ∀ e, e ∈ es.foldl (fun acc e => if p e then addEdge acc e else acc) acc ↔ e ∈ acc ∨ (e ∈ es ∧ p e) := by
  induction es with
  | nil => intro acc h; simp [h]
  | cons x es ih =>
    intro acc h
    rw [List.foldl_cons]
    have hstep : (if p x then addEdge acc x else acc).Nodup ∧ ∀ e, e ∈ (if p x then addEdge acc x else acc) ↔ e ∈ acc ∨ (e = x ∧ p e) := by
      split
      · next hp =>
        unfold addEdge
        split
        · next hc =>
          have hc : x ∈ acc := by simpa using hc
          refine ⟨h, fun e => ⟨.inl, ?_⟩⟩
          rintro (h' | ⟨rfl, _⟩)
          · exact h'
          · exact hc
        · next hc =>
          have hc : x ∉ acc := by simpa using hc
          refine ⟨List.nodup_append.2 ⟨h, by simp, ?_⟩, ?_⟩
          · intro a ha b hb e
            simp only [List.mem_singleton] at hb
            subst hb; subst e; exact hc ha
          · intro e
            simp only [List.mem_append, List.mem_singleton]
            constructor
            · rintro (h' | rfl)
              · exact .inl h'
              · exact .inr ⟨rfl, hp⟩
            · rintro (h' | ⟨rfl, _⟩)
              · exact .inl h'
              · exact .inr rfl
      · next hp =>
        refine ⟨h, fun e => ⟨.inl, ?_⟩⟩
        rintro (h' | ⟨rfl, h'⟩)
        · exact h'
        · exact absurd h' hp
    obtain ⟨g1, g2⟩ := ih _ hstep.1
    refine ⟨g1, fun e => ?_⟩
    rw [g2, hstep.2]
    simp only [List.mem_cons]
    constructor
    · rintro ((h' | ⟨rfl, h'⟩) | h')
      · exact .inl h'
      · exact .inr ⟨.inl rfl, h'⟩
      · exact .inr ⟨.inr h'.1, h'.2⟩
    · rintro (h' | ⟨rfl | h', h''⟩)
      · exact .inl (.inl h')
      · exact .inl (.inr ⟨rfl, h''⟩)
      · exact .inr ⟨h', h''⟩

end Verif.Graph
