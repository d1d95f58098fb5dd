import Verif.Graph.Spec
/-! Helper lemmas for feedback loop detection. -/
namespace Verif.Graph

theorem chain_of_maps : ∀ (l : List Edge) (x y : Nat) (r : List Nat), l.map (·.1) = x :: r → l.map (·.2) = r ++ [y] → Chain l x y := by
  intro l
  induction l with
  | nil => intro x y r h _; simp at h
  | cons e l ih =>
    intro x y r h1 h2
    obtain ⟨a, b⟩ := e
    simp only [List.map_cons, List.cons.injEq] at h1
    obtain ⟨e1, h1⟩ := h1
    subst e1
    cases r with
    | nil =>
      simp only [List.map_eq_nil_iff] at h1
      subst h1
      simp only [List.map_cons, List.map_nil, List.nil_append, List.cons.injEq, and_true] at h2
      subst h2
      exact .cons (.nil _)
    | cons z r =>
      simp only [List.map_cons, List.cons_append, List.cons.injEq] at h2
      obtain ⟨e2, h2⟩ := h2
      subst e2
      exact .cons (ih _ _ r h1 h2)

/-- the stacks describe a walk of edges of the graph ending in the current block -/
structure Walk (es : List Edge) (path : List Nat) (pe : List Edge) (cur : Nat) : Prop where
  src : pe.map (·.1) = path
  dst : pe.map (·.2) = (path ++ [cur]).tail
  mem : ∀ e ∈ pe, e ∈ es
  nodup : (path ++ [cur]).Nodup

theorem Walk.loop {es : List Edge} {path : List Nat} {pe : List Edge} {cur d : Nat} (h : Walk es path pe cur) (he : (cur, d) ∈ es)
    (hd : d ∈ path ++ [cur]) : IsLoop es ((pe ++ [(cur, d)]).drop ((path ++ [cur]).idxOf d)) := by
  have hi : (path ++ [cur]).idxOf d < (path ++ [cur]).length := List.idxOf_lt_length_of_mem hd
  generalize hii : (path ++ [cur]).idxOf d = i at hi ⊢
  have hget : (path ++ [cur])[i] = d := by subst hii; exact List.getElem_idxOf hi
  have hdrop : (path ++ [cur]).drop i = d :: (path ++ [cur]).drop (i + 1) := by
    rw [List.drop_eq_getElem_cons hi, hget]
  have h1 : ((pe ++ [(cur, d)]).drop i).map (·.1) = d :: (path ++ [cur]).drop (i + 1) := by
    rw [List.map_drop, List.map_append, h.src]
    exact hdrop
  have h2 : ((pe ++ [(cur, d)]).drop i).map (·.2) = (path ++ [cur]).drop (i + 1) ++ [d] := by
    rw [List.map_drop, List.map_append, h.dst, List.drop_append_of_le_length]
    · rw [← List.drop_one, List.drop_drop, Nat.add_comm 1 i]; rfl
    · rw [List.length_tail]; omega
  have hnd : (d :: (path ++ [cur]).drop (i + 1)).Nodup := by
    rw [← hdrop]
    exact h.nodup.sublist (List.drop_sublist _ _)
  refine ⟨?_, ⟨d, chain_of_maps _ _ _ _ h1 h2⟩, ?_, ?_, ?_⟩
  · intro e
    rw [e] at h1
    simp at h1
  · intro e hm
    have := List.mem_of_mem_drop hm
    rcases List.mem_append.1 this with h' | h'
    · exact h.mem e h'
    · simp only [List.mem_singleton] at h'; subst h'; exact he
  · rw [h1]; exact hnd
  · rw [h2]
    exact (List.perm_append_singleton d _).nodup_iff.2 hnd

/-- black blocks can be ranked so that every edge leads to a black block of lower rank -/
def Topo (es : List Edge) (col : Nat → Color) : Prop :=
  ∃ rank : Nat → Nat, ∀ x, col x = .black → ∀ d, (x, d) ∈ es → col d = .black ∧ rank d < rank x

theorem topo_no_cycle {es : List Edge} {col : Nat → Color} (h : Topo es col) {l : List Edge} {a b : Nat} (hc : Chain l a b)
    (hm : ∀ e ∈ l, e ∈ es) (ha : col a = .black) (hne : l ≠ []) : a ≠ b := by
  obtain ⟨rank, hr⟩ := h
  have key : ∀ {l : List Edge} {a b : Nat}, Chain l a b → (∀ e ∈ l, e ∈ es) → col a = .black →
      col b = .black ∧ rank b ≤ rank a ∧ (l ≠ [] → rank b < rank a) := by
    intro l a b hc
    induction hc with
    | nil a => intro _ ha; exact ⟨ha, Nat.le_refl _, fun h => absurd rfl h⟩
    | @cons a b c l _ ih =>
      intro hm ha
      obtain ⟨h1, h2⟩ := hr a ha b (hm (a, b) (by simp))
      obtain ⟨h3, h4, _⟩ := ih (fun e he => hm e (by simp [he])) h1
      exact ⟨h3, by omega, fun _ => by omega⟩
  intro e
  subst e
  have := (key hc hm ha).2.2 hne
  omega

def maxRank (rank : Nat → Nat) (l : List Nat) : Nat := l.foldr (fun x m => max (rank x) m) 0

theorem le_maxRank (rank : Nat → Nat) (l : List Nat) (x : Nat) (h : x ∈ l) : rank x ≤ maxRank rank l := by
  induction l with
  | nil => simp at h
  | cons y l ih =>
    simp only [maxRank, List.foldr_cons]
    rcases List.mem_cons.1 h with e | h
    · subst e; omega
    · have := ih h; unfold maxRank at this; omega

theorem topo_paint {es : List Edge} {col : Nat → Color} (h : Topo es col) {c : Nat} (hc : col c ≠ .black)
    (hs : ∀ d, (c, d) ∈ es → col d = .black) : Topo es (paint col c .black) := by
  obtain ⟨rank, hr⟩ := h
  refine ⟨fun x => if x = c then maxRank rank (es.map (·.2)) + 1 else rank x, ?_⟩
  intro x hx d hd
  have hblack : ∀ d, col d = .black → paint col c .black d = .black ∧ d ≠ c := by
    intro d hd
    refine ⟨?_, fun e => hc (e ▸ hd)⟩
    unfold paint; split
    · rfl
    · exact hd
  by_cases e : x = c
  · subst e
    obtain ⟨h1, h2⟩ := hblack d (hs d hd)
    refine ⟨h1, ?_⟩
    simp only [if_neg h2, if_true]
    have := le_maxRank rank (es.map (·.2)) d (List.mem_map.2 ⟨_, hd, rfl⟩)
    omega
  · simp only [paint, if_neg e] at hx
    obtain ⟨h1, h2⟩ := hr x hx d hd
    obtain ⟨h3, h4⟩ := hblack d h1
    refine ⟨h3, ?_⟩
    simp only [if_neg h4, if_neg e]; exact h2

/-- blocks of `V` not yet visited -/
def unv (V : List Nat) (col : Nat → Color) : Nat := (V.filter (fun x => decide (col x = .unvisited))).length

theorem unv_mono (V : List Nat) (col col' : Nat → Color) (h : ∀ x, col' x = .unvisited → col x = .unvisited) :
    unv V col' ≤ unv V col := by
  unfold unv
  induction V with
  | nil => simp
  | cons v V ih =>
    simp only [List.filter_cons]
    by_cases h1 : col' v = .unvisited
    · simp only [h1, h v h1]; simp; exact ih
    · by_cases h2 : col v = .unvisited
      · simp [h1, h2]; omega
      · simp [h1, h2]; exact ih

theorem unv_lt (V : List Nat) (col col' : Nat → Color) (h : ∀ x, col' x = .unvisited → col x = .unvisited) (v : Nat) (hv : v ∈ V)
    (h1 : col v = .unvisited) (h2 : col' v ≠ .unvisited) : unv V col' < unv V col := by
  induction V with
  | nil => simp at hv
  | cons w V ih =>
    have hm := unv_mono V col col' h
    by_cases e : w = v
    · subst e
      unfold unv at hm ⊢
      simp only [List.filter_cons, h1, h2]
      simp; omega
    · have hv' : v ∈ V := by
        rcases List.mem_cons.1 hv with e' | h'
        · exact absurd e'.symm e
        · exact h'
      have := ih hv'
      unfold unv at this ⊢
      simp only [List.filter_cons]
      by_cases h3 : col' w = .unvisited
      · simp only [h3, h w h3]; simp; omega
      · by_cases h4 : col w = .unvisited
        · simp [h3, h4]; omega
        · simp [h3, h4]; omega

abbrev DState := (Nat → Color) × List (List Edge)

/-- what holds between steps of the search, with `path` the grey blocks -/
structure DInv (es : List Edge) (path : List Nat) (st : DState) : Prop where
  gray : ∀ x, st.1 x = .gray ↔ x ∈ path
  loops : ∀ l ∈ st.2, IsLoop es l
  topo : st.2 = [] → Topo es st.1

/-- how the state may change -/
structure DMono (st st' : DState) : Prop where
  black : ∀ x, st.1 x = .black → st'.1 x = .black
  unvisited : ∀ x, st'.1 x = .unvisited → st.1 x = .unvisited
  loops : st'.2 = [] → st.2 = []

theorem DMono.refl (st : DState) : DMono st st := ⟨fun _ h => h, fun _ h => h, fun h => h⟩

theorem DMono.trans {a b c : DState} (h1 : DMono a b) (h2 : DMono b c) : DMono a c :=
  ⟨fun x h => h2.black x (h1.black x h), fun x h => h1.unvisited x (h2.unvisited x h), fun h => h1.loops (h2.loops h)⟩

/-- the specification of one call of `dfs` -/
def DfsSpec (es : List Edge) (V : List Nat) (fuel : Nat) : Prop :=
  ∀ (path : List Nat) (pe : List Edge) (st : DState) (cur : Nat), Walk es path pe cur → DInv es path st → st.1 cur = .unvisited →
    cur ∈ V → unv V st.1 ≤ fuel →
    ∃ st', dfs es fuel path pe st cur = some st' ∧ DInv es path st' ∧ DMono st st' ∧ st'.1 cur = .black

theorem dfs_fold {es : List Edge} {V : List Nat} {fuel : Nat} (hV : ∀ e ∈ es, e.2 ∈ V) (ih : DfsSpec es V fuel)
    {path : List Nat} {pe : List Edge} {cur : Nat} (hw : Walk es path pe cur) :
    ∀ (ls : List Edge) (st : DState), (∀ e ∈ ls, e ∈ es ∧ e.1 = cur) → DInv es (path ++ [cur]) st → unv V st.1 ≤ fuel →
      ∃ st', ls.foldlM (dfsEdge (dfs es fuel (path ++ [cur])) (path ++ [cur]) pe) st = some st' ∧ DInv es (path ++ [cur]) st' ∧
        DMono st st' ∧ (st'.2 = [] → ∀ e ∈ ls, st'.1 e.2 = .black) := by
  intro ls
  induction ls with
  | nil => intro st _ hi _; exact ⟨st, rfl, hi, .refl st, fun _ e he => absurd he (by simp)⟩
  | cons e ls ihl =>
    intro st hls hi hf
    obtain ⟨hes, hsrc⟩ := hls e (by simp)
    obtain ⟨s, d⟩ := e
    simp only at hsrc
    subst hsrc
    have step : ∃ st1, dfsEdge (dfs es fuel (path ++ [s])) (path ++ [s]) pe st (s, d) = some st1 ∧ DInv es (path ++ [s]) st1 ∧
        DMono st st1 ∧ (st1.2 = [] → st1.1 d = .black) := by
      unfold dfsEdge
      cases hc : st.1 d with
      | gray =>
        have hd : d ∈ path ++ [s] := (hi.gray d).1 hc
        refine ⟨_, by simp only [List.contains_eq_mem]; rw [if_pos (by simpa using hd)], ?_, ?_, ?_⟩
        · refine ⟨hi.gray, ?_, ?_⟩
          · intro l hl
            rcases List.mem_append.1 hl with h' | h'
            · exact hi.loops l h'
            · simp only [List.mem_singleton] at h'; subst h'; exact hw.loop hes hd
          · intro h'; simp at h'
        · exact ⟨fun _ h => h, fun _ h => h, fun h => by simp at h⟩
        · intro h'; simp at h'
      | unvisited =>
        have hnotin : d ∉ path ++ [s] := fun hm => by
          have := (hi.gray d).2 hm
          rw [hc] at this; cases this
        have hw' : Walk es (path ++ [s]) (pe ++ [(s, d)]) d := by
          refine ⟨?_, ?_, ?_, ?_⟩
          · simp [hw.src]
          · rw [List.map_append, hw.dst]
            cases hp : path ++ [s] with
            | nil => simp at hp
            | cons x xs => simp
          · intro e he
            rcases List.mem_append.1 he with h' | h'
            · exact hw.mem e h'
            · simp only [List.mem_singleton] at h'; subst h'; exact hes
          · refine List.nodup_append.2 ⟨hw.nodup, by simp, ?_⟩
            intro a ha b hb e
            simp only [List.mem_singleton] at hb
            subst hb; subst e; exact hnotin ha
        obtain ⟨st1, h1, h2, h3, h4⟩ := ih (path ++ [s]) (pe ++ [(s, d)]) st d hw' hi hc (hV _ hes) hf
        exact ⟨st1, h1, h2, h3, fun _ => h4⟩
      | black => exact ⟨st, rfl, hi, .refl st, fun _ => hc⟩
    obtain ⟨st1, h1, h2, h3, h4⟩ := step
    obtain ⟨st2, g1, g2, g3, g4⟩ := ihl st1 (fun e he => hls e (by simp [he])) h2
      (Nat.le_trans (unv_mono V _ _ h3.unvisited) hf)
    refine ⟨st2, ?_, g2, h3.trans g3, ?_⟩
    · rw [List.foldlM_cons, h1]; exact g1
    · intro hnil e he
      rcases List.mem_cons.1 he with e1 | he
      · subst e1; exact g3.black _ (h4 (g3.loops hnil))
      · exact g4 hnil e he

theorem dfs_spec {es : List Edge} {V : List Nat} (hV : ∀ e ∈ es, e.2 ∈ V) : ∀ fuel, DfsSpec es V fuel := by
  intro fuel
  induction fuel with
  | zero =>
    intro path pe st cur _ _ hc hm hf
    exfalso
    have : 0 < unv V st.1 := by
      unfold unv
      exact List.length_pos_of_mem (List.mem_filter.2 ⟨hm, by simpa using hc⟩)
    omega
  | succ fuel ih =>
    intro path pe st cur hw hi hc hm hf
    have hnb : ∀ x, x ≠ cur → paint st.1 cur .gray x = st.1 x := fun x h => by simp [paint, h]
    have hi' : DInv es (path ++ [cur]) (paint st.1 cur .gray, st.2) := by
      refine ⟨?_, hi.loops, ?_⟩
      · intro x
        simp only [List.mem_append, List.mem_singleton]
        by_cases e : x = cur
        · simp [paint, e]
        · rw [hnb x e, hi.gray x]; simp [e]
      · intro hnil
        obtain ⟨rank, hr⟩ := hi.topo hnil
        refine ⟨rank, ?_⟩
        intro x hx d hd
        have hxc : x ≠ cur := by intro e; subst e; simp [paint] at hx
        dsimp only at hx ⊢
        rw [hnb x hxc] at hx
        obtain ⟨h1, h2⟩ := hr x hx d hd
        have hdc : d ≠ cur := by intro e; subst e; rw [hc] at h1; cases h1
        rw [hnb d hdc]; exact ⟨h1, h2⟩
    have hlt : unv V (paint st.1 cur .gray) < unv V st.1 := by
      refine unv_lt V _ _ ?_ cur hm hc (by simp [paint])
      intro x hx
      by_cases e : x = cur
      · subst e; exact hc
      · rw [hnb x e] at hx; exact hx
    obtain ⟨st1, h1, h2, h3, h4⟩ := dfs_fold hV ih hw (outEdges es cur) (paint st.1 cur .gray, st.2)
      (by intro e he; simpa [outEdges] using he) hi' (by dsimp only; omega)
    refine ⟨(paint st1.1 cur .black, st1.2), ?_, ?_, ?_, by simp [paint]⟩
    · simp only [dfs, h1]; rfl
    · have hgc : st1.1 cur = .gray := (h2.gray cur).2 (by simp)
      refine ⟨?_, h2.loops, ?_⟩
      · intro x
        dsimp only
        by_cases e : x = cur
        · subst e
          have : x ∉ path := by
            intro hp
            exact (List.nodup_append.1 hw.nodup).2.2 x hp x (by simp) rfl
          simp [paint, this]
        · rw [show paint st1.1 cur .black x = st1.1 x by simp [paint, e], h2.gray x]
          simp [e]
      · intro hnil
        refine topo_paint (h2.topo hnil) (by rw [hgc]; simp) ?_
        intro d hd
        exact h4 hnil (cur, d) (by simp [outEdges, hd])
    · refine ⟨?_, ?_, h3.loops⟩
      · intro x hx
        dsimp only
        by_cases e : x = cur
        · simp [paint, e]
        · rw [show paint st1.1 cur .black x = st1.1 x by simp [paint, e]]
          exact h3.black x (by dsimp only; rw [hnb x e]; exact hx)
      · intro x hx
        dsimp only at hx
        by_cases e : x = cur
        · subst e; exact hc
        · rw [show paint st1.1 cur .black x = st1.1 x by simp [paint, e]] at hx
          have := h3.unvisited x hx
          dsimp only at this
          rw [hnb x e] at this; exact this

theorem detect_fold {es : List Edge} {V : List Nat} (hV : ∀ e ∈ es, e.2 ∈ V) (fuel : Nat) (hfuel : V.length ≤ fuel) :
    ∀ (bs : List Nat) (st : DState), (∀ b ∈ bs, b ∈ V) → DInv es [] st →
      ∃ st', bs.foldlM (fun st b => if st.1 b = .unvisited then dfs es fuel [] [] st b else some st) st = some st' ∧
        DInv es [] st' ∧ DMono st st' ∧ ∀ b ∈ bs, st'.1 b = .black := by
  intro bs
  induction bs with
  | nil => intro st _ hi; exact ⟨st, rfl, hi, .refl st, by simp⟩
  | cons b bs ih =>
    intro st hb hi
    have step : ∃ st1, (if st.1 b = .unvisited then dfs es fuel [] [] st b else some st) = some st1 ∧ DInv es [] st1 ∧ DMono st st1 ∧
        st1.1 b = .black := by
      by_cases hc : st.1 b = .unvisited
      · rw [if_pos hc]
        refine dfs_spec hV fuel [] [] st b ⟨rfl, rfl, by simp, by simp⟩ hi hc (hb b (by simp)) ?_
        exact Nat.le_trans (List.length_filter_le _ _) hfuel
      · rw [if_neg hc]
        refine ⟨st, rfl, hi, .refl st, ?_⟩
        cases h : st.1 b with
        | unvisited => exact absurd h hc
        | gray => have := (hi.gray b).1 h; simp at this
        | black => rfl
    obtain ⟨st1, h1, h2, h3, h4⟩ := step
    obtain ⟨st2, g1, g2, g3, g4⟩ := ih st1 (fun x hx => hb x (by simp [hx])) h2
    refine ⟨st2, ?_, g2, h3.trans g3, ?_⟩
    · rw [List.foldlM_cons, h1]; exact g1
    · intro x hx
      rcases List.mem_cons.1 hx with e | hx
      · subst e; exact g3.black x h4
      · exact g4 x hx

end Verif.Graph
