import Verif.Graph.EditLemmas
/-!
# Properties of graph edits (C43, C52)
-/
namespace Verif.Graph.Edit

/-! ## C43: edges do not dangle and are not duplicated -/

theorem step_noDangling {g g' : G} {a : Act} (hg : NoDangling g) (hp : Proper g a) (h : step g a = .ok g' ∨ step g a = .err g') :
    NoDangling g' := by
  cases a with
  | addBlock b =>
    rcases h with h | h <;> cases h
    intro e he
    exact ⟨List.mem_append_left _ (hg e he).1, List.mem_append_left _ (hg e he).2⟩
  | addEdge e =>
    simp only [step, addEdge] at h
    split at h <;> rcases h with h | h <;> cases h
    · exact hg
    · intro x hx
      rcases List.mem_append.1 hx with hx | hx
      · exact hg x hx
      · cases List.mem_singleton.1 hx; exact hp
  | removeEdge e =>
    rcases h with h | h <;> cases h
    intro x hx
    exact hg x (List.mem_filter.1 hx).1
  | removeBlock b =>
    simp only [step, removeBlockByName] at h
    split at h <;> rcases h with h | h <;> cases h
    · intro x hx
      obtain ⟨h1, h2⟩ := List.mem_filter.1 hx
      simp only [Bool.not_eq_true', Bool.or_eq_false_iff, beq_eq_false_iff_ne] at h2
      exact ⟨(List.mem_erase_of_ne h2.1).2 (hg x h1).1, (List.mem_erase_of_ne h2.2).2 (hg x h1).2⟩
    · exact hg
  | emplaceEdge e ok =>
    simp only [step, emplaceEdge] at h
    repeat' split at h
    all_goals rcases h with h | h <;> cases h
    · exact hg
    · exact hg
    · exact hg
    · rename_i h1 h2 _
      intro x hx
      rcases List.mem_append.1 hx with hx | hx
      · exact hg x hx
      · cases List.mem_singleton.1 hx
        simp at h1 h2
        exact ⟨h1, h2⟩
  | connectRef e ok =>
    simp only [step, connectRef] at h
    repeat' split at h
    all_goals rcases h with h | h <;> cases h
    · exact hg
    · exact hg
    · rename_i h1 _
      intro x hx
      rcases List.mem_append.1 hx with hx | hx
      · exact hg x hx
      · cases List.mem_singleton.1 hx
        simp at h1
        exact h1
  | connectPtr e =>
    rcases h with h | h <;> cases h
    intro x hx
    rcases List.mem_append.1 hx with hx | hx
    · exact hg x hx
    · cases List.mem_singleton.1 hx; exact hp
  | removeEdgeBySourcePort b ok sel =>
    simp only [step, removeEdgeBySourcePort] at h
    repeat' split at h
    all_goals rcases h with h | h <;> cases h
    · exact hg
    · exact hg
    · intro x hx; exact hg x (List.mem_filter.1 hx).1
  | replaceBlock o n c =>
    simp only [step, replaceBlock] at h
    repeat' split at h
    all_goals rcases h with h | h <;> cases h
    · exact hg
    · exact hg
    · intro x hx
      obtain ⟨e, he, rfl⟩ := List.mem_map.1 hx
      have ho : o ∈ g.blocks := by clear hg; simp_all
      have hno : n ≠ o := fun h => (show n ∉ g.blocks from hp) (h ▸ ho)
      have hn : n ∈ (g.blocks ++ [n]).erase o := (List.mem_erase_of_ne hno).2 (by simp)
      have hk : ∀ b ∈ g.blocks, b ≠ o → b ∈ (g.blocks ++ [n]).erase o := fun b hb hbo =>
        (List.mem_erase_of_ne hbo).2 (List.mem_append_left _ hb)
      obtain ⟨h1, h2⟩ := hg e he
      by_cases hs : e.src = o <;> by_cases hd : e.dst = o <;> simp only [redirect, hs, hd, if_true, if_false, addBlock] <;>
        constructor <;> first | exact hn | exact hk _ h1 hs | exact hk _ h2 hd
  | group nm pn ts sub sp ex =>
    simp only [step, groupBlocks] at h
    split at h
    · rcases h with h | h <;> cases h; exact hg
    · split at h
      · rcases h with h | h <;> cases h; exact hg
      · rename_i I C ops hcl
        obtain ⟨-, hC, -, -, hok⟩ := (classify_spec nm pn ts g.edges [] [] [] ⟨List.Pairwise.nil, by simp⟩ (by simp) (by simp)).2 I C ops hcl
        have hkeep : ∀ x ∈ g.edges.filter (fun e => !(ts.contains e.src || ts.contains e.dst)),
            x.src ∈ g.blocks.filter (fun b => !ts.contains b) ∧ x.dst ∈ g.blocks.filter (fun b => !ts.contains b) := by
          intro x hx
          obtain ⟨h1, h2⟩ := List.mem_filter.1 hx
          simp only [Bool.not_eq_true', Bool.or_eq_false_iff] at h2
          exact ⟨List.mem_filter.2 ⟨(hg x h1).1, by simpa using h2.1⟩, List.mem_filter.2 ⟨(hg x h1).2, by simpa using h2.2⟩⟩
        split at h
        · rcases h with h | h <;> cases h; exact hg
        · split at h
          · rcases h with h | h <;> cases h
            exact hkeep
          · rcases h with h | h <;> cases h
            intro x hx
            rcases List.mem_append.1 hx with hx | hx
            · exact ⟨List.mem_append_left _ (hkeep x hx).1, List.mem_append_left _ (hkeep x hx).2⟩
            · obtain ⟨c, hc, rfl⟩ := List.mem_map.1 hx
              have hce : c.edge ∈ g.edges := by
                have : c.edge ∈ C.map (·.edge) := List.mem_map.2 ⟨c, hc, rfl⟩
                rw [hC] at this
                simp only [List.map_nil, List.nil_append] at this
                exact (List.mem_filter.1 this).1
              have hsub : sub ∈ g.blocks.filter (fun b => !ts.contains b) ++ [sub] := by simp
              cases hsi : c.srcInside
              · obtain ⟨h1, -, -⟩ := (hok c hc).2 hsi
                simp only [Crossing.toEdge, hsi, Bool.false_eq_true, if_false, addBlock]
                exact ⟨List.mem_append_left _ (List.mem_filter.2 ⟨(hg _ hce).1, by simpa using h1⟩), hsub⟩
              · obtain ⟨-, h1, -⟩ := (hok c hc).1 hsi
                simp only [Crossing.toEdge, hsi, if_true, addBlock]
                exact ⟨hsub, List.mem_append_left _ (List.mem_filter.2 ⟨(hg _ hce).2, by simpa using h1⟩)⟩
  | ungroup pn sub inner =>
    obtain ⟨hin, hsub⟩ := hp
    simp only [step, ungroupBlocks] at h
    split at h
    · rcases h with h | h <;> cases h; exact hg
    · rename_i hexp
      have hexp' : ∀ x ∈ inner.exports, x.block ∈ inner.blocks := by simpa using hexp
      split at h
      · rcases h with h | h <;> cases h; exact hg
      · rename_i rewired hrw
        rcases h with h | h <;> cases h
        have hb : (inner.blocks.foldl addBlock g).blocks = g.blocks ++ inner.blocks := (foldl_addBlock inner.blocks g).1
        have hO : ∀ b ∈ g.blocks, b ≠ sub → b ∈ (g.blocks ++ inner.blocks).filter (fun b => !(b == sub)) := fun b h1 h2 =>
          List.mem_filter.2 ⟨List.mem_append_left _ h1, by simpa using h2⟩
        have hI : ∀ b ∈ inner.blocks, b ∈ (g.blocks ++ inner.blocks).filter (fun b => !(b == sub)) := fun b h1 =>
          List.mem_filter.2 ⟨List.mem_append_right _ h1, by simpa using fun h : b = sub => hsub (h ▸ h1)⟩
        intro x hx
        simp only [hb]
        rcases List.mem_append.1 hx with hx | hx
        · obtain ⟨e, he, hf⟩ := mapM_some_mem _ _ hrw x hx
          obtain ⟨y, hy1, hy2⟩ := Option.bind_eq_some_iff.1 hf
          have hys : y.src ∈ (g.blocks ++ inner.blocks).filter (fun b => !(b == sub)) ∧ y.dst ∈ g.blocks := by
            unfold rewireSrc at hy1
            split at hy1
            · obtain ⟨n, _, hy1⟩ := Option.bind_eq_some_iff.1 hy1
              obtain ⟨ex, hex, hy1⟩ := Option.bind_eq_some_iff.1 hy1
              cases hy1
              exact ⟨hI _ (hexp' _ (List.mem_of_find?_eq_some hex)), (hg e he).2⟩
            · rename_i hne
              cases hy1
              exact ⟨hO _ (hg _ he).1 hne, (hg _ he).2⟩
          unfold rewireDst at hy2
          split at hy2
          · obtain ⟨n, _, hy2⟩ := Option.bind_eq_some_iff.1 hy2
            obtain ⟨ex, hex, hy2⟩ := Option.bind_eq_some_iff.1 hy2
            cases hy2
            exact ⟨hys.1, hI _ (hexp' _ (List.mem_of_find?_eq_some hex))⟩
          · rename_i hne
            cases hy2
            exact ⟨hys.1, hO _ hys.2 hne⟩
        · obtain ⟨t, ht, htm⟩ := addAll_prefix inner.edges g.edges
          rw [ht, List.drop_left] at hx
          have := hin x (htm x hx)
          exact ⟨hI _ this.1, hI _ this.2⟩
  | clear =>
    rcases h with h | h <;> cases h
    intro x hx; cases hx

/-- C43: whatever sequence of edits is made, successful or refused, no edge refers to a block that is not in the graph — provided that edges
given by block pointers refer to blocks of the graph (see `pointer_edge_dangles`) -/
theorem edits_no_dangling_partial (acts : List Act) : ∀ (g g' : G), NoDangling g → All Proper g acts → run g acts = some g' →
    NoDangling g' := by
  induction acts with
  | nil => intro g g' hg _ h; cases h; exact hg
  | cons a as ih =>
    intro g g' hg hl h
    obtain ⟨hp, hl⟩ := hl
    simp only [run] at h
    cases hs : step g a with
    | ok g1 => rw [hs] at h hl; exact ih g1 g' (step_noDangling hg hp (Or.inl hs)) hl h
    | err g1 => rw [hs] at h hl; exact ih g1 g' (step_noDangling hg hp (Or.inr hs)) hl h
    | ub => rw [hs] at h; cases h

theorem redirect_inj {old new : Nat} {a b : E} (ha : a.src ≠ new ∧ a.dst ≠ new) (hb : b.src ≠ new ∧ b.dst ≠ new)
    (h : (redirect old new a).src = (redirect old new b).src ∧ (redirect old new a).sp = (redirect old new b).sp ∧
      (redirect old new a).dst = (redirect old new b).dst ∧ (redirect old new a).dp = (redirect old new b).dp) :
    a.src = b.src ∧ a.sp = b.sp ∧ a.dst = b.dst ∧ a.dp = b.dp := by
  have h1 : ∀ e : E, (redirect old new e).src = (if e.src = old then new else e.src) ∧ (redirect old new e).sp = e.sp ∧
      (redirect old new e).dst = (if e.dst = old then new else e.dst) ∧ (redirect old new e).dp = e.dp := by
    intro e
    unfold redirect
    by_cases h1 : e.src = old <;> by_cases h2 : e.dst = old <;> simp [h1, h2]
  obtain ⟨r1, r2, r3, r4⟩ := h1 a
  obtain ⟨s1, s2, s3, s4⟩ := h1 b
  rw [r1, r2, r3, r4, s1, s2, s3, s4] at h
  obtain ⟨e1, e2, e3, e4⟩ := h
  refine ⟨?_, e2, ?_, e4⟩
  · split at e1 <;> split at e1
    · rename_i h1 h2; rw [h1, h2]
    · exact absurd e1.symm hb.1
    · exact absurd e1 ha.1
    · exact e1
  · split at e3 <;> split at e3
    · rename_i h1 h2; rw [h1, h2]
    · exact absurd e3.symm hb.2
    · exact absurd e3 ha.2
    · exact e3

theorem append_noDup {es : List E} {e : E}
    (h : es.Pairwise (fun a b => ¬ (a.src = b.src ∧ a.sp = b.sp ∧ a.dst = b.dst ∧ a.dp = b.dp)))
    (he : ∀ x ∈ es, ¬ (x.src = e.src ∧ x.sp = e.sp ∧ x.dst = e.dst ∧ x.dp = e.dp)) :
    (es ++ [e]).Pairwise (fun a b => ¬ (a.src = b.src ∧ a.sp = b.sp ∧ a.dst = b.dst ∧ a.dp = b.dp)) := by
  rw [List.pairwise_append]
  refine ⟨h, List.pairwise_singleton _ _, ?_⟩
  intro x hx y hy
  cases List.mem_singleton.1 hy
  exact he x hx

theorem step_noDup {g g' : G} {a : Act} (hg : NoDangling g) (hd : NoDuplicates g) (hp : Proper g a) (hf : Fresh g a)
    (h : step g a = .ok g' ∨ step g a = .err g') : NoDuplicates g' := by
  cases a with
  | addBlock b => rcases h with h | h <;> cases h; exact hd
  | addEdge e =>
    simp only [step, addEdge] at h
    split at h <;> rcases h with h | h <;> cases h
    · exact hd
    · rename_i hc
      refine append_noDup hd fun x hx hs => hc ?_
      exact (containsEdge_iff _ _).2 ⟨x, hx, (same_iff _ _).2 hs⟩
  | removeEdge e =>
    rcases h with h | h <;> cases h
    exact List.Pairwise.filter _ hd
  | removeBlock b =>
    simp only [step, removeBlockByName] at h
    split at h <;> rcases h with h | h <;> cases h
    · exact List.Pairwise.filter _ hd
    · exact hd
  | emplaceEdge e ok =>
    simp only [step, emplaceEdge] at h
    repeat' split at h
    all_goals rcases h with h | h <;> cases h
    · exact hd
    · exact hd
    · exact hd
    · exact append_noDup hd hf
  | connectRef e ok =>
    simp only [step, connectRef] at h
    repeat' split at h
    all_goals rcases h with h | h <;> cases h
    · exact hd
    · exact hd
    · exact append_noDup hd hf
  | connectPtr e => rcases h with h | h <;> cases h; exact append_noDup hd hf
  | removeEdgeBySourcePort b ok sel =>
    simp only [step, removeEdgeBySourcePort] at h
    repeat' split at h
    all_goals rcases h with h | h <;> cases h
    · exact hd
    · exact hd
    · exact List.Pairwise.filter _ hd
  | replaceBlock o n c =>
    simp only [step, replaceBlock] at h
    repeat' split at h
    all_goals rcases h with h | h <;> cases h
    · exact hd
    · exact hd
    · have hnew : ∀ e ∈ g.edges, e.src ≠ n ∧ e.dst ≠ n := fun e he =>
        ⟨fun hh => (show n ∉ g.blocks from hp) (hh ▸ (hg e he).1), fun hh => (show n ∉ g.blocks from hp) (hh ▸ (hg e he).2)⟩
      show (g.edges.map (redirect o n)).Pairwise _
      rw [List.pairwise_map]
      refine List.Pairwise.imp_of_mem ?_ hd
      intro a b ha hb hab h
      exact hab (redirect_inj (hnew a ha) (hnew b hb) h)
  | group nm pn ts sub sp ex => exact hf.elim
  | ungroup pn sub inner => exact hf.elim
  | clear => rcases h with h | h <;> cases h; exact List.Pairwise.nil

/-- C43: no connection is listed twice after any sequence of edits, provided that the calls that do not check for it (`emplaceEdge`,
`connect`) are not used for a connection that exists, see `connection_listed_twice` -/
theorem edits_no_duplicates_partial (acts : List Act) : ∀ (g g' : G), NoDangling g → NoDuplicates g →
    All (fun g a => Proper g a ∧ Fresh g a) g acts → run g acts = some g' → NoDuplicates g' := by
  induction acts with
  | nil => intro g g' _ hd _ h; cases h; exact hd
  | cons a as ih =>
    intro g g' hg hd hl h
    obtain ⟨hp, hl⟩ := hl
    simp only [run] at h
    cases hs : step g a with
    | ok g1 => rw [hs] at h hl; exact ih g1 g' (step_noDangling hg hp.1 (Or.inl hs)) (step_noDup hg hd hp.1 hp.2 (Or.inl hs)) hl h
    | err g1 => rw [hs] at h hl; exact ih g1 g' (step_noDangling hg hp.1 (Or.inr hs)) (step_noDup hg hd hp.1 hp.2 (Or.inr hs)) hl h
    | ub => rw [hs] at h; cases h

/-- an edge between two blocks, all other ports by name -/
def mk (a : Nat) (p : String) (b : Nat) (q : String) : E := { src := a, sp := .str p, dst := b, dp := .str q }

/-- a sequence that meets the hypotheses: three blocks, a chain, the middle block replaced, the last removed -/
example : let acts := [Act.addBlock 0, .addBlock 1, .addBlock 2, .addEdge (mk 0 "out" 1 "in"), .emplaceEdge (mk 1 "out" 2 "in") true,
      .addEdge (mk 0 "out" 1 "in"), .replaceBlock 1 7 true, .removeBlock 2]
    All (fun g a => Proper g a ∧ Fresh g a) {} acts ∧
      run {} acts = some { blocks := [0, 7], edges := [mk 0 "out" 7 "in"], cap := 100 } := by
  refine ⟨?_, by decide⟩
  simp [All, step, addBlock, addEdge, containsEdge, emplaceEdge, replaceBlock, Proper, Fresh, mk, E.same, redirect, removeBlockByName]

/-- C43 does not hold without the proviso: connecting by block pointer accepts blocks that are not in the graph -/
theorem pointer_edge_dangles : ∃ acts g, run {} acts = some g ∧ ¬ NoDangling g :=
  ⟨[.addBlock 0, .connectPtr (mk 0 "out" 1 "in")], { blocks := [0], edges := [mk 0 "out" 1 "in"] }, by decide, by
    intro h
    have := (h (mk 0 "out" 1 "in") (by simp)).2
    simp [mk] at this⟩

/-- C43 does not hold without the proviso: `addEdge` refuses a connection that exists, `emplaceEdge` and `connect` list it again -/
theorem connection_listed_twice : ∃ acts1 acts2 g, run {} acts1 = some g ∧ run {} acts2 = some g ∧ ¬ NoDuplicates g := by
  refine ⟨[.addBlock 0, .addBlock 1, .emplaceEdge (mk 0 "out" 1 "in") true, .emplaceEdge (mk 0 "out" 1 "in") true],
    [.addBlock 0, .addBlock 1, .connectRef (mk 0 "out" 1 "in") true, .connectRef (mk 0 "out" 1 "in") true],
    { blocks := [0, 1], edges := [mk 0 "out" 1 "in", mk 0 "out" 1 "in"] }, by decide, by decide, ?_⟩
  intro h
  simp [NoDuplicates, mk] at h

/-- even `addEdge` accepts the same connection twice, once with ports by name and once by index -/
theorem same_port_by_name_and_index : ∃ acts e1 e2, run {} acts = some { blocks := [0, 1], edges := [e1, e2] } ∧
    e1.src = e2.src ∧ e1.dst = e2.dst ∧ e1.dp = e2.dp ∧ e1.sp = .str "out" ∧ e2.sp = .idx 0 (2 ^ 64 - 1) := by
  refine ⟨[.addBlock 0, .addBlock 1, .addEdge (mk 0 "out" 1 "in"), .addEdge { mk 0 "out" 1 "in" with sp := .idx 0 (2 ^ 64 - 1) }],
    mk 0 "out" 1 "in", { mk 0 "out" 1 "in" with sp := .idx 0 (2 ^ 64 - 1) }, by decide, rfl, rfl, rfl, rfl, rfl⟩

/-- replacing a block when the block list has used up its reserved space is undefined behaviour (the iterator to the old block is used after
the list was reallocated) -/
theorem replace_block_ub (g : G) (old new : Nat) (ho : old ∈ g.blocks) (hf : g.blocks.length = g.cap) :
    replaceBlock g old new true = .ub := by
  have : g.blocks.contains old = true := by simpa using ho
  simp [replaceBlock, hf, ho]

/-- a graph of 100 blocks -/
def hundred : List Act := (List.range 100).map Act.addBlock

/-- and it is reached by adding 100 blocks to a new graph -/
theorem replace_block_ub_reachable : run {} (hundred ++ [.replaceBlock 3 200 true]) = none ∧
    ∃ g, run {} hundred = some g ∧ 3 ∈ g.blocks ∧ g.blocks.length = g.cap := by
  refine ⟨by decide +kernel, { blocks := List.range 100 }, by decide +kernel, by decide +kernel, by decide +kernel⟩

/-- grouping is not all-or-nothing: if a port cannot be exported, the call reports an error after the blocks and their edges have been
taken out of the graph -/
theorem failed_grouping_loses_blocks : ∃ g g' nm pn, (groupBlocks g nm pn [1] 9 true false).1 = .err g' ∧
    g.blocks = [0, 1, 2] ∧ g.edges.length = 2 ∧ g'.blocks = [0, 2] ∧ g'.edges = [] :=
  ⟨{ blocks := [0, 1, 2], edges := [mk 0 "out" 1 "in", mk 1 "out" 2 "in"] }, { blocks := [0, 2], edges := [] }, fun _ => "b",
    fun _ _ _ => none, by decide, rfl, rfl, rfl, rfl⟩

/-! ## C52: grouping and ungrouping restore the topology -/

theorem rewire_keep {pn : Nat → Dir → Nat → Option String} {sub : Nat} {inner : Inner} {e : E} (h1 : e.src ≠ sub) (h2 : e.dst ≠ sub) :
    (rewireSrc pn sub inner e).bind (rewireDst pn sub inner) = some e := by
  simp [rewireSrc, rewireDst, h1, h2]

theorem rewire_crossing {pn pn' : Nat → Dir → Nat → Option String} {ts : List Nat} {ops : List Export} {c : Crossing} {sub : Nat}
    (hu : Unique ops) (hc : CrossOk pn ts ops c) (hsub : sub ∉ ts) (hsrc : c.edge.src ≠ sub) (hdst : c.edge.dst ≠ sub) (es : List E) :
    (rewireSrc pn' sub ⟨ts, es, ops⟩ (c.toEdge sub)).bind (rewireDst pn' sub ⟨ts, es, ops⟩) = some (named pn ts c.edge) := by
  cases hsi : c.srcInside
  · obtain ⟨h1, h2, n, h3, h4⟩ := hc.2 hsi
    have hl := lookup_of_mem hu h4 ts es
    simp only at hl
    have hn : ∀ d s, definedPortName pn' sub d (.str s) = some s := fun _ _ => rfl
    simp [Crossing.toEdge, hsi, rewireSrc, rewireDst, hsrc, hn, hl, named, h1, h2, h3]
  · obtain ⟨h1, h2, n, h3, h4⟩ := hc.1 hsi
    have hl := lookup_of_mem hu h4 ts es
    simp only at hl
    have hn : ∀ d s, definedPortName pn' sub d (.str s) = some s := fun _ _ => rfl
    simp [Crossing.toEdge, hsi, rewireSrc, rewireDst, hdst, hn, hl, named, h1, h2, h3]

/-- C52: grouping blocks into a sub-graph and dissolving it again gives back the same blocks and the same edges, except that the ports of
crossing edges inside the group are then given by name -/
theorem group_ungroup_roundtrip (g : G) (nm : Nat → String) (pn pn' : Nat → Dir → Nat → Option String) (ts : List Nat) (sub : Nat)
    (hnd : NoDangling g) (hdup : NoDuplicates g) (hb : g.blocks.Nodup) (hts : ∀ t ∈ ts, t ∈ g.blocks) (htn : ts.Nodup) (hne : ts ≠ [])
    (hsub : sub ∉ g.blocks) (hports : PortsExist pn ts g.edges) :
    ∃ g1 inner g2, groupBlocks g nm pn ts sub true true = (.ok g1, inner) ∧ ungroupBlocks g1 pn' sub inner = .ok g2 ∧
      g2.blocks.Perm g.blocks ∧ g2.edges.Perm (g.edges.map (named pn ts)) ∧
      g1.blocks.Perm (sub :: g.blocks.filter (fun b => !ts.contains b)) ∧ inner.blocks = ts := by
  obtain ⟨hex, hspec⟩ := classify_spec nm pn ts g.edges [] [] [] ⟨List.Pairwise.nil, by simp⟩ (by simp) (by simp)
  obtain ⟨⟨I, C, ops⟩, hcl⟩ := Option.isSome_iff_exists.1 (hex hports)
  obtain ⟨hI, hC, hu, hob, hok⟩ := hspec I C ops hcl
  simp only [List.nil_append, List.map_nil] at hI hC
  have hsubt : sub ∉ ts := fun h => hsub (hts _ h)
  have hdup' : ∀ l : List E, l.Sublist g.edges → l.Pairwise (fun a b => ¬ (a.same b = true)) := by
    intro l hl
    refine (List.Pairwise.sublist hl hdup).imp ?_
    intro a b hab h
    exact hab ((same_iff _ _).1 h)
  have hIadd : addAll [] I = I := by
    rw [addAll_fresh I [] (by rw [List.nil_append, hI]; exact hdup' _ List.filter_sublist), List.nil_append]
  have hte : ts.isEmpty = false := by cases ts with | nil => exact absurd rfl hne | cons => rfl
  let kept := g.edges.filter (fun e => !(ts.contains e.src || ts.contains e.dst))
  let kb := g.blocks.filter (fun b => !ts.contains b)
  have hgrp : groupBlocks g nm pn ts sub true true =
      (Res.ok ⟨kb ++ [sub], kept ++ C.map (·.toEdge sub), if kb.length = g.cap then max 1 (2 * g.cap) else g.cap⟩, ⟨ts, I, ops⟩) := by
    simp only [groupBlocks, hte, hcl, hIadd, addBlock, Bool.not_true, Bool.false_eq_true, if_false]
    rfl
  have hCe : ∀ c ∈ C, c.edge ∈ g.edges := by
    intro c hc
    have : c.edge ∈ C.map (·.edge) := List.mem_map.2 ⟨c, hc, rfl⟩
    rw [hC] at this
    exact (List.mem_filter.1 this).1
  have hns : ∀ e ∈ g.edges, e.src ≠ sub ∧ e.dst ≠ sub := fun e he =>
    ⟨fun h => hsub (h ▸ (hnd e he).1), fun h => hsub (h ▸ (hnd e he).2)⟩
  have hrw : (kept ++ C.map (·.toEdge sub)).mapM (fun e => (rewireSrc pn' sub ⟨ts, I, ops⟩ e).bind (rewireDst pn' sub ⟨ts, I, ops⟩)) =
      some (kept ++ (C.map (·.edge)).map (named pn ts)) := by
    have hk : kept.mapM (fun e => (rewireSrc pn' sub ⟨ts, I, ops⟩ e).bind (rewireDst pn' sub ⟨ts, I, ops⟩)) = some (kept.map id) :=
      mapM_some_of kept id fun e he => by
        have h := hns e (List.mem_filter.1 he).1
        exact rewire_keep h.1 h.2
    rw [List.mapM_append, hk]
    have : (C.map (·.toEdge sub)).mapM (fun e => (rewireSrc pn' sub ⟨ts, I, ops⟩ e).bind (rewireDst pn' sub ⟨ts, I, ops⟩)) =
        some ((C.map (·.edge)).map (named pn ts)) := by
      have key : ∀ C' : List Crossing, (∀ c ∈ C', c ∈ C) →
          (C'.map (·.toEdge sub)).mapM (fun e => (rewireSrc pn' sub ⟨ts, I, ops⟩ e).bind (rewireDst pn' sub ⟨ts, I, ops⟩)) =
            some ((C'.map (·.edge)).map (named pn ts)) := by
        intro C'
        induction C' with
        | nil => intro _; rfl
        | cons c C' ih =>
          intro h
          have hc := h c (List.mem_cons_self ..)
          rw [List.map_cons, List.mapM_cons,
            rewire_crossing hu (hok c hc) hsubt (hns _ (hCe c hc)).1 (hns _ (hCe c hc)).2 I,
            ih fun x hx => h x (List.mem_cons_of_mem _ hx)]
          rfl
      exact key C fun _ h => h
    rw [this]
    simp
  have hadd : addAll (kept ++ C.map (·.toEdge sub)) I = (kept ++ C.map (·.toEdge sub)) ++ I := by
    have gen : ∀ (J : List E) (X : List E), J.Pairwise (fun a b => ¬ (a.same b = true)) → (∀ x ∈ X, ∀ j ∈ J, ¬ (x.same j = true)) →
        addAll X J = X ++ J := by
      intro J
      induction J with
      | nil => intro X _ _; simp [addAll]
      | cons j J ih =>
        intro X hJ hX
        have hc : containsEdge X j = false := by
          cases hh : containsEdge X j
          · rfl
          · obtain ⟨x, hx, hs⟩ := (containsEdge_iff _ _).1 hh
            exact absurd hs (hX x hx j (List.mem_cons_self ..))
        have he : addAll X (j :: J) = addAll (X ++ [j]) J := by simp [addAll, hc]
        rw [he, ih (X ++ [j]) (List.pairwise_cons.1 hJ).2]
        · simp
        · intro x hx k hk
          rcases List.mem_append.1 hx with hx | hx
          · exact hX x hx k (List.mem_cons_of_mem _ hk)
          · cases List.mem_singleton.1 hx
            exact (List.pairwise_cons.1 hJ).1 k hk
    refine gen I _ (by rw [hI]; exact hdup' _ List.filter_sublist) ?_
    intro x hx j hj hs
    rw [hI] at hj
    have hj2 := (List.mem_filter.1 hj).2
    simp only [Bool.and_eq_true, List.contains_iff_mem] at hj2
    obtain ⟨s1, -, s3, -⟩ := (same_iff _ _).1 hs
    rcases List.mem_append.1 hx with hx | hx
    · have := (List.mem_filter.1 hx).2
      rw [s1] at this
      simp [hj2.1] at this
    · obtain ⟨c, hc, rfl⟩ := List.mem_map.1 hx
      cases hsi : c.srcInside
      · simp only [Crossing.toEdge, hsi, Bool.false_eq_true, if_false] at s3
        exact hsubt (s3 ▸ hj2.2)
      · simp only [Crossing.toEdge, hsi, if_true] at s1
        exact hsubt (s1 ▸ hj2.1)
  let g1 : G := ⟨kb ++ [sub], kept ++ C.map (·.toEdge sub), if kb.length = g.cap then max 1 (2 * g.cap) else g.cap⟩
  refine ⟨g1, ⟨ts, I, ops⟩, ⟨((kb ++ [sub]) ++ ts).filter (fun b => !(b == sub)),
    (kept ++ (C.map (·.edge)).map (named pn ts)) ++ I, (ts.foldl addBlock g1).cap⟩, hgrp, ?_, ?_, ?_, ?_, rfl⟩
  · have hall : ops.all (fun x => ts.contains x.block) = true := by
      rw [List.all_eq_true]; intro x hx; simpa using hob x hx
    have hg1e : g1.edges = kept ++ C.map (·.toEdge sub) := rfl
    simp only [ungroupBlocks, hall, Bool.not_true, Bool.false_eq_true, if_false, hg1e, hrw, hadd, List.drop_left]
    rw [(foldl_addBlock ts g1).1]
  · show (((kb ++ [sub]) ++ ts).filter (fun b => !(b == sub))).Perm g.blocks
    have hk : kb.filter (fun b => !(b == sub)) = kb := by
      rw [List.filter_eq_self]
      intro b hbm
      have : b ≠ sub := fun h => hsub (h ▸ (List.mem_filter.1 hbm).1)
      simpa using this
    have ht : ts.filter (fun b => !(b == sub)) = ts := by
      rw [List.filter_eq_self]
      intro b hbm
      have : b ≠ sub := fun h => hsubt (h ▸ hbm)
      simpa using this
    rw [List.filter_append, List.filter_append, hk, ht]
    have hs : [sub].filter (fun b => !(b == sub)) = [] := by simp
    rw [hs, List.append_nil]
    have hin : ts.Perm (g.blocks.filter (fun b => ts.contains b)) := by
      rw [List.perm_iff_count]
      intro a
      by_cases ha : a ∈ ts
      · rw [nodup_count_one htn ha, nodup_count_one (hb.sublist List.filter_sublist)
          (List.mem_filter.2 ⟨hts a ha, by simpa using ha⟩)]
      · rw [List.count_eq_zero.2 ha, List.count_eq_zero.2]
        intro h
        have := (List.mem_filter.1 h).2
        exact ha (by simpa using this)
    refine (List.perm_append_comm).trans ((hin.append_right kb).trans ?_)
    exact filter_perm_append (fun b => ts.contains b) g.blocks
  · show ((kept ++ (C.map (·.edge)).map (named pn ts)) ++ I).Perm (g.edges.map (named pn ts))
    have hkm : kept.map (named pn ts) = kept := by
      conv => rhs; rw [← List.map_id kept]
      refine List.map_congr_left fun e he => ?_
      have := (List.mem_filter.1 he).2
      simp at this
      simp [named, this.1, this.2]
    have hIm : I.map (named pn ts) = I := by
      conv => rhs; rw [← List.map_id I]
      refine List.map_congr_left fun e he => ?_
      rw [hI] at he
      have := (List.mem_filter.1 he).2
      simp at this
      simp [named, this.1, this.2]
    rw [← hkm, ← hIm, ← List.map_append, ← List.map_append, hC]
    refine List.Perm.map _ ?_
    rw [hI]
    have p1 := filter_perm_append (fun e : E => !(ts.contains e.src || ts.contains e.dst)) g.edges
    have p2 := filter_perm_append (crosses ts) (g.edges.filter (fun e : E => !(!(ts.contains e.src || ts.contains e.dst))))
    refine List.Perm.trans ?_ p1
    rw [List.append_assoc]
    refine List.Perm.append_left kept (List.Perm.trans (List.Perm.of_eq ?_) p2)
    rw [List.filter_filter, List.filter_filter]
    congr 1
    · refine List.filter_congr fun e _ => ?_
      simp only [crosses]
      cases h1 : ts.contains e.src <;> cases h2 : ts.contains e.dst <;> rfl
    · refine List.filter_congr fun e _ => ?_
      simp only [crosses]
      cases h1 : ts.contains e.src <;> cases h2 : ts.contains e.dst <;> rfl
  · show (kb ++ [sub]).Perm (sub :: kb)
    exact List.perm_append_comm

/-- a chain 0 → 1 → 2 → 3 with the middle grouped: the hypotheses hold, and the names of the exported ports of two blocks called "b" differ -/
example : let g : G := { blocks := [0, 1, 2, 3], edges := [mk 0 "out" 1 "in", mk 1 "out" 2 "in", mk 2 "out" 3 "in", mk 1 "out" 3 "in2"] }
    NoDangling g ∧ NoDuplicates g ∧ g.blocks.Nodup ∧ PortsExist (fun _ _ _ => none) [1, 2] g.edges ∧
      (groupBlocks g (fun _ => "b") (fun _ _ _ => none) [1, 2] 9 true true).2.exports =
        [⟨1, .input, "in", "b.in"⟩, ⟨2, .output, "out", "b.out"⟩, ⟨1, .output, "out", "b.out_1"⟩] := by
  refine ⟨?_, ?_, by decide, ?_, by decide⟩
  · intro e he; revert e; decide
  · simp [NoDuplicates, mk]
  · intro e he; revert e; decide

/-- grouping and ungrouping again drops the memory resources and the compute domain of a crossing edge -/
theorem grouping_drops_edge_domain : ∃ g g1 g2 inner nm pn, groupBlocks g nm pn [1] 9 true true = (.ok g1, inner) ∧
    ungroupBlocks g1 pn 9 inner = .ok g2 ∧ g.edges = [{ mk 0 "out" 1 "in" with res := 5 }] ∧ g2.edges = [mk 0 "out" 1 "in"] :=
  ⟨{ blocks := [0, 1], edges := [{ mk 0 "out" 1 "in" with res := 5 }] },
   { blocks := [0, 9], edges := [mk 0 "out" 9 "b.in"] }, { blocks := [0, 1], edges := [mk 0 "out" 1 "in"] },
   ⟨[1], [], [⟨1, .input, "in", "b.in"⟩]⟩, fun _ => "b", fun _ _ _ => none, by decide, by decide, rfl, rfl⟩

end Verif.Graph.Edit
