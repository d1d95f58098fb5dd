import Verif.Grc.Lemmas
import Verif.Grc.Check
/-!
# C73: saving a graph and loading it again

Ordinary blocks with distinct non-empty names come back with their parameters and stored settings loaded into new blocks, in order, connected as before
(`graph_roundtrip_partial`), through the text as well (`text_roundtrip_partial`). Whatever is loaded is a graph: no block or connection is left out, and each
connection leads to the last block of that name (`load_complete`, `load_wellformed`).

Missing, because it is false: sub-graphs (`saved_subgraph_never_loads`, `saved_exports_never_load`), blocks of the same name (`same_name_rewired`),
blocks without a name (`unnamed_not_connectable`), sizes of 2³² and more (`large_size_lost`), weights and names of edges (`weight_lost`).
-/
namespace Verif.Grc

open Verif.Yaml (Val Sca IntTy)

variable {F σ : Type}

/-- A saved graph of ordinary blocks loads: the same blocks in the same order, each reloaded from its own parameters and stored settings, and the same edges
but for weight and name. Missing: see the head of the file. -/
theorem graph_roundtrip_partial (L : Loader F σ) (n : Nat) (blocks blocks' : List (Leaf σ)) (edges : List Edge) (h : Savable L blocks edges)
    (hlen : blocks'.length = blocks.length) (hre : ∀ i (hi : i < blocks.length), Reloaded L blocks[i] (blocks'[i]'(hlen ▸ hi))) :
    loadGraph L (n + 1) (saveGraph L (blocks.map fun b => .leaf b.1 b.2) edges) =
      .ok (blocks'.map (fun b => .leaf b.1 b.2), edges.map fun e => { e with weight := 0, label := "unnamed edge".toList }) := by
  have f1 : items (saveGraph L (blocks.map fun b => .leaf b.1 b.2) edges) "blocks" = saveBlks L (blocks.map fun b => .leaf b.1 b.2) := by
    simp [items, saveGraph, find_cons]
  have f2 : items (saveGraph L (blocks.map fun b => .leaf b.1 b.2) edges) "connections" =
      edges.map (saveEdge (blocks.map fun b => L.name (L.apply b.2))) := by
    simp [items, saveGraph, find_cons, Function.comp_def, blkName]
  have hz1 : (blocks.zip blocks').map (fun p => (Blk.leaf p.1.1 p.1.2 : Blk σ)) = blocks.map fun b => .leaf b.1 b.2 := by
    have := congrArg (List.map (fun b : Leaf σ => (Blk.leaf b.1 b.2 : Blk σ))) (List.map_fst_zip (l₁ := blocks) (l₂ := blocks') (by omega))
    rw [List.map_map] at this
    exact this
  have hz2 : (blocks.zip blocks').map (fun p => (Blk.leaf p.2.1 p.2.2 : Blk σ)) = blocks'.map fun b => .leaf b.1 b.2 := by
    have := congrArg (List.map (fun b : Leaf σ => (Blk.leaf b.1 b.2 : Blk σ))) (List.map_snd_zip (l₁ := blocks) (l₂ := blocks') (by omega))
    rw [List.map_map] at this
    exact this
  have hz3 : (blocks.zip blocks').map (fun p => L.name (L.apply p.1.2)) = blocks.map fun b => L.name (L.apply b.2) := by
    have := congrArg (List.map (fun b : Leaf σ => L.name (L.apply b.2))) (List.map_fst_zip (l₁ := blocks) (l₂ := blocks') (by omega))
    rw [List.map_map] at this
    exact this
  have hb := loadBlks_saveBlks L (loadGraph L n) (blocks.zip blocks') [] [] (by
    intro p hp
    obtain ⟨i, hi, rfl⟩ := List.mem_iff_getElem.1 hp
    have hi' : i < blocks.length := by simp at hi; omega
    simp only [List.getElem_zip]
    exact ⟨h.types _ (List.getElem_mem _), h.nameParam _ (List.getElem_mem _), hre i hi'⟩)
  rw [hz1, hz2, hz3] at hb
  simp only [loadGraph, f1, f2, hb, List.length_nil, List.nil_append, List.append_nil]
  rw [loadEdges_saveEdges L _ _ h.distinct (by
    intro x hx
    obtain ⟨b, hb, rfl⟩ := List.mem_map.1 hx
    exact h.named b hb) edges (by simpa using h.ends) h.ports h.sizes]

/-- The same through text, when keys, strings and numbers are ones that YAML text gives back. Missing: as above, and see C66 for the text. -/
theorem text_roundtrip_partial (fl : Yaml.Floats F) (dbg : Bool) (L : Loader F σ) (n : Nat) (blocks blocks' : List (Leaf σ)) (edges : List Edge)
    (h : Savable L blocks edges) (hlen : blocks'.length = blocks.length)
    (hre : ∀ i (hi : i < blocks.length), Reloaded L blocks[i] (blocks'[i]'(hlen ▸ hi)))
    (hc : Yaml.Clean fl (.map (saveGraph L (blocks.map fun b => .leaf b.1 b.2) edges))) :
    loadGrc fl dbg L (n + 1) (saveGrc fl L (blocks.map fun b => .leaf b.1 b.2) edges) =
      some (.ok (blocks'.map (fun b => .leaf b.1 b.2), edges.map fun e => { e with weight := 0, label := "unnamed edge".toList })) := by
  obtain ⟨c, hd⟩ := Yaml.roundtrip_partial fl dbg _ hc
  unfold loadGrc saveGrc
  rw [hd]
  simp only
  rw [graph_roundtrip_partial L n blocks blocks' edges h hlen hre]

/-- Loading leaves nothing out: as many blocks as maps under `blocks`, as many edges as entries under `connections`, in order; every connection names two blocks,
and its edge leads from the last block with the one name to the last block with the other; without a size given it gets the default one, 65536 samples for
arithmetic types and 64 for others. -/
theorem load_complete (L : Loader F σ) (n : Nat) (m : PMap F) (bs : List (Blk σ)) (es : List Edge) (h : loadGraph L n m = .ok (bs, es)) :
    bs.length = (maps (items m "blocks")).length ∧ es.length = (items m "connections").length ∧
    ∀ i (hi : i < es.length) (hj : i < (items m "connections").length), ∃ b1 p1 b2 p2 more,
      (items m "connections")[i] = .list (.str b1 :: p1 :: .str b2 :: p2 :: more) ∧
      (more = [] → es[i].minSize = if (bs[es[i].src]?.map fun b => L.arith b es[i].srcPort).getD true then 65536 else 64) ∧
      (∀ k name, (k, name) = (es[i].src, b1) ∨ (k, name) = (es[i].dst, b2) → k < bs.length ∧
        ((maps (items m "blocks"))[k]?).bind entryName = some name ∧ ∀ j, k < j → j < bs.length → ((maps (items m "blocks"))[j]?).bind entryName ≠ some name) := by
  cases n with
  | zero => simp [loadGraph] at h
  | succ n =>
    simp only [loadGraph] at h
    split at h
    · exact absurd h (by simp)
    · rename_i bs' created hb
      split at h
      · exact absurd h (by simp)
      · rename_i es' he
        injection h with h
        injection h with h1 h2
        subst h1; subst h2
        obtain ⟨new, k1, k2, k3, k4⟩ := loadBlks_of L _ _ _ _ _ _ hb
        obtain ⟨e1, e2⟩ := loadEdges_of L _ _ _ _ he
        simp at k2 k4
        have hbl : bs'.length = new.length := by rw [k2]; simp
        refine ⟨by rw [hbl, k1], e1, ?_⟩
        intro i hi hj
        obtain ⟨b1, p1, b2, p2, more, hv, hs, hd, hsz⟩ := e2 i hi hj
        refine ⟨b1, p1, b2, p2, more, hv, hsz, ?_⟩
        have name_at : ∀ (k : Nat), k < new.length → ((maps (items m "blocks"))[k]?).bind entryName = (new[k]?).map (·.1) := by
          intro k hk
          have hk' : k < (maps (items m "blocks")).length := by rw [← k1]; exact hk
          have := loadBlk_name L _ _ _ _ (k3 k hk hk')
          rw [List.getElem?_eq_getElem hk', List.getElem?_eq_getElem hk]
          exact this
        have key : ∀ (k : Nat) (name : List Char), (created.find? (fun c => decide (c.1 = name))).map (·.2) = some k → k < bs'.length ∧
            ((maps (items m "blocks"))[k]?).bind entryName = some name ∧
            ∀ j, k < j → j < bs'.length → ((maps (items m "blocks"))[j]?).bind entryName ≠ some name := by
          intro k name hf
          obtain ⟨c, hc, rfl⟩ := Option.map_eq_some_iff.1 hf
          rw [k4, List.find?_eq_some_iff_append] at hc
          obtain ⟨hcn, as, cs, happ, hno⟩ := hc
          simp at hcn
          have hlen : ((new.map (·.1)).zipIdx).length = new.length := by simp
          have hrev : (new.map (·.1)).zipIdx = cs.reverse ++ c :: as.reverse := by
            have := congrArg List.reverse happ
            simpa using this
          have hat : (new.map (·.1)).zipIdx[cs.length]? = some c := by rw [hrev]; simp
          have hcl : cs.length < new.length := by
            have := congrArg List.length hrev
            simp at this
            omega
          rw [List.getElem?_zipIdx] at hat
          simp [hcl] at hat
          have hc2 : c.2 = cs.length := by rw [← hat]
          have hc1 : new[cs.length].1 = name := by rw [← hcn, ← hat]
          refine ⟨by omega, ?_, ?_⟩
          · rw [hc2, name_at _ hcl, List.getElem?_eq_getElem hcl]
            simp [hc1]
          · intro j hj1 hj2
            rw [hbl] at hj2
            rw [name_at _ hj2, List.getElem?_eq_getElem hj2]
            intro habs
            simp at habs
            have hmem : (new[j].1, j) ∈ as := by
              have h1 : (new.map (·.1)).zipIdx[j]? = some (new[j].1, j) := by simp [hj2]
              rw [hrev, List.getElem?_append_right (by simp; omega)] at h1
              have h2 := List.mem_of_getElem? h1
              rcases List.mem_cons.1 h2 with h2 | h2
              · have : j = c.2 := by rw [← h2]
                omega
              · simpa using h2
            have := hno _ hmem
            simp [habs] at this
        intro k name hkn
        rcases hkn with hkn | hkn
        · injection hkn with a1 a2; subst a1; subst a2; exact key _ _ hs
        · injection hkn with a1 a2; subst a1; subst a2; exact key _ _ hd

/-- In whatever is loaded, at every depth, edges and exported ports belong to blocks of their own graph. -/
theorem load_wellformed (L : Loader F σ) (n : Nat) (m : PMap F) (bs : List (Blk σ)) (es : List Edge) (h : loadGraph L n m = .ok (bs, es)) :
    (∀ b ∈ bs, Wf b) ∧ ∀ e ∈ es, e.src < bs.length ∧ e.dst < bs.length := by
  induction n generalizing m bs es with
  | zero => simp [loadGraph] at h
  | succ n ih =>
    refine ⟨?_, ?_⟩
    · have h' := h
      simp only [loadGraph] at h'
      split at h'
      · exact absurd h' (by simp)
      · rename_i bs' created hb
        split at h'
        · exact absurd h' (by simp)
        · injection h' with h'
          injection h' with h1 _
          subst h1
          obtain ⟨new, k1, k2, k3, _⟩ := loadBlks_of L _ _ _ _ _ _ hb
          intro b hbm
          rw [k2] at hbm
          simp only [List.nil_append] at hbm
          obtain ⟨r, hr, rfl⟩ := List.mem_map.1 hbm
          obtain ⟨i, hi, rfl⟩ := List.mem_iff_getElem.1 hr
          exact loadBlk_wf L _ (fun g bs es hg => ih g bs es hg) _ _ (k3 i hi (by rw [← k1]; exact hi))
    · intro e he
      obtain ⟨_, h2, h3⟩ := load_complete L _ m bs es h
      obtain ⟨i, hi, rfl⟩ := List.mem_iff_getElem.1 he
      obtain ⟨b1, _, b2, _, _, _, -, hk⟩ := h3 i hi (by rw [← h2]; exact hi)
      exact ⟨(hk _ _ (Or.inl rfl)).1, (hk _ _ (Or.inr rfl)).1⟩

/-- A graph that contains a sub-graph cannot be loaded from what it is saved as, whatever the sub-graph. -/
theorem saved_subgraph_never_loads (L : Loader F σ) (n : Nat) (blocks : List (Blk σ)) (edges : List Edge) (h : ∃ b ∈ blocks, b.isSub) :
    ∃ e, loadGraph L n (saveGraph L blocks edges) = .error e := by
  cases n with
  | zero => exact ⟨.depth, rfl⟩
  | succ n =>
    have f1 : items (saveGraph L blocks edges) "blocks" = saveBlks L blocks := by simp [items, saveGraph, find_cons]
    obtain ⟨e, he⟩ := loadBlks_sub L (loadGraph L n) blocks [] [] h
    exact ⟨e, by simp only [loadGraph, f1, he]⟩

/-- The exported ports of a sub-graph cannot be loaded from what they are saved as, whatever blocks there are. -/
theorem saved_exports_never_load (L : Loader F σ) (unique : Nat → List Char) (bs : List (Blk σ)) (done ports : List Exported) (h : ports ≠ []) :
    loadExports L bs done (saveExported unique ports : List (Val F)) = .error .exported := by
  have hall : ∀ v ∈ (saveExported unique ports : List (Val F)), ∃ a b c, v = .list [a, b, c] := by
    intro v hv
    unfold saveExported at hv
    rcases List.mem_append.1 hv with hv | hv <;> (obtain ⟨x, _, rfl⟩ := List.mem_map.1 hv; exact ⟨_, _, _, rfl⟩)
  have hne : (saveExported unique ports : List (Val F)) ≠ [] := by
    obtain ⟨p, ps, rfl⟩ := List.exists_cons_of_ne_nil h
    intro hnil
    unfold saveExported exportedMap at hnil
    simp only [List.append_eq_nil_iff, List.map_eq_nil_iff] at hnil
    have : ∀ i, p.input = i → ((((p :: ps).filter (·.input == i)).map (·.block)).eraseDups) ≠ [] := by
      intro i hi
      rw [List.filter_cons_of_pos (by simp [hi]), List.map_cons, List.eraseDups_cons]
      simp
    cases hp : p.input with
    | true => exact this true hp hnil.1
    | false => exact this false hp hnil.2
  obtain ⟨v, vs, hv⟩ := List.exists_cons_of_ne_nil hne
  obtain ⟨a, b, c, rfl⟩ := hall v (by rw [hv]; simp)
  rw [hv]
  simp only [loadExports, loadExported]

/-! ## concrete graphs -/

/-- blocks whose only setting is a name, and a number that `scale` holds -/
def tinyLoader : Loader Int (List Char × Int) where
  make ty := if ty = "good".toList then some ([], 0) else none
  makeSched _ _ := none
  setName s n := (n, s.2)
  name s := s.1
  load s ps := match find ps "scale" with
    | some (.sca (.int _ v)) => some (s.1, v)
    | _ => some s
  loadCtx s _ _ _ := some s
  activate s := some s
  init s := some s
  apply s := s
  params s := [("name".toList, .str s.1), ("scale".toList, .sca (.int ⟨32, true⟩ s.2))]
  stored _ := [([], [(0, [])]), ("ctx".toList, [(5, [("scale".toList, .sca (.int ⟨32, true⟩ 7))])])]
  unique _ := "u".toList
  category _ := "NormalBlock".toList
  metaInfo _ := []
  inputPorts _ := []
  outputPorts _ := []
  arith _ _ := true
  hasPort _ _ _ := true

/-- two blocks and an edge between ports of both kinds -/
def tinyBlocks : List (Leaf (List Char × Int)) := [("good".toList, "a".toList, 3), ("good".toList, "b".toList, 4)]

def tinyEdges : List Edge := [⟨0, .index 1 2, 1, .name "in".toList, 4096, 5, "e".toList⟩]

theorem tiny_savable : Savable tinyLoader tinyBlocks tinyEdges where
  types := by decide
  named := by decide
  nameParam := by
    intro b hb
    simp only [tinyBlocks, List.mem_cons, List.not_mem_nil, or_false] at hb
    rcases hb with rfl | rfl <;> rfl
  distinct := by decide
  ends := by decide
  ports := by
    intro e he
    simp only [tinyEdges, List.mem_cons, List.not_mem_nil, or_false] at he
    subst he
    exact ⟨⟨by decide, Or.inl (by decide)⟩, trivial⟩
  sizes := by decide

theorem tiny_reloaded (i : Nat) (hi : i < tinyBlocks.length) : Reloaded tinyLoader tinyBlocks[i] tinyBlocks[i] := by
  have : i = 0 ∨ i = 1 := by simp [tinyBlocks] at hi; omega
  rcases this with rfl | rfl <;> exact ⟨rfl, _, _, _, _, rfl, rfl, rfl, rfl, rfl⟩

example : loadGraph tinyLoader 1 (saveGraph tinyLoader (tinyBlocks.map fun b => .leaf b.1 b.2) tinyEdges) =
    .ok (tinyBlocks.map (fun b => .leaf b.1 b.2), [⟨0, .index 1 2, 1, .name "in".toList, 4096, 0, "unnamed edge".toList⟩]) :=
  graph_roundtrip_partial tinyLoader 0 tinyBlocks tinyBlocks tinyEdges tiny_savable rfl (fun i hi => tiny_reloaded i hi)

example (dbg : Bool) : loadGrc Yaml.intFloats dbg tinyLoader 1 (saveGrc Yaml.intFloats tinyLoader (tinyBlocks.map fun b => .leaf b.1 b.2) tinyEdges) =
    some (.ok (tinyBlocks.map (fun b => .leaf b.1 b.2), [⟨0, .index 1 2, 1, .name "in".toList, 4096, 0, "unnamed edge".toList⟩])) :=
  text_roundtrip_partial Yaml.intFloats dbg tinyLoader 0 tinyBlocks tinyBlocks tinyEdges tiny_savable rfl (fun i hi => tiny_reloaded i hi)
    (Yaml.cleanB_clean _ _ (by decide +kernel))

example : (maps (items (saveGraph tinyLoader (tinyBlocks.map fun b => .leaf b.1 b.2) tinyEdges) "blocks")).length = 2 := rfl

/-- Two blocks of the same name: an edge from the first to itself comes back as one from the second to itself. -/
theorem same_name_rewired : ∃ (L : Loader Int (List Char × Int)) (blocks : List (Leaf (List Char × Int))) (e : Edge),
    (∀ b ∈ blocks, Reloaded L b b) ∧ e.src = 0 ∧ e.dst = 0 ∧
    (loadGraph L 1 (saveGraph L (blocks.map fun b => .leaf b.1 b.2) [e])).toOption.map (fun r => r.2.map fun e => (e.src, e.dst)) = some [(1, 1)] := by
  refine ⟨tinyLoader, [("good".toList, "a".toList, 3), ("good".toList, "a".toList, 4)], ⟨0, .index 0 invalidIndex, 0, .index 0 invalidIndex, 64, 0, []⟩,
    ?_, rfl, rfl, rfl⟩
  intro b hb
  simp only [List.mem_cons, List.not_mem_nil, or_false] at hb
  rcases hb with rfl | rfl <;> exact ⟨rfl, _, _, _, _, rfl, rfl, rfl, rfl, rfl⟩

/-- A block without a name that has an edge: the saved graph is refused. -/
theorem unnamed_not_connectable : ∃ (L : Loader Int (List Char × Int)) (b : Leaf (List Char × Int)) (e : Edge), Reloaded L b b ∧ e.src = 0 ∧ e.dst = 0 ∧
    loadGraph L 1 (saveGraph L [.leaf b.1 b.2] [e]) = .error .unknownBlock :=
  ⟨tinyLoader, ("good".toList, [], 3), ⟨0, .index 0 invalidIndex, 0, .index 0 invalidIndex, 64, 0, []⟩, ⟨rfl, _, _, _, _, rfl, rfl, rfl, rfl, rfl⟩, rfl, rfl, rfl⟩

/-- A buffer size of 2³² comes back as 0. -/
theorem large_size_lost : ∃ (L : Loader Int (List Char × Int)) (b : Leaf (List Char × Int)) (e : Edge), Reloaded L b b ∧ e.minSize = 2 ^ 32 ∧
    (loadGraph L 1 (saveGraph L [.leaf b.1 b.2] [e])).toOption.map (fun r => r.2.map (·.minSize)) = some [0] :=
  ⟨tinyLoader, ("good".toList, "a".toList, 3), ⟨0, .name "o".toList, 0, .name "i".toList, 2 ^ 32, 0, []⟩, ⟨rfl, _, _, _, _, rfl, rfl, rfl, rfl, rfl⟩, rfl, rfl⟩

/-- Weight and name of an edge are not saved. -/
theorem weight_lost : ∃ (L : Loader Int (List Char × Int)) (b : Leaf (List Char × Int)) (e : Edge), Reloaded L b b ∧ e.weight = 5 ∧ e.label = "x".toList ∧
    (loadGraph L 1 (saveGraph L [.leaf b.1 b.2] [e])).toOption.map (fun r => r.2.map fun e => (e.weight, e.label)) = some [(0, "unnamed edge".toList)] :=
  ⟨tinyLoader, ("good".toList, "a".toList, 3), ⟨0, .name "o".toList, 0, .name "i".toList, 64, 5, "x".toList⟩, ⟨rfl, _, _, _, _, rfl, rfl, rfl, rfl, rfl⟩, rfl, rfl,
    rfl⟩

example : ∃ e, loadGraph tinyLoader 3 (saveGraph tinyLoader [.leaf "good".toList ("a".toList, 3), .sub "s".toList none [] [] []] []) = .error e :=
  saved_subgraph_never_loads _ _ _ _ ⟨_, List.mem_cons_of_mem _ (List.mem_singleton.2 rfl), trivial⟩

/-- the name of a block -/
def currentName (L : Loader F σ) : Blk σ → List Char
  | .leaf _ s => L.name s
  | .sub name _ _ _ _ => name

theorem lastNamed_some (L : Loader F σ) (bs : List (Blk σ)) (name : List Char) (i : Nat) (h : lastNamed L bs name = some i) :
    (bs[i]?).map (currentName L) = some name ∧ ∀ j, i < j → (bs[j]?).map (currentName L) ≠ some name := by
  have hn : lastNamed.nameNow L = currentName L := by funext b; cases b <;> rfl
  unfold lastNamed at h
  rw [hn] at h
  rw [List.getLast?_eq_some_iff] at h
  obtain ⟨ys, hys⟩ := h
  have hmem : i ∈ (List.range bs.length).filter fun i => (bs[i]?.map (currentName L)).getD [] == name := by rw [hys]; simp
  obtain ⟨hi, hi2⟩ := List.mem_filter.1 hmem
  rw [List.mem_range] at hi
  have hsome : ∀ k, k < bs.length → (bs[k]?.map (currentName L)).getD [] = name → (bs[k]?).map (currentName L) = some name := by
    intro k hk hg
    rw [List.getElem?_eq_getElem hk] at hg ⊢
    simpa using hg
  refine ⟨hsome i hi (by simpa using hi2), fun j hij hj => ?_⟩
  have hjl : j < bs.length := by
    cases hb : bs[j]? with
    | none => rw [hb] at hj; cases hj
    | some b => exact (List.getElem?_eq_some_iff.1 hb).1
  have hjm : j ∈ (List.range bs.length).filter fun i => (bs[i]?.map (currentName L)).getD [] == name :=
    List.mem_filter.2 ⟨List.mem_range.2 hjl, by rw [hj]; simp⟩
  have hsort : ((List.range bs.length).filter fun i => (bs[i]?.map (currentName L)).getD [] == name).Pairwise (· < ·) :=
    (List.pairwise_lt_range).sublist List.filter_sublist
  rw [hys] at hjm hsort
  rcases List.mem_append.1 hjm with h | h
  · have := (List.pairwise_append.1 hsort).2.2 j h i (by simp)
    omega
  · have := List.mem_singleton.1 h
    omega

/-- what an entry of `exported_ports` says about an exported port -/
def ExportOf (L : Loader F σ) (bs : List (Blk σ)) (v : Val F) (p : Exported) : Prop :=
  ∃ block dir, v = .list [.str block, .str dir, .str p.inner, .str p.outer] ∧ (p.input = true ↔ dir = "INPUT".toList) ∧
    (bs[p.block]?).map (currentName L) = some block ∧ (∀ j, p.block < j → (bs[j]?).map (currentName L) ≠ some block) ∧
    (bs[p.block]?).map (fun b => L.hasPort b p.input p.inner) = some true

theorem loadExported_of (L : Loader F σ) (bs : List (Blk σ)) (done : List Exported) (v : Val F) (ps : List Exported) (h : loadExported L bs done v = .ok ps) :
    ∃ p, ps = done ++ [p] ∧ ExportOf L bs v p ∧ ∀ q ∈ done, ¬(q.input = p.input ∧ q.block = p.block ∧ q.inner = p.inner) := by
  unfold loadExported at h
  split at h
  · rename_i block dir inner outer
    split at h
    · exact absurd h (by simp)
    · rename_i i hi
      dsimp only at h
      split at h
      · exact absurd h (by simp)
      · rename_i hany
        split at h
        · rename_i hp
          injection h with h
          obtain ⟨h1, h2⟩ := lastNamed_some L bs block i hi
          refine ⟨_, h.symm, ⟨block, dir, rfl, by simp, h1, h2, ?_⟩, ?_⟩
          · cases hb : bs[i]? with
            | none => rw [hb] at hp; simp at hp
            | some b => rw [hb] at hp; simpa using hp
          · intro q hq hc
            apply hany
            rw [List.any_eq_true]
            exact ⟨q, hq, by simp [hc]⟩
        · exact absurd h (by simp)
  · exact absurd h (by simp)

theorem loadExports_of (L : Loader F σ) (bs : List (Blk σ)) : ∀ (vs : List (Val F)) (done ps : List Exported), loadExports L bs done vs = .ok ps →
    ∃ new, ps = done ++ new ∧ new.length = vs.length ∧ (∀ i (hi : i < new.length) (hj : i < vs.length), ExportOf L bs vs[i] new[i]) ∧
      (done.Pairwise (fun p q => ¬(p.input = q.input ∧ p.block = q.block ∧ p.inner = q.inner)) →
        ps.Pairwise (fun p q => ¬(p.input = q.input ∧ p.block = q.block ∧ p.inner = q.inner)))
  | [], done, ps, h => by
    simp only [loadExports] at h
    injection h with h
    exact ⟨[], by simp [h], rfl, fun i hi => by simp at hi, fun hd => h ▸ hd⟩
  | v :: vs, done, ps, h => by
    simp only [loadExports] at h
    split at h
    · exact absurd h (by simp)
    · rename_i done' hd
      obtain ⟨p, rfl, hp, hq⟩ := loadExported_of L bs done v done' hd
      obtain ⟨new, h1, h2, h3, h4⟩ := loadExports_of L bs vs _ ps h
      refine ⟨p :: new, by rw [h1]; simp, by simp [h2], ?_, ?_⟩
      · intro i hi hj
        cases i with
        | zero => exact hp
        | succ i => exact h3 i (by simpa using hi) (by simpa using hj)
      · intro hdone
        refine h4 (List.pairwise_append.2 ⟨hdone, by simp, ?_⟩)
        intro q hqd x hx
        rw [List.mem_singleton.1 hx]
        exact hq q hqd

/-- The exported ports of a sub-graph that loads are those its text lists, one for each entry and in order: with the direction and the two names given, of the
last block of that name, which has such a port; none is exported twice. -/
theorem exports_complete (L : Loader F σ) (bs : List (Blk σ)) (vs : List (Val F)) (ps : List Exported) (h : loadExports L bs [] vs = .ok ps) :
    ps.length = vs.length ∧ (∀ i (hi : i < ps.length) (hj : i < vs.length), ExportOf L bs vs[i] ps[i]) ∧
    ps.Pairwise (fun p q => ¬(p.input = q.input ∧ p.block = q.block ∧ p.inner = q.inner)) := by
  obtain ⟨new, h1, h2, h3, h4⟩ := loadExports_of L bs vs [] ps h
  rw [List.nil_append] at h1
  subst h1
  exact ⟨h2, h3, h4 List.Pairwise.nil⟩

example : loadExports tinyLoader [.leaf "good".toList ("a".toList, 3), .leaf "good".toList ("a".toList, 4)] []
    [.list [.str "a".toList, .str "INPUT".toList, .str "in".toList, .str "x".toList], .list [.str "a".toList, .str "OUTPUT".toList, .str "out".toList, .str "y".toList]] =
    .ok [⟨true, 1, "in".toList, "x".toList⟩, ⟨false, 1, "out".toList, "y".toList⟩] := by rfl

end Verif.Grc
