import Verif.Grc.Spec
/-!
# Lemmas about saving and loading
-/
namespace Verif.Grc

open Verif.Yaml (Val Sca IntTy)

variable {F σ : Type}

theorem find_cons (x : List Char) (v : Val F) (m : PMap F) (k : String) :
    find ((x, v) :: m) k = if x = k.toList then some v else find m k := by
  unfold find
  rw [List.find?_cons]
  by_cases h : x = k.toList <;> simp [h]

theorem find_append_none (m m' : PMap F) (k : String) (h : find m k = none) : find (m ++ m') k = find m' k := by
  induction m with
  | nil => rfl
  | cons e m ih =>
    obtain ⟨x, v⟩ := e
    rw [List.cons_append, find_cons]
    rw [find_cons] at h
    split
    · rename_i he
      simp [he] at h
    · rename_i he
      exact ih (by simpa [he] using h)

/-! ## ports and edges -/

theorem int64_small (x : Nat) (h : x < 2 ^ 63) : savePort.int64 x = (x : Int) := by
  unfold savePort.int64
  rw [if_pos h]

theorem loadPort_savePort (p : PortDef) (h : PortOk p) : loadPort (savePort p : Val F) = .ok p := by
  cases p with
  | name s => rfl
  | index top sub =>
    obtain ⟨h1, h2⟩ := h
    by_cases hs : sub = invalidIndex
    · simp only [savePort]
      rw [if_neg (by simp [hs]), int64_small top h1]
      simp only [loadPort]
      rw [if_pos (Int.natCast_nonneg top), Int.toNat_natCast, hs]
    · have h2 : sub < 2 ^ 63 := h2.resolve_right hs
      simp only [savePort]
      rw [if_pos hs, int64_small top h1, int64_small sub h2]
      have a1 : ((top : Int) < 2 ^ 63) := by omega
      have a2 : ((sub : Int) < 2 ^ 63) := by omega
      simp only [loadPort, List.map_cons, List.map_nil, toInt64]
      rw [if_pos a1, if_pos a2]
      simp only [loadPort.pair]
      rw [if_pos ⟨Int.natCast_nonneg top, Int.natCast_nonneg sub⟩, Int.toNat_natCast, Int.toNat_natCast]

theorem nodup_inj {α : Type} (l : List α) (hd : l.Nodup) (i j : Nat) (hi : i < l.length) (hj : j < l.length) (h : l[i] = l[j]) : i = j := by
  rcases Nat.lt_trichotomy i j with hlt | he | hgt
  · exact absurd h (List.pairwise_iff_getElem.1 hd i j hi hj hlt)
  · exact he
  · exact absurd h.symm (List.pairwise_iff_getElem.1 hd j i hj hi hgt)

/-- the entry of the last block with a name -/
theorem created_find (names : List (List Char)) (i : Nat) (hi : i < names.length) (hd : names.Nodup) :
    (names.zipIdx.reverse).find? (fun c => decide (c.1 = names[i])) = some (names[i], i) := by
  have key : ∀ c ∈ names.zipIdx.reverse, c.1 = names[i] → c = (names[i], i) := by
    intro c hc he
    rw [List.mem_reverse] at hc
    obtain ⟨n, j⟩ := c
    have hj := List.mem_zipIdx hc
    simp at hj he
    obtain ⟨hj, hn⟩ := hj
    have : j = i := nodup_inj names hd j i hj hi (hn.symm.trans he)
    subst this
    rw [hn]
  have mem : (names[i], i) ∈ names.zipIdx.reverse := by
    rw [List.mem_reverse, List.mem_zipIdx_iff_getElem?]
    simp [hi]
  cases hf : names.zipIdx.reverse.find? (fun c => decide (c.1 = names[i])) with
  | none =>
    rw [List.find?_eq_none] at hf
    exact (hf _ mem (by simp)).elim
  | some c =>
    have h1 := List.mem_of_find?_eq_some hf
    have h2 := List.find?_some hf
    rw [key c h1 (by simpa using h2)]

/-- one edge of a savable graph -/
theorem loadEdge_saveEdge (L : Loader F σ) (blocks : List (Blk σ)) (names : List (List Char)) (hd : names.Nodup) (hn : ∀ n ∈ names, n ≠ []) (e : Edge)
    (hsrc : e.src < names.length) (hdst : e.dst < names.length) (hp : PortOk e.srcPort) (hq : PortOk e.dstPort) (hs : e.minSize < 2 ^ 32) :
    loadEdge L blocks names.zipIdx.reverse (saveEdge names e : Val F) = .ok { e with weight := 0, label := "unnamed edge".toList } := by
  have hend : ∀ (i : Nat) (p : PortDef), i < names.length → PortOk p →
      loadEnd names.zipIdx.reverse (.str (names.getD i []) : Val F) (savePort p) = .ok (i, p) := by
    intro i p hi hp
    have hg : names.getD i [] = names[i] := by simp [hi]
    unfold loadEnd
    rw [hg]
    simp only
    rw [if_neg (by simpa using hn _ (List.getElem_mem hi)), created_find names i hi hd]
    simp only
    rw [loadPort_savePort p hp]
  unfold saveEdge
  rw [if_pos (by unfold undefinedSize; omega)]
  simp only [List.cons_append, List.nil_append]
  have e1 : givenSize [(.sca (.int ⟨32, false⟩ ((e.minSize % 2 ^ 32 : Nat) : Int)) : Val F)] = e.minSize := by
    simp only [givenSize, sizeOf]
    omega
  have e2 : connectSize L blocks e.src e.srcPort e.minSize = e.minSize := if_neg (by unfold undefinedSize; omega)
  simp only [loadEdge, hend e.src _ hsrc hp, hend e.dst _ hdst hq, e1, e2]

theorem loadEdges_saveEdges (L : Loader F σ) (blocks : List (Blk σ)) (names : List (List Char)) (hd : names.Nodup) (hn : ∀ n ∈ names, n ≠ [])
    (edges : List Edge) (hends : ∀ e ∈ edges, e.src < names.length ∧ e.dst < names.length) (hp : ∀ e ∈ edges, PortOk e.srcPort ∧ PortOk e.dstPort)
    (hs : ∀ e ∈ edges, e.minSize < 2 ^ 32) :
    loadEdges L blocks names.zipIdx.reverse (edges.map (saveEdge names) : List (Val F)) =
      .ok (edges.map fun e => { e with weight := 0, label := "unnamed edge".toList }) := by
  induction edges with
  | nil => rfl
  | cons e es ih =>
    rw [List.map_cons, loadEdges, loadEdge_saveEdge L blocks names hd hn e (hends e (by simp)).1 (hends e (by simp)).2 (hp e (by simp)).1 (hp e (by simp)).2
      (hs e (by simp))]
    simp only
    rw [ih (fun e h => hends e (by simp [h])) (fun e h => hp e (by simp [h])) (fun e h => hs e (by simp [h]))]
    rfl

/-! ## blocks -/

/-- what one entry of `ctx_parameters` does -/
theorem loadCtx_save (L : Loader F σ) (s : σ) (c : List Char) (hc : c ≠ []) (t : Nat) (ps : PMap F) :
    loadCtx L s (.map [("gr:context".toList, .str c), ("gr:ctx_time".toList, .sca (.int ⟨64, false⟩ (t : Int))), ("parameters".toList, .map ps)]) =
      orErr .threw (L.loadCtx s ps c t) := by
  have h1 : ("gr:" ++ "context") = "gr:context" := by decide
  have h2 : ("gr:" ++ "ctx_time") = "gr:ctx_time" := by decide
  simp [loadCtx, findTag, h1, h2, find_cons, hc]

theorem loadCtxs_append (L : Loader F σ) (s : σ) (vs ws : List (Val F)) :
    loadCtxs L s (vs ++ ws) = match loadCtxs L s vs with
      | .error e => .error e
      | .ok s => loadCtxs L s ws := by
  induction vs generalizing s with
  | nil => rfl
  | cons v vs ih =>
    simp only [List.cons_append, loadCtxs]
    cases loadCtx L s v with
    | error e => rfl
    | ok s => exact ih s

theorem foldlM_append' {α β : Type} (f : β → α → Option β) (s : β) (xs ys : List α) :
    (xs ++ ys).foldlM f s = (xs.foldlM f s).bind (fun s => ys.foldlM f s) := by
  rw [List.foldlM_append]
  rfl

theorem loadCtxs_save (L : Loader F σ) (st : List (List Char × List (Nat × PMap F))) (s s' : σ)
    (h : ((st.filter (fun c => c.1 ≠ [])).flatMap fun c => c.2.map fun e => (c.1, e.1, e.2)).foldlM (fun s (e : List Char × Nat × PMap F) =>
      L.loadCtx s e.2.2 e.1 e.2.1) s = some s') :
    loadCtxs L s (st.flatMap saveCtx) = .ok s' := by
  induction st generalizing s with
  | nil => simp at h; subst h; rfl
  | cons c st ih =>
    rw [List.flatMap_cons, loadCtxs_append]
    by_cases hc : c.1 = []
    · have hf : (c :: st).filter (fun c => decide (c.1 ≠ [])) = st.filter (fun c => decide (c.1 ≠ [])) := by simp [hc]
      rw [hf] at h
      have hsv : saveCtx c = [] := by simp [saveCtx, hc]
      rw [hsv]
      simp only [loadCtxs]
      exact ih s h
    · have hf : (c :: st).filter (fun c => decide (c.1 ≠ [])) = c :: st.filter (fun c => decide (c.1 ≠ [])) := by simp [hc]
      rw [hf, List.flatMap_cons, foldlM_append'] at h
      have hsv : saveCtx c = c.2.map fun e => .map [("gr:context".toList, .str c.1), ("gr:ctx_time".toList, .sca (.int ⟨64, false⟩ e.1)),
          ("parameters".toList, .map e.2)] := by simp [saveCtx, hc]
      have hin : ∀ (es : List (Nat × PMap F)) (s t : σ), (es.map fun e => (c.1, e.1, e.2)).foldlM
          (fun s (e : List Char × Nat × PMap F) => L.loadCtx s e.2.2 e.1 e.2.1) s = some t →
          loadCtxs L s (es.map fun e => .map [("gr:context".toList, .str c.1), ("gr:ctx_time".toList, .sca (.int ⟨64, false⟩ e.1)),
            ("parameters".toList, .map e.2)]) = .ok t := by
        intro es
        induction es with
        | nil => intro s t h; simp at h; subst h; rfl
        | cons e es ihe =>
          intro s t h
          rw [List.map_cons, loadCtxs, loadCtx_save L s c.1 hc]
          rw [List.map_cons, List.foldlM_cons] at h
          cases hl : L.loadCtx s e.2 c.1 e.1 with
          | none => simp [hl] at h
          | some s₁ =>
            simp only [orErr]
            exact ihe s₁ t (by simpa [hl] using h)
      cases hm : (c.2.map fun e => (c.1, e.1, e.2)).foldlM (fun s (e : List Char × Nat × PMap F) => L.loadCtx s e.2.2 e.1 e.2.1) s with
      | none => rw [hm] at h; simp at h
      | some s₁ =>
        rw [hm] at h
        rw [hsv, hin _ _ _ hm]
        exact ih s₁ h

/-- the parts of a saved block that loading reads -/
theorem find_saveBlk_leaf (L : Loader F σ) (ty : List Char) (s : σ) :
    find (saveBlk L (.leaf ty s)) "id" = some (.str ty) ∧
    find (saveBlk L (.leaf ty s)) "parameters" = some (.map (L.params (L.apply s))) ∧
    find (saveBlk L (.leaf ty s)) "ctx_parameters" = some (.list ((L.stored (L.apply s)).flatMap saveCtx)) := by
  unfold saveBlk saveSettings
  by_cases hm : (L.metaInfo s).isEmpty
  · simp [hm, find_cons]
  · simp [hm, find_cons]

theorem loadBlk_saveBlk (L : Loader F σ) (rec : PMap F → Except Err (List (Blk σ) × List Edge)) (b b' : Leaf σ) (ht : b.1 ≠ "SUBGRAPH".toList)
    (hn : find (L.params (L.apply b.2)) "name" = some (.str (L.name (L.apply b.2)))) (h : Reloaded L b b') :
    loadBlk L rec (saveBlk L (.leaf b.1 b.2)) = .ok (L.name (L.apply b.2), .leaf b'.1 b'.2) := by
  obtain ⟨h1, s₀, s₁, s₂, s₃, hmake, hload, hctx, hact, hinit⟩ := h
  obtain ⟨f1, f2, f3⟩ := find_saveBlk_leaf L b.1 b.2
  have hc := loadCtxs_save L (L.stored (L.apply b.2)) s₁ s₂ hctx
  simp only [loadBlk, strProp2, strProp, f1, f2, hn, ht, if_false, loadLeaf, hmake, mapOr, hload, loadAllCtxs, f3, hc, hact, hinit, orErr, h1]

theorem loadBlks_saveBlks (L : Loader F σ) (rec : PMap F → Except Err (List (Blk σ) × List Edge)) :
    ∀ (pairs : List (Leaf σ × Leaf σ)) (bs : List (Blk σ)) (created : List (List Char × Nat)),
    (∀ p ∈ pairs, p.1.1 ≠ "SUBGRAPH".toList ∧ find (L.params (L.apply p.1.2)) "name" = some (.str (L.name (L.apply p.1.2))) ∧ Reloaded L p.1 p.2) →
    loadBlks L rec bs created (saveBlks L (pairs.map fun p => .leaf p.1.1 p.1.2)) =
      .ok (bs ++ pairs.map (fun p => .leaf p.2.1 p.2.2), ((pairs.map fun p => L.name (L.apply p.1.2)).zipIdx bs.length).reverse ++ created)
  | [], bs, created, _ => by simp [saveBlks, loadBlks]
  | p :: ps, bs, created, h => by
    have hp := h p (by simp)
    rw [List.map_cons, saveBlks, loadBlks, loadBlk_saveBlk L rec p.1 p.2 hp.1 hp.2.1 hp.2.2]
    simp only
    rw [loadBlks_saveBlks L rec ps _ _ (fun q hq => h q (by simp [hq]))]
    simp [List.zipIdx_cons, List.append_assoc]

/-! ## sub-graphs -/

theorem find_saveBlk_sub (L : Loader F σ) (b : Blk σ) (h : b.isSub) : find (saveBlk L b) "parameters" = none := by
  cases b with
  | leaf ty s => exact h.elim
  | sub name sched blocks edges ports =>
    unfold saveBlk
    cases sched with
    | none =>
      simp only [List.append_nil]
      rw [find_cons, if_neg (by decide), find_cons, if_neg (by decide), find_cons, if_neg (by decide), find_cons, if_neg (by decide), find_cons,
        if_neg (by decide)]
      rfl
    | some x =>
      simp only [List.cons_append, List.nil_append]
      rw [find_cons, if_neg (by decide), find_cons, if_neg (by decide), find_cons, if_neg (by decide), find_cons, if_neg (by decide), find_cons,
        if_neg (by decide), find_cons, if_neg (by decide)]
      rfl

theorem loadBlks_sub (L : Loader F σ) (rec : PMap F → Except Err (List (Blk σ) × List Edge)) :
    ∀ (blocks : List (Blk σ)) (bs : List (Blk σ)) (created : List (List Char × Nat)), (∃ b ∈ blocks, b.isSub) →
    ∃ e, loadBlks L rec bs created (saveBlks L blocks) = .error e
  | [], _, _, h => by obtain ⟨b, hb, _⟩ := h; simp at hb
  | b :: blocks, bs, created, h => by
    rw [saveBlks, loadBlks]
    cases hl : loadBlk L rec (saveBlk L b) with
    | error e => exact ⟨e, rfl⟩
    | ok r =>
      obtain ⟨c, hc, hs⟩ := h
      rcases List.mem_cons.1 hc with rfl | hc
      · simp [loadBlk, strProp2, find_saveBlk_sub L c hs] at hl
      · exact loadBlks_sub L rec blocks _ _ ⟨c, hc, hs⟩

/-! ## what a loaded graph looks like -/

theorem lastNamed_lt (L : Loader F σ) (bs : List (Blk σ)) (n : List Char) (i : Nat) (h : lastNamed L bs n = some i) : i < bs.length := by
  unfold lastNamed at h
  have := List.mem_of_getLast? h
  simp at this
  exact this.1

theorem loadExported_lt (L : Loader F σ) (bs : List (Blk σ)) (done ps : List Exported) (v : Val F) (hd : ∀ p ∈ done, p.block < bs.length)
    (h : loadExported L bs done v = .ok ps) : ∀ p ∈ ps, p.block < bs.length := by
  unfold loadExported at h
  split at h
  · split at h
    · exact absurd h (by simp)
    · rename_i i hi
      simp only at h
      split at h
      · exact absurd h (by simp)
      · split at h
        · injection h with h
          subst h
          intro p hp
          rcases List.mem_append.1 hp with hp | hp
          · exact hd p hp
          · simp at hp
            subst hp
            exact lastNamed_lt L bs _ _ hi
        · exact absurd h (by simp)
  · exact absurd h (by simp)

theorem loadExports_lt (L : Loader F σ) (bs : List (Blk σ)) : ∀ (vs : List (Val F)) (done ps : List Exported), (∀ p ∈ done, p.block < bs.length) →
    loadExports L bs done vs = .ok ps → ∀ p ∈ ps, p.block < bs.length
  | [], done, ps, hd, h => by
    simp only [loadExports] at h
    injection h with h
    subst h
    exact hd
  | v :: vs, done, ps, hd, h => by
    simp only [loadExports] at h
    split at h
    · exact absurd h (by simp)
    · rename_i d hl
      exact loadExports_lt L bs vs d ps (loadExported_lt L bs done d v hd hl) h

theorem loadEnd_mem (created : List (List Char × Nat)) (b p : Val F) (i : Nat) (q : PortDef) (h : loadEnd created b p = .ok (i, q)) :
    ∃ n, b = .str n ∧ (created.find? (fun c => decide (c.1 = n))).map (·.2) = some i := by
  unfold loadEnd at h
  split at h
  · rename_i n
    split at h
    · exact absurd h (by simp)
    · split at h
      · exact absurd h (by simp)
      · rename_i c hf
        split at h
        · exact absurd h (by simp)
        · injection h with h
          injection h with h1 h2
          exact ⟨n, rfl, by rw [hf, ← h1]; rfl⟩
  · exact absurd h (by simp)

/-- what is known of an edge from its connection -/
def EdgeOf (L : Loader F σ) (bs : List (Blk σ)) (created : List (List Char × Nat)) (v : Val F) (e : Edge) : Prop :=
  ∃ b1 p1 b2 p2 more, v = .list (.str b1 :: p1 :: .str b2 :: p2 :: more) ∧
    (created.find? (fun c => decide (c.1 = b1))).map (·.2) = some e.src ∧ (created.find? (fun c => decide (c.1 = b2))).map (·.2) = some e.dst ∧
    (more = [] → e.minSize = if (bs[e.src]?.map fun b => L.arith b e.srcPort).getD true then 65536 else 64)

theorem loadEdge_of (L : Loader F σ) (bs : List (Blk σ)) (created : List (List Char × Nat)) (v : Val F) (e : Edge) (h : loadEdge L bs created v = .ok e) :
    EdgeOf L bs created v e := by
  unfold loadEdge at h
  split at h
  · rename_i b1 p1 b2 p2 more
    split at h
    · exact absurd h (by simp)
    · rename_i src sp h1
      split at h
      · exact absurd h (by simp)
      · rename_i dst dp h2
        obtain ⟨n1, rfl, f1⟩ := loadEnd_mem _ _ _ _ _ h1
        obtain ⟨n2, rfl, f2⟩ := loadEnd_mem _ _ _ _ _ h2
        injection h with h
        subst h
        exact ⟨n1, p1, n2, p2, more, rfl, f1, f2, fun hm => by subst hm; show connectSize L bs src sp undefinedSize = _; unfold connectSize; rw [if_pos rfl]⟩
  · exact absurd h (by simp)

theorem loadEdges_of (L : Loader F σ) (bs : List (Blk σ)) (created : List (List Char × Nat)) : ∀ (vs : List (Val F)) (es : List Edge),
    loadEdges L bs created vs = .ok es → es.length = vs.length ∧ ∀ i (hi : i < es.length) (hj : i < vs.length), EdgeOf L bs created vs[i] es[i]
  | [], es, h => by
    simp only [loadEdges] at h
    injection h with h
    subst h
    simp
  | v :: vs, es, h => by
    simp only [loadEdges] at h
    split at h
    · exact absurd h (by simp)
    · rename_i e he
      split at h
      · exact absurd h (by simp)
      · rename_i es' hes
        injection h with h
        subst h
        obtain ⟨h1, h2⟩ := loadEdges_of L bs created vs es' hes
        refine ⟨by simp [h1], ?_⟩
        intro i hi hj
        cases i with
        | zero => exact loadEdge_of L bs created v e he
        | succ i => exact h2 i (by simpa using hi) (by simpa using hj)

theorem loadBlk_name (L : Loader F σ) (rec : PMap F → Except Err (List (Blk σ) × List Edge)) (m : PMap F) (n : List Char) (b : Blk σ)
    (h : loadBlk L rec m = .ok (n, b)) : entryName m = some n := by
  unfold loadBlk at h
  split at h
  · exact absurd h (by simp)
  · rename_i name hn
    have : entryName m = some name := by
      unfold strProp2 at hn
      unfold entryName
      split at hn
      · exact absurd hn (by simp)
      · rename_i m' hm
        unfold strProp at hn
        split at hn
        · exact absurd hn (by simp)
        · rename_i s hs
          injection hn with hn
          rw [hm, ← hn]
          simp only [hs]
        · exact absurd hn (by simp)
      · exact absurd hn (by simp)
    rw [this]
    split at h
    · exact absurd h (by simp)
    · split at h
      · split at h
        · exact absurd h (by simp)
        · split at h
          · exact absurd h (by simp)
          · injection h with h; injection h with h _; rw [h]
      · split at h
        · exact absurd h (by simp)
        · injection h with h; injection h with h _; rw [h]

theorem loadBlks_of (L : Loader F σ) (rec : PMap F → Except Err (List (Blk σ) × List Edge)) : ∀ (vs : List (Val F)) (bs bs' : List (Blk σ))
    (created created' : List (List Char × Nat)), loadBlks L rec bs created vs = .ok (bs', created') →
    ∃ new : List (List Char × Blk σ), new.length = (maps vs).length ∧ bs' = bs ++ new.map (·.2) ∧
      (∀ i (hi : i < new.length) (hj : i < (maps vs).length), loadBlk L rec (maps vs)[i] = .ok new[i]) ∧
      created' = ((new.map (·.1)).zipIdx bs.length).reverse ++ created := by
  intro vs
  induction vs with
  | nil =>
    intro bs bs' created created' h
    simp only [loadBlks] at h
    injection h with h
    injection h with h1 h2
    exact ⟨[], rfl, by simp [h1], by simp, by simp [h2]⟩
  | cons v vs ih =>
    intro bs bs' created created' h
    have skip : (∀ m, v ≠ .map m) → loadBlks L rec bs created (v :: vs) = loadBlks L rec bs created vs ∧ maps (v :: vs) = maps vs := by
      intro hv
      cases v with
      | map m => exact absurd rfl (hv m)
      | _ => exact ⟨by simp only [loadBlks], by simp only [maps]⟩
    by_cases hv : ∃ m, v = .map m
    · obtain ⟨m, rfl⟩ := hv
      simp only [loadBlks] at h
      split at h
      · exact absurd h (by simp)
      · rename_i name b hl
        obtain ⟨new, h1, h2, h3, h4⟩ := ih _ _ _ _ h
        refine ⟨(name, b) :: new, by simp [maps, h1], by simp [h2], ?_, by simp [h4, List.zipIdx_cons]⟩
        intro i hi hj
        cases i with
        | zero => simpa [maps] using hl
        | succ i => simpa [maps] using h3 i (by simpa using hi) (by simpa [maps] using hj)
    · obtain ⟨k1, k2⟩ := skip (fun m hm => hv ⟨m, hm⟩)
      rw [k1] at h
      rw [k2]
      exact ih _ _ _ _ h

theorem loadInner_wf (L : Loader F σ) (rec : PMap F → Except Err (List (Blk σ) × List Edge))
    (hrec : ∀ g bs es, rec g = .ok (bs, es) → (∀ b ∈ bs, Wf b) ∧ ∀ e ∈ es, e.src < bs.length ∧ e.dst < bs.length) (m : PMap F)
    (r : List (Blk σ) × List Edge × List Exported) (h : loadInner L rec m = .ok r) :
    (∀ b ∈ r.1, Wf b) ∧ (∀ e ∈ r.2.1, e.src < r.1.length ∧ e.dst < r.1.length) ∧ ∀ p ∈ r.2.2, p.block < r.1.length := by
  unfold loadInner at h
  split at h
  · split at h
    · exact absurd h (by simp)
    · rename_i bs es hg
      split at h
      · exact absurd h (by simp)
      · rename_i ps hps
        injection h with h
        subst h
        obtain ⟨w1, w2⟩ := hrec _ _ _ hg
        exact ⟨w1, w2, loadExports_lt L bs _ _ ps (by simp) hps⟩
  · injection h with h
    subst h
    simp

theorem loadBlk_wf (L : Loader F σ) (rec : PMap F → Except Err (List (Blk σ) × List Edge))
    (hrec : ∀ g bs es, rec g = .ok (bs, es) → (∀ b ∈ bs, Wf b) ∧ ∀ e ∈ es, e.src < bs.length ∧ e.dst < bs.length) (m : PMap F) (r : List Char × Blk σ)
    (h : loadBlk L rec m = .ok r) : Wf r.2 := by
  unfold loadBlk at h
  split at h
  · exact absurd h (by simp)
  · split at h
    · exact absurd h (by simp)
    · split at h
      · split at h
        · exact absurd h (by simp)
        · split at h
          · exact absurd h (by simp)
          · rename_i bs es ps hin
            injection h with h
            subst h
            obtain ⟨w1, w2, w3⟩ := loadInner_wf L rec hrec m _ hin
            exact Wf.sub _ _ _ _ _ w1 w2 w3
      · split at h
        · exact absurd h (by simp)
        · injection h with h
          subst h
          exact Wf.leaf _ _

end Verif.Grc
