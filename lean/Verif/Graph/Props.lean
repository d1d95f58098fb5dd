import Verif.Graph.LoopLemmas
import Verif.Graph.CompLemmas
/-!
# C41, C42, C44, C45
-/
namespace Verif.Graph

/-! ## C41 — weakly connected components -/

/-- the algorithm always produces a result -/
theorem components_exist (blocks : List Nat) (es : List Edge) : ∃ r, IsResult blocks es r := by
  obtain ⟨comps, ids, h1, _, _⟩ := labelAll_spec blocks es
  let le : Nat → Nat → Bool := fun a b => decide ((comps[b]?.getD []).length ≤ (comps[a]?.getD []).length)
  refine ⟨_, comps, ids, (List.range comps.length).mergeSort le, h1, ⟨List.mergeSort_perm _ _, ?_⟩, rfl⟩
  have := List.pairwise_mergeSort (le := le)
    (by intro a b c h1 h2; simp only [le, decide_eq_true_eq] at *; omega)
    (by intro a b; simp only [le, Bool.or_eq_true, decide_eq_true_eq]; omega) (List.range comps.length)
  rw [List.pairwise_map]
  exact this.imp (by intro a b h; simpa [le] using h)

/-- **C41**: for every graph whose edges connect its blocks, every block is in exactly one component and there once; a component
holds exactly the blocks connected to any one of its blocks; every edge is in exactly one component, together with both its ends; nothing
else is in the components; no component is empty; and the components come in order of decreasing size. -/
theorem components_partition (blocks : List Nat) (es : List Edge) (hnd : blocks.Nodup) (hin : ∀ e ∈ es, e.1 ∈ blocks ∧ e.2 ∈ blocks)
    (r : List (List Nat × List Edge)) (hr : IsResult blocks es r) :
    (∀ b ∈ blocks, ∃ i, (∃ g : List Nat × List Edge, r[i]? = some g ∧ g.1.count b = 1) ∧
      ∀ (j : Nat) (g : List Nat × List Edge), r[j]? = some g → b ∈ g.1 → j = i) ∧
    (∀ g ∈ r, ∀ a ∈ g.1, ∀ b, b ∈ g.1 ↔ b ∈ blocks ∧ Connected es a b) ∧
    (∀ e ∈ es, ∃ i, (∃ g : List Nat × List Edge, r[i]? = some g ∧ g.2.count e = 1 ∧ e.1 ∈ g.1 ∧ e.2 ∈ g.1) ∧
      ∀ (j : Nat) (g : List Nat × List Edge), r[j]? = some g → e ∈ g.2 → j = i) ∧
    (∀ g ∈ r, g.1 ≠ [] ∧ (∀ b ∈ g.1, b ∈ blocks) ∧ ∀ e ∈ g.2, e ∈ es) ∧
    r.Pairwise (fun g g' => g.1.length ≥ g'.1.length) := by
  obtain ⟨comps, ids, order, h1, ⟨hperm, hsorted⟩, rfl⟩ := hr
  obtain ⟨comps', ids', h1', hc, hall⟩ := labelAll_spec blocks es
  rw [h1] at h1'; cases h1'
  have hord : order.Nodup := hperm.nodup_iff.2 List.nodup_range
  have hmemo : ∀ c, c ∈ order ↔ c < comps.length := fun c => by rw [hperm.mem_iff, List.mem_range]
  -- blocks and indices
  have hidx : ∀ b ∈ blocks, blocks[blocks.idxOf b]? = some b := fun b hb => by
    rw [List.getElem?_eq_getElem (List.idxOf_lt_length_of_mem hb), List.getElem_idxOf]
  have hinv : ∀ (i : Nat) (b : Nat), blocks[i]? = some b → blocks.idxOf b = i := fun i b h =>
    nodup_getElem?_inj hnd (hidx b (List.mem_of_getElem? h)) h
  have hmemF : ∀ (l : List Nat) (b : Nat), b ∈ l.filterMap (fun i => blocks[i]?) ↔ b ∈ blocks ∧ blocks.idxOf b ∈ l := by
    intro l b
    rw [List.mem_filterMap]
    constructor
    · rintro ⟨i, hi, hb⟩
      exact ⟨List.mem_of_getElem? hb, by rw [hinv i b hb]; exact hi⟩
    · rintro ⟨hb, hi⟩; exact ⟨_, hi, hidx b hb⟩
  have hndF : ∀ l : List Nat, l.Nodup → (l.filterMap (fun i => blocks[i]?)).Nodup := by
    intro l hl
    induction l with
    | nil => simp
    | cons x l ih =>
      rw [List.nodup_cons] at hl
      rw [List.filterMap_cons]
      split
      · exact ih hl.2
      · next b hb =>
        rw [List.nodup_cons]
        refine ⟨fun hm => ?_, ih hl.2⟩
        have := ((hmemF l b).1 hm).2
        rw [hinv x b hb] at this
        exact hl.1 this
  have hlenF : ∀ l : List Nat, (∀ x ∈ l, x < blocks.length) → (l.filterMap (fun i => blocks[i]?)).length = l.length := by
    intro l hl
    induction l with
    | nil => rfl
    | cons x l ih =>
      rw [List.filterMap_cons, List.getElem?_eq_getElem (hl x (by simp))]
      simp only [List.length_cons]
      rw [ih (fun y hy => hl y (by simp [hy]))]
  -- entries of the result
  have hget : ∀ (i : Nat) (g : List Nat × List Edge), (weaklyConnectedComponents blocks es order comps ids)[i]? = some g →
      ∃ c, order[i]? = some c ∧ ∃ l : List Nat, comps[c]? = some l ∧ g = (l.filterMap (fun (i : Nat) => blocks[i]?), edgesOf blocks es ids c) := by
    intro i g hg
    simp only [weaklyConnectedComponents, List.getElem?_map, Option.map_eq_some_iff] at hg
    obtain ⟨c, hoc, rfl⟩ := hg
    have hlt : c < comps.length := (hmemo c).1 (List.mem_of_getElem? hoc)
    exact ⟨c, hoc, comps[c], List.getElem?_eq_getElem hlt, by rw [List.getElem?_eq_getElem hlt]; rfl⟩
  have hput : ∀ (c : Nat) (l : List Nat), comps[c]? = some l → ∃ (i : Nat), order[i]? = some c ∧
      (weaklyConnectedComponents blocks es order comps ids)[i]? = some (l.filterMap (fun (i : Nat) => blocks[i]?), edgesOf blocks es ids c) := by
    intro c l hl
    obtain ⟨i, hi⟩ := List.mem_iff_getElem?.1 ((hmemo c).2 (List.getElem?_eq_some_iff.1 hl).1)
    refine ⟨i, hi, ?_⟩
    simp only [weaklyConnectedComponents, List.getElem?_map, hi, Option.map_some, hl, Option.getD_some]
  have hid : ∀ b ∈ blocks, ∃ (c : Nat) (l : List Nat), ids (blocks.idxOf b) = some c ∧ comps[c]? = some l ∧ blocks.idxOf b ∈ l := by
    intro b hb
    cases h : ids (blocks.idxOf b) with
    | none => exact absurd h (hall _ (List.idxOf_lt_length_of_mem hb))
    | some c =>
      obtain ⟨l, hl, hm⟩ := (hc.ids _ c).1 h
      exact ⟨c, l, rfl, hl, hm⟩
  have hmemE : ∀ (c : Nat) (e : Edge), e ∈ edgesOf blocks es ids c ↔ e ∈ es ∧ ids (blocks.idxOf e.1) = some c := by
    intro c e
    unfold edgesOf
    rw [(edgesFold_spec _ es [] (by simp)).2]
    simp only [List.not_mem_nil, false_or, List.contains_eq_mem, decide_eq_true_eq]
    constructor
    · rintro ⟨a, b⟩; exact ⟨a, b.2.2.2⟩
    · rintro ⟨a, b⟩
      refine ⟨a, (hin e a).1, (hin e a).2, ?_, b⟩
      obtain ⟨l, hl, hm⟩ := (hc.ids _ c).1 b
      have h2 : blocks.idxOf e.2 ∈ l := hc.closed l (List.mem_of_getElem? hl) _ hm _
        ((mem_adjacency _ _ _ _).2 ⟨e, a, (hin e a).1, (hin e a).2, .inl ⟨rfl, rfl⟩⟩)
      rw [b, (hc.ids _ c).2 ⟨l, hl, h2⟩]
  have hndE : ∀ c, (edgesOf blocks es ids c).Nodup := fun c => (edgesFold_spec _ es [] (by simp)).1
  refine ⟨?_, ?_, ?_, ?_, ?_⟩
  · intro b hb
    obtain ⟨c, l, hbc, hl, hm⟩ := hid b hb
    obtain ⟨i, hi, hri⟩ := hput c l hl
    refine ⟨i, ⟨_, hri, nodup_count_one (hndF l (hc.nodup l (List.mem_of_getElem? hl)).1) ((hmemF l b).2 ⟨hb, hm⟩)⟩, ?_⟩
    intro j g hg hbg
    obtain ⟨c', ho', l', hl', rfl⟩ := hget j g hg
    have := (hc.ids _ c').2 ⟨l', hl', ((hmemF l' b).1 hbg).2⟩
    rw [hbc] at this; cases this
    exact nodup_getElem?_inj hord ho' hi
  · intro g hg a ha b
    obtain ⟨i, hi⟩ := List.mem_iff_getElem?.1 hg
    obtain ⟨c, _, l, hl, rfl⟩ := hget i g hi
    obtain ⟨hab, hal⟩ := (hmemF l a).1 ha
    rw [hmemF]
    have hlm := List.mem_of_getElem? hl
    constructor
    · rintro ⟨hb, hbl⟩
      exact ⟨hb, areach_conn hab hb (hc.conn l hlm _ hal _ hbl)⟩
    · rintro ⟨hb, hcon⟩
      exact ⟨hb, closed_areach (hc.closed l hlm) (conn_areach hin hcon) hal⟩
  · intro e he
    obtain ⟨c, l, hbc, hl, hm⟩ := hid e.1 (hin e he).1
    obtain ⟨i, hi, hri⟩ := hput c l hl
    have h2 : blocks.idxOf e.2 ∈ l := hc.closed l (List.mem_of_getElem? hl) _ hm _
      ((mem_adjacency _ _ _ _).2 ⟨e, he, (hin e he).1, (hin e he).2, .inl ⟨rfl, rfl⟩⟩)
    refine ⟨i, ⟨_, hri, nodup_count_one (hndE c) ((hmemE c e).2 ⟨he, hbc⟩), (hmemF l _).2 ⟨(hin e he).1, hm⟩,
      (hmemF l _).2 ⟨(hin e he).2, h2⟩⟩, ?_⟩
    intro j g hg heg
    obtain ⟨c', ho', l', hl', rfl⟩ := hget j g hg
    have := ((hmemE c' e).1 heg).2
    rw [hbc] at this; cases this
    exact nodup_getElem?_inj hord ho' hi
  · intro g hg
    obtain ⟨i, hi⟩ := List.mem_iff_getElem?.1 hg
    obtain ⟨c, _, l, hl, rfl⟩ := hget i g hi
    have hlm := List.mem_of_getElem? hl
    refine ⟨?_, fun b hb => ((hmemF l b).1 hb).1, fun e he => ((hmemE c e).1 he).1⟩
    intro e
    have := hlenF l (hc.lt l hlm)
    dsimp only at e; rw [e] at this
    exact (hc.nodup l hlm).2 (List.eq_nil_of_length_eq_zero this.symm)
  · unfold weaklyConnectedComponents
    rw [List.pairwise_map] at hsorted ⊢
    refine hsorted.imp_of_mem ?_
    intro a b ha hb hle
    have h' : ∀ c, c ∈ order → ((comps[c]?.getD []).filterMap (fun i => blocks[i]?)).length = (comps[c]?.getD []).length := by
      intro c hc'
      have hlt := (hmemo c).1 hc'
      rw [List.getElem?_eq_getElem hlt]
      exact hlenF _ (hc.lt _ (List.getElem_mem hlt))
    show _ ≥ _
    dsimp only
    rw [h' a ha, h' b hb]; exact hle

-- two components of sizes 3 and 2, one of them with a cycle and a repeated edge
example : (labelAll [7, 3, 9, 5, 1] [(3, 9), (9, 3), (5, 7), (1, 9), (3, 9)]).map
    (fun x => (x.1, weaklyConnectedComponents [7, 3, 9, 5, 1] [(3, 9), (9, 3), (5, 7), (1, 9), (3, 9)] [1, 0] x.1 x.2)) =
    some ([[0, 3], [1, 2, 4]], [([3, 9, 1], [(3, 9), (9, 3), (1, 9)]), ([7, 5], [(5, 7)])]) := by decide +kernel

/-! ## C42 — feedback loops -/

/-- **C42**: for every graph whose edges connect its blocks the search finishes; every reported loop is a closed chain of edges of the
graph that visits no block twice; and a loop is reported exactly when the graph has a directed cycle. -/
theorem feedback_loops_exact (blocks : List Nat) (es : List Edge) (hin : ∀ e ∈ es, e.1 ∈ blocks ∧ e.2 ∈ blocks) :
    ∃ loops, detectFeedbackLoops blocks es = some loops ∧ (∀ l ∈ loops, IsLoop es l) ∧ (loops ≠ [] ↔ HasCycle es) := by
  obtain ⟨st, h1, h2, _, h4⟩ := detect_fold (es := es) (V := blocks) (fun e he => (hin e he).2) (blocks.length + es.length + 1) (by omega)
    blocks ((fun _ => Color.unvisited), []) (fun b hb => hb) ⟨by simp, by simp, fun _ => ⟨fun _ => 0, by simp⟩⟩
  refine ⟨st.2, ?_, h2.loops, ?_⟩
  · unfold detectFeedbackLoops; rw [h1]; rfl
  · constructor
    · intro hne
      obtain ⟨l, hl⟩ := List.exists_mem_of_ne_nil _ hne
      obtain ⟨g1, ⟨a, g2⟩, g3, _⟩ := h2.loops l hl
      exact ⟨a, l, g1, g2, g3⟩
    · rintro ⟨a, l, g1, g2, g3⟩ hnil
      have ha : a ∈ blocks := by
        cases g2 with
        | nil => exact absurd rfl g1
        | @cons _ b => exact (hin (a, b) (g3 (a, b) (by simp))).1
      exact topo_no_cycle (h2.topo hnil) g2 g3 (h4 a ha) g1 rfl

-- a figure with a self loop and two cycles sharing a block
example : detectFeedbackLoops [1, 2, 3, 4, 5] [(1, 2), (2, 3), (3, 1), (2, 2), (3, 4), (4, 2), (4, 5)] =
    some [[(1, 2), (2, 3), (3, 1)], [(2, 3), (3, 4), (4, 2)], [(2, 2)]] := by decide +kernel

/-- not every cycle is reported: of the cycles 1→2→4→1 and 1→3→4→1 only the first is found, because block 4 is finished before the
search reaches it a second time -/
theorem second_cycle_not_reported :
    detectFeedbackLoops [1, 2, 3, 4] [(1, 2), (1, 3), (2, 4), (3, 4), (4, 1)] = some [[(1, 2), (2, 4), (4, 1)]] ∧
    IsLoop [(1, 2), (1, 3), (2, 4), (3, 4), (4, 1)] [(1, 3), (3, 4), (4, 1)] := by
  refine ⟨by decide +kernel, by simp, ⟨1, .cons (.cons (.cons (.nil _)))⟩, by decide, by decide, by decide⟩

/-! ## C44 — port references -/

theorem parseDigits_append (cs : List Char) : ∀ (ds : List Char) (n : Nat), (∀ c ∈ cs, '0' ≤ c ∧ c ≤ '9') →
    parseDigits (cs ++ ds) n = parseDigits ds (parseDigits cs n) := by
  induction cs with
  | nil => intro ds n _; rfl
  | cons c cs ih =>
    intro ds n h
    have hc := h c (by simp)
    simp only [List.cons_append, parseDigits, if_pos hc]
    exact ih ds _ (fun x hx => h x (by simp [hx]))

theorem digit_le : ∀ d, d < 10 → '0' ≤ Nat.digitChar d ∧ Nat.digitChar d ≤ '9' ∧ (Nat.digitChar d).toNat - 48 = d := by decide

theorem parseDigits_toDigits (n : Nat) (h : n < 2 ^ 64) :
    (∀ c ∈ Nat.toDigits 10 n, '0' ≤ c ∧ c ≤ '9') ∧ parseDigits (Nat.toDigits 10 n) 0 = n := by
  induction n using Nat.strongRecOn with
  | _ n ih =>
    by_cases hn : n < 10
    · rw [Nat.toDigits_of_lt_base hn]
      obtain ⟨h1, h2, h3⟩ := digit_le n hn
      refine ⟨?_, ?_⟩
      · intro c hc; simp only [List.mem_singleton] at hc; subst hc; exact ⟨h1, h2⟩
      · simp only [parseDigits, if_pos (show '0' ≤ n.digitChar ∧ n.digitChar ≤ '9' from ⟨h1, h2⟩), h3]
        omega
    · rw [Nat.toDigits_of_base_le (by omega) (by omega)]
      obtain ⟨g1, g2⟩ := ih (n / 10) (by omega) (by omega)
      obtain ⟨h1, h2, h3⟩ := digit_le (n % 10) (by omega)
      refine ⟨?_, ?_⟩
      · intro c hc
        rcases List.mem_append.1 hc with hc | hc
        · exact g1 c hc
        · simp only [List.mem_singleton] at hc; subst hc; exact ⟨h1, h2⟩
      · rw [parseDigits_append _ _ _ g1, g2]
        simp only [parseDigits, if_pos (show '0' ≤ (n % 10).digitChar ∧ (n % 10).digitChar ≤ '9' from ⟨h1, h2⟩), h3]
        omega

/-- **C44**: for every name without `#` and every index that fits into 64 bits, `name#index` is read back as that name and index, and
the name alone as that name without an index. -/
theorem parsePort_roundtrip (name : List Char) (hname : '#' ∉ name) (i : Nat) (hi : i < 2 ^ 64) :
    parsePort (name ++ '#' :: Nat.toDigits 10 i) = (name, i) ∧ parsePort name = (name, invalidIndex) := by
  have htake : ∀ t : List Char, (name ++ '#' :: t).takeWhile (fun c => decide (c ≠ '#')) = name := by
    intro t
    rw [List.takeWhile_append_of_pos (fun c hc => by simp; intro e; subst e; exact hname hc)]
    simp
  have hdrop : ∀ t : List Char, (name ++ '#' :: t).dropWhile (fun c => decide (c ≠ '#')) = '#' :: t := by
    intro t
    rw [List.dropWhile_append_of_pos (fun c hc => by simp; intro e; subst e; exact hname hc)]
    simp
  constructor
  · unfold parsePort
    rw [if_pos (by simp), htake, hdrop]
    simp only [List.drop_succ_cons, List.drop_zero, (parseDigits_toDigits i hi).2]
  · unfold parsePort
    rw [if_neg (by simpa using hname)]

/-- the same with strings as the code writes them (`std::format("{}#{}", …)`, Graph.cpp:70) -/
theorem parsePort_format (name : String) (hname : '#' ∉ name.toList) (i : Nat) (hi : i < 2 ^ 64) :
    parsePort (name ++ "#" ++ toString i).toList = (name.toList, i) := by
  have : (name ++ "#" ++ toString i).toList = name.toList ++ '#' :: Nat.toDigits 10 i := by
    rw [String.toList_append, String.toList_append]
    show _ = _
    simp [Nat.repr, String.toList_ofList]
  rw [this]
  exact (parsePort_roundtrip name.toList hname i hi).1

example : parsePort "in#12".toList = ("in".toList, 12) ∧ parsePort "out".toList = ("out".toList, invalidIndex) := by decide +kernel

/-- what follows the digits is ignored, an index that is missing or no number is read as 0, an index of 2^64 wraps around, and the
largest index is read as "no index" -/
theorem parsePort_accepts_garbage :
    parsePort "in#3x7".toList = ("in".toList, 3) ∧ parsePort "in#".toList = ("in".toList, 0) ∧
    parsePort "in#-1".toList = ("in".toList, 0) ∧ parsePort "in#18446744073709551618".toList = ("in".toList, 2) ∧
    parsePort "in#18446744073709551615".toList = parsePort "in".toList := by decide +kernel

/-! ## C45 — priming of loops -/

theorem cumulative_spec (es : List LoopEdge) : ∀ (n d : Int) (r : Int × Int), cumulative es n d = some r →
    r = (n * (es.map (·.dst.num)).prod, d * (es.map (·.dst.den)).prod) := by
  induction es with
  | nil => intro n d r h; simp only [cumulative] at h; cases h; simp
  | cons e es ih =>
    intro n d r h
    simp only [cumulative] at h
    split at h
    · rw [ih _ _ _ h]; simp [Int.mul_assoc]
    · cases h

theorem primeMin_le (b : BlockInfo) (port need : Nat) :
    need ≤ primeMin b port need ∧ ∀ m, b.minIn[port]? = some m → m ≤ primeMin b port need := by
  unfold primeMin
  cases b.minIn[port]? with
  | none => simp
  | some k =>
    refine ⟨?_, fun m hm => ?_⟩
    · dsimp only; split <;> omega
    · cases hm; dsimp only; split <;> omega

theorem primeNum_le (b : BlockInfo) (need : Nat) : need ≤ primeNum b need ∧ b.num ≤ primeNum b need := by
  unfold primeNum
  split <;> omega

theorem primeStride_le (b : BlockInfo) (need : Nat) : need ≤ primeStride b need ∧ b.stride ≤ primeStride b need := by
  unfold primeStride
  split <;> omega

theorem primeDest_le (e : LoopEdge) (need : Nat) : need ≤ primeDest e need ∧
    (∀ m, e.dst.minIn[e.port]? = some m → m ≤ primeDest e need) ∧ e.dst.num ≤ primeDest e need ∧ e.dst.stride ≤ primeDest e need := by
  obtain ⟨a1, a2⟩ := primeMin_le e.dst e.port need
  obtain ⟨b1, b2⟩ := primeNum_le e.dst (primeMin e.dst e.port need)
  obtain ⟨c1, c2⟩ := primeStride_le e.dst (primeNum e.dst (primeMin e.dst e.port need))
  unfold primeDest
  exact ⟨by omega, fun m hm => by have := a2 m hm; omega, by omega, by omega⟩

theorem primeFold (es : List LoopEdge) : ∀ need, need ≤ es.foldl (fun n e => primeDest e n) need ∧ ∀ e ∈ es,
    (∀ m, e.dst.minIn[e.port]? = some m → m ≤ es.foldl (fun n e => primeDest e n) need) ∧
    e.dst.num ≤ es.foldl (fun n e => primeDest e n) need ∧ e.dst.stride ≤ es.foldl (fun n e => primeDest e n) need := by
  induction es with
  | nil => intro need; simp
  | cons e es ih =>
    intro need
    rw [List.foldl_cons]
    obtain ⟨h1, h2⟩ := ih (primeDest e need)
    have h3 := (primeDest_le e need).1
    refine ⟨by omega, ?_⟩
    intro x hx
    rcases List.mem_cons.1 hx with e1 | hx
    · subst e1
      obtain ⟨_, g1, g2, g3⟩ := primeDest_le x need
      refine ⟨fun m hm => Nat.le_trans (g1 m hm) h1, by omega, by omega⟩
    · exact h2 x hx

/-- **C45**: a size is returned only for loops whose net resampling ratio is one, and it is at least the minimum input of the port the
loop runs through, the input chunk size and the stride of every block in the loop. -/
theorem priming_sound (loop : List LoopEdge) (hne : loop ≠ []) (n : Nat) (h : calculateLoopPrimingSize loop = .size n) :
    (loop.map (·.dst.num)).prod = (loop.map (·.dst.den)).prod ∧ 1 ≤ n ∧
    ∀ e ∈ loop, (∀ m, e.dst.minIn[e.port]? = some m → m ≤ n) ∧ e.dst.num ≤ n ∧ e.dst.stride ≤ n := by
  cases loop with
  | nil => exact absurd rfl hne
  | cons e es =>
    unfold calculateLoopPrimingSize at h
    dsimp only at h
    split at h
    · cases h
    · next a d hcum =>
      split at h
      · cases h
      · next heq =>
        have hs := cumulative_spec _ _ _ _ hcum
        simp only [Int.one_mul, Prod.mk.injEq] at hs
        simp only [Priming.size.injEq] at h
        obtain ⟨g1, g2⟩ := primeFold (e :: es) (primeSource e.src 1)
        rw [h] at g1 g2
        refine ⟨by rw [← hs.1, ← hs.2]; exact Classical.not_not.1 heq, ?_, g2⟩
        refine Nat.le_trans ?_ g1
        unfold primeSource
        refine Nat.le_trans ?_ (primeStride_le _ _).1
        split <;> omega

/-- a loop whose net ratio is not one is refused -/
theorem priming_refuses_unstable (loop : List LoopEdge) (hne : loop ≠ [])
    (h : (loop.map (·.dst.num)).prod ≠ (loop.map (·.dst.den)).prod) : ∀ n, calculateLoopPrimingSize loop ≠ .size n :=
  fun n hn => h (priming_sound loop hne n hn).1

def ex1 : List LoopEdge :=
  let dec : BlockInfo := ⟨4, 1, 0, [1]⟩
  let proc : BlockInfo := ⟨1, 1, 0, [1, 8]⟩
  let int : BlockInfo := ⟨1, 4, 6, [1]⟩
  [⟨int, dec, 0⟩, ⟨dec, proc, 1⟩, ⟨proc, int, 0⟩]

example : calculateLoopPrimingSize ex1 = .size 8 := by decide +kernel

/-- **C45 fails for products beyond 31 bits**: the ratios are multiplied in `int32`, so a loop that down-samples by 65536 twice and
up-samples by the same amount twice overflows (undefined behaviour) although its net ratio is one. -/
theorem priming_overflow :
    let b (n d : Int) : BlockInfo := ⟨n, d, 0, [1]⟩
    calculateLoopPrimingSize [⟨b 1 65536, b 65536 1, 0⟩, ⟨b 65536 1, b 65536 1, 0⟩, ⟨b 65536 1, b 1 65536, 0⟩, ⟨b 1 65536, b 1 65536, 0⟩]
      = .ub := by decide +kernel

/-! ### the size is not always enough to start the loop -/

/-- one pass over the loop with `q[i]` samples waiting at the destination of edge `i`: a block consumes whole chunks if it has its minimum
and produces the corresponding chunks on the next edge -/
def fire (loop : List LoopEdge) (q : List Nat) : List Nat :=
  (List.range loop.length).foldl (fun q i =>
    match loop[i]?, q[i]? with
    | some e, some w =>
      let chunks := w / e.dst.num.toNat
      if max 1 (e.dst.minIn[e.port]?.getD 0) ≤ w ∧ 0 < chunks then
        let q := q.set i (w - chunks * e.dst.num.toNat)
        let j := (i + 1) % loop.length
        q.set j (q[j]?.getD 0 + chunks * e.dst.den.toNat)
      else q
    | _, _ => q) q

/-- **The title of C45 ("sufficient") fails behind a rate change**: the size is the maximum of the members' needs, each counted in
samples at its own input, but the samples are injected at one place. In a loop of a 4:1 decimator, a block that needs 8 samples and a 1:4
interpolator the computed 8 samples turn into 2 at the block that needs 8, and the loop never runs again. -/
theorem priming_insufficient_behind_decimator :
    calculateLoopPrimingSize ex1 = .size 8 ∧ fire ex1 [8, 0, 0] = [0, 2, 0] ∧ fire ex1 [0, 2, 0] = [0, 2, 0] := by decide +kernel

end Verif.Graph
