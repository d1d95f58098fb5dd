import Verif.Sched.Spec
import Verif.Util
/-! Helper lemmas for the scheduling properties. -/
namespace Verif.Sched

/-! ## batching -/

theorem strideFrom_length {α : Type} (xs : List α) (n j : Nat) (hn : 0 < n) :
    (strideFrom xs n j).length = (xs.length - j + (n - 1)) / n := by
  fun_induction strideFrom xs n j with
  | case1 j h ih =>
    rw [List.length_cons, ih]
    have : xs.length - j + (n - 1) = (xs.length - (j + n) + (n - 1)) + n ∨ (xs.length - j ≤ n ∧ xs.length - (j + n) = 0) := by omega
    rcases this with e | ⟨h1, h2⟩
    · rw [e, Nat.add_div_right _ hn]
    · rw [h2]
      have e1 : (0 + (n - 1)) / n = 0 := Nat.div_eq_of_lt (by omega)
      have e2 : (xs.length - j + (n - 1)) / n = 1 := by
        rw [Nat.div_eq_iff hn]; omega
      omega
  | case2 j h =>
    have : xs.length - j = 0 := by omega
    rw [this]
    exact (Nat.div_eq_of_lt (by omega)).symm

theorem strideFrom_eq {α : Type} (xs : List α) (n j : Nat) (hn : 0 < n) :
    ∀ k, (strideFrom xs n j)[k]? = xs[j + k * n]? := by
  fun_induction strideFrom xs n j with
  | case1 j h ih =>
    intro k
    cases k with
    | zero => simp [List.getElem?_eq_getElem h.1]
    | succ k =>
      rw [List.getElem?_cons_succ, ih]
      congr 1
      rw [Nat.succ_mul]; omega
  | case2 j h =>
    intro k
    rw [List.getElem?_nil, eq_comm, List.getElem?_eq_none_iff]
    have : xs.length ≤ j := by omega
    omega

theorem mem_strideFrom {α : Type} (xs : List α) (n j : Nat) (hn : 0 < n) (b : α) :
    b ∈ strideFrom xs n j ↔ ∃ k, xs[j + k * n]? = some b := by
  rw [List.mem_iff_getElem?]
  simp only [strideFrom_eq xs n j hn]

/-! ## breadth-first order -/

theorem mem_outs (es : List Edge) (b d : Nat) : d ∈ outs es b ↔ (b, d) ∈ es := by
  simp only [outs, List.mem_map, List.mem_filter, beq_iff_eq]
  constructor
  · rintro ⟨⟨x, y⟩, ⟨h, h1⟩, h2⟩
    simp only at h1 h2; subst h1; subst h2; exact h
  · intro h; exact ⟨(b, d), ⟨h, rfl⟩, rfl⟩

theorem mem_findSourceBlocks (es : List Edge) (b : Nat) : b ∈ findSourceBlocks es ↔ IsSource es b := by
  simp only [findSourceBlocks, List.mem_filter, List.mem_eraseDups, List.mem_map, IsSource, Bool.not_eq_true',
    List.contains_eq_mem, decide_eq_false_iff_not]
  constructor
  · rintro ⟨⟨⟨x, y⟩, h, h1⟩, h2⟩
    simp only at h1; subst h1
    exact ⟨⟨y, h⟩, fun s hs => h2 ⟨(s, x), hs, rfl⟩⟩
  · rintro ⟨⟨d, h⟩, h2⟩
    refine ⟨⟨(b, d), h, rfl⟩, ?_⟩
    rintro ⟨⟨x, y⟩, h3, h4⟩
    simp only at h4; subst h4
    exact h2 x h3

/-- the number of nodes of `V` not yet in `l` -/
def left (V l : List Nat) : Nat := (V.filter (fun x => !l.contains x)).length

theorem left_le (V l : List Nat) : left V l ≤ V.length := List.length_filter_le _ _

theorem left_mono (V l l' : List Nat) (h : ∀ x ∈ l, x ∈ l') : left V l' ≤ left V l := by
  unfold left
  induction V with
  | nil => simp
  | cons v V ih =>
    simp only [List.filter_cons, List.contains_eq_mem] at ih ⊢
    by_cases h1 : v ∈ l
    · have := h v h1; simp only [h1, this]; simpa using ih
    · by_cases h2 : v ∈ l'
      · simp only [h1, h2]; simp at ih ⊢; omega
      · simp only [h1, h2]; simp at ih ⊢; omega

theorem left_lt (V l l' : List Nat) (h : ∀ x ∈ l, x ∈ l') (v : Nat) (hv : v ∈ V) (h1 : v ∉ l) (h2 : v ∈ l') :
    left V l' < left V l := by
  unfold left
  induction V with
  | nil => simp at hv
  | cons w V ih =>
    have hm := left_mono V l l' h
    unfold left at hm
    simp only [List.filter_cons, List.contains_eq_mem] at ih hm ⊢
    by_cases e : v = w
    · subst e; simp only [h1, h2]; simp at hm ⊢; omega
    · have hv' : v ∈ V := by simpa [e] using hv
      have ih := ih hv'
      by_cases h3 : w ∈ l
      · have := h w h3; simp only [h3, this]; simpa using ih
      · by_cases h4 : w ∈ l'
        · simp only [h3, h4]; simp at ih ⊢; omega
        · simp only [h3, h4]; simp at ih ⊢; omega

theorem enqueueNew_spec (ds queue reached : List Nat) :
    ∃ new, enqueueNew ds queue reached = (queue ++ new, reached ++ new) ∧
      new.Nodup ∧ (∀ x ∈ new, x ∈ ds ∧ x ∉ reached) ∧ (∀ d ∈ ds, d ∈ reached ++ new) := by
  induction ds generalizing queue reached with
  | nil => exact ⟨[], by simp [enqueueNew]⟩
  | cons d ds ih =>
    simp only [enqueueNew, List.contains_eq_mem, decide_eq_true_eq]
    by_cases h : d ∈ reached
    · obtain ⟨new, h1, h2, h3, h4⟩ := ih queue reached
      refine ⟨new, by rw [if_pos h]; exact h1, h2, fun x hx => ⟨List.mem_cons_of_mem _ (h3 x hx).1, (h3 x hx).2⟩, ?_⟩
      intro y hy
      rcases List.mem_cons.1 hy with e | hy
      · subst e; exact List.mem_append_left _ h
      · exact h4 y hy
    · obtain ⟨new, h1, h2, h3, h4⟩ := ih (queue ++ [d]) (reached ++ [d])
      refine ⟨d :: new, ?_, ?_, ?_, ?_⟩
      · rw [if_neg h, h1]; simp
      · refine List.nodup_cons.2 ⟨fun hd => ?_, h2⟩
        exact (h3 d hd).2 (by simp)
      · intro x hx
        rcases List.mem_cons.1 hx with e | hx
        · subst e; exact ⟨by simp, h⟩
        · exact ⟨List.mem_cons_of_mem _ (h3 x hx).1, fun hr => (h3 x hx).2 (by simp [hr])⟩
      · intro y hy
        rcases List.mem_cons.1 hy with e | hy
        · subst e; simp
        · have := h4 y hy; simpa [or_assoc] using this

/-- invariant of the breadth-first loop -/
structure BfsInv (es : List Edge) (sources : List Nat) (queue reached blockList : List Nat) : Prop where
  part : reached.Perm (blockList ++ queue)
  nodup : reached.Nodup
  srcs : ∀ s ∈ sources, s ∈ reached
  reach : ∀ x ∈ reached, ∃ s ∈ sources, Reach es s x
  closed : ∀ x ∈ blockList, ∀ d, (x, d) ∈ es → d ∈ reached

theorem BfsInv.step {es : List Edge} {sources : List Nat} {cur : Nat} {queue reached blockList : List Nat}
    (h : BfsInv es sources (cur :: queue) reached blockList) :
    ∃ new, enqueueNew (outs es cur) queue reached = (queue ++ new, reached ++ new) ∧
      (if blockList.contains cur then blockList else blockList ++ [cur]) = blockList ++ [cur] ∧
      BfsInv es sources (queue ++ new) (reached ++ new) (blockList ++ [cur]) := by
  obtain ⟨new, h1, h2, h3, h4⟩ := enqueueNew_spec (outs es cur) queue reached
  have hcur : cur ∉ blockList := by
    have hn := h.part.nodup_iff.1 h.nodup
    rw [List.nodup_append] at hn
    intro hc
    exact hn.2.2 cur hc cur (by simp) rfl
  have hcr : cur ∈ reached := h.part.symm.subset (by simp)
  refine ⟨new, h1, by simp [hcur], ?_, ?_, ?_, ?_, ?_⟩
  · have : (blockList ++ [cur] ++ (queue ++ new)) = (blockList ++ cur :: queue) ++ new := by simp
    rw [this]
    exact h.part.append_right new
  · rw [List.nodup_append]
    exact ⟨h.nodup, h2, fun a ha b hb e => (h3 b hb).2 (e ▸ ha)⟩
  · intro s hs; exact List.mem_append_left _ (h.srcs s hs)
  · intro x hx
    rcases List.mem_append.1 hx with hx | hx
    · exact h.reach x hx
    · obtain ⟨s, hs, hr⟩ := h.reach cur hcr
      exact ⟨s, hs, .step hr ((mem_outs _ _ _).1 (h3 x hx).1)⟩
  · intro x hx d hd
    rcases List.mem_append.1 hx with hx | hx
    · exact List.mem_append_left _ (h.closed x hx d hd)
    · have e : x = cur := by simpa using hx
      subst e
      exact h4 d ((mem_outs _ _ _).2 hd)

theorem bfsLoop_spec (es : List Edge) (sources V : List Nat) (hV : ∀ e ∈ es, e.2 ∈ V) :
    ∀ (fuel : Nat) (queue reached blockList : List Nat), BfsInv es sources queue reached blockList →
      left V reached + queue.length < fuel →
      ∃ out reached', bfsLoop fuel es queue reached blockList = some out ∧ BfsInv es sources [] reached' out := by
  intro fuel
  induction fuel with
  | zero => intro _ _ _ _ h; omega
  | succ fuel ih =>
    intro queue reached blockList hi hf
    cases queue with
    | nil => exact ⟨blockList, reached, rfl, hi⟩
    | cons cur queue =>
      obtain ⟨new, h1, h2, h3⟩ := hi.step
      simp only [bfsLoop, h1, h2]
      apply ih _ _ _ h3
      have hnew : left V (reached ++ new) + new.length ≤ left V reached := by
        have hn := h3.nodup
        have hsub : ∀ x ∈ new, x ∈ V := by
          obtain ⟨new', g1, _, g3, _⟩ := enqueueNew_spec (outs es cur) queue reached
          have : new' = new := by
            have := g1.symm.trans h1
            simpa using this
          subst this
          intro x hx
          exact hV _ ((mem_outs _ _ _).1 (g3 x hx).1)
        clear h1 h2 h3 hi hf ih
        induction new generalizing reached with
        | nil => simp
        | cons x xs ih2 =>
          have e : reached ++ x :: xs = (reached ++ [x]) ++ xs := by simp
          rw [e] at hn ⊢
          have := ih2 (reached ++ [x]) hn (fun y hy => hsub y (by simp [hy]))
          have hx : x ∉ reached := by
            have h5 : (reached ++ [x]).Nodup := (List.nodup_append.1 hn).1
            intro hx
            exact (List.nodup_append.1 h5).2.2 x hx x (by simp) rfl
          have := left_lt V reached (reached ++ [x]) (by simp +contextual) x (hsub x (by simp)) hx (by simp)
          simp only [List.length_cons]
          omega
      simp only [List.length_append, List.length_cons] at hf ⊢
      omega

theorem reach_trans {es : List Edge} {a b c : Nat} (h1 : Reach es a b) (h2 : Reach es b c) : Reach es a c := by
  induction h2 with
  | refl => exact h1
  | step _ he ih => exact .step ih he

/-- a duplicate free list closed under edges and containing exactly what is reachable from the sources -/
theorem closed_mem_iff {es : List Edge} {sources out : List Nat} (hs : ∀ s ∈ sources, s ∈ out)
    (hr : ∀ x ∈ out, ∃ s ∈ sources, Reach es s x) (hc : ∀ x ∈ out, ∀ d, (x, d) ∈ es → d ∈ out) (b : Nat) :
    b ∈ out ↔ ∃ s ∈ sources, Reach es s b := by
  constructor
  · exact hr b
  · rintro ⟨s, h1, h2⟩
    induction h2 with
    | refl => exact hs s h1
    | step _ he ih => exact hc _ ih _ he

theorem bfsOrder_spec (es : List Edge) (sources : List Nat) :
    ∃ out, bfsOrder es sources = some out ∧ out.Nodup ∧ ∀ b, b ∈ out ↔ ∃ s ∈ sources, Reach es s b := by
  obtain ⟨new, h1, h2, h3, h4⟩ := enqueueNew_spec sources [] []
  have hi : BfsInv es sources new new [] := by
    refine ⟨by simp, h2, ?_, ?_, by simp⟩
    · intro s hs; simpa using h4 s hs
    · intro x hx; exact ⟨x, (h3 x hx).1, .refl x⟩
  have hle : left (es.map (·.2) ++ sources) new + new.length ≤ sources.length + es.length := by
    have h5 : left (es.map (·.2) ++ sources) new + new.length ≤ (es.map (·.2) ++ sources).length := by
      have key : ∀ (V l : List Nat), l.Nodup → (∀ x ∈ l, x ∈ V) → left V l + l.length ≤ V.length := by
        intro V l hn hs
        have e : left V l + (V.filter (fun x => l.contains x)).length = V.length := by
          unfold left
          clear hs
          induction V with
          | nil => rfl
          | cons v V ih => simp only [List.filter_cons]; cases l.contains v <;> simp at ih ⊢ <;> omega
        have hle : l.length ≤ (V.filter (fun x => l.contains x)).length := by
          have hsub : ∀ x ∈ l, x ∈ V.filter (fun x => l.contains x) := by
            intro x hx; simp [hs x hx, hx]
          exact nodup_length_le _ _ hn hsub
        omega
      exact key _ _ h2 (fun x hx => by simp [(h3 x hx).1])
    simp only [List.length_append, List.length_map] at h5
    omega
  obtain ⟨out, reached', h5, h6⟩ := bfsLoop_spec es sources (es.map (·.2) ++ sources) (fun e he => by
    simp only [List.mem_append, List.mem_map]; exact Or.inl ⟨e, he, rfl⟩) (sources.length + es.length + 1) new new [] hi (by omega)
  have hp : reached'.Perm out := by simpa using h6.part
  refine ⟨out, ?_, hp.nodup_iff.1 h6.nodup, ?_⟩
  · simp only [bfsOrder, h1, List.nil_append]; exact h5
  · apply closed_mem_iff
    · intro s hs; exact hp.subset (h6.srcs s hs)
    · intro x hx; exact h6.reach x (hp.symm.subset hx)
    · intro x hx d hd; exact hp.subset (h6.closed x hx d hd)

/-! ## depth-first order -/

/-- what a (partial) depth-first search adds: `ns` are the nodes it was asked to visit -/
structure DfsPost (es : List Edge) (ns vis vis' : List Nat) : Prop where
  sub : ∀ x ∈ vis, x ∈ vis'
  nodup : vis.Nodup → vis'.Nodup
  start : ∀ n ∈ ns, n ∈ vis'
  reach : ∀ x ∈ vis', x ∈ vis ∨ ∃ n ∈ ns, Reach es n x
  closed : ∀ x ∈ vis', x ∉ vis → ∀ d, (x, d) ∈ es → d ∈ vis'

theorem DfsPost.nil (es : List Edge) (vis : List Nat) : DfsPost es [] vis vis :=
  ⟨fun _ h => h, fun h => h, by simp, fun x h => .inl h, fun x h h' => absurd h h'⟩

theorem DfsPost.cons {es : List Edge} {n : Nat} {ns vis vis1 vis2 : List Nat} (h1 : DfsPost es [n] vis vis1)
    (h2 : DfsPost es ns vis1 vis2) : DfsPost es (n :: ns) vis vis2 := by
  refine ⟨fun x hx => h2.sub x (h1.sub x hx), fun h => h2.nodup (h1.nodup h), ?_, ?_, ?_⟩
  · intro m hm
    rcases List.mem_cons.1 hm with e | hm
    · subst e; exact h2.sub _ (h1.start _ (by simp))
    · exact h2.start m hm
  · intro x hx
    rcases h2.reach x hx with hx | ⟨m, hm, hr⟩
    · rcases h1.reach x hx with hx | ⟨m, hm, hr⟩
      · exact .inl hx
      · have : m = n := by simpa using hm
        subst this; exact .inr ⟨m, by simp, hr⟩
    · exact .inr ⟨m, by simp [hm], hr⟩
  · intro x hx hxv d hd
    by_cases h : x ∈ vis1
    · exact h2.sub _ (h1.closed x h hxv d hd)
    · exact h2.closed x hx h d hd

theorem dfsFold_spec (es : List Edge) (V : List Nat) (fuel : Nat)
    (ih : ∀ vis n, n ∈ V → left V vis < fuel → ∃ vis', dfsVisit fuel es vis n = some vis' ∧ DfsPost es [n] vis vis') :
    ∀ (ns vis : List Nat), (∀ n ∈ ns, n ∈ V) → left V vis < fuel →
      ∃ vis', ns.foldlM (dfsVisit fuel es) vis = some vis' ∧ DfsPost es ns vis vis' := by
  intro ns
  induction ns with
  | nil => intro vis _ _; exact ⟨vis, rfl, .nil es vis⟩
  | cons n ns ihn =>
    intro vis hV hf
    obtain ⟨v1, e1, p1⟩ := ih vis n (hV n (by simp)) hf
    have hle := left_mono V vis v1 p1.sub
    obtain ⟨v2, e2, p2⟩ := ihn v1 (fun m hm => hV m (by simp [hm])) (by omega)
    refine ⟨v2, ?_, p1.cons p2⟩
    rw [List.foldlM_cons, e1]
    exact e2

theorem dfsVisit_spec (es : List Edge) (V : List Nat) (hV : ∀ e ∈ es, e.2 ∈ V) :
    ∀ (fuel : Nat) (vis : List Nat) (n : Nat), n ∈ V → left V vis < fuel →
      ∃ vis', dfsVisit fuel es vis n = some vis' ∧ DfsPost es [n] vis vis' := by
  intro fuel
  induction fuel with
  | zero => intro _ _ _ h; omega
  | succ fuel ih =>
    intro vis n hn hf
    simp only [dfsVisit, List.contains_eq_mem, decide_eq_true_eq]
    by_cases h : n ∈ vis
    · rw [if_pos h]
      exact ⟨vis, rfl, fun _ h => h, fun h => h, by simpa using h, fun x h => .inl h, fun x h h' => absurd h h'⟩
    · rw [if_neg h]
      have hlt := left_lt V vis (vis ++ [n]) (by simp +contextual) n hn h (by simp)
      obtain ⟨v', e, p⟩ := dfsFold_spec es V fuel ih (outs es n) (vis ++ [n])
        (fun m hm => hV _ ((mem_outs _ _ _).1 hm)) (by omega)
      refine ⟨v', e, fun x hx => p.sub x (by simp [hx]), ?_, ?_, ?_, ?_⟩
      · intro hnd
        apply p.nodup
        rw [List.nodup_append]
        exact ⟨hnd, by simp, fun a ha b hb e2 => by simp at hb; subst hb; exact h (e2 ▸ ha)⟩
      · intro m hm
        have : m = n := by simpa using hm
        subst this; exact p.sub _ (by simp)
      · intro x hx
        rcases p.reach x hx with hx | ⟨m, hm, hr⟩
        · rcases List.mem_append.1 hx with hx | hx
          · exact .inl hx
          · have : x = n := by simpa using hx
            subst this; exact .inr ⟨x, by simp, .refl x⟩
        · exact .inr ⟨n, by simp, reach_trans (.step (.refl n) ((mem_outs _ _ _).1 hm)) hr⟩
      · intro x hx hxv d hd
        by_cases hxn : x = n
        · subst hxn; exact p.start d ((mem_outs _ _ _).2 hd)
        · exact p.closed x hx (by simp [hxv, hxn]) d hd

theorem dfsOrder_spec (es : List Edge) (sources : List Nat) :
    ∃ out, dfsOrder es sources = some out ∧ out.Nodup ∧ ∀ b, b ∈ out ↔ ∃ s ∈ sources, Reach es s b := by
  have hV : ∀ e ∈ es, e.2 ∈ sources ++ es.map (·.2) := by
    intro e he; simp only [List.mem_append, List.mem_map]; exact Or.inr ⟨e, he, rfl⟩
  obtain ⟨out, e, p⟩ := dfsFold_spec es (sources ++ es.map (·.2)) (sources.length + es.length + 1)
    (dfsVisit_spec es _ hV _) sources [] (by simp +contextual) (by
      have := left_le (sources ++ es.map (·.2)) []
      simp only [List.length_append, List.length_map] at this; omega)
  refine ⟨out, e, p.nodup (by simp), ?_⟩
  apply closed_mem_iff p.start
  · intro x hx
    rcases p.reach x hx with h | h
    · simp at h
    · exact h
  · intro x hx; exact p.closed x hx (by simp)

end Verif.Sched
