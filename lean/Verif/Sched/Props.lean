import Verif.Sched.Lemmas
/-!
# C46, C47, C49: work lists, execution orders, one scheduler pass
-/
namespace Verif.Sched

/-! ## C46 — every block is assigned to exactly one worker -/

/-- **C46**: the `i`-th worker gets exactly the blocks at positions `i`, `i + n`, `i + 2n`, … -/
theorem batch_positions {α : Type} (xs : List α) (n i k : Nat) (hi : i < n) :
    ∃ l, (batchBlocks xs n)[i]? = some l ∧ l[k]? = xs[i + k * n]? := by
  refine ⟨strideFrom xs n i, ?_, strideFrom_eq xs n i (by omega) k⟩
  simp [batchBlocks, hi]

/-- **C46, exactly one worker**: for any number of workers the work lists together hold every block, each in one list, once. -/
theorem batch_exactly_one {α : Type} [DecidableEq α] (xs : List α) (n : Nat) (hn : 0 < n) (hnd : xs.Nodup) :
    (batchBlocks xs n).length = n ∧ ExactlyOneWorker (batchBlocks xs n) xs := by
  have hget : ∀ i l, (batchBlocks xs n)[i]? = some l → i < n ∧ l = strideFrom xs n i := by
    intro i l h
    simp only [batchBlocks, List.getElem?_map, List.getElem?_range] at h
    by_cases hi : i < n
    · simp [hi] at h; exact ⟨hi, h.symm⟩
    · simp [hi] at h
  have hpos : ∀ (p q : Nat) (b : α), xs[p]? = some b → xs[q]? = some b → p = q := by
    intro p q b hp hq
    exact nodup_getElem?_inj hnd hp hq
  refine ⟨by simp [batchBlocks], ?_, ?_⟩
  · intro l hl b hb
    obtain ⟨i, hi, e⟩ := List.mem_map.1 hl
    subst e
    obtain ⟨k, hk⟩ := (mem_strideFrom xs n i hn b).1 hb
    exact List.mem_of_getElem? hk
  · intro b hb
    obtain ⟨p, hp⟩ := List.mem_iff_getElem?.1 hb
    have hpn : p % n + p / n * n = p := by rw [Nat.mul_comm]; exact Nat.mod_add_div p n
    have hlt : p % n < n := Nat.mod_lt p hn
    refine ⟨p % n, ⟨strideFrom xs n (p % n), by simp [batchBlocks, hlt], ?_⟩, ?_⟩
    · have hmem : b ∈ strideFrom xs n (p % n) := (mem_strideFrom xs n _ hn b).2 ⟨p / n, by rw [hpn]; exact hp⟩
      have hnd' : (strideFrom xs n (p % n)).Nodup := by
        unfold List.Nodup
        rw [List.pairwise_iff_getElem]
        intro i j hi hj hij e
        have e1 := strideFrom_eq xs n (p % n) hn i
        have e2 := strideFrom_eq xs n (p % n) hn j
        rw [List.getElem?_eq_getElem hi] at e1
        rw [List.getElem?_eq_getElem hj, ← e] at e2
        have := hpos _ _ _ e1.symm e2.symm
        have h3 : i * n < j * n := Nat.mul_lt_mul_of_pos_right hij hn
        omega
      exact nodup_count_one hnd' hmem
    · intro j l hj hbl
      obtain ⟨hjn, e⟩ := hget j l hj
      subst e
      obtain ⟨k, hk⟩ := (mem_strideFrom xs n j hn b).1 hbl
      have := hpos _ _ _ hk hp
      rw [← this, Nat.add_mul_mod_self_right, Nat.mod_eq_of_lt hjn]

/-- **C46, balance**: the sizes of any two work lists differ by at most one. -/
theorem batch_balanced {α : Type} (xs : List α) (n : Nat) (l l' : List α) (h : l ∈ batchBlocks xs n) (h' : l' ∈ batchBlocks xs n) :
    l.length ≤ l'.length + 1 := by
  obtain ⟨i, hi, e⟩ := List.mem_map.1 h
  obtain ⟨j, hj, e'⟩ := List.mem_map.1 h'
  rw [List.mem_range] at hi hj
  subst e; subst e'
  have hn : 0 < n := by omega
  rw [strideFrom_length _ _ _ hn, strideFrom_length _ _ _ hn]
  have h1 : (xs.length - i + (n - 1)) / n ≤ (xs.length + (n - 1)) / n := Nat.div_le_div_right (by omega)
  have h2 : (xs.length - j + (n - 1) + n) / n = (xs.length - j + (n - 1)) / n + 1 := Nat.add_div_right _ hn
  have h3 : (xs.length + (n - 1)) / n ≤ (xs.length - j + (n - 1) + n) / n := Nat.div_le_div_right (by omega)
  omega

/-- **C46 for the `Simple` scheduler**: with at least one block, whatever the thread pool's size and load and whatever the execution
policy, every block is in exactly one work list, no work list is empty, and their number never exceeds the free threads (at least
one). -/
theorem simple_exactly_one {α : Type} [DecidableEq α] (mt : Bool) (poolMax busy : Nat) (blocks : List α) (hb : blocks ≠ [])
    (hnd : blocks.Nodup) :
    ExactlyOneWorker (simpleOrder mt poolMax busy blocks) blocks ∧
    (∀ l ∈ simpleOrder mt poolMax busy blocks, l ≠ []) ∧
    (∀ l ∈ simpleOrder mt poolMax busy blocks, ∀ l' ∈ simpleOrder mt poolMax busy blocks, l.length ≤ l'.length + 1) ∧
    0 < (simpleOrder mt poolMax busy blocks).length ∧
    (simpleOrder mt poolMax busy blocks).length ≤ max 1 (poolMax - busy) := by
  have hlen : 0 < blocks.length := by
    cases blocks with
    | nil => exact absurd rfl hb
    | cons _ _ => simp
  have hat : 0 < availableThreadCount poolMax busy ∧ availableThreadCount poolMax busy ≤ max 1 (poolMax - busy) := by
    unfold availableThreadCount; split <;> omega
  have hnb : 0 < nBatches mt (availableThreadCount poolMax busy) blocks.length ∧
      nBatches mt (availableThreadCount poolMax busy) blocks.length ≤ blocks.length ∧
      nBatches mt (availableThreadCount poolMax busy) blocks.length ≤ max 1 (poolMax - busy) := by
    unfold nBatches; split <;> omega
  unfold simpleOrder
  generalize nBatches mt (availableThreadCount poolMax busy) blocks.length = n at hnb
  obtain ⟨h1, h2⟩ := batch_exactly_one blocks n hnb.1 hnd
  refine ⟨h2, ?_, fun l hl l' hl' => batch_balanced blocks n l l' hl hl', by omega, by omega⟩
  intro l hl
  obtain ⟨i, hi, e⟩ := List.mem_map.1 hl
  rw [List.mem_range] at hi
  subst e
  intro e
  have := strideFrom_length blocks n i hnb.1
  rw [e] at this
  have : 1 ≤ (blocks.length - i + (n - 1)) / n := (Nat.le_div_iff_mul_le hnb.1).2 (by omega)
  simp at *
  omega

example : simpleOrder true 4 1 [10, 11, 12, 13, 14, 15, 16] = [[10, 13, 16], [11, 14], [12, 15]] := by decide +kernel
example : simpleOrder true 2 7 [10, 11] = [[10, 11]] := by decide +kernel
example : simpleOrder false 8 0 [10, 11] = [[10, 11]] := by decide +kernel

/-- The multi-threaded scheduler creates no work list at all for a graph without blocks (a debug build stops at the assertion in
Scheduler.hpp:816): blocks added later find no list to be adopted into (see `Dyn.adopt_lost_without_lists`). -/
theorem simple_empty_graph_no_worker (poolMax busy : Nat) : simpleOrder true poolMax busy ([] : List Nat) = [] := by
  simp [simpleOrder, nBatches, batchBlocks]

/-! ## C47 — breadth-first and depth-first execution orders

The property as stated — every block of the graph occurs exactly once — is false of the code: only blocks fed by a source block occur
(`bfs_dfs_skip_isolated`, `bfs_dfs_skip_sourceless_loop`). What holds for every graph is that the order lists exactly the fed blocks,
once each. -/

/-- **C47, breadth first**: the search ends, lists no block twice, and lists exactly the blocks fed by a source. -/
theorem bfs_exactly_fed_partial (es : List Edge) (sources : List Nat) (hs : ∀ b, b ∈ sources ↔ b ∈ findSourceBlocks es) :
    ∃ order, bfsOrder es sources = some order ∧ order.Nodup ∧ ∀ b, b ∈ order ↔ Fed es b := by
  obtain ⟨out, h1, h2, h3⟩ := bfsOrder_spec es sources
  refine ⟨out, h1, h2, fun b => ?_⟩
  rw [h3]
  simp only [hs, mem_findSourceBlocks, Fed]

/-- **C47, depth first** -/
theorem dfs_exactly_fed_partial (es : List Edge) (sources : List Nat) (hs : ∀ b, b ∈ sources ↔ b ∈ findSourceBlocks es) :
    ∃ order, dfsOrder es sources = some order ∧ order.Nodup ∧ ∀ b, b ∈ order ↔ Fed es b := by
  obtain ⟨out, h1, h2, h3⟩ := dfsOrder_spec es sources
  refine ⟨out, h1, h2, fun b => ?_⟩
  rw [h3]
  simp only [hs, mem_findSourceBlocks, Fed]

/-- **C47, graphs in which every block is fed** (no isolated blocks, no loops without an external source): both orders contain every
block exactly once, and after batching every block is in exactly one worker's list. -/
theorem bfs_dfs_complete_partial (blocks : List Nat) (es : List Edge) (sources : List Nat)
    (hs : ∀ b, b ∈ sources ↔ b ∈ findSourceBlocks es) (hall : ∀ b ∈ blocks, Fed es b)
    (hin : ∀ e ∈ es, e.1 ∈ blocks ∧ e.2 ∈ blocks) (n : Nat) (hn : 0 < n) :
    ∃ o₁ o₂, bfsOrder es sources = some o₁ ∧ dfsOrder es sources = some o₂ ∧
      (∀ b ∈ blocks, o₁.count b = 1 ∧ o₂.count b = 1) ∧ (∀ b, b ∈ o₁ ∨ b ∈ o₂ → b ∈ blocks) ∧
      ExactlyOneWorker (batchBlocks o₁ n) o₁ ∧ ExactlyOneWorker (batchBlocks o₂ n) o₂ := by
  obtain ⟨o₁, h1, h2, h3⟩ := bfs_exactly_fed_partial es sources hs
  obtain ⟨o₂, g1, g2, g3⟩ := dfs_exactly_fed_partial es sources hs
  have hfed : ∀ b, Fed es b → b ∈ blocks := by
    rintro b ⟨s, ⟨⟨d, hd⟩, _⟩, hr⟩
    cases hr with
    | refl => exact (hin _ hd).1
    | step _ he => exact (hin _ he).2
  refine ⟨o₁, o₂, h1, g1, ?_, ?_, (batch_exactly_one o₁ n hn h2).2, (batch_exactly_one o₂ n hn g2).2⟩
  · intro b hb
    exact ⟨nodup_count_one h2 ((h3 b).2 (hall b hb)), nodup_count_one g2 ((g3 b).2 (hall b hb))⟩
  · rintro b (hb | hb)
    · exact hfed b ((h3 b).1 hb)
    · exact hfed b ((g3 b).1 hb)

-- a diamond with a feedback edge: 1 → 2 → 4, 1 → 3 → 4, 4 → 2
example : bfsOrder [(1, 2), (1, 3), (2, 4), (3, 4), (4, 2)] (findSourceBlocks [(1, 2), (1, 3), (2, 4), (3, 4), (4, 2)])
    = some [1, 2, 3, 4] := by decide +kernel
example : dfsOrder [(1, 2), (1, 3), (2, 4), (3, 4), (4, 2)] (findSourceBlocks [(1, 2), (1, 3), (2, 4), (3, 4), (4, 2)])
    = some [1, 2, 4, 3] := by decide +kernel

/-- **C47 fails for a block without edges**: it is in the graph but in neither order, and never runs. -/
theorem bfs_dfs_skip_isolated :
    bfsOrder [(1, 2)] (findSourceBlocks [(1, 2)]) = some [1, 2] ∧ dfsOrder [(1, 2)] (findSourceBlocks [(1, 2)]) = some [1, 2] ∧
    3 ∉ [1, 2] := by decide +kernel

/-- **C47 fails for a loop without an external source**: 1 → 2 → 3 → 2 has all blocks, but 5 → 6 → 5 beside it never runs. -/
theorem bfs_dfs_skip_sourceless_loop :
    bfsOrder [(1, 2), (5, 6), (6, 5)] (findSourceBlocks [(1, 2), (5, 6), (6, 5)]) = some [1, 2] ∧
    dfsOrder [(1, 2), (5, 6), (6, 5)] (findSourceBlocks [(1, 2), (5, 6), (6, 5)]) = some [1, 2] := by decide +kernel

/-! ## C49 — the result of one scheduler pass -/

theorem traverseLoop_spec (m : Nat) (rs : List Result) : ∀ (p : Nat) (u : Bool) (c : Nat),
    (∀ r ∈ rs, r.status ≠ .error) →
    traverseLoop m rs p u c =
      (⟨m, p + (rs.map (·.performed)).sum, if (u = true ∨ ∃ r ∈ rs, r.status ≠ .done) then .ok else .done⟩, c + rs.length) := by
  induction rs with
  | nil => intro p u c _; cases u <;> simp [traverseLoop]
  | cons r rs ih =>
    intro p u c h
    have hr := h r (by simp)
    simp only [traverseLoop, if_neg hr]
    rw [ih _ _ _ (fun r hr => h r (by simp [hr]))]
    simp only [List.map_cons, List.sum_cons, List.length_cons, Nat.add_assoc, Nat.add_comm 1]
    by_cases hd : r.status = .done <;> simp [hd]

/-- **C49, no error**: every block is called once, the performed work is the sum, and the pass is DONE exactly when every block is. -/
theorem traverse_no_error (m : Nat) (rs : List Result) (h : ∀ r ∈ rs, r.status ≠ .error) :
    (traverseBlockListOnce m rs).2 = rs.length ∧
    (traverseBlockListOnce m rs).1.performed = (rs.map (·.performed)).sum ∧
    (traverseBlockListOnce m rs).1.status ≠ .error ∧
    ((traverseBlockListOnce m rs).1.status = .done ↔ ∀ r ∈ rs, r.status = .done) := by
  unfold traverseBlockListOnce
  rw [traverseLoop_spec m rs 0 false 0 h]
  refine ⟨by simp, by simp, ?_, ?_⟩
  · dsimp only; split <;> simp
  · dsimp only
    by_cases hd : ∃ r ∈ rs, r.status ≠ .done
    · simp only [hd, or_true, if_true]
      obtain ⟨r, hr, hne⟩ := hd
      simp only [reduceCtorEq, false_iff]
      intro hall; exact hne (hall r hr)
    · simp only [hd, Bool.false_eq_true, or_self, if_false, true_iff]
      intro r hr
      exact Classical.byContradiction fun hne => hd ⟨r, hr, hne⟩

theorem traverseLoop_error (m : Nat) (e : Result) (he : e.status = .error) (post : List Result) :
    ∀ (pre : List Result) (p : Nat) (u : Bool) (c : Nat), (∀ r ∈ pre, r.status ≠ .error) →
    traverseLoop m (pre ++ e :: post) p u c =
      (⟨e.requested, p + (pre.map (·.performed)).sum + e.performed, .error⟩, c + pre.length + 1) := by
  intro pre
  induction pre with
  | nil => intro p u c _; simp [traverseLoop, he]
  | cons r pre ih =>
    intro p u c h
    have hr := h r (by simp)
    rw [List.cons_append]
    simp only [traverseLoop, if_neg hr]
    rw [ih _ _ _ (fun r hr => h r (by simp [hr]))]
    simp only [List.map_cons, List.sum_cons, List.length_cons, Nat.add_assoc, Nat.add_comm 1]

/-- **C49, error**: the pass ends at the first block that reports an error; later blocks are not called; the performed work is that of
the blocks called. -/
theorem traverse_error (m : Nat) (pre post : List Result) (e : Result) (hpre : ∀ r ∈ pre, r.status ≠ .error)
    (he : e.status = .error) :
    traverseBlockListOnce m (pre ++ e :: post) =
      (⟨e.requested, ((pre ++ [e]).map (·.performed)).sum, .error⟩, (pre ++ [e]).length) := by
  unfold traverseBlockListOnce
  rw [traverseLoop_error m e he post pre 0 false 0 hpre]
  simp

/-- **C49** as one equivalence -/
theorem traverse_status (m : Nat) (rs : List Result) :
    ((traverseBlockListOnce m rs).1.status = .done ↔ ∀ r ∈ rs, r.status = .done) ∧
    ((traverseBlockListOnce m rs).1.status = .error ↔ ∃ r ∈ rs, r.status = .error) ∧
    (traverseBlockListOnce m rs).1.performed = ((rs.take (traverseBlockListOnce m rs).2).map (·.performed)).sum := by
  by_cases h : ∃ r ∈ rs, r.status = .error
  · have : ∃ pre e post, rs = pre ++ e :: post ∧ (∀ r ∈ pre, r.status ≠ .error) ∧ e.status = .error := by
      induction rs with
      | nil => simp at h
      | cons r rs ih =>
        by_cases hr : r.status = .error
        · exact ⟨[], r, rs, rfl, by simp, hr⟩
        · obtain ⟨x, hx, hxe⟩ := h
          rcases List.mem_cons.1 hx with e | hx
          · subst e; exact absurd hxe hr
          · obtain ⟨pre, e, post, h1, h2, h3⟩ := ih ⟨x, hx, hxe⟩
            refine ⟨r :: pre, e, post, by simp [h1], ?_, h3⟩
            intro y hy
            rcases List.mem_cons.1 hy with ey | hy
            · subst ey; exact hr
            · exact h2 y hy
    obtain ⟨pre, e, post, h1, h2, h3⟩ := this
    subst h1
    rw [traverse_error m pre post e h2 h3]
    refine ⟨?_, ?_, ?_⟩
    · simp only [reduceCtorEq, false_iff]
      intro hall
      have := hall e (by simp)
      rw [h3] at this; cases this
    · simp only [true_iff]; exact ⟨e, by simp, h3⟩
    · have e1 : pre ++ e :: post = (pre ++ [e]) ++ post := by simp
      dsimp only
      rw [e1, List.take_left]
  · have hne : ∀ r ∈ rs, r.status ≠ .error := fun r hr he => h ⟨r, hr, he⟩
    obtain ⟨h1, h2, h3, h4⟩ := traverse_no_error m rs hne
    refine ⟨h4, ⟨fun he => absurd he h3, fun he => absurd he h⟩, ?_⟩
    rw [h1, List.take_length, h2]

example : traverseBlockListOnce 100 [⟨5, 5, .ok⟩, ⟨7, 3, .done⟩, ⟨9, 1, .error⟩, ⟨4, 4, .ok⟩] = (⟨9, 9, .error⟩, 3) := by decide +kernel
example : traverseBlockListOnce 100 [⟨5, 0, .done⟩, ⟨7, 0, .insufficientIn⟩] = (⟨100, 0, .ok⟩, 2) := by decide +kernel
/-- an empty work list is DONE (which is why `poolWorker` treats it separately, Scheduler.hpp:936) -/
example : traverseBlockListOnce 100 [] = (⟨100, 0, .done⟩, 0) := by decide +kernel

end Verif.Sched
