import Verif.Bitset.Lemmas
/-!
# C27 — range updates of the atomic bitset
-/
namespace Verif.Bitset

/-- **C27 (exact range).** After `set(begin, end, value)` exactly the bits `begin ≤ p < end` read as `value`; every other bit
reads as before. -/
theorem range_update_exact (b e : Nat) (v : Bool) (hbe : b ≤ e) (m : Mem) (p : Nat) :
    test ((setRange b e v).foldl apply m) p = if b ≤ p ∧ p < e then v else test m p := by
  have := call_bit (.range b e v) e ⟨hbe, Nat.le_refl _⟩ m p
  simp only [test_eq]
  simpa [Call.ops, specCall, Call.touches, Call.value] using this

example : (setRange 3 200 true).length = 4 ∧ test ((setRange 3 200 true).foldl apply (fun _ => 0)) 199 = true
    ∧ test ((setRange 3 200 true).foldl apply (fun _ => 0)) 200 = false
    ∧ test ((setRange 3 200 true).foldl apply (fun _ => 0)) 2 = false := by decide +kernel

/-- **C27 (single bit).** -/
theorem bit_update_exact (q : Nat) (v : Bool) (m : Mem) (p : Nat) :
    test ((setBit q v).foldl apply m) p = if p = q then v else test m p := by
  have := call_bit (.bit q v) (q + 1) (Nat.lt_succ_self q) m p
  simp only [test_eq]
  simpa [Call.ops, specCall, Call.touches, Call.value] using this

/-- **C27 (memory safety).** A call whose assertion holds only touches words that exist. -/
theorem no_word_out_of_range (c : Call) (size : Nat) (hc : c.valid size) : ∀ o ∈ c.ops, o.word < nWords size := by
  cases c with
  | bit p v =>
    intro o ho; simp [Call.ops, setBit] at ho; subst ho
    simp only [Call.valid] at hc; simp [WOp.word, nWords]; omega
  | range b e v => exact setRange_words b e size v hc.1 hc.2

/-- **C27 (concurrency).** Any number of threads, each performing any sequence of calls, in any interleaving of their
atomic loads, compare-and-swaps and stores: once all threads have finished, a bit that only thread `t` addresses
has the value thread `t`'s calls give it when executed alone on a plain array of Booleans. -/
theorem disjoint_updates_are_not_lost (size : Nat) (m : Mem) (programs : List (List Call))
    (hvalid : ∀ cs ∈ programs, ∀ c ∈ cs, c.valid size) (schedule : List Nat)
    (hdone : ∀ th ∈ (schedule.foldl step (start m programs)).threads, th.todo = [])
    (p t : Nat) (cs : List Call) (ht : programs[t]? = some cs)
    (hdisj : ∀ t' cs', t' ≠ t → programs[t']? = some cs' → ∀ c ∈ cs', ¬ c.touches p) :
    test (schedule.foldl step (start m programs)).mem p = (cs.foldl specCall (test m)) p := by
  have inv := inv_run (inv_start m programs) schedule
  generalize schedule.foldl step (start m programs) = c at *
  have hfun : test m = bitOf m := funext (test_eq m)
  rw [test_eq, hfun, inv.mem]
  have hlogs : ∀ t' cs', programs[t']? = some cs' → logOf c t' = cs'.flatMap Call.ops := by
    intro t' cs' h
    have hlt : t' < c.threads.length := by
      rw [inv.len, List.length_map]
      rcases Nat.lt_or_ge t' programs.length with h' | h'
      · exact h'
      · rw [List.getElem?_eq_none h'] at h; cases h
    have h1 := inv.prog t' c.threads[t'] (List.getElem?_eq_getElem hlt)
    rw [List.getElem?_map, h] at h1
    simp only [Option.map_some, Option.some.injEq] at h1
    rw [hdone _ (List.getElem_mem hlt), List.append_nil] at h1
    exact h1.symm
  rw [fold_only t p]
  · have := hlogs t cs ht
    unfold logOf at this
    rw [this]
    exact seq_bit cs size (hvalid cs (List.mem_of_getElem? ht)) m p
  · intro x hx hne
    -- the access belongs to some thread's program
    have hmem : x.2 ∈ logOf c x.1 := by
      unfold logOf
      exact List.mem_map.mpr ⟨x, List.mem_filter.mpr ⟨hx, by simp⟩, rfl⟩
    cases hp : programs[x.1]? with
    | none =>
      have h1 := inv.own x hx
      rw [inv.len, List.length_map] at h1
      rw [List.getElem?_eq_getElem h1] at hp
      cases hp
    | some cs' =>
      have hl := hlogs x.1 cs' hp
      rw [hl] at hmem
      obtain ⟨c', hc', ho⟩ := List.mem_flatMap.mp hmem
      have hcov := ops_covers c' size (hvalid cs' (List.mem_of_getElem? hp) c' hc') p
      have hnt := hdisj x.1 cs' hne hp c' hc'
      rw [decide_eq_false hnt] at hcov
      have := List.any_eq_false.mp hcov x.2 ho
      simpa using this

/-- non-vacuity: two threads set and clear neighbouring ranges that share word 0; thread 1's first compare-and-swap
fails because thread 0 got in between, and is retried. -/
example :
    let c := [1, 0, 0, 1, 1, 1].foldl step (start (fun _ => 0#64) [[.range 0 5 true], [.range 5 9 true]])
    (∀ th ∈ c.threads, th.todo = []) ∧ c.mem 0 = 0x1FF#64 := by decide +kernel

end Verif.Bitset
