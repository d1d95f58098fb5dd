import Verif.History.Lemmas
/-!
# C08, C09 — the history buffer is a bounded list, and its contiguous views show that list
-/
namespace Verif.History
variable {α : Type}

/-- One call: the implementation answers what the bounded list answers and stays in agreement with it. -/
theorem step_sim (dflt : α) {h : H α} {s : S α} (hs : Sim h s) (hb : h.g.cap < 2 ^ 64) (o : Op α)
    (hspan : o.spanOk s.items.length) (hcap : o.capOk) :
    Sim (h.step dflt o).1 (s.step o).1 ∧ (h.step dflt o).2 = (s.step o).2 ∧ (h.step dflt o).1.g.cap < 2 ^ 64 := by
  have fin : ∀ {h' : H α} {s' : S α}, Sim h' s' → s'.cap = s.cap → h'.g.cap < 2 ^ 64 := by
    intro h' s' h1 h2; rw [← h1.cap, h2, hs.cap]; exact hb
  cases o with
  | pushFront v => exact ⟨sim_pushFront hs v, rfl, fin (sim_pushFront hs v) rfl⟩
  | pushFrontRange xs => exact ⟨sim_pushFrontRange hs xs, rfl, fin (sim_pushFrontRange hs xs) rfl⟩
  | pushBack v => exact ⟨sim_pushBack hs v, rfl, fin (sim_pushBack hs v) rfl⟩
  | pushBackRange xs => exact ⟨sim_pushBackRange hs xs, rfl, fin (sim_pushBackRange hs xs) rfl⟩
  | popFront =>
    have := sim_popFront hs
    simp only [H.step, S.step]
    split at this
    · next h1 h2 => simp only [h1, h2]; exact ⟨hs, by simp, hb⟩
    · next h1 h2 => simp only [h1, h2]; exact ⟨this, by simp, fin this rfl⟩
    · exact this.elim
  | popBack =>
    have := sim_popBack hs
    simp only [H.step, S.step]
    split at this
    · next h1 h2 => simp only [h1, h2]; exact ⟨hs, by simp, hb⟩
    · next h1 h2 =>
      have f := fin this rfl
      simp only [h1]
      split
      · next h3 => rw [h3] at h2; cases h2
      · exact ⟨this, by simp, f⟩
    · exact this.elim
  | resize c =>
    simp only [H.step, S.step]
    by_cases hd : h.g.dyn = true
    · by_cases hc : c = 0
      · subst hc
        have : h.resize dflt 0 = none := by simp [H.resize]
        simp only [hd, this, hs.dyn, ↓reduceIte, ne_eq, not_true_eq_false, and_false]
        exact ⟨hs, by simp, hb⟩
      · obtain ⟨h', e1, e2, e3⟩ := sim_resize hs hd dflt c hc
        simp only [hd, e1, hs.dyn, ↓reduceIte, ne_eq, hc, not_false_eq_true, and_self]
        refine ⟨?_, by simp, by rw [e3]; exact hcap⟩
        have := e2
        simpa only [hs.dyn, hd] using this
    · simp only [hd, hs.dyn, ↓reduceIte, false_and, Bool.false_eq_true]
      exact ⟨hs, by simp, hb⟩
  | reset d => exact ⟨sim_reset hs d, rfl, fin (sim_reset hs d) rfl⟩
  | «at» i =>
    obtain ⟨a, b⟩ := sim_at hs i
    simp only [H.step, S.step]
    by_cases hi : i ≥ h.size
    · simp only [hi, ↓reduceIte, a hi]; exact ⟨hs, by simp, hb⟩
    · simp only [hi, ↓reduceIte, b (by omega)]; exact ⟨hs, by simp, hb⟩
  | span i len =>
    obtain ⟨a, b⟩ := sim_span hs i len hspan hb
    simp only [H.step, S.step]
    exact ⟨a, by rw [b], fin a rfl⟩
  | iter =>
    obtain ⟨a, b⟩ := sim_iter hs
    simp only [H.step, S.step]
    exact ⟨a, by rw [b], fin a rfl⟩

/-- Any history of calls on a buffer that agrees with a bounded list gives the list's answers. -/
theorem run_sim (dflt : α) (os : List (Op α)) : ∀ {h : H α} {s : S α}, Sim h s → h.g.cap < 2 ^ 64 → SpansInRange os s → SmallCaps os →
    Sim (runH dflt os h).1 (runS os s).1 ∧ (runH dflt os h).2 = (runS os s).2 := by
  induction os with
  | nil => intro h s hs _ _ _; exact ⟨hs, rfl⟩
  | cons o os ih =>
    intro h s hs hb h1 h2
    obtain ⟨a, b, c⟩ := step_sim dflt hs hb o h1.1 (h2 o (by simp))
    obtain ⟨d, e⟩ := ih a c h1.2 (fun x hx => h2 x (by simp [hx]))
    simp only [runH, runS]
    exact ⟨d, by rw [b, e]⟩

/-- C08 + C09 (run-time sized buffer). For every capacity, every sequence of pushes (single and bulk, either end), pops,
resizes, resets, indexed reads, spans and iterations produces exactly the results a bounded list produces, and no access
leaves the storage. -/
theorem dynamic_refines_bounded_list (dflt : α) (cap : Nat) (hcap : 0 < cap) (hb : cap < 2 ^ 64) (os : List (Op α))
    (h1 : SpansInRange os ⟨true, cap, []⟩) (h2 : SmallCaps os) :
    ∃ h, H.mkDyn dflt cap = some h ∧
      (runH dflt os h).2 = (runS os ⟨true, cap, []⟩).2 ∧
      (runH dflt os h).1.oob = false ∧
      (runH dflt os h).1.size = (runS os ⟨true, cap, []⟩).1.items.length ∧
      (runH dflt os h).1.g.cap = (runS os ⟨true, cap, []⟩).1.cap := by
  have e : H.mkDyn dflt cap = some ⟨⟨true, 0, bitCeil cap - 1, cap⟩, fun _ => dflt, 0, 0, 0, false⟩ := by
    unfold H.mkDyn; rw [if_neg (by omega)]
  obtain ⟨a, b⟩ := run_sim dflt os (sim_mkDyn dflt cap _ e) hb h1 h2
  exact ⟨_, e, b, a.oob, a.core.len, a.cap.symm⟩

/-- C08 + C09 (compile-time sized buffer, any `N > 0`, power of two or not). -/
theorem fixed_refines_bounded_list (dflt : α) (n : Nat) (hn : 0 < n) (hb : n < 2 ^ 64) (os : List (Op α))
    (h1 : SpansInRange os ⟨false, n, []⟩) (h2 : SmallCaps os) :
    (runH dflt os (H.mkFixed dflt n)).2 = (runS os ⟨false, n, []⟩).2 ∧
      (runH dflt os (H.mkFixed dflt n)).1.oob = false ∧
      (runH dflt os (H.mkFixed dflt n)).1.size = (runS os ⟨false, n, []⟩).1.items.length := by
  obtain ⟨a, b⟩ := run_sim dflt os (sim_mkFixed dflt n hn) hb h1 h2
  exact ⟨b, a.oob, a.core.len⟩

/-- The bounded list never exceeds its capacity (sanity of the specification). -/
theorem spec_bounded (os : List (Op α)) : ∀ s : S α, s.items.length ≤ s.cap → (runS os s).1.items.length ≤ (runS os s).1.cap := by
  induction os with
  | nil => intro s h; exact h
  | cons o os ih =>
    intro s h
    simp only [runS]
    apply ih
    cases o with
    | popFront => simp only [S.step]; split <;> simp_all; omega
    | popBack => simp only [S.step]; split <;> simp_all; omega
    | resize c => simp only [S.step]; split <;> simp_all; omega
    | «at» i => simp only [S.step]; split <;> simp_all
    | span i l => exact h
    | iter => exact h
    | _ => simp [S.step, lastN] <;> omega

/-- C09, stated directly: whatever the history, a contiguous view of `len` elements from `i` equals the elements read one
by one through `at`. -/
theorem view_equals_indexed (dflt : α) (n : Nat) (hn : 0 < n) (hb : n < 2 ^ 64) (os : List (Op α))
    (h1 : SpansInRange os ⟨false, n, []⟩) (h2 : SmallCaps os) (i len : Nat)
    (hil : i + len ≤ (runH dflt os (H.mkFixed dflt n)).1.size) :
    ((runH dflt os (H.mkFixed dflt n)).1.span i len).2
      = (List.range len).map (fun j => (runH dflt os (H.mkFixed dflt n)).1.get (i + j)) := by
  obtain ⟨a, b⟩ := run_sim dflt os (sim_mkFixed dflt n hn) hb h1 h2
  have hcapb : (runH dflt os (H.mkFixed dflt n)).1.g.cap < 2 ^ 64 := by
    have : ∀ (os : List (Op α)) (s : S α), s.dyn = false → (runS os s).1.cap = s.cap := by
      intro os
      induction os with
      | nil => intro s _; rfl
      | cons o os ih =>
        intro s hd
        have h3 : (s.step o).1.dyn = false ∧ (s.step o).1.cap = s.cap := by
          cases o <;> simp only [S.step] <;> (try split) <;> simp_all
        simp only [runS]; rw [ih _ h3.1, h3.2]
    rw [← a.cap, this os _ rfl]; exact hb
  have hl := a.core.len
  rw [(sim_span a i len (by omega) hcapb).2]
  apply List.ext_getElem?
  intro j
  by_cases hj : j < len
  · rw [List.getElem?_take_of_lt hj, List.getElem?_drop, (sim_at a (i + j)).2 (by omega)]
    simp [List.getElem?_range hj]
  · rw [List.getElem?_take, if_neg hj, List.getElem?_eq_none (by simp; omega)]

/-! Non-vacuity: a mixed history on a buffer of capacity 3 (ring of 4), and on a fixed, non-power-of-two buffer. -/
def demo : List (Op Nat) :=
  [.pushBack 1, .pushBack 2, .pushFront 9, .pushBackRange [3, 4], .span 0 3, .popFront, .pushFront 7, .pushFrontRange [8, 5], .iter, .at 2, .popBack, .at 2]

example : SpansInRange demo ⟨true, 3, []⟩ ∧ SmallCaps demo := by
  simp [demo, SpansInRange, SmallCaps, Op.spanOk, Op.capOk, S.step, lastN]

example : (runS demo ⟨true, 3, []⟩).2 =
    [.done, .done, .done, .done, .view [2, 3, 4], .done, .done, .done, .view [5, 8, 7], .value 7, .done, .thrown] := by
  simp [demo, runS, S.step, lastN]

/-! ### Findings -/

/-- C09 fails for elements changed through the reference returned by `operator[]`: the mirror copy is not refreshed, so the
contiguous view still shows the old value. Capacity 2, `push_back(1,2,3)`, then `buf[1] = 9`. -/
theorem write_through_index_leaves_stale_view :
    let h := ((((H.mkFixed 0 2).pushBack 1).pushBack 2).pushBack 3).assign 1 9
    h.get 1 = 9 ∧ (h.span 0 2).2 = [2, 3] ∧ h.oob = false := by decide

/-- `get_span(index)` with `index > size()` is not rejected: `_size - index` wraps, and the span leaves the storage. -/
theorem span_past_end_leaves_storage :
    ((H.mkFixed 0 4).pushBack 1 |>.span 2 8).1.oob = true ∧ ((H.mkFixed 0 4).pushBack 1 |>.span 2 8).2.length = 8 := by decide

/-- In `push_back` mode (index 0 is the oldest element) a shrinking `resize` keeps the oldest elements and drops the newest. -/
theorem shrinking_keeps_oldest :
    (((H.mkDyn 0 4).map fun h => ((h.pushBackRange [1, 2, 3, 4]).resize 0 2).map fun h => (h.iter).2)) = some (some [1, 2]) := by decide

end Verif.History
