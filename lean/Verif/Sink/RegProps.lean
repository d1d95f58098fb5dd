import Verif.Sink.RegModel
/-!
# The registry of data sinks (C90)
-/
namespace Verif.Sink

/-! ### What should be

A sink is in use from when it first gets a signal name until it is stopped. -/

/-- the signal name of each sink, and which are in use, oldest first -/
structure Uses where
  name : Nat → Nat
  inUse : List Nat

/-- after one operation -/
def Uses.next (u : Uses) : RAct → Uses
  | .rename i new =>
    ⟨fun k => if k = i then new else u.name k,
      if u.name i = 0 ∧ new ≠ 0 ∧ i ∉ u.inUse then u.inUse ++ [i] else u.inUse⟩
  | .stop i => ⟨u.name, u.inUse.filter (· ≠ i)⟩

/-- after several -/
def Uses.after (u : Uses) (as : List RAct) : Uses := as.foldl Uses.next u

/-- at the start -/
def Uses.start : Uses := ⟨fun _ => 0, []⟩

/-- operations that ask for nothing impossible: a sink in use gets no empty name and no name of another sink in use, nor does one that
gets its first name; a sink is stopped while all sinks in use are of its type, and, if it is not in use itself, while no sink in use
has its name -/
def Uses.Fair (kind : Nat → Nat) (u : Uses) : RAct → Prop
  | .rename i new =>
    (i ∈ u.inUse → new ≠ 0) ∧ (i ∈ u.inUse ∨ u.name i = 0 → ∀ k ∈ u.inUse, k ≠ i → u.name k ≠ new)
  | .stop i => (∀ k ∈ u.inUse, kind k = kind i) ∧ (i ∉ u.inUse → ∀ k ∈ u.inUse, u.name k ≠ u.name i)

/-- all of them -/
def Uses.AllFair (kind : Nat → Nat) : Uses → List RAct → Prop
  | _, [] => True
  | u, a :: as => u.Fair kind a ∧ (u.next a).AllFair kind as

/-! ### What is -/

/-- registry and uses agree -/
private structure Agree (r : Reg) (u : Uses) : Prop where
  name : r.name = u.name
  listed : r.listed = u.inUse
  reg : ∀ i, r.reg i = true ↔ i ∈ u.inUse
  byName : ∀ n i, r.byName n = some i ↔ i ∈ u.inUse ∧ u.name i = n
  pos : ∀ i ∈ u.inUse, u.name i ≠ 0

private theorem agree_start : Agree Reg.start Uses.start :=
  ⟨rfl, rfl, fun i => by simp [Reg.start, Uses.start], fun n i => by simp [Reg.start, Uses.start], fun i h => by cases h⟩

private theorem agree_step {kind : Nat → Nat} {r : Reg} {u : Uses} (h : Agree r u) (a : RAct) (hf : u.Fair kind a) :
    ∃ r', r.step kind a = .done r' ∧ Agree r' (u.next a) := by
  obtain ⟨h1, h2, h3, h4, h5⟩ := h
  cases a with
  | rename i new =>
    obtain ⟨f1, f2⟩ := hf
    simp only [Reg.step, h1]
    by_cases ho : u.name i = 0
    · rw [if_pos ho]
      have hni : i ∉ u.inUse := fun hi => h5 i hi ho
      have hri : ¬ r.reg i = true := fun hr => hni ((h3 i).1 hr)
      simp only [Reg.register, upd, if_true]
      by_cases hn : new = 0
      · rw [if_pos (.inr hn)]
        refine ⟨_, rfl, ⟨rfl, ?_, ?_, ?_, ?_⟩⟩
        · simp [Uses.next, hn, h2]
        · simpa [Uses.next, hn] using h3
        · intro n k
          simp only [Uses.next, hn, ne_eq, not_true_eq_false, false_and, and_false, if_false, h4]
          refine ⟨fun ⟨a, b⟩ => ⟨a, ?_⟩, fun ⟨a, b⟩ => ⟨a, ?_⟩⟩
          · rw [if_neg (fun e : k = i => hni (e ▸ a))]; exact b
          · rw [if_neg (fun e : k = i => hni (e ▸ a))] at b; exact b
        · intro k hk
          simp only [Uses.next, hn, ne_eq, not_true_eq_false, false_and, and_false, if_false] at hk ⊢
          rw [if_neg (fun e : k = i => hni (e ▸ hk))]
          exact h5 k hk
      · rw [if_neg (fun e => e.elim hri hn)]
        have hnone : r.byName new = none := by
          cases e : r.byName new with
          | none => rfl
          | some k =>
            obtain ⟨hk, hkn⟩ := (h4 new k).1 e
            exact absurd hkn (f2 (.inr ho) k hk fun e => hni (e ▸ hk))
        rw [hnone]
        simp only [Option.isSome_none, Bool.false_eq_true, if_false]
        refine ⟨_, rfl, ⟨rfl, ?_, ?_, ?_, ?_⟩⟩
        · simp [Uses.next, ho, hn, hni, h2]
        · intro k
          simp only [upd, Uses.next, ho, hn, hni, ne_eq, not_false_eq_true, and_self, if_true, List.mem_append, List.mem_singleton]
          by_cases hk : k = i
          · simp [hk]
          · simp [hk, h3]
        · intro n k
          simp only [upd, Uses.next, ho, hn, hni, ne_eq, not_false_eq_true, and_self, if_true, List.mem_append, List.mem_singleton]
          by_cases hk : k = i
          · subst hk
            simp only [or_true, if_true, true_and]
            by_cases hnn : n = new
            · simp [hnn]
            · rw [if_neg hnn]
              refine ⟨fun e => absurd ((h4 n k).1 e).1 hni, fun e => absurd e.symm hnn⟩
          · simp only [hk, or_false, if_false]
            by_cases hnn : n = new
            · rw [if_pos hnn]
              refine ⟨fun e => absurd (Option.some.inj e).symm hk, fun ⟨a, b⟩ => absurd (b.trans hnn) (f2 (.inr ho) k a hk)⟩
            · rw [if_neg hnn]; exact h4 n k
        · intro k hk
          simp only [Uses.next, ho, hn, hni, ne_eq, not_false_eq_true, and_self, if_true, List.mem_append, List.mem_singleton] at hk ⊢
          by_cases hki : k = i
          · rw [if_pos hki]; exact hn
          · rw [if_neg hki]; exact h5 k (hk.resolve_right hki)
    · rw [if_neg ho]
      have hU : ∀ new, u.next (.rename i new) = ⟨fun k => if k = i then new else u.name k, u.inUse⟩ := fun new => by
        simp [Uses.next, ho]
      rw [hU]
      by_cases hi : i ∈ u.inUse
      · have hnew := f1 hi
        by_cases hon : u.name i = new
        · rw [if_neg (fun e => e.1 hon)]
          have hsame : (fun k => if k = i then new else u.name k) = u.name := by
            funext k; by_cases hk : k = i
            · rw [if_pos hk, hk, hon]
            · rw [if_neg hk]
          refine ⟨_, rfl, ⟨rfl, h2, h3, ?_, ?_⟩⟩
          · intro n k; rw [show (Uses.mk (fun k => if k = i then new else u.name k) u.inUse).name k = u.name k from congrFun hsame k]; exact h4 n k
          · intro k hk; rw [show (Uses.mk (fun k => if k = i then new else u.name k) u.inUse).name k = u.name k from congrFun hsame k]; exact h5 k hk
        · rw [if_pos ⟨hon, (h3 i).2 hi⟩]
          have hnone : r.byName new = none := by
            cases e : r.byName new with
            | none => rfl
            | some k =>
              obtain ⟨hk, hkn⟩ := (h4 new k).1 e
              by_cases hki : k = i
              · exact absurd (hki ▸ hkn) hon
              · exact absurd hkn (f2 (.inl hi) k hk hki)
          simp only [Reg.update]
          rw [if_neg (by rw [hnone]; rintro (e | e | e); exact ho e; exact hnew e; cases e)]
          refine ⟨_, rfl, ⟨rfl, h2, h3, ?_, ?_⟩⟩
          · intro n k
            simp only [upd]
            by_cases hnn : n = new
            · rw [if_pos hnn]
              by_cases hk : k = i
              · simp [hk, hi, hnn]
              · rw [if_neg hk]
                refine ⟨fun e => absurd (Option.some.inj e).symm hk, fun ⟨a, b⟩ => absurd (b.trans hnn) (f2 (.inl hi) k a hk)⟩
            · rw [if_neg hnn]
              by_cases hno : n = u.name i
              · rw [if_pos hno]
                refine ⟨fun e => (by cases e), fun ⟨a, b⟩ => ?_⟩
                by_cases hk : k = i
                · rw [if_pos hk] at b; exact absurd b.symm hnn
                · rw [if_neg hk] at b
                  have e1 := (h4 n k).2 ⟨a, b⟩
                  have e2 := (h4 n i).2 ⟨hi, hno.symm⟩
                  rw [e1] at e2
                  exact absurd (Option.some.inj e2) hk
              · rw [if_neg hno, h4]
                by_cases hk : k = i
                · rw [if_pos hk, hk]
                  exact ⟨fun ⟨_, b⟩ => absurd b.symm hno, fun ⟨_, b⟩ => absurd b.symm hnn⟩
                · rw [if_neg hk]
          · intro k hk
            show (if k = i then new else u.name k) ≠ 0
            by_cases hki : k = i
            · rw [if_pos hki]; exact hnew
            · rw [if_neg hki]; exact h5 k hk
      · rw [if_neg (fun e => hi ((h3 i).1 e.2))]
        refine ⟨_, rfl, ⟨rfl, h2, h3, ?_, ?_⟩⟩
        · intro n k
          rw [h4]
          by_cases hk : k = i
          · rw [hk]; exact ⟨fun ⟨a, _⟩ => absurd a hi, fun ⟨a, _⟩ => absurd a hi⟩
          · simp only [if_neg hk]
        · intro k hk
          show (if k = i then new else u.name k) ≠ 0
          rw [if_neg (fun e : k = i => hi (e ▸ hk))]
          exact h5 k hk
  | stop i =>
    obtain ⟨f1, f2⟩ := hf
    simp only [Reg.step, Reg.unregister]
    rw [if_pos (by rw [h2]; exact List.all_eq_true.2 fun k hk => by simpa using f1 k hk)]
    refine ⟨_, rfl, ⟨h1, by rw [h2]; rfl, ?_, ?_, ?_⟩⟩
    · intro k
      simp only [upd, Uses.next, List.mem_filter, decide_eq_true_eq]
      by_cases hk : k = i
      · simp [hk]
      · simp [hk, h3]
    · intro n k
      simp only [upd, Uses.next, List.mem_filter, decide_eq_true_eq, h1]
      by_cases hn : n = u.name i
      · rw [if_pos hn]
        refine ⟨fun e => (by cases e), fun ⟨⟨a, b⟩, c⟩ => ?_⟩
        by_cases hi : i ∈ u.inUse
        · have e1 := (h4 n k).2 ⟨a, c⟩
          have e2 := (h4 n i).2 ⟨hi, hn.symm⟩
          rw [e1] at e2
          exact absurd (Option.some.inj e2) b
        · exact absurd (c.trans hn) (f2 hi k a)
      · rw [if_neg hn, h4]
        refine ⟨fun ⟨a, b⟩ => ⟨⟨a, fun e => hn (by rw [← b, e])⟩, b⟩, fun ⟨⟨a, _⟩, c⟩ => ⟨a, c⟩⟩
    · intro k hk
      exact h5 k (List.mem_filter.1 hk).1

private theorem agree_run {kind : Nat → Nat} {r : Reg} {u : Uses} (h : Agree r u) (as : List RAct) (hf : u.AllFair kind as) :
    ∃ r', r.run kind as = some (r', true) ∧ Agree r' (u.after as) := by
  induction as generalizing r u with
  | nil => exact ⟨r, rfl, h⟩
  | cons a as ih =>
    obtain ⟨r1, e1, h1⟩ := agree_step h a hf.1
    obtain ⟨r2, e2, h2⟩ := ih h1 hf.2
    exact ⟨r2, by simp only [Reg.run, e1, e2], h2⟩

/-- After any operations that ask for nothing impossible none was refused, and a query by signal name finds exactly the sink of this
type in use that has this name, and one by the name of the block finds a sink of this type in use that has it, the one in use for the
longest time, if there is any. -/
theorem registry_partial (kind label : Nat → Nat) (as : List RAct) (hf : Uses.start.AllFair kind as) :
    ∃ r, Reg.start.run kind as = some (r, true) ∧
      (∀ k n i, r.findSignal kind k n = some i ↔
        i ∈ (Uses.start.after as).inUse ∧ (Uses.start.after as).name i = n ∧ kind i = k) ∧
      ∀ k l, r.findLabel kind label k l = ((Uses.start.after as).inUse.filter fun i => kind i = k ∧ label i = l).head? := by
  obtain ⟨r, e, h⟩ := agree_run agree_start as hf
  refine ⟨r, e, fun k n i => ?_, fun k l => ?_⟩
  · simp only [Reg.findSignal, Option.filter_eq_some_iff, h.byName, decide_eq_true_eq, and_assoc]
  · rw [Reg.findLabel, h.listed, List.head?_filter]

/-- three sinks are named, one is renamed, one is stopped and its name taken by another -/
example : Uses.start.AllFair (fun _ => 0) [.rename 0 5, .rename 1 6, .rename 0 7, .stop 1, .rename 2 6] ∧
    (Uses.start.after [.rename 0 5, .rename 1 6, .rename 0 7, .stop 1, .rename 2 6]).inUse = [0, 2] ∧
    (((Reg.start.run (fun _ => 0) [.rename 0 5, .rename 1 6, .rename 0 7, .stop 1, .rename 2 6]).map fun r =>
      [r.1.findSignal (fun _ => 0) 0 5, r.1.findSignal (fun _ => 0) 0 6, r.1.findSignal (fun _ => 0) 0 7, r.1.findSignal (fun _ => 0) 1 7]) =
      some [none, some 2, some 0, none]) := by
  refine ⟨?_, by decide, by decide⟩
  simp [Uses.AllFair, Uses.Fair, Uses.next, Uses.start]

/-! ### What goes wrong otherwise -/

/-- FINDING: stopping a sink ends the program whenever a sink of another type is registered. -/
theorem stop_terminates (kind : Nat → Nat) (r : Reg) (i k : Nat) (hk : k ∈ r.listed) (hne : kind k ≠ kind i) :
    r.step kind (.stop i) = .terminated := by
  simp only [Reg.step, Reg.unregister]
  rw [if_neg]
  intro h
  exact hne (by simpa using List.all_eq_true.1 h k hk)

/-- as it happens: one sink for `float` and one for `double`, each with its name, and the first is stopped -/
example : Reg.start.run (fun i => i) [.rename 0 5, .rename 1 6, .stop 0] = none := by decide

/-- FINDING: a sink refused because its name was taken takes the name from its owner when it is stopped. -/
theorem refused_takes_name :
    (Reg.start.run (fun _ => 0) [.rename 0 5, .rename 1 5, .stop 1]).map (fun r => (r.2, r.1.reg 0, r.1.findSignal (fun _ => 0) 0 5)) =
      some (false, true, none) := by decide

/-- FINDING: the same without any refusal: a sink that was stopped and whose name another sink took is stopped once more. -/
theorem stopped_again_takes_name :
    (Reg.start.run (fun _ => 0) [.rename 0 5, .stop 0, .rename 1 5, .stop 0]).map
        (fun r => (r.2, r.1.reg 1, r.1.findSignal (fun _ => 0) 0 5)) = some (true, true, none) := by decide

/-- FINDING: a sink that was refused a new name and then stopped is still found by its old name, also after it is gone. -/
theorem refused_rename_stays :
    (Reg.start.run (fun _ => 0) [.rename 0 5, .rename 1 6, .rename 1 5, .stop 1]).map
        (fun r => (r.1.reg 1, r.1.listed, r.1.findSignal (fun _ => 0) 0 6)) = some (false, [0], some 1) := by decide

/-- FINDING: a sink that was stopped, or refused its first name, is not registered when it gets another name that is free. -/
theorem not_registered_again :
    (Reg.start.run (fun _ => 0) [.rename 0 5, .stop 0, .rename 0 7]).map (fun r => (r.2, r.1.findSignal (fun _ => 0) 0 7)) =
      some (true, none) ∧
    (Reg.start.run (fun _ => 0) [.rename 0 5, .rename 1 5, .rename 1 7]).map (fun r => (r.2, r.1.findSignal (fun _ => 0) 0 7)) =
      some (false, none) := by decide

end Verif.Sink
