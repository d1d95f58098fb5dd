import Verif.Sched.QuiesceModel
/-!
# C48: no block works while a quiescence guard is held
-/
namespace Verif.Sched.Quiesce

/-- the worker is between increment and decrement of the counter -/
def Worker.inside : Worker → Bool
  | .counted | .working | .abstain => true
  | _ => false

/-- invariant of runs with non-overlapping guards -/
structure Inv (s : St) : Prop where
  count : s.n = s.workers.countP Worker.inside
  one : ∀ (i j : Nat), s.reqs[i]? ≠ some .idle → s.reqs[j]? ≠ some .idle → i < s.reqs.length → j < s.reqs.length → i = j
  flag : s.flag = true ↔ ∃ r ∈ s.reqs, r ≠ .idle
  quiet : (∃ r ∈ s.reqs, r = .held) → ∀ w ∈ s.workers, w ≠ .working

theorem countP_zero_not {p : Worker → Bool} {l : List Worker} (h : l.countP p = 0) : ∀ w ∈ l, p w = false := by
  intro w hw
  have := List.countP_eq_zero.1 h w hw
  simpa using this

theorem getElem?_some_lt {α : Type} {l : List α} {i : Nat} {a : α} (h : l[i]? = some a) : ∃ hi : i < l.length, l[i] = a :=
  List.getElem?_eq_some_iff.1 h

theorem inv_init (nw nr : Nat) : Inv (init nw nr) := by
  refine ⟨?_, ?_, ?_, ?_⟩
  · simp only [init]
    induction nw with
    | zero => rfl
    | succ n ih => simp only [List.replicate_succ, List.countP_cons, Worker.inside]; simpa using ih
  · intro i j h _ hi _
    simp only [init, List.length_replicate] at hi
    exact absurd (by simp [init, hi]) h
  · simp [init]
  · rintro ⟨r, hr, e⟩
    simp [init] at hr
    rw [e] at hr; cases hr.2

theorem inv_step (s s' : St) (a : Act) (h : Inv s) (hs : stepX s a = some s') : Inv s' := by
  have hset : ∀ (i : Nat) (w w' : Worker), s.workers[i]? = some w →
      (s.workers.set i w').countP Worker.inside =
        s.workers.countP Worker.inside - (if w.inside then 1 else 0) + if w'.inside then 1 else 0 := by
    intro i w w' hw
    obtain ⟨hi, e⟩ := getElem?_some_lt hw
    rw [List.countP_set hi, e]
  have hpos : ∀ (i : Nat) (w : Worker), s.workers[i]? = some w → w.inside = true → 0 < s.workers.countP Worker.inside := by
    intro i w hw hi
    exact List.countP_pos_iff.2 ⟨w, List.mem_of_getElem? hw, hi⟩
  cases a with
  | load i =>
    simp only [stepX, step] at hs
    split at hs
    · next hw =>
      split at hs
      · cases hs; exact h
      · next hf =>
        cases hs
        refine ⟨?_, h.one, h.flag, ?_⟩
        · show s.n = _
          rw [hset i _ _ hw, h.count]; simp [Worker.inside]
        · rintro ⟨r, hr, e⟩
          exact absurd (h.flag.2 ⟨r, hr, by rw [e]; simp⟩) hf
    · cases hs
  | incr i =>
    simp only [stepX, step] at hs
    split at hs
    · next hw =>
      cases hs
      refine ⟨?_, h.one, h.flag, ?_⟩
      · show s.n + 1 = _
        rw [hset i _ _ hw, h.count]; simp [Worker.inside]
      · intro hr w hm
        rcases List.mem_or_eq_of_mem_set hm with hm | e
        · exact h.quiet hr w hm
        · subst e; simp
    · cases hs
  | recheck i =>
    simp only [stepX, step] at hs
    split at hs
    · next hw =>
      cases hs
      refine ⟨?_, h.one, h.flag, ?_⟩
      · show s.n = _
        rw [hset i _ _ hw, h.count]
        have := hpos i _ hw rfl
        cases s.flag <;> simp [Worker.inside] <;> omega
      · intro hr w hm
        rcases List.mem_or_eq_of_mem_set hm with hm | e
        · exact h.quiet hr w hm
        · obtain ⟨r, hr1, hr2⟩ := hr
          have hf := h.flag.2 ⟨r, hr1, by rw [hr2]; simp⟩
          subst e; rw [hf]; simp
    · cases hs
  | leave i =>
    simp only [stepX, step] at hs
    split at hs
    · next hw =>
      cases hs
      refine ⟨?_, h.one, h.flag, ?_⟩
      · show s.n - 1 = _
        rcases hw with hw | hw
        · rw [hset i _ _ hw, h.count]; simp [Worker.inside]
        · rw [hset i _ _ hw, h.count]; simp [Worker.inside]
      · intro hr w hm
        rcases List.mem_or_eq_of_mem_set hm with hm | e
        · exact h.quiet hr w hm
        · subst e; simp
    · cases hs
  | store j =>
    simp only [stepX, step] at hs
    split at hs
    · next hall =>
      split at hs
      · next hj =>
        cases hs
        obtain ⟨hjl, _⟩ := getElem?_some_lt hj
        have hidle : ∀ i, i < s.reqs.length → s.reqs[i]? = some .idle := by
          intro i hi
          rw [List.getElem?_eq_getElem hi, hall _ (List.getElem_mem hi)]
        refine ⟨h.count, ?_, ?_, ?_⟩
        · intro a b ha hb hal hbl
          simp only [List.length_set] at hal hbl
          have key : ∀ k, k < s.reqs.length → (s.reqs.set j .waiting)[k]? ≠ some .idle → j = k := by
            intro k hk hne
            rw [List.getElem?_set] at hne
            by_cases e : j = k
            · exact e
            · rw [if_neg e] at hne; exact absurd (hidle k hk) hne
          exact (key a hal ha).symm.trans (key b hbl hb)
        · simp only [true_iff]
          refine ⟨.waiting, ?_, by simp⟩
          exact List.mem_of_getElem? (i := j) (by simp [hjl])
        · rintro ⟨r, hr, e⟩ w hw
          subst e
          rcases List.mem_or_eq_of_mem_set hr with hr | e
          · exact absurd (hall _ hr) (by simp)
          · cases e
      · cases hs
    · cases hs
  | readN j =>
    simp only [stepX, step] at hs
    split at hs
    · next hj =>
      split at hs
      · next hn =>
        cases hs
        obtain ⟨hjl, _⟩ := getElem?_some_lt hj
        have hne : s.reqs[j]? ≠ some .idle := by rw [hj]; simp
        refine ⟨h.count, ?_, ?_, ?_⟩
        · intro a b ha hb hal hbl
          simp only [List.length_set] at hal hbl
          have key : ∀ k, k < s.reqs.length → (s.reqs.set j .held)[k]? ≠ some .idle → j = k := by
            intro k hk hne2
            rw [List.getElem?_set] at hne2
            by_cases e : j = k
            · exact e
            · rw [if_neg e] at hne2; exact h.one j k hne hne2 hjl hk
          exact (key a hal ha).symm.trans (key b hbl hb)
        · show s.flag = true ↔ _
          have hf := h.flag.2 ⟨.waiting, List.mem_of_getElem? hj, by simp⟩
          simp only [hf, true_iff]
          exact ⟨.held, List.mem_of_getElem? (i := j) (by simp [hjl]), by simp⟩
        · intro _ w hw e
          have h0 : s.workers.countP Worker.inside = 0 := by rw [← h.count]; exact hn
          have := countP_zero_not h0 w hw
          rw [e] at this; cases this
      · cases hs; exact h
    · cases hs
  | release j =>
    simp only [stepX, step] at hs
    split at hs
    · next hj =>
      cases hs
      obtain ⟨hjl, _⟩ := getElem?_some_lt hj
      have hne : s.reqs[j]? ≠ some .idle := by rw [hj]; simp
      have hidle : ∀ r ∈ s.reqs.set j .idle, r = .idle := by
        intro r hr
        obtain ⟨k, hk⟩ := List.mem_iff_getElem?.1 hr
        rw [List.getElem?_set] at hk
        by_cases e : j = k
        · subst e; simp [hjl] at hk; exact hk.symm
        · rw [if_neg e] at hk
          apply Classical.byContradiction
          intro hri
          obtain ⟨hkl, _⟩ := getElem?_some_lt hk
          exact e (h.one j k hne (by rw [hk]; simpa using hri) hjl hkl)
      refine ⟨h.count, ?_, ?_, ?_⟩
      · intro a b ha hb hal hbl
        simp only [List.length_set] at hal
        exact absurd (by
          rw [List.getElem?_eq_getElem (by simpa using hal)]
          rw [hidle _ (List.getElem_mem _)]) ha
      · simp only [Bool.false_eq_true, false_iff]
        rintro ⟨r, hr, hne⟩
        exact hne (hidle r hr)
      · rintro ⟨r, hr, e⟩
        have := hidle r hr
        rw [e] at this; cases this
    · cases hs

theorem inv_run (as : List Act) : ∀ s s', Inv s → run stepX s as = some s' → Inv s' := by
  induction as with
  | nil => intro s s' h hs; simp only [run, List.foldlM_nil] at hs; cases hs; exact h
  | cons a as ih =>
    intro s s' h hs
    simp only [run, List.foldlM_cons] at hs
    cases hs1 : stepX s a with
    | none => rw [hs1] at hs; cases hs
    | some s1 =>
      rw [hs1] at hs
      exact ih s1 s' (inv_step s s1 a h hs1) hs

/-- a state reached by some run in which guards do not overlap -/
def Reachable (s : St) : Prop := ∃ nw nr as, run stepX (init nw nr) as = some s

/-- **C48, safety** (partial: guards must not overlap): in every reachable state, for any number of workers and any interleaving,
while a guard is held no worker executes work. -/
theorem no_work_while_held_partial (s : St) (hr : Reachable s) (j i : Nat) (hheld : s.reqs[j]? = some .held) :
    s.workers[i]? ≠ some .working := by
  obtain ⟨nw, nr, as, h⟩ := hr
  intro hw
  exact (inv_run as _ _ (inv_init nw nr) h).quiet ⟨.held, List.mem_of_getElem? hheld, rfl⟩ .working (List.mem_of_getElem? hw) rfl

/-- **C48, resumption** (partial: guards must not overlap): whenever no guard is requested or held, a worker that starts a cycle gets
to work: it sees the flag clear, and if it is still clear at the re-check it works. -/
theorem workers_resume_partial (s : St) (hr : Reachable s) (hidle : ∀ r ∈ s.reqs, r = .idle) (i : Nat) :
    (s.workers[i]? = some .out → ∃ s', step s (.load i) = some s' ∧ s'.workers[i]? = some .sawFalse) ∧
    (s.workers[i]? = some .sawFalse → ∃ s', step s (.incr i) = some s' ∧ s'.workers[i]? = some .counted) ∧
    (s.workers[i]? = some .counted → ∃ s', step s (.recheck i) = some s' ∧ s'.workers[i]? = some .working) := by
  obtain ⟨nw, nr, as, h⟩ := hr
  have hi := inv_run as _ _ (inv_init nw nr) h
  have hf : s.flag = false := by
    rw [Bool.eq_false_iff]
    intro hf
    obtain ⟨r, h1, h2⟩ := hi.flag.1 hf
    exact h2 (hidle r h1)
  refine ⟨?_, ?_, ?_⟩
  · intro hw
    obtain ⟨hil, _⟩ := getElem?_some_lt hw
    exact ⟨_, by simp only [step, hw, hf, if_true]; rfl, by simp [hil]⟩
  · intro hw
    obtain ⟨hil, _⟩ := getElem?_some_lt hw
    exact ⟨_, by simp only [step, hw, if_true]; rfl, by simp [hil]⟩
  · intro hw
    obtain ⟨hil, _⟩ := getElem?_some_lt hw
    exact ⟨_, by simp only [step, hw, hf, if_true]; rfl, by simp [hil]⟩

/-- the number of steps a worker still has to take before it is back outside, once the flag is set -/
def Worker.toGo : Worker → Nat
  | .out => 0
  | .working | .abstain => 1
  | .counted => 2
  | .sawFalse => 3

def toGo (s : St) : Nat := (s.workers.map Worker.toGo).sum

theorem sum_set (l : List Worker) (i : Nat) (w w' : Worker) (h : l[i]? = some w) :
    ((l.set i w').map Worker.toGo).sum + w.toGo = (l.map Worker.toGo).sum + w'.toGo := by
  induction l generalizing i with
  | nil => simp at h
  | cons x l ih =>
    cases i with
    | zero =>
      simp only [List.getElem?_cons_zero, Option.some.injEq] at h
      subst h
      simp; omega
    | succ i =>
      simp only [List.getElem?_cons_succ] at h
      have := ih i h
      simp only [List.set_cons_succ, List.map_cons, List.sum_cons]; omega

/-- **C48, the wait ends**: while the flag is set every step of a worker either is a worker outside finding the flag set (and staying
outside) or brings the workers closer to all being outside; and when they all are, the waiting requester gets its guard. -/
theorem request_wait_ends (s : St) (hr : Reachable s) (hf : s.flag = true) :
    (∀ a s', step s a = some s' → (∃ i, a = .load i ∧ s' = s) ∨
      (∃ i, (a = .incr i ∨ a = .recheck i ∨ a = .leave i) ∧ toGo s' < toGo s ∧ s'.flag = true) ∨
      (∃ j, a = .store j ∨ a = .readN j ∨ a = .release j)) ∧
    (toGo s = 0 → ∀ j, s.reqs[j]? = some .waiting → ∃ s', step s (.readN j) = some s' ∧ s'.reqs[j]? = some .held) := by
  obtain ⟨nw, nr, as, h⟩ := hr
  have hi := inv_run as _ _ (inv_init nw nr) h
  constructor
  · intro a s' hs
    cases a with
    | load i =>
      simp only [step, hf, if_true] at hs
      split at hs
      · cases hs; exact .inl ⟨i, rfl, rfl⟩
      · cases hs
    | incr i =>
      simp only [step] at hs
      split at hs
      · next hw =>
        cases hs
        have := sum_set _ i _ .counted hw
        simp only [Worker.toGo] at this
        exact .inr (.inl ⟨i, .inl rfl, by simp only [toGo]; omega, hf⟩)
      · cases hs
    | recheck i =>
      simp only [step, hf, if_true] at hs
      split at hs
      · next hw =>
        cases hs
        have := sum_set _ i _ .abstain hw
        simp only [Worker.toGo] at this
        exact .inr (.inl ⟨i, .inr (.inl rfl), by simp only [toGo]; omega, rfl⟩)
      · cases hs
    | leave i =>
      simp only [step] at hs
      split at hs
      · next hw =>
        cases hs
        refine .inr (.inl ⟨i, .inr (.inr rfl), ?_, hf⟩)
        rcases hw with hw | hw
        · have := sum_set _ i _ .out hw
          simp only [Worker.toGo] at this
          simp only [toGo]; omega
        · have := sum_set _ i _ .out hw
          simp only [Worker.toGo] at this
          simp only [toGo]; omega
      · cases hs
    | store j => exact .inr (.inr ⟨j, .inl rfl⟩)
    | readN j => exact .inr (.inr ⟨j, .inr (.inl rfl)⟩)
    | release j => exact .inr (.inr ⟨j, .inr (.inr rfl)⟩)
  · intro h0 j hj
    obtain ⟨hjl, _⟩ := getElem?_some_lt hj
    have hn : s.n = 0 := by
      rw [hi.count, List.countP_eq_zero]
      intro w hw
      have hz : w.toGo = 0 := by
        unfold toGo at h0
        have key : ∀ (l : List Nat), l.sum = 0 → ∀ x ∈ l, x = 0 := by
          intro l
          induction l with
          | nil => intro _ x hx; cases hx
          | cons y l ih =>
            intro h x hx
            rw [List.sum_cons] at h
            rcases List.mem_cons.1 hx with e | hx
            · omega
            · exact ih (by omega) x hx
        exact key _ h0 _ (List.mem_map_of_mem hw)
      cases w <;> simp_all [Worker.toGo, Worker.inside]
    exact ⟨_, by simp only [step, hj, hn, if_true]; rfl, by simp [hjl]⟩

-- two workers, one of them working when the guard is requested; the other one increments, re-checks and abstains
example : run stepX (init 2 1) [.load 0, .incr 0, .recheck 0, .load 1, .store 0, .incr 1, .readN 0, .recheck 1, .leave 0, .leave 1,
      .readN 0, .load 0]
    = some { flag := true, n := 0, workers := [.out, .out], reqs := [.held] } := by decide +kernel

/-- **C48 fails when two guards overlap**: the request is a plain flag, not a count. Two threads take guards (for instance a
parent scheduler's guard, which also stops its nested schedulers, and a guard taken by the nested scheduler while it handles one of its
own messages); when the first guard ends, the workers resume although the second is still held. -/
theorem overlapping_guards_broken :
    run step (init 1 2) [.store 0, .readN 0, .store 1, .readN 1, .release 0, .load 0, .incr 0, .recheck 0]
      = some { flag := false, n := 1, workers := [.working], reqs := [.idle, .held] } := by decide +kernel

end Verif.Sched.Quiesce
