import Verif.LifeCycle.Lemmas
/-!
# Property theorems C10, C11, C51: block life cycle
-/
namespace Verif.LifeCycle

/-- **C10.** Whatever requests are issued, whichever hooks exist, re-enter or throw: the stores to the state form an
unbroken path from the initial to the final state along the documented diagram (plus the two extra arrows
IDLE/INITIALISED → REQUESTED_STOP the implementation has). -/
theorem state_follows_diagram (has : Hook → Bool) (requests : List (State × Beh)) (s : State) :
    Path (fun a b => Diagram a b ∨ Extra a b) s (stores (runAll has requests s).2) (runAll has requests s).1 :=
  runAll_path has requests s

/-- non-trivial history: init, start whose hook requests a stop and then throws, then reset. -/
example :
    stores (runAll (fun _ => true)
      [(.initialised, .ret), (.running, .req .requestedStop .ret .throw), (.initialised, .ret)] .idle).2
    = [(.idle, .initialised), (.initialised, .running), (.running, .requestedStop), (.requestedStop, .error),
       (.error, .initialised)] := by decide

/-- **C10.** A rejected request neither changes the state nor runs a hook. -/
theorem rejected_request_has_no_effect (has : Hook → Bool) (s dst : State) (b : Beh)
    (h : (change has s dst (runBeh has b)).2.2 = .invalid) :
    (change has s dst (runBeh has b)).1 = s ∧ (change has s dst (runBeh has b)).2.1 = [] := by
  revert h
  unfold change
  split
  · simp
  · split
    · simp
    · split
      · simp
      · generalize runBeh has b dst = r
        obtain ⟨s', ev, ok⟩ := r
        cases ok <;> simp

example : (change (fun _ => true) .stopped .running (runBeh (fun _ => true) .ret)).2.2 = .invalid := by decide

/-- **C10.** A request is rejected exactly when it is neither a no-op nor an arrow of the diagram (with the two extra
arrows and without REQUESTED_PAUSE → REQUESTED_STOP). No-ops: same state, stopping a stopped block, pausing a paused one. -/
theorem rejected_iff (has : Hook → Bool) (s dst : State) (b : Beh) :
    (change has s dst (runBeh has b)).2.2 = .invalid ↔
      ¬ (s = dst ∨ (s = .stopped ∧ dst = .requestedStop) ∨ (s = .paused ∧ dst = .requestedPause) ∨
         ((Diagram s dst ∨ Extra s dst) ∧ ¬ (s = .requestedPause ∧ dst = .requestedStop))) := by
  have key : (change has s dst (runBeh has b)).2.2 = .invalid ↔
      ¬ (s == dst || (s == .stopped && dst == .requestedStop) || (s == .paused && dst == .requestedPause)) = true
      ∧ isValidTransition s dst = false := by
    unfold change
    split
    · rename_i h; simp [h]
    · rename_i h
      split
      · rename_i h2; simp at h2; simp [h, h2]
      · rename_i h2; simp at h2
        constructor
        · intro hh
          split at hh
          · simp at hh
          · generalize runBeh has b dst = r at hh
            obtain ⟨s', ev, ok⟩ := r
            cases ok <;> simp at hh
        · intro hh; simp [h2] at hh
  rw [key]
  have dneg : ∀ a b, Diagram a b → isValidTransition a b = true ∨ (a = .requestedPause ∧ b = .requestedStop) := by
    intro a b h; cases h <;> (try cases a) <;> simp [isValidTransition]
  have eneg : ∀ a b, Extra a b → isValidTransition a b = true := by
    intro a b h; cases h <;> simp [isValidTransition]
  constructor
  · rintro ⟨h1, h2⟩ h3
    simp only [Bool.or_eq_true, Bool.and_eq_true, beq_iff_eq, not_or] at h1
    rcases h3 with h3 | h3 | h3 | ⟨h3 | h3, h4⟩
    · exact h1.1.1 h3
    · exact h1.1.2 h3
    · exact h1.2 h3
    · rcases dneg _ _ h3 with h5 | h5
      · simp [h2] at h5
      · exact h4 h5
    · have h5 := eneg _ _ h3
      simp [h2] at h5
  · intro h
    simp only [not_or] at h
    refine ⟨?_, ?_⟩
    · simp only [Bool.or_eq_true, Bool.and_eq_true, beq_iff_eq, not_or]
      exact ⟨⟨h.1, h.2.1⟩, h.2.2.1⟩
    · cases hv : isValidTransition s dst with
      | false => rfl
      | true =>
        exfalso
        apply h.2.2.2
        refine ⟨valid_documented hv h.1, ?_⟩
        rintro ⟨rfl, rfl⟩; simp [isValidTransition] at hv

/-- **C10.** A throwing hook always ends in ERROR and is reported. -/
theorem throwing_hook_ends_in_error (has : Hook → Bool) (s dst : State) (b : Beh)
    (h : (change has s dst (runBeh has b)).2.2 = .threw) : (change has s dst (runBeh has b)).1 = .error := by
  revert h
  unfold change
  split
  · simp
  · split
    · simp
    · split
      · simp
      · generalize runBeh has b dst = r
        obtain ⟨s', ev, ok⟩ := r
        cases ok <;> simp

example : (change (fun _ => true) .idle .initialised (runBeh (fun _ => true) .throw)).2.2 = .threw := by decide

/-- **C10, finding.** The printed diagram has an arrow REQUESTED_PAUSE → REQUESTED_STOP (stop while pausing);
the implementation rejects it. -/
theorem diagram_arrow_stop_while_pausing_is_rejected :
    Diagram .requestedPause .requestedStop ∧ isValidTransition .requestedPause .requestedStop = false :=
  ⟨.stopPausing, rfl⟩

/-- **C11 (partial: hooks do not themselves request state changes).** In every history of a freshly created block
that implements all hooks, each hook call is one the previous hook call permits (`MayFollow`). -/
theorem hook_order_partial (requests : List (State × Beh))
    (hplain : ∀ r ∈ requests, r.2 = .ret ∨ r.2 = .throw)
    (pre post : List (Hook × Bool)) (h : Hook) (ok : Bool)
    (hsplit : hooks (runAll (fun _ => true) requests .idle).2 = pre ++ (h, ok) :: post) :
    MayFollow pre.getLast? h := by
  have gen : ∀ (l : List (State × Beh)) (s : State) (done : List (Hook × Bool)),
      (∀ r ∈ l, r.2 = .ret ∨ r.2 = .throw) → LastOk s done.getLast? →
      ∀ pre post h ok, hooks (runAll (fun _ => true) l s).2 = pre ++ (h, ok) :: post →
        MayFollow (done ++ pre).getLast? h := by
    intro l
    induction l with
    | nil => intro s done _ _ pre post h ok hs; simp [runAll, hooks] at hs
    | cons x xs ih =>
      intro s done hpl hlast pre post h ok hs
      obtain ⟨dst, b⟩ := x
      have hb := hpl (dst, b) (by simp)
      have hpl' : ∀ r ∈ xs, r.2 = .ret ∨ r.2 = .throw := fun r hr => hpl r (by simp [hr])
      simp only [runAll, hooks_append] at hs
      rcases change_plain s dst b hb _ hlast with ⟨h0, hl⟩ | ⟨h1, ok1, h0, hm, hl⟩
      · rw [h0, List.nil_append] at hs
        exact ih _ done hpl' hl pre post h ok hs
      · rw [h0] at hs
        cases pre with
        | nil =>
          simp at hs
          obtain ⟨⟨rfl, rfl⟩, _⟩ := hs
          simpa using hm
        | cons y ys =>
          simp at hs
          obtain ⟨rfl, hs⟩ := hs
          have := ih _ (done ++ [(h1, ok1)]) hpl' (by simpa using hl) ys post h ok hs
          simpa using this
  simpa using gen requests .idle [] hplain (by simp [LastOk]) pre post h ok hsplit

/-- **C11.** On every arrow the state machine takes, for every subset `has` of implemented hooks, a hook runs exactly if it
is implemented and documented for that arrow; at most one hook runs per arrow. -/
theorem hook_runs_iff (has : Hook → Bool) (s dst : State) (hne : s ≠ dst) (hv : isValidTransition s dst = true) (h : Hook) :
    selectHook has s dst = some h ↔ (has h = true ∧ RunsOn h s dst) := by
  have cases_on : ∀ h s dst, RunsOn h s dst ↔ ((h = .init ∧ s = .idle ∧ dst = .initialised) ∨ (h = .start ∧ s = .initialised ∧ dst = .running)
      ∨ (h = .stop ∧ dst = .requestedStop) ∨ (h = .pause ∧ dst = .requestedPause) ∨ (h = .resume ∧ s = .paused ∧ dst = .running)
      ∨ (h = .reset ∧ (s = .stopped ∨ s = .error) ∧ dst = .initialised)) := by
    intro h s dst
    constructor
    · intro r; cases r <;> simp
    · rintro (⟨rfl, rfl, rfl⟩ | ⟨rfl, rfl, rfl⟩ | ⟨rfl, rfl⟩ | ⟨rfl, rfl⟩ | ⟨rfl, rfl, rfl⟩ | ⟨rfl, rfl | rfl, rfl⟩) <;> constructor
  rw [cases_on]
  cases s <;> cases dst <;> simp [isValidTransition] at hne hv <;> cases h <;> simp [selectHook]

example : isValidTransition .error .initialised = true ∧
    selectHook (fun h => h == .reset) .idle .initialised = none ∧
    selectHook (fun h => h == .reset) .error .initialised = some .reset := by decide

/-- a history in which all six hooks occur. -/
example : hooks (runAll (fun _ => true)
    [(.initialised, .ret), (.running, .ret), (.requestedPause, .ret), (.paused, .ret), (.running, .ret),
     (.requestedStop, .ret), (.stopped, .ret), (.initialised, .ret), (.running, .throw)] .idle).2
    = [(.init, true), (.start, true), (.pause, true), (.resume, true), (.stop, true), (.reset, true),
       (.start, false)] := by decide

/-- **C11, finding.** The `stop` hook also runs on a block that was never started (the documentation at
LifeCycle.hpp:129 says it runs when leaving an active state). -/
theorem stop_hook_runs_without_start :
    hooks (runAll (fun _ => true) [(.requestedStop, .ret)] .idle).2 = [(.stop, true)] ∧ isActive .idle = false := by
  decide

/-- **C11, finding.** If a hook re-enters the state machine, `start` can run although `init` has not succeeded:
an `init` hook that requests RUNNING and then throws. -/
theorem reentrant_init_starts_uninitialised_block :
    ∃ requests : List (State × Beh),
      hooks (runAll (fun _ => true) requests .idle).2 = [(.start, true), (.init, false)] :=
  ⟨[(.initialised, .req .running .ret .throw)], by decide⟩

/-- **C51, negation.** With two threads calling `changeStateTo` concurrently the state can leave the
diagram: a block that is already STOPPED is put into REQUESTED_PAUSE, because validation and store are not one
atomic step. Threads 0, 1, 2 request REQUESTED_PAUSE, REQUESTED_STOP and STOPPED of a RUNNING block. -/
theorem concurrent_requests_can_leave_diagram :
    ∃ schedule : List Nat,
      let c := schedule.foldl cstep
        { shared := .running, want := [.requestedPause, .requestedStop, .stopped], pc := [.ready, .ready, .ready], stores := [] }
      c.shared = .requestedPause ∧
      c.stores = [(.running, .requestedStop), (.requestedStop, .stopped), (.stopped, .requestedPause)] ∧
      isValidTransition .stopped .requestedPause = false :=
  ⟨[0, 1, 1, 2, 2, 0], by decide⟩

/-- **C51 (partial: schedules in which no other thread's step falls between a thread's load and its store).**
If every load is directly followed by its store, all stores are documented transitions. -/
theorem atomic_requests_follow_diagram_partial (c : CState) (ts : List Nat)
    (hpc : ∀ p ∈ c.pc, p = .ready ∨ p = .done) (hst : ∀ x ∈ c.stores, Diagram x.1 x.2 ∨ Extra x.1 x.2) :
    ∀ x ∈ (ts.foldl (fun c t => cstep (cstep c t) t) c).stores, Diagram x.1 x.2 ∨ Extra x.1 x.2 := by
  induction ts generalizing c with
  | nil => simpa using hst
  | cons t ts ih =>
    simp only [List.foldl_cons]
    have step : (∀ p ∈ (cstep (cstep c t) t).pc, p = .ready ∨ p = .done) ∧
        (∀ x ∈ (cstep (cstep c t) t).stores, Diagram x.1 x.2 ∨ Extra x.1 x.2) := by
      rcases hw : c.want[t]? with _ | w
      · have : cstep c t = c := by simp [cstep, hw]
        rw [this, this]; exact ⟨hpc, hst⟩
      · rcases hp : c.pc[t]? with _ | p
        · have : cstep c t = c := by simp [cstep, hw, hp]
          rw [this, this]; exact ⟨hpc, hst⟩
        · have hlt : t < c.pc.length := by
            rcases Nat.lt_or_ge t c.pc.length with h | h
            · exact h
            · rw [List.getElem?_eq_none h] at hp; cases hp
          have hmem : p ∈ c.pc := List.mem_of_getElem? hp
          have hset : ∀ q ∈ c.pc.set t .done, q = .ready ∨ q = .done := by
            intro q hq
            rcases List.mem_or_eq_of_mem_set hq with h | h
            · exact hpc q h
            · exact Or.inr h
          rcases hpc p hmem with rfl | rfl
          · by_cases h1 : (c.shared == w || (c.shared == .stopped && w == .requestedStop)
                || (c.shared == .paused && w == .requestedPause)) = true
            · have e1 : cstep c t = { c with pc := c.pc.set t .done } := by
                simp only [cstep, hw, hp, h1, if_true]
              have e2 : cstep { c with pc := c.pc.set t .done } t = { c with pc := c.pc.set t .done } := by
                simp [cstep, hw, List.getElem?_set_self hlt]
              rw [e1, e2]; exact ⟨hset, hst⟩
            · by_cases h2 : isValidTransition c.shared w = true
              · have e1 : cstep c t = { c with pc := c.pc.set t (.loaded c.shared) } := by
                  simp only [cstep, hw, hp]; rw [if_neg h1]; simp [h2]
                have e2 : cstep { c with pc := c.pc.set t (.loaded c.shared) } t =
                    { c with pc := (c.pc.set t (.loaded c.shared)).set t .done, shared := w,
                             stores := c.stores ++ [(c.shared, w)] } := by
                  simp [cstep, hw, List.getElem?_set_self hlt]
                rw [e1, e2]
                refine ⟨by simpa using hset, ?_⟩
                intro x hx
                simp only [List.mem_append, List.mem_singleton] at hx
                rcases hx with hx | rfl
                · exact hst x hx
                · refine valid_documented h2 ?_
                  intro h; apply h1; simp at h; simp [h]
              · have e1 : cstep c t = { c with pc := c.pc.set t .done } := by
                  simp only [cstep, hw, hp]; rw [if_neg h1]; simp [h2]
                have e2 : cstep { c with pc := c.pc.set t .done } t = { c with pc := c.pc.set t .done } := by
                  simp [cstep, hw, List.getElem?_set_self hlt]
                rw [e1, e2]; exact ⟨hset, hst⟩
          · have : cstep c t = c := by simp [cstep, hw, hp]
            rw [this, this]; exact ⟨hpc, hst⟩
    exact ih _ step.1 step.2

example : (∀ p ∈ ([.ready, .ready] : List Pc), p = .ready ∨ p = .done) ∧
    ([0, 1].foldl (fun c t => cstep (cstep c t) t)
      { shared := .running, want := [.requestedStop, .stopped], pc := [.ready, .ready], stores := [] : CState }).stores
      = [(.running, .requestedStop), (.requestedStop, .stopped)] := by decide

end Verif.LifeCycle
