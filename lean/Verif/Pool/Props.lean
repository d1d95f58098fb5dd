import Verif.Pool.Progress
import Verif.Pool.Order
/-!
# C59–C61 — tasks, threads and priorities of a thread pool
-/
namespace Verif.Pool

theorem inQueue_pos {id : Nat} {q : List Task} (h : 0 < inQueue id q) : ∃ t ∈ q, t.id = id := by
  obtain ⟨i, t, hi, ht⟩ := wsum_pos h
  refine ⟨t, List.mem_of_getElem? hi, ?_⟩
  split at ht
  · assumption
  · omega

theorem hand_pos {id : Nat} {l : List WPc} (h : 0 < wsum (hand id) l) :
    ∃ t : Task, t.id = id ∧ (.got t ∈ l ∨ .start t ∈ l ∨ .call t ∈ l) := by
  obtain ⟨i, p, hi, hp⟩ := wsum_pos h
  have hm := List.mem_of_getElem? hi
  cases p <;> simp only [hand, Nat.lt_irrefl] at hp
  · next t =>
    split at hp
    · exact ⟨t, by assumption, .inl hm⟩
    · omega
  · next t =>
    split at hp
    · exact ⟨t, by assumption, .inr (.inl hm)⟩
    · omega
  · next t =>
    split at hp
    · exact ⟨t, by assumption, .inr (.inr hm)⟩
    · omega

theorem wsum_eq_zero {α : Type} {f : α → Nat} {l : List α} (h : ∀ a ∈ l, f a = 0) : wsum f l = 0 := by
  induction l with
  | nil => rfl
  | cons a l ih => simp only [wsum, h a (.head _), ih (fun b hb => h b (.tail _ hb))]

/-! ## C59 -/

/-- **C59, never twice.** Whatever the threads do, the function of a task is called at most once, and only after the task
was submitted. -/
theorem task_runs_at_most_once (min max k : Nat) (s : List Act) (id : Nat) :
    (run min max k s).started.count id ≤ 1 ∧ (id ∈ (run min max k s).started → Submitted (run min max k s) id) := by
  have h := (inv_run min max k s).ids id
  constructor
  · split at h <;> omega
  · intro hm
    have := List.count_pos_iff.2 hm
    unfold Submitted
    split at h
    · assumption
    · omega

/-- **C59, never lost.** In a pool with a minimum of at least one thread, without shutdown: every submitted task is waiting in
the queue, or taken by a worker that is about to call it, or has been called. -/
theorem task_not_lost_partial {min max k : Nat} {s : List Act} (h1 : 1 ≤ min) (h2 : 1 ≤ max) (hs : NoShutdown s) {id : Nat}
    (hid : Submitted (run min max k s) id) :
    Waiting (run min max k s) id ∨ Taken (run min max k s) id ∨ id ∈ (run min max k s).started := by
  have h := (inv_run min max k s).ids id
  have hd := (calm_foldl (calm_init k h1 h2) hs).nothingDropped
  change (run min max k s).dropped = [] at hd
  rw [if_pos (show id < _ from hid), hd, List.count_nil] at h
  by_cases hq : 0 < inQueue id (run min max k s).queue
  · exact .inl (inQueue_pos hq)
  · by_cases hh : 0 < wsum (hand id) (run min max k s).workers
    · exact .inr (.inl (hand_pos hh))
    · exact .inr (.inr (List.count_pos_iff.1 (by omega)))

/-- **C59, can always be run.** In a pool with a minimum of at least one thread, without shutdown and without failing thread
starts, from every reachable state the workers and the `execute` calls going on can continue so that every task submitted so
far is called: the pool is never stuck with a task, however it got there. (That a running function returns is part of the
possible continuations; which continuation happens is up to the scheduler, see the findings below.) -/
theorem tasks_can_run_partial {min max k : Nat} {s : List Act} (h1 : 1 ≤ min) (h2 : 1 ≤ max) (hs : NoShutdown s) (hf : NoFailure s) :
    ∃ r, (∀ a ∈ r, Internal a) ∧ ∀ id, Submitted (run min max k s) id → id ∈ (run min max k (s ++ r)).started := by
  have h0 := calm_init k h1 h2
  have hth : (1 : Int) ≤ (init min max k).threads := h0.min
  obtain ⟨r, r1, r2⟩ := run_all (c := run min max k s) ⟨inv_run min max k s, calm_foldl h0 hs, threads_foldl h0 hth hs hf⟩
  exact ⟨r, r1, fun id hid => by unfold run; rw [List.foldl_append]; exact r2 id hid⟩

/-- **C59, a worker does not go to sleep while a task waits**: whenever a worker evaluates its waiting condition while the
queue is not empty, it goes on instead of waiting. -/
theorem no_sleep_while_waiting (min max k : Nat) (s : List Act) (i : Nat) (hp : (run min max k s).workers[i]? = some .pred)
    (hq : (run min max k s).queue ≠ []) : (run min max k (s ++ [.worker i .go])).workers[i]? = some .check := by
  have h := (inv_run min max k s).queued
  unfold run at *
  rw [List.foldl_append]
  generalize s.foldl step (init min max k) = c at *
  have : 0 < c.queue.length := List.length_pos_iff.2 hq
  have hpos : c.queued > 0 := by omega
  simp only [List.foldl_cons, List.foldl_nil, step, hp, stepW, if_pos hpos]
  exact setW_get hp _

/-- **C59, shutdown.** Once all workers have returned, every submitted task was either run to its end, exactly once, or never
called at all (still in the queue, or in the queue when the last thread cleared it). -/
theorem shutdown_never_half_run (min max k : Nat) (s : List Act) (hg : ∀ p ∈ (run min max k s).workers, p = .gone) (id : Nat)
    (hid : Submitted (run min max k s) id) :
    ((run min max k s).started.count id = 1 ∧ (run min max k s).finished.count id = 1) ∨
      (id ∉ (run min max k s).started ∧ (Waiting (run min max k s) id ∨ id ∈ (run min max k s).dropped)) := by
  have h := (inv_run min max k s).ids id
  have hf := (inv_run min max k s).done id
  have z1 : wsum (hand id) (run min max k s).workers = 0 := wsum_eq_zero fun p hp => by rw [hg p hp]; rfl
  have z2 : wsum (inside id) (run min max k s).workers = 0 := wsum_eq_zero fun p hp => by rw [hg p hp]; rfl
  rw [if_pos (show id < _ from hid), z1] at h
  rw [z2] at hf
  by_cases hst : 0 < (run min max k s).started.count id
  · left; omega
  · right
    refine ⟨fun hm => hst (List.count_pos_iff.2 hm), ?_⟩
    by_cases hq : 0 < inQueue id (run min max k s).queue
    · exact .inl (inQueue_pos hq)
    · exact .inr (List.count_pos_iff.1 (by omega))

/-- The reported numbers: no counter becomes negative, the number of running tasks is the number of workers occupied with
one, and the number of queued tasks is never below the length of the queue. -/
theorem reported_numbers (min max k : Nat) (s : List Act) :
    (run min max k s).running = (wsum active (run min max k s).workers : Nat) ∧
      ((run min max k s).queue.length : Int) ≤ (run min max k s).queued ∧ 0 ≤ (run min max k s).threads := by
  have h := inv_run min max k s
  have h1 := h.running; have h2 := h.queued; have h3 := h.threads
  exact ⟨h1, by omega, by omega⟩

/-! Concrete runs. `w i` is the next step of worker `i`, `c i` that of submitting thread `i`. -/
abbrev w (i : Nat) : Act := .worker i .go
abbrev c (i : Nat) : Act := .caller i .go

/-- submitting thread `i` submits a task and pushes it. -/
abbrev submit (i p : Nat) : List Act := [.caller i (.submit p), c i]
/-- worker `i`, at the top of its loop, takes and runs a task and is back at the top. -/
abbrev runTask (i : Nat) : List Act := [w i, w i, w i, w i, w i, w i, w i, w i]
/-- worker `i`, at the top of its loop, finds nothing and decides to wait. -/
abbrev toSleep (i : Nat) : List Act := [w i, .worker i .sleep, w i, w i]

/-- non-vacuity: two workers, two submitting threads, three tasks; two are run, one is taken. -/
def demo : List Act := submit 0 0 ++ submit 1 0 ++ runTask 1 ++ [c 0, c 0] ++ submit 1 5 ++ runTask 0 ++ [c 1] ++ [w 0, w 0]
example : NoShutdown demo ∧ NoFailure demo := ⟨by unfold NoShutdown; decide, by
  intro i h
  simp [demo, submit, runTask, w, c] at h⟩
example : (run 2 2 2 demo).started = [0, 1] ∧ (run 2 2 2 demo).finished = [0, 1] ∧ (run 2 2 2 demo).nextId = 2 := by decide
def demo2 : List Act := submit 0 0 ++ submit 1 5 ++ runTask 0 ++ [w 1, w 1]
example : (run 2 2 2 demo2).started = [1] ∧ Taken (run 2 2 2 demo2) 0 := ⟨by decide, ⟨0, 0⟩, rfl, by decide⟩
/-- a worker that finds the condition true although it had found nothing. -/
example : (run 1 1 1 ([w 0, .worker 0 .sleep] ++ submit 0 0)).workers[0]? = some .pred ∧
    (run 1 1 1 ([w 0, .worker 0 .sleep] ++ submit 0 0)).queue ≠ [] := by decide
/-- a shutdown: the worker finishes its task, another one is dropped. -/
def demo3 : List Act := submit 0 0 ++ submit 1 0 ++ [w 0, w 0, w 0, w 0, .shutdown, .notifyAll, w 0, w 0, w 0, w 0, w 0, w 0, w 0]
example : (run 1 1 2 demo3).workers = [.gone] ∧ (run 1 1 2 demo3).finished = [0] ∧ (run 1 1 2 demo3).dropped = [1] := by decide

/-- a task dropped with the queue stays dropped. -/
theorem dropped_step (d : Conf) (a : Act) : ∃ l, (step d a).dropped = d.dropped ++ l := by
  fun_cases step d a
  · next i a pc _ => fun_cases stepW d i pc a <;> first | exact ⟨[], (List.append_nil _).symm⟩ | exact ⟨_, rfl⟩
  · exact ⟨[], (List.append_nil _).symm⟩
  · next i a pc _ => fun_cases stepC d i pc a <;> exact ⟨[], (List.append_nil _).symm⟩
  all_goals exact ⟨[], (List.append_nil _).symm⟩

/-- A dropped task is never run, whatever happens afterwards. -/
theorem dropped_never_runs (min max k : Nat) (s r : List Act) (id : Nat) (h : id ∈ (run min max k s).dropped) :
    id ∉ (run min max k (s ++ r)).started := by
  have hd : ∃ l, (run min max k (s ++ r)).dropped = (run min max k s).dropped ++ l := by
    unfold run
    rw [List.foldl_append]
    generalize s.foldl step (init min max k) = d
    induction r generalizing d with
    | nil => exact ⟨[], (List.append_nil _).symm⟩
    | cons a r ih =>
      obtain ⟨l1, h1⟩ := dropped_step d a
      obtain ⟨l2, h2⟩ := ih (step d a)
      exact ⟨l1 ++ l2, by rw [List.foldl_cons, h2, h1, List.append_assoc]⟩
  obtain ⟨l, hl⟩ := hd
  have hi := (inv_run min max k (s ++ r)).ids id
  intro hm
  have h1 := List.count_pos_iff.2 hm
  have h2 := List.count_pos_iff.2 h
  rw [hl, List.count_append] at hi
  split at hi <;> omega

/-- **Finding** (minimum 0, the default of both pools on WebAssembly): the last thread leaves because it was idle for too
long, and clears the queue — with a task that was submitted meanwhile and whose `execute` has returned. The task is never run
although nobody asked for a shutdown, and the pool reports one queued task for ever. -/
theorem idle_last_thread_drops_task :
    ∃ s, NoShutdown s ∧ (run 0 1 1 s).callers = [.idle] ∧ (run 0 1 1 s).queued = 1 ∧ (run 0 1 1 s).queue = [] ∧
      Submitted (run 0 1 1 s) 1 ∧ ∀ r, 1 ∉ (run 0 1 1 (s ++ r)).started := by
  refine ⟨submit 0 0 ++ [c 0, c 0, c 0, c 0, c 0, c 0, c 0, c 0, c 0, c 0] ++ runTask 0 ++ [c 0] ++ toSleep 0 ++
    [w 0, .worker 0 .timeout] ++ submit 0 0 ++ [c 0, c 0, c 0, c 0] ++ [.worker 0 .expired, w 0, w 0, w 0, w 0, w 0],
    by unfold NoShutdown; decide, by decide, by decide, by decide, by unfold Submitted; decide, ?_⟩
  intro r
  exact dropped_never_runs _ _ _ _ _ _ (by decide)

/-- **Finding** (lost wake-up): the waiting condition is evaluated without a lock shared with `execute`, so the notification
can fall between the evaluation and the wait. Then a task waits in the queue while its `execute` has returned and every worker
sleeps, and nothing changes until a wait ends by itself (10 s by default) or somebody else calls the pool. -/
theorem lost_wake_up :
    ∃ s, NoShutdown s ∧ Waiting (run 1 1 1 s) 0 ∧ (run 1 1 1 s).callers = [.idle] ∧ (run 1 1 1 s).workers = [.blocked] ∧
      ∀ r, (∀ a ∈ r, Undisturbed a) → run 1 1 1 (s ++ r) = run 1 1 1 s := by
  refine ⟨toSleep 0 ++ submit 0 0 ++ [c 0, c 0, c 0, c 0] ++ [w 0],
    by unfold NoShutdown; decide, ⟨⟨0, 0⟩, by decide, rfl⟩, by decide, by decide, ?_⟩
  intro r hr
  generalize hd : run 1 1 1 (toSleep 0 ++ submit 0 0 ++ [c 0, c 0, c 0, c 0] ++ [w 0]) = d
  have hw : d.workers = [.blocked] := by rw [← hd]; decide
  have hc : d.callers = [.idle] := by rw [← hd]; decide
  unfold run at *
  rw [List.foldl_append, hd]
  clear hd
  induction r with
  | nil => rfl
  | cons a r ih =>
    have hs : step d a = d := by
      have ha := hr a (.head _)
      match a, ha with
      | .worker 0 .go, _ | .worker 0 .spin, _ | .worker 0 .sleep, _ | .worker 0 .expired, _ | .worker 0 .casFails, _ =>
        simp [step, hw, stepW]
      | .worker (i + 1) a, _ => simp [step, hw]
      | .caller 0 .go, _ => simp [step, hc, stepC]
      | .caller (i + 1) .go, _ => simp [step, hc]
    rw [List.foldl_cons, hs]
    exact ih fun a ha => hr a (.tail _ ha)

/-- the schedule of the following finding. -/
def starving : List Act :=
    submit 0 0 ++ [w 0, w 0, w 0, w 0, c 0, c 0] ++                                       -- the first task, running
    submit 0 0 ++ [c 0, c 0, c 0, c 0, c 0, c 0, c 0, c 0, c 0] ++ runTask 1 ++ [c 0, c 0] ++   -- the second one, by a new thread
    toSleep 1 ++ [w 1] ++ submit 0 0 ++ [.caller 0 (.wake 1), c 0, c 0, c 0] ++                 -- the third one wakes it
    [w 1, .worker 1 .expired, w 1, w 1, w 1]

/-- **Finding** (starvation): a worker that is woken for a task but whose keep-alive time has just run out leaves without
looking at the queue. The task's `execute` has returned, since the pool was at its maximum, so nobody starts another thread: the
task waits until the function of another task returns, however long that takes, although only one of two threads exists. -/
theorem expired_worker_abandons_task :
    ∃ s, NoShutdown s ∧ Waiting (run 1 2 1 s) 2 ∧ (run 1 2 1 s).callers = [.idle] ∧ (run 1 2 1 s).threads = 1 ∧
      (run 1 2 1 s).maxT = 2 ∧ (run 1 2 1 s).workers = [.busy ⟨0, 0⟩, .gone] ∧
      ∀ r, (∀ a ∈ r, Internal a ∧ a ≠ .worker 0 .go) → (run 1 2 1 (s ++ r)).started = (run 1 2 1 s).started := by
  refine ⟨starving,
    by unfold NoShutdown; decide, ⟨⟨2, 0⟩, by decide, rfl⟩, by decide, by decide, by decide, by decide, ?_⟩
  intro r hr
  generalize hd : run 1 2 1 starving = d
  have hw : d.workers = [.busy ⟨0, 0⟩, .gone] := by rw [← hd]; decide
  have hc : d.callers = [.idle] := by rw [← hd]; decide
  unfold run at *
  rw [List.foldl_append, hd]
  clear hd
  induction r with
  | nil => rfl
  | cons a r ih =>
    have hs : step d a = d := by
      obtain ⟨ha, hn⟩ := hr a (.head _)
      match a, ha, hn with
      | .worker 0 .spin, _, _ | .worker 0 .sleep, _, _ | .worker 0 .expired, _, _ | .worker 0 .casFails, _, _
      | .worker 0 .timeout, _, _ | .worker 0 .spurious, _, _ => simp [step, hw, stepW]
      | .worker 1 a, _, _ => cases a <;> simp [step, hw, stepW]
      | .worker (i + 2) a, _, _ => simp [step, hw]
      | .caller 0 .go, _, _ | .caller 0 (.wake _), _, _ => simp [step, hc, stepC]
      | .caller (i + 1) .go, _, _ | .caller (i + 1) (.wake _), _, _ => simp [step, hc]
    rw [List.foldl_cons, hs]
    exact ih fun a ha => hr a (.tail _ ha)

/-- **Finding** (undefined behaviour): as soon as two workers are idle they wait on one condition variable with different
mutexes. -/
theorem idle_workers_wait_with_different_mutexes : WaitsWithDifferentMutexes (run 2 2 0 (toSleep 0 ++ toSleep 1 ++ [w 0, w 1])) :=
  ⟨0, 1, by decide, by decide, by decide⟩

/-- **Finding** (double join): `requestShutdown` joins the threads and leaves them in the list; the destructor joins them
again, which throws — in a destructor, so the program is terminated. -/
theorem destroying_after_shutdown_throws (threads : List Bool) (h : threads ≠ []) : (joinAll threads).bind joinAll = none := by
  match threads, h with
  | false :: _, _ => rfl
  | true :: l, _ =>
    simp only [joinAll]
    cases joinAll l <;> rfl

/-- without an earlier `requestShutdown` joining works. -/
theorem destroying_works (n : Nat) : joinAll (List.replicate n true) = some (List.replicate n false) := by
  induction n with
  | zero => rfl
  | succ n ih => simp only [List.replicate_succ, joinAll, ih, Option.map_some]

/-! ## C60 -/

/-- **C60, lower bound.** Without shutdown, failing thread starts and changed bounds the number of threads never falls below
the minimum. -/
theorem threads_at_least_min_partial (min max k : Nat) {s : List Act} (h1 : NoShutdown s) (h2 : NoFailure s) (h3 : FixedBounds s) :
    ((Nat.min min max : Nat) : Int) ≤ (run min max k s).threads := by
  obtain ⟨h, e⟩ := atLeast_run min max k h1 h2 h3
  rw [← e]; exact h.min

/-- **C60, upper bound.** If only one thread submits tasks, the number of threads never exceeds the maximum. -/
theorem threads_at_most_max_partial (min max : Nat) {s : List Act} (hs : FixedBounds s) :
    (run min max 1 s).threads ≤ (run min max 1 s).maxT := (bounded_run min max hs).max

/-- The reported number of threads is the number of workers that have not left, plus those being started. -/
theorem threads_counts_workers (min max k : Nat) (s : List Act) :
    (run min max k s).threads = (wsum live (run min max k s).workers + wsum spawning (run min max k s).callers : Nat) :=
  (inv_run min max k s).threads

/-- non-vacuity: the pool of `expired_worker_abandons_task` grows to its maximum of two threads and shrinks again. -/
def demo4 : List Act := submit 0 0 ++ [w 0, w 0, w 0, w 0, c 0, c 0] ++
  submit 0 0 ++ [c 0, c 0, c 0, c 0, c 0, c 0, c 0, c 0, c 0] ++ runTask 1
example : FixedBounds demo4 ∧ NoShutdown demo4 ∧ (run 1 2 1 demo4).threads = 2 ∧
    (run 1 2 1 (demo4 ++ [w 1, .worker 1 .spin, .worker 1 .expired, w 1, w 1, w 1])).threads = 1 := by
  refine ⟨?_, by unfold NoShutdown; decide, by decide, by decide⟩
  intro n
  simp [demo4, submit, runTask, w, c]

/-- **Finding**: two threads that submit at the same time exceed the maximum (a unit test notes that it "is not a hard limit"). -/
theorem maximum_exceeded : ∃ s, FixedBounds s ∧ (run 1 2 2 s).threads = 3 ∧ (run 1 2 2 s).maxT = 2 := by
  refine ⟨submit 0 0 ++ [w 0, w 0, w 0, w 0, c 0, c 0] ++ submit 0 0 ++ submit 1 0 ++
    [c 0, c 0, c 0, c 0, c 0, c 0, c 0, c 1, c 1, c 1, c 1, c 1, c 1, c 1, c 0, c 1], ?_, by decide, by decide⟩
  intro n
  simp [submit, w, c]

/-- **Finding**: a thread start that fails while another worker leaves takes the pool below its minimum: here to no thread at
all, with a task in the queue. (The next `execute` starts a thread again.) -/
theorem failed_start_leaves_no_thread : ∃ s, NoShutdown s ∧ (run 1 2 1 s).threads = 0 ∧ Waiting (run 1 2 1 s) 1 := by
  refine ⟨submit 0 0 ++ [w 0, w 0, w 0, w 0, c 0, c 0] ++ submit 0 0 ++ [c 0, c 0, c 0, c 0, c 0, c 0, c 0, c 0] ++
    [w 0, w 0, w 0, .worker 0 .expired, w 0, w 0, w 0] ++ [.caller 0 .fails],
    by unfold NoShutdown; decide, by decide, ⟨⟨1, 0⟩, by decide, rfl⟩⟩

/-! ## C61 -/

/-- **C61.** With priorities below 2^31, whenever a worker takes a task, no waiting task has a higher priority, and none with
the same priority was submitted earlier. -/
theorem takes_most_urgent_partial (min max k : Nat) {s : List Act} (hs : SmallPriorities s) {i : Nat} {t : Task}
    (htop : (run min max k s).workers[i]? = some .top) (hgot : (run min max k (s ++ [w i])).workers[i]? = some (.got t)) :
    t ∈ (run min max k s).queue ∧ ∀ u ∈ (run min max k s).queue, u ≠ t → Before t u := by
  have h := (ordered_run min max k hs).sorted
  unfold run at *
  rw [List.foldl_append] at hgot
  generalize s.foldl step (init min max k) = d at *
  simp only [List.foldl_cons, List.foldl_nil, step, htop, stepW] at hgot
  split at hgot
  · rw [setW_get htop] at hgot; cases hgot
  · next x q hq =>
    rw [setW_get (c := { d with queue := q }) htop] at hgot
    cases hgot
    rw [hq] at h ⊢
    refine ⟨.head _, ?_⟩
    intro u hu hne
    rcases List.mem_cons.1 hu with rfl | hu
    · exact absurd rfl hne
    · exact (List.pairwise_cons.1 h).1 u hu

/-- The priority a task is queued with is the given one. -/
theorem priority_kept {p : Nat} (h : p < 2147483648) : toInt32 p = p := toInt32_small h

/-- non-vacuity: of the priorities 0, 7, 3, 7 the first 7 is taken. -/
example : SmallPriorities (submit 0 0 ++ submit 1 7 ++ submit 2 3 ++ submit 3 7) ∧
    (run 1 1 4 (submit 0 0 ++ submit 1 7 ++ submit 2 3 ++ submit 3 7)).workers[0]? = some .top ∧
    (run 1 1 4 (submit 0 0 ++ submit 1 7 ++ submit 2 3 ++ submit 3 7 ++ [w 0])).workers[0]? = some (.got ⟨1, 7⟩) ∧
    (run 1 1 4 (submit 0 0 ++ submit 1 7 ++ submit 2 3 ++ submit 3 7)).queue.map Task.id = [1, 3, 2, 0] := by
  refine ⟨?_, by decide, by decide, by decide⟩
  intro i p h
  simp [submit, c] at h
  omega

/-- **Finding**: priorities from 2^31 on become negative, so such a task runs after the ones with the lowest priority. -/
theorem huge_priority_is_lowest : (run 1 1 2 (submit 0 2147483648 ++ submit 1 1)).queue = [⟨1, 1⟩, ⟨0, -2147483648⟩] := by decide

end Verif.Pool
