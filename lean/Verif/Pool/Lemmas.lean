import Verif.Pool.Model
/-!
# Invariants of the thread pool
-/
namespace Verif.Pool

/-- Sum of a weight over a list. -/
def wsum {α : Type} (f : α → Nat) : List α → Nat
  | [] => 0
  | a :: l => f a + wsum f l

theorem wsum_append {α} (f : α → Nat) (l r : List α) : wsum f (l ++ r) = wsum f l + wsum f r := by
  induction l with
  | nil => simp [wsum]
  | cons a l ih => simp only [List.cons_append, wsum, ih]; omega

theorem wsum_set {α} (f : α → Nat) {l : List α} {i : Nat} {a : α} (h : l[i]? = some a) (b : α) :
    wsum f (l.set i b) + f a = wsum f l + f b := by
  induction l generalizing i with
  | nil => simp at h
  | cons x l ih =>
    cases i with
    | zero => simp at h; subst h; simp only [List.set_cons_zero, wsum]; omega
    | succ i =>
      simp at h
      simp only [List.set_cons_succ, wsum]
      have := ih h
      omega

theorem wsum_map {α} (f : α → Nat) (g : α → α) (h : ∀ a, f (g a) = f a) (l : List α) : wsum f (l.map g) = wsum f l := by
  induction l with
  | nil => rfl
  | cons a l ih => simp only [List.map_cons, wsum, ih, h]

theorem wsum_replicate {α} (f : α → Nat) (n : Nat) (a : α) : wsum f (List.replicate n a) = n * f a := by
  induction n with
  | zero => simp [wsum]
  | succ n ih => simp only [List.replicate_succ, wsum, ih, Nat.succ_mul]; omega

theorem wsum_pos {α} {f : α → Nat} {l : List α} (h : 0 < wsum f l) : ∃ i : Nat, ∃ a : α, l[i]? = some a ∧ 0 < f a := by
  induction l with
  | nil => simp [wsum] at h
  | cons x l ih =>
    simp only [wsum] at h
    by_cases hx : 0 < f x
    · exact ⟨0, x, rfl, hx⟩
    · obtain ⟨i, a, hi, ha⟩ := ih (by omega)
      exact ⟨i + 1, a, by simpa using hi, ha⟩

theorem wsum_ge {α} (f : α → Nat) {l : List α} {i : Nat} {a : α} (h : l[i]? = some a) : f a ≤ wsum f l := by
  induction l generalizing i with
  | nil => simp at h
  | cons x l ih =>
    cases i with
    | zero => simp at h; subst h; simp only [wsum]; omega
    | succ i => simp at h; simp only [wsum]; have := ih h; omega

/-- the worker has taken task `id` and not yet called it. -/
def hand (id : Nat) : WPc → Nat
  | .got t | .start t | .call t => if t.id = id then 1 else 0
  | _ => 0

/-- the worker is inside the function of task `id`. -/
def inside (id : Nat) : WPc → Nat
  | .busy t => if t.id = id then 1 else 0
  | _ => 0

/-- the worker has popped a task and not yet decremented the number of queued tasks. -/
def popped : WPc → Nat
  | .got _ => 1
  | _ => 0

/-- the worker is counted in the number of running tasks. -/
def active : WPc → Nat
  | .call _ | .busy _ | .ran | .fin => 1
  | _ => 0

/-- the worker is counted in the number of threads. -/
def live : WPc → Nat
  | .clear1 | .clear2 | .gone => 0
  | _ => 1

/-- the submitting thread has counted its task and not yet pushed it. -/
def pending : CPc → Nat
  | .counted _ => 1
  | _ => 0

/-- the submitting thread has counted a thread it has not yet started. -/
def spawning : CPc → Nat
  | .spawn => 1
  | _ => 0

def inQueue (id : Nat) (q : List Task) : Nat := wsum (fun t => if t.id = id then 1 else 0) q

theorem inQueue_push (id : Nat) (q : List Task) (t : Task) :
    inQueue id (push q t) = inQueue id q + (if t.id = id then 1 else 0) := by
  unfold push inQueue
  split
  · simp [wsum_append, wsum]
  · have h := List.takeWhile_append_dropWhile (p := fun u : Task => !decide (u.prio < t.prio)) (l := q)
    conv => rhs; rw [← h]
    simp only [wsum_append, wsum]; omega

theorem length_push (q : List Task) (t : Task) : (push q t).length = q.length + 1 := by
  unfold push
  split
  · simp
  · have h := congrArg List.length (List.takeWhile_append_dropWhile (p := fun u : Task => !decide (u.prio < t.prio)) (l := q))
    simp only [List.length_append, List.length_cons] at h ⊢; omega

theorem count_map_id (id : Nat) (q : List Task) : (q.map Task.id).count id = inQueue id q := by
  induction q with
  | nil => rfl
  | cons t q ih =>
    unfold inQueue at ih ⊢
    simp only [List.map_cons, List.count_cons, wsum, ih, beq_iff_eq]; omega

structure Inv (c : Conf) : Prop where
  ids : ∀ id, inQueue id c.queue + wsum (hand id) c.workers + c.started.count id + c.dropped.count id =
    if id < c.nextId then 1 else 0
  queued : c.queued = (c.queue.length + wsum pending c.callers + wsum popped c.workers + c.dropped.length : Nat)
  running : c.running = (wsum active c.workers : Nat)
  threads : c.threads = (wsum live c.workers + wsum spawning c.callers : Nat)
  done : ∀ id, c.finished.count id + wsum (inside id) c.workers = c.started.count id

theorem inv_stepW {c : Conf} (h : Inv c) {i : Nat} {pc : WPc} (hp : c.workers[i]? = some pc) (a : WAct) : Inv (stepW c i pc a) := by
  have hs := fun f b => wsum_set f hp b
  have h1 := h.ids; have h2 := h.queued; have h3 := h.running; have h4 := h.threads; have h5 := h.done
  fun_cases stepW c i pc a <;> first
    | exact h
    | (constructor
       · intro id
         have e1 := h1 id
         have e2 := hs (hand id)
         simp_all [setW, hand, wsum, inQueue, List.count_append, List.count_cons, count_map_id]
         try grind
       · have e2 := hs popped
         simp_all [setW, popped]
         try grind
       · have e2 := hs active
         simp_all [setW, active]
         try grind
       · have e2 := hs live
         simp_all [setW, live]
         try grind
       · intro id
         have e1 := h5 id
         have e2 := hs (inside id)
         simp_all [setW, inside, List.count_append, List.count_cons]
         try grind)

theorem inv_stepC {c : Conf} (h : Inv c) {i : Nat} {pc : CPc} (hp : c.callers[i]? = some pc) (a : CAct) : Inv (stepC c i pc a) := by
  have hs := fun f b => wsum_set f hp b
  have h1 := h.ids; have h2 := h.queued; have h3 := h.running; have h4 := h.threads; have h5 := h.done
  fun_cases stepC c i pc a <;> first
    | exact h
    | (constructor
       · intro id
         have e1 := h1 id
         simp_all [setC, setW, wsum_append, wsum, hand, inQueue_push]
         try grind
       · have e2 := hs pending
         simp_all [setC, setW, pending, length_push, wsum_append, wsum, popped]
         try grind
       · simp_all [setC, setW, wsum_append, wsum, active]
       · have e2 := hs spawning
         simp_all [setC, setW, spawning, wsum_append, wsum, live]
         try grind
       · intro id
         have e1 := h5 id
         simp_all [setC, setW, wsum_append, wsum, inside])
    | (rename_i w hw
       have hs' := fun f b => wsum_set f hw b
       constructor
       · intro id
         have e1 := h1 id
         have e2 := hs' (hand id) .pred
         simp_all [setC, setW, hand]
       · have e2 := hs pending
         have e3 := hs' popped .pred
         simp_all [setC, setW, pending, popped]
       · have e3 := hs' active .pred
         simp_all [setC, setW, active]
       · have e2 := hs spawning
         have e3 := hs' live .pred
         simp_all [setC, setW, spawning, live]
       · intro id
         have e1 := h5 id
         have e2 := hs' (inside id) .pred
         simp_all [setC, setW, inside])

theorem inv_step {c : Conf} (h : Inv c) (a : Act) : Inv (step c a) := by
  fun_cases step c a
  · next i a pc hp => exact inv_stepW h hp a
  · exact h
  · next i a pc hp => exact inv_stepC h hp a
  · exact h
  · exact h
  · exact ⟨h.ids, h.queued, h.running, h.threads, h.done⟩
  · exact h
  · exact ⟨h.ids, h.queued, h.running, h.threads, h.done⟩
  · constructor
    · intro id
      dsimp only
      rw [wsum_map _ _ (by intro a; cases a <;> rfl)]; exact h.ids id
    · dsimp only
      rw [wsum_map _ _ (by intro a; cases a <;> rfl)]; exact h.queued
    · dsimp only
      rw [wsum_map _ _ (by intro a; cases a <;> rfl)]; exact h.running
    · dsimp only
      rw [wsum_map _ _ (by intro a; cases a <;> rfl)]; exact h.threads
    · intro id
      dsimp only
      rw [wsum_map _ _ (by intro a; cases a <;> rfl)]; exact h.done id
  · exact ⟨h.ids, h.queued, h.running, h.threads, h.done⟩

theorem inv_init (min max k : Nat) : Inv (init min max k) := by
  constructor <;> simp [init, inQueue, wsum, wsum_replicate, hand, pending, popped, active, live, spawning, inside]

theorem inv_foldl {c : Conf} (h : Inv c) (s : List Act) : Inv (s.foldl step c) := by
  induction s generalizing c with
  | nil => exact h
  | cons x s ih => exact ih (inv_step h x)

theorem inv_run (min max k : Nat) (s : List Act) : Inv (run min max k s) := inv_foldl (inv_init min max k) s

end Verif.Pool
