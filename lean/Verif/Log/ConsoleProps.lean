import Verif.Log.ConsoleLemmas
/-!
# Theorems about the console backend (C121)
-/
namespace Verif.Log.Console
open Verif.Log (Rec)

/-- At most one thread writes to the console at any time. -/
theorem console_one_writer (cap : Nat) (acts : List Act) (t u : Nat)
    (ht : writing ((run cap acts).pc t) = true) (hu : writing ((run cap acts).pc u) = true) :
    t = u := (inv_run cap acts).locks.conOne t u ht hu

/-- At most one thread empties the ring at any time. -/
theorem console_one_flusher (cap : Nat) (acts : List Act) (t u : Nat)
    (ht : flushing ((run cap acts).pc t) = true) (hu : flushing ((run cap acts).pc u) = true) :
    t = u := (inv_run cap acts).locks.flushOne t u ht hu

/-- With nobody inside a call, both flags are down. -/
theorem console_flags_down (cap : Nat) (acts : List Act) (h : quiet (run cap acts)) :
    (run cap acts).mem.flushBusy = false ∧ (run cap acts).mem.consoleBusy = false := by
  have hk := (inv_run cap acts).locks
  constructor
  · cases hb : (run cap acts).mem.flushBusy with
    | false => rfl
    | true => obtain ⟨t, ht⟩ := hk.flushOwner hb; rw [h t] at ht; cases ht
  · cases hb : (run cap acts).mem.consoleBusy with
    | false => rfl
    | true => obtain ⟨t, ht⟩ := hk.conOwner hb; rw [h t] at ht; cases ht

/-- What reaches the console through the ring is a subsequence of what was put into the ring: no
record appears twice, none out of order, none that was not published. -/
theorem console_ring_order (cap : Nat) (acts : List Act) :
    (ringLines (run cap acts).mem).Sublist (run cap acts).mem.claimed := by
  have h := (inv_run cap acts).lines
  by_cases hf : ∃ t, flushing ((run cap acts).pc t) = true
  · obtain ⟨t, ht⟩ := hf
    have := h.inside t ht
    revert this ht
    cases (run cap acts).pc t <;> simp only [flushing, Printed, Bool.false_eq_true, false_implies]
    · intro _ hs; exact hs.trans (List.take_sublist _ _)
    · rintro _ ⟨k, _, _, hs⟩; exact hs.trans (List.take_sublist _ _)
    · rintro _ ⟨k, _, _, hs⟩; exact hs.trans (List.take_sublist _ _)
    · rintro _ ⟨k, _, _, hs⟩; exact hs.trans (List.take_sublist _ _)
    · intro _ hs; exact hs.trans (List.take_sublist _ _)
    · intro _ hs; exact hs.trans (List.take_sublist _ _)
  · refine (h.free fun t => ?_).trans (List.take_sublist _ _)
    cases ht : flushing ((run cap acts).pc t) with
    | false => rfl
    | true => exact absurd ⟨t, ht⟩ hf

/-- A line written around the ring belongs to a record that found the ring full, and says that at
least one was dropped. -/
theorem console_direct_lines (cap : Nat) (acts : List Act) (r : Rec)
    (h : (true, r) ∈ (run cap acts).mem.lines) :
    1 ≤ r.droppedBefore ∧
      ∃ q ∈ (run cap acts).mem.turnedAway, q.body = r.body ∧ q.droppedBefore ≤ r.droppedBefore :=
  (inv_run cap acts).directs.lines r h

/-- With nobody inside a call, the counter says how many records found the ring full; at no time does
it say more. -/
theorem console_drop_count (cap : Nat) (acts : List Act) :
    (run cap acts).mem.dropped ≤ (run cap acts).mem.turnedAway.length ∧
    (quiet (run cap acts) → (run cap acts).mem.dropped = (run cap acts).mem.turnedAway.length) := by
  obtain ⟨L, _, h2, h3⟩ := counted_run cap acts
  refine ⟨by omega, fun hq => ?_⟩
  cases L with
  | nil => simpa using h3.symm
  | cons t L =>
    obtain ⟨r, hr⟩ := (h2 t).1 List.mem_cons_self
    rw [hq t] at hr
    cases hr

/-- A ring without slots turns every record away. -/
example : (run 0 [.call 3 (.publish ⟨7, 0⟩), .go 3, .go 3, .go 3, .go 3, .go 3, .go 3]).mem.dropped = 1 ∧
    (run 0 [.call 3 (.publish ⟨7, 0⟩), .go 3, .go 3, .go 3, .go 3, .go 3, .go 3]).mem.lines = [(true, ⟨7, 1⟩)] := by
  decide

/-! Every record comes from a call. -/

/-- The record that a thread is about to put somewhere. -/
def carried : Pc → Option Rec
  | .stamp r | .claim r => some r
  | _ => none

/-- Everything that is somewhere was published. -/
def FromCalls (asked_ : List Rec) (s : Sys) : Prop :=
  (∀ t r, carried (s.pc t) = some r → ∃ q ∈ asked_, q.body = r.body) ∧
  (∀ r ∈ s.mem.claimed, ∃ q ∈ asked_, q.body = r.body) ∧
  (∀ r ∈ s.mem.turnedAway, ∃ q ∈ asked_, q.body = r.body)

theorem fromCalls_step {a : List Rec} {s : Sys} (h : FromCalls a s) (cap t : Nat) :
    FromCalls a (step cap s t) := by
  obtain ⟨h1, h2, h3⟩ := h
  have keep : ∀ (m' : Mem) (p : Pc), m'.claimed = s.mem.claimed →
      m'.turnedAway = s.mem.turnedAway → carried p = none →
      FromCalls a (({ s with mem := m' } : Sys).at_ t p) := by
    intro m' p hc ha hp
    refine ⟨?_, by simpa only [Sys.at_, hc] using h2, by simpa only [Sys.at_, ha] using h3⟩
    intro u r hu
    simp only [Sys.at_] at hu
    split at hu
    · rw [hp] at hu; cases hu
    · exact h1 u r hu
  unfold step
  dsimp only
  split <;> rename_i hpc
  · exact ⟨h1, h2, h3⟩
  · rename_i r
    refine ⟨?_, h2, h3⟩
    intro u r' hu
    simp only [Sys.at_] at hu
    split at hu
    · cases hu
      exact h1 t r (by rw [hpc]; rfl)
    · exact h1 u r' hu
  · rename_i r
    have hr := h1 t r (by rw [hpc]; rfl)
    have hcar : ∀ (p : Pc), carried p = none → ∀ u r', carried (if u = t then p else s.pc u) =
        some r' → ∃ q ∈ a, q.body = r'.body := by
      intro p hp u r' hu
      split at hu
      · rw [hp] at hu; cases hu
      · exact h1 u r' hu
    split
    · refine ⟨hcar _ rfl, ?_, h3⟩
      intro q hq
      simp only [Sys.at_, List.mem_append, List.mem_singleton] at hq
      rcases hq with hq | rfl
      · exact h2 q hq
      · exact hr
    · refine ⟨hcar _ rfl, h2, ?_⟩
      intro q hq
      simp only [Sys.at_, List.mem_append, List.mem_singleton] at hq
      rcases hq with hq | rfl
      · exact h3 q hq
      · exact hr
  · exact keep _ _ rfl rfl rfl
  · exact keep _ _ rfl rfl rfl
  · split
    · exact keep s.mem _ rfl rfl rfl
    · exact keep _ _ rfl rfl rfl
  · exact keep _ _ rfl rfl rfl
  · exact keep _ _ rfl rfl rfl
  · split
    · exact keep s.mem _ rfl rfl rfl
    · exact keep _ _ rfl rfl rfl
  · exact keep s.mem _ rfl rfl rfl
  · split
    · exact keep s.mem _ rfl rfl rfl
    · split
      · exact keep s.mem _ rfl rfl rfl
      · exact keep _ _ rfl rfl rfl
  · exact keep _ _ rfl rfl rfl
  · exact keep _ _ rfl rfl rfl
  · exact keep _ _ rfl rfl rfl
  · exact keep _ _ rfl rfl rfl

theorem fromCalls_run (cap : Nat) (acts : List Act) : FromCalls (asked acts) (run cap acts) := by
  have : ∀ (as : List Act) (s : Sys) (a : List Rec), FromCalls (a ++ asked as) s →
      FromCalls (a ++ asked as) (runFrom cap s as) := by
    intro as
    induction as with
    | nil => intro s a h; exact h
    | cons x as ih =>
      intro s a h
      show FromCalls _ (runFrom cap (act cap s x) as)
      cases x with
      | go t => exact ih _ a (fromCalls_step h cap t)
      | call t op =>
        cases op with
        | flush =>
          refine ih _ a ?_
          simp only [act, invoke]
          split
          · refine ⟨?_, h.2.1, h.2.2⟩
            intro u r hu
            simp only [Sys.at_] at hu
            split at hu
            · cases hu
            · exact h.1 u r hu
          · exact h
        | publish r =>
          have hmem : r ∈ a ++ asked (.call t (.publish r) :: as) := by simp [asked]
          have e : a ++ asked (.call t (.publish r) :: as) = (a ++ [r]) ++ asked as := by simp [asked]
          rw [e] at h hmem ⊢
          refine ih _ _ ?_
          simp only [act, invoke]
          split
          · refine ⟨?_, h.2.1, h.2.2⟩
            intro u r' hu
            simp only [Sys.at_] at hu
            split at hu
            · cases hu
              exact ⟨r, hmem, rfl⟩
            · exact h.1 u r' hu
          · exact h
  have h0 := this acts {} [] ⟨fun t r h => (by cases h), fun r h => (by cases h),
    fun r h => (by cases h)⟩
  simpa [run] using h0

/-- Every line on the console is a record that some call published. -/
theorem console_lines_published (cap : Nat) (acts : List Act) (d : Bool) (r : Rec)
    (h : (d, r) ∈ (run cap acts).mem.lines) : ∃ q ∈ asked acts, q.body = r.body := by
  have hf := fromCalls_run cap acts
  cases d with
  | true =>
    obtain ⟨_, q, hq, hb, _⟩ := console_direct_lines cap acts r h
    obtain ⟨q', hq', hb'⟩ := hf.2.2 q hq
    exact ⟨q', hq', hb'.trans hb⟩
  | false =>
    have hm : r ∈ ringLines (run cap acts).mem := List.mem_filterMap.2 ⟨(false, r), h, rfl⟩
    exact hf.2.1 r ((console_ring_order cap acts).subset hm)

/-! What happens when nobody interferes. -/

/-- With nobody inside a call, everything in the ring is committed: the next flush sees it all. -/
theorem console_quiet_committed (cap : Nat) (acts : List Act) (h : quiet (run cap acts)) :
    readable (run cap acts).mem.ring = (run cap acts).mem.ring.map Prod.fst := by
  have ho := (inv_run cap acts).ring.open_
  have hall : ∀ x ∈ (run cap acts).mem.ring, x.2 = true := by
    intro x hx
    obtain ⟨i, hi⟩ := List.getElem?_of_mem hx
    rcases x with ⟨r, b⟩
    cases b with
    | true => rfl
    | false =>
      obtain ⟨t, ht⟩ := ho i r hi
      rw [h t] at ht
      cases ht
  revert hall
  generalize (run cap acts).mem.ring = ring
  intro hall
  induction ring with
  | nil => rfl
  | cons x ring ih =>
    rcases x with ⟨r, b⟩
    have hb : b = true := hall (r, b) (List.mem_cons_self ..)
    subst hb
    simp only [readable, List.map_cons]
    rw [ih fun y hy => hall y (List.mem_cons_of_mem _ hy)]

theorem runFrom_append (cap : Nat) (s : Sys) (a b : List Act) :
    runFrom cap s (a ++ b) = runFrom cap (runFrom cap s a) b := List.foldl_append ..

theorem flush_loop (cap t n : Nat) (todo : List Rec) : ∀ (s : Sys), s.pc t = .flushNext todo n →
    s.mem.consoleBusy = false →
    runFrom cap s (List.replicate (3 * todo.length) (.go t)) =
      ({ s with mem := { s.mem with lines := s.mem.lines ++ todo.map (false, ·) } } : Sys).at_ t
        (.flushNext [] n) := by
  induction todo with
  | nil =>
    intro s hpc _
    simp only [List.length_nil, Nat.mul_zero, List.replicate_zero, List.map_nil, List.append_nil,
      Sys.at_, runFrom, List.foldl_nil]
    rcases s with ⟨m, pc⟩
    congr 1
    funext u
    split
    · rename_i he; subst he; exact hpc
    · rfl
  | cons r todo ih =>
    intro s hpc hb
    rw [show 3 * (r :: todo).length = 3 + 3 * todo.length by simp only [List.length_cons]; omega,
      ← List.replicate_append_replicate, runFrom_append]
    have h3 : runFrom cap s (List.replicate 3 (.go t)) =
        ({ s with mem := { s.mem with lines := s.mem.lines ++ [(false, r)] } } : Sys).at_ t
          (.flushNext todo n) := by
      rcases s with ⟨m, pc⟩
      simp only at hpc hb
      simp [List.replicate, runFrom, act, step, hpc, hb, Sys.at_]
      funext u
      by_cases hu : u = t <;> simp [hu]
    rw [h3]
    refine (ih _ (by simp [Sys.at_]) (by exact hb)).trans ?_
    simp only [Sys.at_, List.map_cons, List.append_assoc, List.cons_append, List.nil_append]
    congr 1
    funext u
    by_cases hu : u = t <;> simp [hu]

/-- A flush with nobody else inside writes out everything that is in the ring, in order. -/
theorem flush_alone_prints (cap : Nat) (acts : List Act) (t : Nat) (h : quiet (run cap acts)) :
    let s := run cap acts
    let s' := run cap (acts ++ alone t .flush (3 * s.mem.ring.length + 5))
    s'.mem.lines = s.mem.lines ++ s.mem.ring.map (fun x => (false, x.1)) ∧
    s'.mem.ring = [] ∧ quiet s' := by
  intro s s'
  obtain ⟨hf, hc⟩ := console_flags_down cap acts h
  have hread := console_quiet_committed cap acts h
  have e : s' = runFrom cap (runFrom cap (runFrom cap (runFrom cap s
      [.call t .flush, .go t, .go t]) (List.replicate (3 * s.mem.ring.length) (.go t)))
        [.go t, .go t, .go t]) [] := by
    show run cap _ = _
    rw [run, runFrom_append, alone, show 3 * s.mem.ring.length + 5 =
      2 + (3 * s.mem.ring.length + 3) by omega, ← List.replicate_append_replicate,
      ← List.replicate_append_replicate]
    show runFrom cap s ([.call t .flush, .go t, .go t] ++ (List.replicate (3 * s.mem.ring.length) (.go t) ++
      [.go t, .go t, .go t])) = _
    rw [runFrom_append, runFrom_append]
    rfl
  have h2 : runFrom cap s [.call t .flush, .go t, .go t] =
      ({ s with mem := { s.mem with flushBusy := true } } : Sys).at_ t
        (.flushNext (s.mem.ring.map Prod.fst) s.mem.ring.length) := by
    have ht : s.pc t = .idle := h t
    have hf' : s.mem.flushBusy = false := hf
    have hr' : readable s.mem.ring = s.mem.ring.map Prod.fst := hread
    simp [runFrom, act, invoke, step, ht, hf', Sys.at_, hr']
    funext u; by_cases hu : u = t <;> simp [hu]
  have hlen : 3 * s.mem.ring.length = 3 * (s.mem.ring.map Prod.fst).length := by simp
  have hloop := flush_loop cap t s.mem.ring.length (s.mem.ring.map Prod.fst)
    (({ s with mem := { s.mem with flushBusy := true } } : Sys).at_ t
        (.flushNext (s.mem.ring.map Prod.fst) s.mem.ring.length)) (by simp [Sys.at_]) (by exact hc)
  rw [h2, hlen, hloop] at e
  have e3 : s' = { s with mem := { s.mem with
      lines := s.mem.lines ++ (s.mem.ring.map Prod.fst).map (false, ·), ring := [],
      consumed := s.mem.consumed + s.mem.ring.length } } := by
    rw [e]
    simp [runFrom, act, step, Sys.at_]
    constructor
    · exact hf
    · funext u; by_cases hu : u = t
      · subst hu; simp [h u, s]
      · simp [hu]
  rw [e3]
  refine ⟨by simp [List.map_map, Function.comp_def], rfl, fun u => h u⟩

/-- Publishing with nobody else inside and nothing left in the ring: the record is on the console
when the call returns. -/
theorem publish_alone_visible (cap : Nat) (acts : List Act) (t : Nat) (r : Rec) (hcap : 0 < cap)
    (h : quiet (run cap acts)) (hempty : (run cap acts).mem.ring = []) :
    let s := run cap acts
    let s' := run cap (acts ++ alone t (.publish r) 11)
    s'.mem.lines = s.mem.lines ++
      [(false, { r with droppedBefore := max r.droppedBefore s.mem.dropped })] ∧
    s'.mem.ring = [] ∧ s'.mem.dropped = s.mem.dropped ∧ quiet s' := by
  intro s s'
  obtain ⟨hf, hc⟩ := console_flags_down cap acts h
  have e : s' = runFrom cap s (alone t (.publish r) 11) := by
    show run cap _ = _
    rw [run, runFrom_append]
    rfl
  have ht : s.pc t = .idle := h t
  have hf' : s.mem.flushBusy = false := hf
  have hc' : s.mem.consoleBusy = false := hc
  have he' : s.mem.ring = [] := hempty
  have hq : ∀ u, s.pc u = .idle := h
  rw [e]
  simp [alone, List.replicate, runFrom, act, invoke, step, ht, hf', hc', he', hcap, Sys.at_,
    readable, quiet]
  intro u hu
  simp only [if_neg hu]
  exact hq u

/-! What can go wrong. -/

/-- Two threads publish. -/
def strandedRun : List Act :=
  [.call 0 (.publish ⟨1, 0⟩), .go 0, .go 0, .go 0, .go 0, .go 0, .go 0, .go 0, .go 0, .go 0,
   .call 1 (.publish ⟨2, 0⟩), .go 1, .go 1, .go 1, .go 1, .go 0, .go 0]

/-- Publishing is not always write-through: the second record is put into the ring while the first
thread is about to finish its flush; both calls return, nobody is inside, and the second record has
not been written. It stays so until some other call comes. -/
theorem publish_may_strand (cap : Nat) (hcap : 2 ≤ cap) :
    quiet (run cap strandedRun) ∧
    (run cap strandedRun).mem.claimed = [⟨1, 0⟩, ⟨2, 0⟩] ∧
    (run cap strandedRun).mem.lines = [(false, ⟨1, 0⟩)] ∧
    (run cap strandedRun).mem.ring = [(⟨2, 0⟩, true)] := by
  have h0 : 0 < cap := by omega
  have h1 : 1 < cap := by omega
  refine ⟨?_, ?_, ?_, ?_⟩
  · intro u
    simp [strandedRun, run, runFrom, act, invoke, step, Sys.at_, readable, h0, h1]
    split
    · rename_i he; intro hne; exact absurd he hne
    · split <;> intro _ <;> rfl
  all_goals simp [strandedRun, run, runFrom, act, invoke, step, Sys.at_, readable, h0, h1]

/-- A thread publishes and finds the flush under way. -/
def fillOne : List Act := [.call 2 (.publish ⟨7, 0⟩), .go 2, .go 2, .go 2, .go 2]

/-- Before the record is lost: the first thread is about to write it, the ring has `k` slots in
use, the console is free. -/
def Waiting (k : Nat) (s : Sys) : Prop :=
  s.pc 0 = .flushNext [⟨1, 0⟩] 1 ∧ s.pc 1 = .idle ∧ s.pc 2 = .idle ∧ s.mem.flushBusy = true ∧
  s.mem.consoleBusy = false ∧ s.mem.ring.length = k ∧ s.mem.lines = [] ∧ s.mem.consumed = 0 ∧
  s.mem.claimed[0]? = some ⟨1, 0⟩ ∧ s.mem.dropped = 0

theorem fill_one {cap k : Nat} {s : Sys} (h : Waiting k s) (hk : k < cap) :
    Waiting (k + 1) (runFrom cap s fillOne) := by
  obtain ⟨h1, h2, h3, h4, h5, h6, h7, h8, h9, h10⟩ := h
  have hlt : s.mem.ring.length < cap := by omega
  simp only [Waiting, fillOne, runFrom, act, invoke, step, List.foldl_cons, List.foldl_nil, h3,
    Sys.at_, if_true, hlt, h4, h8]
  refine ⟨h1, h2, trivial, trivial, h5, by simp [h6], h7, trivial, ?_, h10⟩
  rw [List.getElem?_append_left (List.getElem?_eq_some_iff.1 h9).1]
  exact h9

theorem fill_many {cap : Nat} (j : Nat) : ∀ {k : Nat} {s : Sys}, Waiting k s → k + j ≤ cap →
    Waiting (k + j) (runFrom cap s (List.replicate j fillOne).flatten) := by
  induction j with
  | zero => intro k s h _; exact h
  | succ j ih =>
    intro k s h hk
    rw [List.replicate_succ, List.flatten_cons, runFrom_append,
      show k + (j + 1) = (k + 1) + j by omega]
    exact ih (fill_one h (by omega)) (by omega)

/-- The schedule that loses a record, for a ring with `cap` slots. -/
def losingRun (cap : Nat) : List Act :=
  [.call 0 (.publish ⟨1, 0⟩), .go 0, .go 0, .go 0, .go 0, .go 0] ++
  ((List.replicate (cap - 1) fillOne).flatten ++
  [.call 1 (.publish ⟨9, 0⟩), .go 1, .go 1, .go 1, .go 1, .go 0, .go 1, .go 1, .go 0, .go 0, .go 0])

/-- A record can be lost for good: while its publisher flushes, another thread finds the ring full
and holds the console, so that the flush skips the record, and then consumes it. The record was
accepted and is no longer in the ring; nothing on the console shows it. -/
theorem console_may_lose (cap : Nat) (hcap : 1 ≤ cap) :
    (run cap (losingRun cap)).mem.claimed[0]? = some ⟨1, 0⟩ ∧
    (run cap (losingRun cap)).mem.consumed = 1 ∧
    (run cap (losingRun cap)).mem.lines = [(true, ⟨9, 1⟩)] ∧
    (∀ t, t ≤ 2 → (run cap (losingRun cap)).pc t = .idle) := by
  have h0 : 0 < cap := hcap
  rw [losingRun, run, runFrom_append, runFrom_append]
  have hw : Waiting 1 (runFrom cap {} [.call 0 (.publish ⟨1, 0⟩), .go 0, .go 0, .go 0, .go 0,
      .go 0]) := by
    simp [Waiting, runFrom, act, invoke, step, Sys.at_, readable, h0]
  have hw' := fill_many (cap := cap) (cap - 1) hw (by omega)
  rw [show 1 + (cap - 1) = cap by omega] at hw'
  generalize runFrom cap (runFrom cap {} _) _ = s at hw' ⊢
  obtain ⟨h1, h2, h3, h4, h5, h6, h7, h8, h9, h10⟩ := hw'
  have hfull : ¬ s.mem.ring.length < cap := by omega
  simp only [runFrom, act, invoke, step, List.foldl_cons, List.foldl_nil, h2,
    Sys.at_, if_true, if_false, hfull, h1, h5, h7, h8, h10]
  simp [h9, h1, h2, h3, h5, h7]
  intro t ht
  have : t = 0 ∨ t = 1 ∨ t = 2 := by omega
  rcases this with rfl | rfl | rfl <;> simp [h3]

/-! ## Concrete cases -/

/-- Two threads publish one after the other. -/
example : (run 1024 (alone 0 (.publish ⟨1, 0⟩) 11 ++ alone 1 (.publish ⟨2, 0⟩) 11)).mem.lines =
    [(false, ⟨1, 0⟩), (false, ⟨2, 0⟩)] := by decide +kernel

/-- The stranded record comes out with the next flush. -/
example : (run 1024 (strandedRun ++ alone 3 .flush 8)).mem.lines =
    [(false, ⟨1, 0⟩), (false, ⟨2, 0⟩)] := by decide +kernel

/-- A ring with a single slot: one record is in it, the next goes to the console directly. -/
example : (run 1 ([.call 0 (.publish ⟨1, 0⟩), .go 0, .go 0, .go 0] ++
    alone 1 (.publish ⟨2, 0⟩) 6 ++ List.replicate 8 (.go 0))).mem.lines =
    [(true, ⟨2, 1⟩), (false, ⟨1, 0⟩)] := by decide +kernel

end Verif.Log.Console
