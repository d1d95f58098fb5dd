import Verif.Log.Lemmas
/-!
# Theorems about the log record store

C119: whatever the interleaving, the calls behave as if made one after the other, no call waits.
C120: the count of lost records that a record carries.
-/
namespace Verif.Log
open Spec

/-! ## C119 -/

/-- Whatever the threads and their interleaving, every event is allowed by the events before it:
snapshots show the newest twenty records in order, drains what is new among them. -/
theorem log_store_sequential (acts : List Act) : Legal (run acts).events := (inv_run acts).legal

/-- At most one thread is between taking and giving back the busy flag. -/
theorem log_one_inside (acts : List Act) (t u : Nat)
    (ht : holds ((run acts).pc t) = true) (hu : holds ((run acts).pc u) = true) : t = u :=
  (inv_run acts).one t u ht hu

/-- The flag is not left set: it is set exactly while a thread is inside. -/
theorem log_flag_exact (acts : List Act) :
    (run acts).mem.busy = true ↔ ∃ t, holds ((run acts).pc t) = true :=
  ⟨(inv_run acts).owner, fun ⟨t, h⟩ => (inv_run acts).lock t h⟩

/-- With nobody inside, `published()` and `size()` count the accepted records. -/
theorem log_counts (acts : List Act) (h : ∀ t, (run acts).pc t = .idle) :
    published (run acts) = (state (run acts).events).accepted.length ∧
    size (run acts) = (newest (state (run acts).events).accepted).length := by
  have hg := (inv_run acts).free (fun t => by rw [h t]; rfl)
  refine ⟨hg.2.1, ?_⟩
  simp only [size, hg.2.1, newest_eq, List.length_drop, capacity]
  omega

/-- A snapshot taken in any execution, in full. -/
theorem snapshot_shows_newest (acts : List Act) (before rest : List Ev) (given : List Rec)
    (h : (run acts).events = before ++ .gave false given :: rest) :
    given = newest (state before).accepted := (inv_run acts).legal _ _ _ h

/-! Drains. -/

/-- No `clear` in a list of events. -/
def noClear (es : List Ev) : Prop := Ev.cleared ∉ es

theorem state_seen_le (es : List Ev) : (state es).seen ≤ (state es).accepted.length := by
  have : ∀ (es : List Ev) (a : Store), a.seen ≤ a.accepted.length →
      (es.foldl Store.after a).seen ≤ (es.foldl Store.after a).accepted.length := by
    intro es
    induction es with
    | nil => intro a h; exact h
    | cons e es ih =>
      intro a h
      refine ih _ ?_
      cases e with
      | accepted r st => simp [Store.after]; omega
      | gave c g => cases c <;> simp [Store.after, h]
      | refused => exact h
      | gaveNothing => exact h
      | clearSkipped => exact h
      | cleared => simp [Store.after]
  exact this es {} (Nat.le_refl _)

theorem drainedAll_snoc (es : List Ev) (e : Ev) :
    drainedAll (es ++ [e]) = drainedAll es ++ drainedAll [e] := by
  induction es with
  | nil => rfl
  | cons x es ih =>
    cases x with
    | gave c g => cases c <;> simp [drainedAll, ih]
    | _ => simpa [drainedAll] using ih

theorem take_append_drop_sublist {l : List Rec} {k b : Nat} (hb : k ≤ b) :
    (l.take k ++ l.drop b).Sublist l := by
  conv => rhs; rw [← List.take_append_drop k l]
  refine List.Sublist.append (List.Sublist.refl _) ?_
  rw [show l.drop b = (l.drop k).drop (b - k) by rw [List.drop_drop]; congr 1; omega]
  exact List.drop_sublist _ _

/-- All drains together hand out no record twice and keep the order: what they handed out is a
subsequence of what was accepted. -/
theorem drains_in_order (acts : List Act) (h : noClear (run acts).events) :
    (drainedAll (run acts).events).Sublist (state (run acts).events).accepted := by
  have key : ∀ es : List Ev, Legal es → noClear es →
      (drainedAll es).Sublist ((state es).accepted.take (state es).seen) := by
    intro es
    induction hn : es.length generalizing es with
    | zero =>
      intro _ _
      rw [List.length_eq_zero_iff] at hn
      subst hn
      exact List.Sublist.refl _
    | succ n ih =>
      intro hl hc
      rcases List.eq_nil_or_concat es with rfl | ⟨es', e, rfl⟩
      · cases hn
      · rw [List.concat_eq_append] at hl hc hn ⊢
        have hl' := legal_prefix hl
        have hc' : noClear es' := fun hm => hc (by simp [hm])
        have hi := ih es' (by simpa using hn) hl' hc'
        have ha := hl es' e [] rfl
        have hse := state_seen_le es'
        rw [drainedAll_snoc, state_snoc]
        cases e with
        | gave c g =>
          cases c with
          | false => simpa [drainedAll, Store.after] using hi
          | true =>
            simp only [Store.Allows] at ha
            rw [newest_drop _ _ hse] at ha
            simp only [drainedAll, Store.after, List.append_nil, List.take_length]
            rw [ha]
            exact (List.Sublist.append hi (List.Sublist.refl _)).trans
              (take_append_drop_sublist (by omega))
        | accepted r st =>
          simp only [drainedAll, Store.after, List.append_nil]
          rw [List.take_append_of_le_length hse]
          exact hi
        | cleared => exact absurd (List.mem_append_right es' (List.mem_singleton.2 rfl)) hc
        | refused r => simpa [drainedAll, Store.after] using hi
        | gaveNothing => simpa [drainedAll, Store.after] using hi
        | clearSkipped => simpa [drainedAll, Store.after] using hi
  exact (key _ (inv_run acts).legal h).trans (List.take_sublist _ _)

/-- A consumer that drains before twenty-one new records have come in misses none: all drains
together hand out exactly what was accepted up to the last of them. -/
theorem drains_complete (acts : List Act) (h : noClear (run acts).events)
    (hoften : ∀ before given rest, (run acts).events = before ++ .gave true given :: rest →
      (state before).accepted.length ≤ (state before).seen + 20) :
    drainedAll (run acts).events =
      (state (run acts).events).accepted.take (state (run acts).events).seen := by
  have key : ∀ es : List Ev, Legal es → noClear es →
      (∀ before given rest, es = before ++ .gave true given :: rest →
        (state before).accepted.length ≤ (state before).seen + 20) →
      drainedAll es = (state es).accepted.take (state es).seen := by
    intro es
    induction hn : es.length generalizing es with
    | zero =>
      intro _ _ _
      rw [List.length_eq_zero_iff] at hn
      subst hn
      rfl
    | succ n ih =>
      intro hl hc hof
      rcases List.eq_nil_or_concat es with rfl | ⟨es', e, rfl⟩
      · cases hn
      · rw [List.concat_eq_append] at hl hc hn hof ⊢
        have hl' := legal_prefix hl
        have hc' : noClear es' := fun hm => hc (by simp [hm])
        have hi := ih es' (by simpa using hn) hl' hc'
          (fun b g r hb => hof b g (r ++ [e]) (by simp [hb]))
        have ha := hl es' e [] rfl
        have hse := state_seen_le es'
        rw [drainedAll_snoc, state_snoc, hi]
        cases e with
        | gave c g =>
          cases c with
          | false => simp [drainedAll, Store.after]
          | true =>
            simp only [Store.Allows] at ha
            have h20 := hof es' g [] rfl
            rw [newest_drop _ _ hse, show max ((state es').accepted.length - 20) (state es').seen =
              (state es').seen by omega] at ha
            simp only [drainedAll, Store.after, List.append_nil, List.take_length]
            rw [ha, List.take_append_drop]
        | accepted r st =>
          simp only [drainedAll, Store.after, List.append_nil]
          rw [List.take_append_of_le_length hse]
        | cleared => exact absurd (List.mem_append_right es' (List.mem_singleton.2 rfl)) hc
        | refused r => simp [drainedAll, Store.after]
        | gaveNothing => simp [drainedAll, Store.after]
        | clearSkipped => simp [drainedAll, Store.after]
  exact key _ (inv_run acts).legal h hoften

/-! No call waits for another thread. -/

/-- A bound on the steps a thread still has to take to return. -/
def stepsLeft : Pc → Nat
  | .idle => 0
  | .unlock => 1
  | .refused _ => 1
  | .pubCommit _ => 2
  | .pubStore .. => 3
  | .pubStamp .. => 4
  | .pubSeq _ => 5
  | .pubLock _ => 6
  | .readStore .. => 2
  | .readLoop _ _ _ n i _ => 3 + (n - i)
  | .readBegin .. => 24
  | .readEnd _ => 25
  | .readLock _ => 26
  | .clearPublished => 2
  | .clearContended => 3
  | .clearDrained => 4
  | .clearRecords => 5
  | .clearLock => 6

/-- How many steps a schedule gives to a thread. -/
def goes (t : Nat) : List Act → Nat
  | [] => 0
  | .go u :: as => (if u = t then 1 else 0) + goes t as
  | .call _ _ :: as => goes t as

theorem stepsLeft_go (s : Sys) (t : Nat) : stepsLeft ((step s t).pc t) ≤ stepsLeft (s.pc t) - 1 := by
  unfold step
  dsimp only
  split <;> rename_i hpc
  all_goals (try (split))
  all_goals (try (split))
  all_goals simp only [pc_at, hpc, if_true, stepsLeft, capacity] <;> omega

theorem pc_other (s : Sys) (t u : Nat) (h : u ≠ t) : (step s t).pc u = s.pc u := by
  unfold step
  dsimp only
  split <;> (try split) <;> (try split) <;> first | rfl | simp only [pc_at, if_neg h]

theorem pc_invoke_other (s : Sys) (t u : Nat) (op : Op) (h : u ≠ t) :
    (invoke s t op).pc u = s.pc u := by
  unfold invoke
  split <;> (try split) <;> first | rfl | simp only [pc_at, if_neg h]

/-- Every call returns after at most 26 steps of its own thread, whatever the other threads do:
they may even stop in the middle of a call. -/
theorem log_call_returns (s : Sys) (t : Nat) (acts : List Act)
    (hno : ∀ op, .call t op ∉ acts) :
    stepsLeft ((runFrom s acts).pc t) ≤ stepsLeft (s.pc t) - goes t acts := by
  induction acts generalizing s with
  | nil => exact Nat.le_refl _
  | cons a as ih =>
    have hno' : ∀ op, .call t op ∉ as := fun op hm => hno op (List.mem_cons_of_mem _ hm)
    show stepsLeft ((runFrom (act s a) as).pc t) ≤ _
    refine Nat.le_trans (ih _ hno') ?_
    cases a with
    | call u op =>
      have hu : t ≠ u := fun he => hno op (by rw [he]; exact List.mem_cons_self ..)
      simp only [act, pc_invoke_other s u t op hu, goes]
      exact Nat.le_refl _
    | go u =>
      simp only [act, goes]
      by_cases hu : u = t
      · subst hu
        have := stepsLeft_go s u
        simp only [if_true]
        omega
      · rw [pc_other s u t (fun h => hu h.symm)]
        simp only [if_neg hu]
        omega

/-- The same, said of the program counter: the caller is back after 26 steps of its own. The loop
of a read never has more than twenty turns. -/
theorem log_wait_free (acts more : List Act) (t : Nat) (op : Op)
    (hidle : (run acts).pc t = .idle) (hno : ∀ op', .call t op' ∉ more) (hgo : 26 ≤ goes t more) :
    (runFrom (run acts) (.call t op :: more)).pc t = .idle := by
  have h := log_call_returns (invoke (run acts) t op) t more hno
  have h26 : stepsLeft ((invoke (run acts) t op).pc t) ≤ 26 := by
    unfold invoke
    rw [hidle]
    cases op with
    | publish r => simp [pc_at, stepsLeft]
    | read c k => cases k <;> simp [pc_at, stepsLeft, hidle]
    | clear => simp [pc_at, stepsLeft]
  have h0 : stepsLeft ((runFrom (run acts) (.call t op :: more)).pc t) = 0 := by
    show stepsLeft ((runFrom (invoke (run acts) t op) more).pc t) = 0
    omega
  revert h0
  cases (runFrom (run acts) (.call t op :: more)).pc t <;> simp [stepsLeft]

/-! ## C120 -/

/-- The number a stored record carries (if the caller put none there): the accepted records, itself
included, that the store can no longer show, plus those refused since the last `clear`. -/
theorem dropped_before_exact (acts : List Act) (before rest : List Ev) (r stored : Rec)
    (h : (run acts).events = before ++ .accepted r stored :: rest) (h0 : r.droppedBefore = 0) :
    stored.body = r.body ∧
    stored.droppedBefore =
      ((state before).accepted.length + 1 -
        (newest ((state before).accepted ++ [stored])).length) + (state before).refused := by
  have ha := (inv_run acts).legal _ _ _ h
  simp only [Store.Allows] at ha
  refine ⟨ha.1, ?_⟩
  rw [ha.2, h0, newest_eq]
  simp only [List.length_drop, List.length_append, List.length_singleton]
  omega

/-- A number put there by the caller is never lowered. -/
theorem dropped_before_kept (acts : List Act) (before rest : List Ev) (r stored : Rec)
    (h : (run acts).events = before ++ .accepted r stored :: rest) :
    r.droppedBefore ≤ stored.droppedBefore := by
  have ha := (inv_run acts).legal _ _ _ h
  simp only [Store.Allows] at ha
  omega

/-- One thread that publishes records with these bodies, each call run to its end. -/
def publishing (bodies : List Nat) : List Act :=
  bodies.flatMap fun b => .call 0 (.publish ⟨b, 0⟩) :: List.replicate 6 (.go 0)

/-- One thread that drains, run to its end. -/
def draining : List Act := .call 0 (.read true true) :: List.replicate 26 (.go 0)

/-- Not so for a consumer that drains: after twenty records and a drain that hands all of them out,
the next record says that one was lost, although every accepted record has been handed out and none
was refused. -/
theorem drained_counts_as_lost :
    ∃ (acts : List Act) (r stored : Rec) (before rest : List Ev),
      (run acts).events = before ++ .accepted r stored :: rest ∧ r.droppedBefore = 0 ∧
      drainedAll before = (state before).accepted ∧ (state before).refused = 0 ∧
      stored.droppedBefore = 1 := by
  refine ⟨publishing (List.range 20) ++ draining ++ publishing [20], ⟨20, 0⟩, ⟨20, 1⟩,
    (List.range 20).map (fun b => .accepted ⟨b, 0⟩ ⟨b, 0⟩) ++
      [.gave true ((List.range 20).map fun b => ⟨b, 0⟩)], [], ?_, rfl, ?_, ?_, rfl⟩ <;> decide +kernel

/-! ## Concrete cases -/

/-- Two threads meet: the second finds the store busy and is refused, the third record says so. -/
example : (run ([.call 0 (.publish ⟨7, 0⟩), .call 1 (.publish ⟨8, 0⟩), .go 0, .go 1, .go 1, .go 0,
      .go 0, .go 0, .go 0, .go 0] ++
      [.call 1 (.publish ⟨9, 0⟩), .go 1, .go 1, .go 1, .go 1, .go 1, .go 1] ++
      [.call 0 (.read false true)] ++ List.replicate 26 (.go 0))).events =
    [.refused ⟨8, 0⟩, .accepted ⟨7, 0⟩ ⟨7, 1⟩, .accepted ⟨9, 0⟩ ⟨9, 1⟩,
      .gave false [⟨7, 1⟩, ⟨9, 1⟩]] := by rfl

/-- Twenty-two records: a snapshot shows the last twenty. -/
example : (run (publishing (List.range 22) ++ .call 0 (.read false true) ::
      List.replicate 26 (.go 0))).events.getLast? =
    some (.gave false (((List.range 20).map fun b => ⟨b + 2, b + 2 - 19⟩))) := by decide +kernel

/-- A drain every fifteen records misses none. -/
example : drainedAll (run (publishing (List.range 15) ++ draining ++ publishing (List.range 15) ++
      draining)).events = (state (run (publishing (List.range 15) ++ draining ++
        publishing (List.range 15) ++ draining)).events).accepted := by decide +kernel

/-- A thread that stops inside a call does not hold up the others: they are refused at once. -/
example : (run [.call 0 (.publish ⟨1, 0⟩), .go 0, .call 1 .clear, .go 1, .call 2 (.read true true),
    .go 2, .call 3 (.publish ⟨2, 0⟩), .go 3, .go 3]).events =
    [.clearSkipped, .gaveNothing, .refused ⟨2, 0⟩] := by decide +kernel

end Verif.Log
