import Verif.Ring.Model
/-!
# Creating a reader while the producer runs (C07), step by step

Sources: CircularBuffer.hpp:789-797 (`Reader` constructor), Sequence.hpp:83-118 (`addSequences`), ClaimStrategy.hpp:58, 97-112
(the producer's cached reader list and its generation counter).

In `Verif.Ring.Model` a reader is created in one step. Here the creation is split into the accesses of the code; the producer's
reserve/publish is one step (`push`), storage is left out.
-/
namespace Verif.Ring.Attach

/-- position of a reader in its constructor. -/
inductive RPc where
  | fresh        -- sequence allocated
  | valued       -- first `setValue(cursor)` done, not in the list
  | listed       -- compare-exchange of the list done
  | set          -- second `setValue(cursor)` done
  | ready        -- generation counter increased, constructor finished
  deriving DecidableEq, Repr

structure St where
  size : Nat
  pub : Nat
  cursor : List Nat        -- value of every reader's sequence
  pc : List RPc
  list : List Nat          -- `_readSequences`
  gen : Nat                -- `_readerListGeneration`
  cachedGen : Nat          -- `_cachedGeneration`
  cached : List Nat        -- `_cachedReadSequences`
  deriving DecidableEq, Repr

inductive Act where
  | create
  /-- next step of the constructor of reader `i` -/
  | advance (i : Nat)
  /-- the producer reserves, fills and publishes `n` samples if the capacity it computes allows it -/
  | push (n : Nat)
  | consume (i k : Nat)
  deriving DecidableEq, Repr

def minCursor (cursor : List Nat) (l : List Nat) : Nat := (l.foldl (fun acc i => some (minAcc acc (cursor.getD i 0))) none).getD 0

def step (s : St) : Act → St
  | .create => { s with cursor := s.cursor ++ [0], pc := s.pc ++ [.fresh] }
  | .advance i =>
    match s.pc[i]? with
    | some .fresh => { s with cursor := s.cursor.set i s.pub, pc := s.pc.set i .valued }
    | some .valued => { s with list := s.list ++ [i], pc := s.pc.set i .listed }
    | some .listed => { s with cursor := s.cursor.set i s.pub, pc := s.pc.set i .set }
    | some .set => { s with gen := s.gen + 1, pc := s.pc.set i .ready }
    | _ => s
  | .push n =>
    let s := if s.gen ≠ s.cachedGen then { s with cached := s.list, cachedGen := s.gen } else s
    if 0 < n ∧ n ≤ s.size ∧ n ≤ capacity s.size s.pub (minCursor s.cursor s.cached) then { s with pub := s.pub + n } else s
  | .consume i k =>
    match s.pc[i]? with
    | some .ready => if k ≤ s.pub - s.cursor.getD i 0 then { s with cursor := s.cursor.set i (s.cursor.getD i 0 + k) } else s
    | _ => s

def init (size : Nat) : St := ⟨size, 0, [], [], [], 0, 0, []⟩

inductive Reach (size : Nat) : St → Prop where
  | init : Reach size (init size)
  | step {s : St} (a : Act) : Reach size s → Reach size (step s a)

theorem reach_run (size : Nat) : ∀ (as : List Act) (s : St), Reach size s → Reach size (as.foldl step s) := by
  intro as
  induction as with
  | nil => exact fun s h => h
  | cons a as ih => exact fun s h => ih _ (h.step a)

/-- The reader `i` exists and everything published since its position still fits in the storage. -/
def Safe (s : St) (i : Nat) : Prop := s.pub ≤ s.cursor.getD i 0 + s.size

instance (s : St) (i : Nat) : Decidable (Safe s i) := by unfold Safe; infer_instance

/-- **C07 (negative)** A reader created while the producer is running can be overrun before its first access: the producer keeps
using its cached list of readers until the generation counter changes, and the constructor increases the counter only after it
has fixed the new reader's position. Here the size is 4, reader 0 keeps up, and reader 1 has finished its constructor with 8
samples ahead of it. -/
theorem new_reader_overrun : ∃ s, Reach 4 s ∧ s.pc[1]? = some .ready ∧ ¬ Safe s 1 ∧ s.pub - s.cursor.getD 1 0 = 8 :=
  ⟨[.create, .advance 0, .advance 0, .advance 0, .advance 0, .push 4, .consume 0 4,
    .create, .advance 1, .advance 1, .advance 1,            -- reader 1 listed, positioned at 4
    .push 4, .consume 0 4, .push 4,                          -- the producer still uses its old list
    .advance 1].foldl step (init 4),
    reach_run 4 _ _ .init, by decide, by decide, by decide⟩

/-- **C07 (negative)** Two readers created at the same time can even make the producer overrun a third one that has long been
attached: reader 1 enters the list with a position taken long before, reader 2 makes the producer reload the list, and the
capacity computed from the stale position wraps around to nearly 2^64. Reader 0, at position 12, then has 8 samples ahead of it
in a buffer of 4. -/
theorem existing_reader_overrun : ∃ s, Reach 4 s ∧ s.pc[0]? = some .ready ∧ s.cursor.getD 0 0 = 12 ∧ s.pub = 20 ∧ ¬ Safe s 0 :=
  ⟨[.create, .advance 0, .advance 0, .advance 0, .advance 0, .push 4, .consume 0 4,
    .create, .advance 1,                                       -- reader 1: position 4 stored, not yet listed
    .push 4, .consume 0 4, .push 4, .consume 0 4,              -- the producer moves on to 12
    .advance 1,                                                -- reader 1 listed with position 4
    .create, .advance 2, .advance 2, .advance 2, .advance 2,   -- reader 2 created, counter increased
    .push 4, .push 4].foldl step (init 4),
    reach_run 4 _ _ .init, by decide, by decide, by decide, by decide⟩

end Verif.Ring.Attach
