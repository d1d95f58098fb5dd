import Verif.Mem.Model
/-! # What is said about the memory resources -/
namespace Verif.Mem

/-- An address at which `bytes` bytes aligned to `align` fit into the part of the arena that is not
in use. -/
def Arena.fitsAt (a : Arena) (bytes align p : Nat) : Prop :=
  a.data + a.used ≤ p ∧ align ∣ p ∧ p + bytes ≤ a.data + a.capacity

/-- Two blocks share no byte. -/
def Block.apart (x y : Block) : Prop := x.ptr + x.bytes ≤ y.ptr ∨ y.ptr + y.bytes ≤ x.ptr

/-- Every alignment asked for is at least one. -/
def ArenaOp.sound : ArenaOp → Prop
  | .allocate _ align => 0 < align
  | _ => True

/-- Allocations and deallocations of a counted resource: what is allocated with how many bytes, and
which size is given back. -/
inductive CountOp where
  | allocate (bytes : Nat)
  | deallocate (bytes : Nat)
deriving DecidableEq, Repr

/-- The counters after a sequence in which the upstream grants everything. -/
def countRun (c : Counting) (ops : List CountOp) : Counting :=
  ops.foldl (fun c op => match op with
    | .allocate b => (c.allocate b true).1
    | .deallocate b => c.deallocate b) c

/-- Bytes asked for, and bytes given back. -/
def askedBytes : List CountOp → Nat
  | [] => 0
  | .allocate b :: ops => b + askedBytes ops
  | _ :: ops => askedBytes ops

def givenBack : List CountOp → Nat
  | [] => 0
  | .deallocate b :: ops => b + givenBack ops
  | _ :: ops => givenBack ops

/-- Scope objects made and destroyed as blocks of a program do: each is destroyed before the ones
around it, and no object is made twice while it lives. -/
inductive Nested : List ScopeOp → Prop
  | nil : Nested []
  | scope (id r : Nat) {body rest : List ScopeOp} : Nested body → Nested rest →
      (∀ r', ScopeOp.enter id r' ∉ body) → Nested (.enter id r :: (body ++ .leave id :: rest))

/-- What one thread does. -/
def ofThread (t : Nat) (ops : List (Nat × ScopeOp)) : List ScopeOp :=
  ops.filterMap fun o => if o.1 = t then some o.2 else none

end Verif.Mem
