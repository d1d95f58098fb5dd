/-!
# Model of `gr::AtomicBitset` (core/include/gnuradio-4.0/AtomicBitset.hpp), 64-bit `std::size_t`
-/
namespace Verif.Bitset

/-- `_bits`; a function from word index to word. The number of words is `nWords size`. -/
abbrev Mem := Nat → BitVec 64

/-- number of words allocated for `size` bits — AtomicBitset.hpp:26,46. -/
def nWords (size : Nat) : Nat := (size + 64 - 1) / 64

/-- An atomic access to one word: the read-modify-write of `setBitsInWord` and of the single-bit `set`
(AtomicBitset.hpp:52-64, 121-130) or the plain store of `setFullWord` (132). -/
inductive WOp where
  | rmw (word : Nat) (mask : BitVec 64) (value : Bool)
  | store (word : Nat) (value : Bool)
  deriving DecidableEq

def WOp.word : WOp → Nat
  | .rmw w _ _ => w
  | .store w _ => w

/-- `value ? (oldBits | mask) : (oldBits & ~mask)` — AtomicBitset.hpp:62,128. -/
def newBits (old mask : BitVec 64) (value : Bool) : BitVec 64 := if value then old ||| mask else old &&& ~~~mask

/-- the mask of `setBitsInWord` — AtomicBitset.hpp:123. -/
def rangeMask (b e : Nat) : BitVec 64 :=
  if e = 64 then ~~~((1#64 <<< b) - 1#64) else ((1#64 <<< e) - 1#64) &&& ~~~((1#64 <<< b) - 1#64)

/-- the word accesses of `set(begin, end, value)`, in program order — AtomicBitset.hpp:66-95. -/
def setRange (b e : Nat) (v : Bool) : List WOp :=
  let beginWord := b / 64
  let endWord := e / 64
  let beginOffset := b % 64
  let endOffset := e % 64
  if b = e then []
  else if beginWord = endWord then [.rmw beginWord (rangeMask beginOffset endOffset) v]
  else
    let lead := if beginOffset ≠ 0 then [WOp.rmw beginWord (rangeMask beginOffset 64) v] else []
    let beginWord := if beginOffset ≠ 0 then beginWord + 1 else beginWord
    let trail := if endOffset ≠ 0 then [WOp.rmw endWord (rangeMask 0 endOffset) v] else []
    let endWord := endWord - 1
    lead ++ trail ++ (List.range' beginWord (endWord + 1 - beginWord)).map (fun w => WOp.store w v)

/-- the word access of `set(bitPosition, value)` — AtomicBitset.hpp:52-64. -/
def setBit (p : Nat) (v : Bool) : List WOp := [.rmw (p / 64) (1#64 <<< (p % 64)) v]

/-- `test` — AtomicBitset.hpp:105-116. -/
def test (m : Mem) (p : Nat) : Bool := (m (p / 64) &&& (1#64 <<< (p % 64))) != 0#64

/-- effect of a completed word access. -/
def apply (m : Mem) : WOp → Mem
  | .rmw w mask v => fun i => if i = w then newBits (m w) mask v else m i
  | .store w v => fun i => if i = w then (if v then ~~~0#64 else 0#64) else m i

/-- the public modifying calls. -/
inductive Call where
  | bit (p : Nat) (v : Bool)
  | range (b e : Nat) (v : Bool)
  deriving DecidableEq

/-- word accesses of a call. -/
def Call.ops : Call → List WOp
  | .bit p v => setBit p v
  | .range b e v => setRange b e v

/-! ### concurrent execution -/

/-- A thread: word accesses still to perform and the value loaded by the current compare-and-swap loop. -/
structure Thread where
  todo : List WOp
  loaded : Option (BitVec 64)

/-- Shared memory, threads, and (ghost) the completed accesses in order of completion. -/
structure Conf where
  mem : Mem
  threads : List Thread
  log : List (Nat × WOp)

/-- One atomic step of thread `t`: load, compare-and-swap (AtomicBitset.hpp:60-63, 126-129; a failed one goes back to the
load), or store. -/
def step (c : Conf) (t : Nat) : Conf :=
  match c.threads[t]? with
  | none => c
  | some th =>
    match th.todo with
    | [] => c
    | .store w v :: rest =>
      { mem := apply c.mem (.store w v), threads := c.threads.set t ⟨rest, none⟩, log := c.log ++ [(t, .store w v)] }
    | .rmw w mask v :: rest =>
      match th.loaded with
      | none => { c with threads := c.threads.set t ⟨th.todo, some (c.mem w)⟩ }
      | some old =>
        if c.mem w = old then
          { mem := fun i => if i = w then newBits old mask v else c.mem i,
            threads := c.threads.set t ⟨rest, none⟩, log := c.log ++ [(t, .rmw w mask v)] }
        else { c with threads := c.threads.set t ⟨th.todo, none⟩ }

/-- start configuration: thread `t` performs the calls `programs[t]` in order. -/
def start (m : Mem) (programs : List (List Call)) : Conf :=
  ⟨m, programs.map (fun p => ⟨p.flatMap Call.ops, none⟩), []⟩

end Verif.Bitset
