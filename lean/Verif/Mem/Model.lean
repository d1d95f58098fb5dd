/-!
# Memory resources

Model of core/include/gnuradio-4.0/MemoryAllocators.hpp: the bump arena over given storage, the
counting resource, the aligned allocator's size computation, moving a block between resources, and
the scopes that set the thread's resource profile or the default resource.

Addresses are natural numbers (the storage does not wrap around the address space).
-/
namespace Verif.Mem

/-! ## The arena -/

/-- `StaticArenaResource`. core/include/gnuradio-4.0/MemoryAllocators.hpp:381-384, 405 -/
structure Arena where
  data : Nat
  capacity : Nat
  used : Nat := 0
deriving DecidableEq, Repr

/-- The least multiple of `align` from `p` on; `align` is a power of two.
core/include/gnuradio-4.0/MemoryAllocators.hpp:392 (inside `std::align`) -/
def alignUp (p align : Nat) : Nat := (p + (align - 1)) / align * align

/-- `std::align(alignment, size, p, space)`: the aligned address, if the object fits behind it.
core/include/gnuradio-4.0/MemoryAllocators.hpp:392 -/
def stdAlign (align size p space : Nat) : Option Nat :=
  if space < size then none
  else
    let aligned := alignUp p align
    if aligned - p > space - size then none else some aligned

/-- `do_allocate`; `none` is the call of `gr::log::fatal`.
core/include/gnuradio-4.0/MemoryAllocators.hpp:386-398 -/
def Arena.allocate (a : Arena) (bytes align : Nat) : Option (Nat × Arena) :=
  -- 387-389
  if bytes = 0 then some (a.data + a.used, a)
  else
    -- 390-394
    match stdAlign align bytes (a.data + a.used) (a.capacity - a.used) with
    | none => none
    | some aligned =>
      -- 395-397
      let padding := aligned - (a.data + a.used)
      some (aligned, { a with used := a.used + (padding + bytes) })

/-- `do_deallocate`. core/include/gnuradio-4.0/MemoryAllocators.hpp:400 -/
def Arena.deallocate (a : Arena) (_ptr _bytes _align : Nat) : Arena := a

/-- `reset`. core/include/gnuradio-4.0/MemoryAllocators.hpp:414 -/
def Arena.reset (a : Arena) : Arena := { a with used := 0 }

/-- `available`. core/include/gnuradio-4.0/MemoryAllocators.hpp:412 -/
def Arena.available (a : Arena) : Nat := a.capacity - a.used

/-- What is done with an arena. -/
inductive ArenaOp where
  | allocate (bytes align : Nat)
  | deallocate (ptr bytes align : Nat)
  | reset
deriving DecidableEq, Repr

/-- A block handed out: where and how long. -/
structure Block where
  ptr : Nat
  bytes : Nat
  align : Nat
deriving DecidableEq, Repr

/-- One use of the arena, with the blocks of at least one byte handed out since the last reset. A
request that ends in `fatal` throws on hosted targets; the program may catch that and go on. -/
def arenaStep (s : Arena × List Block) : ArenaOp → Arena × List Block
  | .allocate bytes align =>
    match s.1.allocate bytes align with
    | none => s
    | some (p, a) => (a, if bytes = 0 then s.2 else s.2 ++ [{ ptr := p, bytes := bytes, align := align }])
  | .deallocate p b al => (s.1.deallocate p b al, s.2)
  | .reset => (s.1.reset, [])

/-- Any use of the arena. -/
def arenaRun (a : Arena) (ops : List ArenaOp) : Arena × List Block := ops.foldl arenaStep (a, [])

/-! ## Counting -/

/-- `CountingResource`. core/include/gnuradio-4.0/MemoryAllocators.hpp:341-345 -/
structure Counting where
  allocCount : Nat := 0
  deallocCount : Nat := 0
  liveBytes : Nat := 0
deriving DecidableEq, Repr

/-- `do_allocate`, with whether the upstream resource grants the request; the upstream refuses by
an exception, which passes through. core/include/gnuradio-4.0/MemoryAllocators.hpp:347-351 -/
def Counting.allocate (c : Counting) (bytes : Nat) (granted : Bool) : Counting × Bool :=
  ({ c with allocCount := c.allocCount + 1, liveBytes := (c.liveBytes + bytes) % 2 ^ 64 }, granted)

/-- `do_deallocate`. core/include/gnuradio-4.0/MemoryAllocators.hpp:352-356 -/
def Counting.deallocate (c : Counting) (bytes : Nat) : Counting :=
  { c with deallocCount := c.deallocCount + 1,
           liveBytes := (c.liveBytes + (2 ^ 64 - bytes % 2 ^ 64)) % 2 ^ 64 }

/-! ## The aligned allocator -/

/-- `Aligned<T>::allocate`: how many bytes are asked for, `none` for a null pointer without asking.
core/include/gnuradio-4.0/MemoryAllocators.hpp:47-51 -/
def alignedRequest (n sizeofT : Nat) : Option Nat :=
  let bytes := (n * sizeofT) % 2 ^ 64
  if bytes = 0 then none else some bytes

/-! ## Moving a block to another resource -/

/-- What `migrate` leaves behind: what it returns or throws, and the two blocks with the elements
alive in them (`none`: not allocated). -/
structure Migrated (α : Type) where
  returned : Option Bool        -- `some true` the new block, `some false` the old one, `none` null
  threw : Bool
  target : Option (List α)
  source : Option (List α)
deriving Repr

/-- How the elements are transferred. core/include/gnuradio-4.0/MemoryAllocators.hpp:222-232 -/
inductive Transfer where
  | bytes
  | move
  /-- copying throws at this element, if at all -/
  | copy (throwsAt : Option Nat)
deriving DecidableEq, Repr

/-- The copy loop, and whether it threw. core/include/gnuradio-4.0/MemoryAllocators.hpp:229-231 -/
def copyLoop {α : Type} (throwsAt : Option Nat) : Nat → List α → List α × Bool
  | _, [] => ([], false)
  | i, x :: xs =>
    if throwsAt = some i then ([], true)
    else ((x :: (copyLoop throwsAt (i + 1) xs).1), (copyLoop throwsAt (i + 1) xs).2)

/-- `migrate`, for a source block holding `values` (its length is the count) or a null pointer.
core/include/gnuradio-4.0/MemoryAllocators.hpp:206-252. The allocation itself does not fail. -/
def migrate {α : Type} (sameResource : Bool) (how : Transfer) (values : Option (List α)) :
    Migrated α :=
  match values with
  -- 207-209
  | none => { returned := none, threw := false, target := none, source := none }
  | some vs =>
    if vs.length = 0 then { returned := none, threw := false, target := none, source := some vs }
    -- 211-213
    else if sameResource then
      { returned := some false, threw := false, target := none, source := some vs }
    else
      -- 222-240
      let moved : List α × Bool :=
        match how with
        | .bytes => (vs, false)
        | .move => (vs, false)
        | .copy throwsAt => copyLoop throwsAt 0 vs
      if moved.2 then { returned := none, threw := true, target := none, source := some vs }
      -- 243-251
      else { returned := some true, threw := false, target := some moved.1, source := none }

/-! ## Scopes -/

/-- A scope object is made or destroyed; scopes and resources are numbers.
core/include/gnuradio-4.0/MemoryAllocators.hpp:303-307, 327-331 -/
inductive ScopeOp where
  | enter (id resource : Nat)
  | leave (id : Nat)
deriving DecidableEq, Repr

/-- The current value and what each scope object remembers.
core/include/gnuradio-4.0/MemoryAllocators.hpp:295-298, 304, 328 -/
structure Scopes where
  current : Nat
  previous : Nat → Nat := fun _ => 0

/-- The constructor and the destructor of `ResourceProfileScope` and of `ScopedDefaultResource`.
core/include/gnuradio-4.0/MemoryAllocators.hpp:306-307, 330-331 -/
def scopeStep (s : Scopes) : ScopeOp → Scopes
  | .enter id r => { current := r, previous := fun i => if i = id then s.current else s.previous i }
  | .leave id => { s with current := s.previous id }

/-- A sequence of scope operations on one variable. -/
def scopeRun (s : Scopes) (ops : List ScopeOp) : Scopes := ops.foldl scopeStep s

/-- The thread-local variable: every thread has its own. Each scope object belongs to one thread.
core/include/gnuradio-4.0/MemoryAllocators.hpp:295-298 -/
def threadsStep (s : Nat → Scopes) (op : Nat × ScopeOp) : Nat → Scopes :=
  fun t => if t = op.1 then scopeStep (s t) op.2 else s t

/-- Threads making and destroying `ResourceProfileScope` objects in any order. -/
def threadsRun (s : Nat → Scopes) (ops : List (Nat × ScopeOp)) : Nat → Scopes :=
  ops.foldl threadsStep s

/-- The default resource is one variable for all threads: which thread acts does not matter.
core/include/gnuradio-4.0/MemoryAllocators.hpp:330-331 -/
def sharedRun (s : Scopes) (ops : List (Nat × ScopeOp)) : Scopes :=
  scopeRun s (ops.map Prod.snd)

/-- The resource used for data, tags or mechanics: the profile's own, or the default if it has
none. core/include/gnuradio-4.0/MemoryAllocators.hpp:289-291 -/
def resourceOr (own : Option Nat) (default_ : Nat) : Nat :=
  match own with
  | some r => r
  | none => default_

end Verif.Mem
