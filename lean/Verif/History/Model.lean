/-!
# Model of `gr::HistoryBuffer` (core/include/gnuradio-4.0/HistoryBuffer.hpp)

The storage of `2 * ring` elements is a function `Nat → α`; every access goes through `rd`/`wr`/`copyN`, which record an
access outside `[0, 2 * ring)` in the flag `oob` (undefined behaviour). Index arithmetic is on `Nat`
(`std::size_t` overflow of `_write_position + index` would need capacities near 2^63).
-/
namespace Verif.History

variable {α : Type}

/-- The members that fix the geometry — HistoryBuffer.hpp:72-76. `dyn` is the choice of the template parameter
(`N == std::dynamic_extent`); `fixedN` is `N` for the fixed variant. -/
structure Geo where
  dyn : Bool
  fixedN : Nat
  mask : Nat
  cap : Nat

/-- Members of `HistoryBuffer` — HistoryBuffer.hpp:72-77. -/
structure H (α : Type) where
  g : Geo
  buf : Nat → α
  wpos : Nat
  size : Nat
  dirty : Nat
  oob : Bool

/-- `ringCapacity` — HistoryBuffer.hpp:79-85. -/
def Geo.ring (g : Geo) : Nat := if g.dyn then g.mask + 1 else g.fixedN

/-- `std::has_single_bit`. -/
def hasSingleBit (n : Nat) : Bool := n != 0 && n &&& (n - 1) == 0

/-- `map_index` — HistoryBuffer.hpp:90-98; `w` is `_write_position`. -/
def Geo.map (g : Geo) (w i : Nat) : Nat :=
  if g.dyn then (w + i) &&& g.mask
  else if hasSingleBit g.fixedN then (w + i) &&& (g.fixedN - 1)
  else (w + i) % g.fixedN

/-- write one storage element. -/
def H.wr (h : H α) (i : Nat) (v : α) : H α :=
  { h with buf := fun j => if j = i then v else h.buf j, oob := h.oob || decide (2 * h.g.ring ≤ i) }

/-- `std::copy_n(data + src, n, data + dst)`; element order is irrelevant because source and destination
lie in different halves. -/
def H.copyN (h : H α) (src n dst : Nat) : H α :=
  { h with buf := fun j => if dst ≤ j ∧ j < dst + n then h.buf (src + (j - dst)) else h.buf j,
           oob := h.oob || decide (0 < n ∧ (2 * h.g.ring < src + n ∨ 2 * h.g.ring < dst + n)) }

/-- copy a list to `data + dst`. -/
def H.put (h : H α) (dst : Nat) (xs : List α) : H α :=
  { h with buf := fun j => if dst ≤ j then (xs[j - dst]?).getD (h.buf j) else h.buf j,
           oob := h.oob || decide (0 < xs.length ∧ 2 * h.g.ring < dst + xs.length) }

/-- `syncMirror` — HistoryBuffer.hpp:100-113. -/
def H.sync (h : H α) : H α :=
  if h.dirty = 0 then h
  else
    let rc := h.g.ring
    let contiguous := rc - h.wpos
    let h' :=
      if h.dirty ≤ contiguous then h.copyN h.wpos h.dirty (h.wpos + rc)
      else (h.copyN h.wpos contiguous (h.wpos + rc)).copyN 0 (h.dirty - contiguous) rc
    { h' with dirty := 0 }

/-- `push_front(const T&)` — HistoryBuffer.hpp:130-139. -/
def H.pushFront (h : H α) (v : α) : H α :=
  let h := if h.size < h.g.cap then { h with size := h.size + 1 } else h
  let h := { h with wpos := h.g.map h.wpos (h.g.ring - 1) }
  let h := h.wr h.wpos v
  if h.dirty < h.g.ring then { h with dirty := h.dirty + 1 } else h

/-- `push_front(begin, end)` — HistoryBuffer.hpp:144-151. -/
def H.pushFrontRange (h : H α) (xs : List α) : H α :=
  (if xs.length > h.g.cap then xs.drop (xs.length - h.g.cap) else xs).foldl H.pushFront h

/-- `push_back(const T&)` — HistoryBuffer.hpp:164-179. -/
def H.pushBack (h : H α) (v : α) : H α :=
  let rc := h.g.ring
  let h :=
    if h.size = h.g.cap then
      let h := { h with wpos := h.g.map h.wpos 1 }
      if h.dirty > 0 then { h with dirty := h.dirty - 1 } else h
    else { h with size := h.size + 1 }
  let p := h.g.map h.wpos (h.size - 1)
  (h.wr p v).wr (p + rc) v

/-- `push_back(first, last)` — HistoryBuffer.hpp:185-222. -/
def H.pushBackRange (h : H α) (xs : List α) : H α :=
  let rc := h.g.ring
  if xs.length = 0 then h
  else
    let xs := if xs.length ≥ h.g.cap then xs.drop (xs.length - h.g.cap) else xs
    let n := xs.length
    let needed := h.size + n
    let h :=
      if needed > h.g.cap then
        let discard := needed - h.g.cap
        let h := { h with size := h.size - discard }
        let h := { h with wpos := h.g.map h.wpos discard }
        if h.dirty > 0 then { h with dirty := h.dirty - min h.dirty discard } else h
      else h
    let h := { h with size := h.size + n }
    let start := h.g.map h.wpos (h.size - n)
    let chunk1 := min n (rc - start)
    let h := (h.put start (xs.take chunk1)).put (start + rc) (xs.take chunk1)
    if n - chunk1 > 0 then (h.put 0 (xs.drop chunk1)).put rc (xs.drop chunk1) else h

/-- `pop_front` — HistoryBuffer.hpp:243-252; `none` = `std::out_of_range` thrown. -/
def H.popFront (h : H α) : Option (H α) :=
  if h.size = 0 then none
  else
    let h := { h with wpos := h.g.map h.wpos 1 }
    let h := { h with size := h.size - 1 }
    some (if h.dirty > 0 then { h with dirty := h.dirty - 1 } else h)

/-- `pop_back` — HistoryBuffer.hpp:264-270. -/
def H.popBack (h : H α) : Option (H α) :=
  if h.size = 0 then none else some { h with size := h.size - 1 }

/-- `std::bit_ceil`. -/
def bitCeil (n : Nat) : Nat := if n ≤ 1 then 1 else 2 ^ (Nat.log2 (n - 1) + 1)

/-- the elements `data[start], …` that an iterator range or span of the given length shows; flags out-of-bounds. -/
def H.view (h : H α) (start len : Nat) : List α × Bool :=
  ((List.range len).map (fun j => h.buf (start + j)), decide (0 < len ∧ 2 * h.g.ring < start + len))

/-- `resize` — HistoryBuffer.hpp:272-296 (dynamic variant only). The new storage is value-initialised (`dflt`). -/
def H.resize (dflt : α) (h : H α) (newCap : Nat) : Option (H α) :=
  if newCap = 0 then none
  else
    let h := h.sync
    let newRing := bitCeil newCap
    let copyCount := min h.size newCap
    let (xs, bad) := h.view h.wpos copyCount
    let fresh : H α := { h with buf := fun _ => dflt, g := { h.g with mask := newRing - 1, cap := newCap }, oob := h.oob || bad }
    let fresh := (fresh.put 0 xs).put newRing xs
    some { fresh with size := copyCount, wpos := 0, dirty := 0 }

/-- `reset` — HistoryBuffer.hpp:351-356. -/
def H.reset (h : H α) (d : α) : H α := { h with size := 0, wpos := 0, dirty := 0, buf := fun _ => d }

/-- `operator[]` (read) — HistoryBuffer.hpp:301-303. -/
def H.get (h : H α) (i : Nat) : α := h.buf (h.g.map h.wpos i)

/-- assignment through the reference returned by `operator[]`/`at` — HistoryBuffer.hpp:301, 305-310. -/
def H.assign (h : H α) (i : Nat) (v : α) : H α := h.wr (h.g.map h.wpos i) v

/-- `get_span(index, length)` — HistoryBuffer.hpp:340-344. `_size - index` wraps modulo 2^64; the default length is 2^64-1. -/
def H.span (h : H α) (index length : Nat) : H α × List α :=
  let h := h.sync
  let len := min ((h.size + (2 ^ 64 - index % 2 ^ 64)) % 2 ^ 64) length
  let (xs, bad) := h.view (h.g.map h.wpos index) len
  ({ h with oob := h.oob || bad }, xs)

/-- the iterator range `[begin(), end())` — HistoryBuffer.hpp:346-369. -/
def H.iter (h : H α) : H α × List α :=
  let h := h.sync
  let (xs, bad) := h.view h.wpos h.size
  ({ h with oob := h.oob || bad }, xs)

/-- dynamic constructor — HistoryBuffer.hpp:120-125; capacity 0 throws. -/
def H.mkDyn (dflt : α) (cap : Nat) : Option (H α) :=
  if cap = 0 then none
  else some ⟨⟨true, 0, bitCeil cap - 1, cap⟩, fun _ => dflt, 0, 0, 0, false⟩

/-- fixed-size variant — HistoryBuffer.hpp:72-77, 118. -/
def H.mkFixed (dflt : α) (n : Nat) : H α :=
  ⟨⟨false, n, n - 1, n⟩, fun _ => dflt, 0, 0, 0, false⟩

/-- The modifying and viewing member functions. -/
inductive Op (α : Type) where
  | pushFront (v : α) | pushFrontRange (xs : List α)
  | pushBack (v : α) | pushBackRange (xs : List α)
  | popFront | popBack
  | resize (cap : Nat)
  | reset (d : α)
  | at (i : Nat)
  | span (index length : Nat)
  | iter

/-- Observable result of a call. -/
inductive Out (α : Type) where
  | done | thrown | value (v : α) | view (xs : List α)

/-- One call. `resize` exists only for the dynamic variant (`requires` clause); for the fixed one it is not callable and
modelled as a no-op that reports `thrown`. -/
def H.step (dflt : α) (h : H α) : Op α → H α × Out α
  | .pushFront v => (h.pushFront v, .done)
  | .pushFrontRange xs => (h.pushFrontRange xs, .done)
  | .pushBack v => (h.pushBack v, .done)
  | .pushBackRange xs => (h.pushBackRange xs, .done)
  | .popFront => match h.popFront with | some h' => (h', .done) | none => (h, .thrown)
  | .popBack => match h.popBack with | some h' => (h', .done) | none => (h, .thrown)
  | .resize c => if h.g.dyn then (match h.resize dflt c with | some h' => (h', .done) | none => (h, .thrown)) else (h, .thrown)
  | .reset d => (h.reset d, .done)
  | .at i => if i ≥ h.size then (h, .thrown) else (h, .value (h.get i))
  | .span i l => let (h', xs) := h.span i l; (h', .view xs)
  | .iter => let (h', xs) := h.iter; (h', .view xs)

end Verif.History
