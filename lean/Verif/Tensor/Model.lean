/-
Model of the tensor of dynamic rank, `Tensor<T>`, and of views on tensors, `TensorView<T>`: Tensor.hpp:165-1010 and
1146-2040, with the container of PmtCollections.hpp:43-620.

Simplifications: `std::size_t` is a natural number (the products that could overflow are checked in the code, 245-258, and
so here; strides can only overflow in a tensor without elements); memory resources, moved-from objects and tensors with
static extents are left out.
-/
namespace Verif.Tensor

/-- Tensor.hpp:36 `kMaxRank`. -/
def maxRank : Nat := 8

/-- Result of an operation: the new state, an exception together with the state left behind, or undefined
behaviour. -/
inductive Res (σ : Type) where
  | ok (s : σ)
  | threw (s : σ)
  | undefined
deriving DecidableEq, Repr

/-- Result of reading an element. -/
inductive Read (α : Type) where
  | val (x : α)
  | throws
  | undefined
deriving DecidableEq, Repr

/-- Tensor.hpp:192-196 `dynamic_extents_store`: arrays of `maxRank` numbers, of which the first `rank` are in use. -/
structure Meta where
  rank : Nat
  ext : List Nat
  str : List Nat
deriving DecidableEq, Repr

/-- Tensor.hpp:229 `extents()`. -/
def Meta.extents (m : Meta) : List Nat := m.ext.take m.rank

/-- Tensor.hpp:231 `strides()`. -/
def Meta.strides (m : Meta) : List Nat := m.str.take m.rank

/-- Tensor.hpp:239-242: each stride is the next one times the next extent, the last is 1. -/
def stridesOf : List Nat → List Nat
  | [] => []
  | [_] => [1]
  | _ :: e :: es => match stridesOf (e :: es) with
    | [] => []
    | s :: ss => s * e :: s :: ss

/-- Tensor.hpp:233-243 `recomputeStrides`: strides beyond the rank stay as they are. -/
def Meta.recompute (m : Meta) : Meta :=
  { m with str := stridesOf m.extents ++ m.str.drop m.rank }

/-- `std::copy_n` of `xs` to the beginning of an array. -/
def overwrite (xs arr : List Nat) : List Nat := xs ++ arr.drop xs.length

/-- Tensor.hpp:245-258 `product`: none is the exception on overflow. -/
def productFrom (n : Nat) : List Nat → Option Nat
  | [] => some n
  | e :: es => if e ≠ 0 ∧ n > (2 ^ 64 - 1) / e then none else productFrom (n * e) es

def product (es : List Nat) : Option Nat := productFrom 1 es

/-- A tensor: shape, elements in the container, capacity of the container. -/
structure Ten (α : Type) where
  sh : Meta
  items : List α
  cap : Nat
deriving DecidableEq, Repr

variable {α : Type}

def zeros : List Nat := List.replicate maxRank 0

/-- Tensor.hpp:1159-1166: the default constructor. -/
def Ten.new : Ten α := ⟨⟨0, zeros, zeros⟩, [], 0⟩

/-- PmtCollections.hpp:538-541 `_next_cap`. -/
def nextCap (cur need : Nat) : Nat :=
  let c := if cur = 0 then 2 else cur + cur / 2 + 1
  if c < need then need else c

/-- PmtCollections.hpp:409-424 `resize` (new elements are value-initialised): the items and the capacity. -/
def vecResize [Inhabited α] (items : List α) (cap n : Nat) : List α × Nat :=
  if n ≤ items.length then (items.take n, cap)
  else (items ++ List.replicate (n - items.length) default, if n ≤ cap then cap else nextCap cap n)

/-- PmtCollections.hpp:442-463, 465-508, 543-588 `assign`. -/
def vecAssign (xs : List α) (cap : Nat) : List α × Nat := (xs, if xs.length ≤ cap then cap else xs.length)

/-- PmtCollections.hpp:384-394 `emplace_back`. -/
def vecEmplace (items : List α) (cap : Nat) (x : α) : List α × Nat :=
  (items ++ [x], if items.length = cap then nextCap cap (items.length + 1) else cap)

/-- Tensor.hpp:1206-1232: tensor of given extents; none is an exception. -/
def Ten.ofExtents [Inhabited α] (es : List Nat) : Option (Ten α) :=
  if es.length > maxRank then none
  else match product es with
    | none => none
    | some n => some ⟨(Meta.mk es.length (overwrite es zeros) zeros).recompute, List.replicate n default, nextCap 0 n⟩

/-- Tensor.hpp:1287-1300, 1378-1398: one-dimensional tensor of given elements. -/
def Ten.ofRange (xs : List α) : Ten α :=
  ⟨(Meta.mk 1 (overwrite [xs.length] zeros) zeros).recompute, xs, xs.length⟩

/-- Tensor.hpp:1302-1377: tensor of given extents and elements; none is an exception. -/
def Ten.ofBoth (es : List Nat) (xs : List α) : Option (Ten α) :=
  if es.length > maxRank then none
  else match product es with
    | none => none
    | some n => if xs.length ≠ n then none
      else some ⟨(Meta.mk es.length (overwrite es zeros) zeros).recompute, xs, xs.length⟩

/-- Tensor.hpp:1154-1157: the constructor from a single value fills the container, which is empty. -/
def Ten.ofValue (x : α) : Ten α :=
  ⟨⟨0, zeros, zeros⟩, ([] : List α).map fun _ => x, 0⟩

/-- Tensor.hpp:1529-1543: the copy constructor computes the strides anew. -/
def Ten.copy (t : Ten α) : Ten α := ⟨t.sh.recompute, t.items, t.items.length⟩

/-- Tensor.hpp:606-614 `fill`, 1757-1760. -/
def Ten.fill (t : Ten α) (x : α) : Ten α := { t with items := t.items.map fun _ => x }

/-- Tensor.hpp:331-339 `clear`: the strides stay as they are. -/
def Ten.clear (t : Ten α) : Ten α := { t with sh := { t.sh with rank := 0, ext := zeros }, items := [] }

/-- Tensor.hpp:342-363 `resize_dim`. -/
def Ten.resizeDim [Inhabited α] (t : Ten α) (dim n : Nat) : Res (Ten α) :=
  if t.sh.rank ≤ dim then .threw t
  else if t.sh.ext[dim]? = some n then .ok t
  else
    let m := { t.sh with ext := t.sh.ext.set dim n }
    match product m.extents with
    | none => .threw { t with sh := m }
    | some k =>
      let d := vecResize t.items t.cap k
      .ok ⟨m.recompute, d.1, d.2⟩

/-- Tensor.hpp:365-380 `resize`: the rank is set before the product is checked, and is not checked itself; more extents than
the array holds are written past its end. -/
def Ten.resize (t : Ten α) (es : List Nat) (x : α) : Res (Ten α) :=
  if es = [] then .ok t.clear
  else match product es with
    | none => .threw { t with sh := { t.sh with rank := es.length } }
    | some n =>
      if es.length > maxRank then .undefined
      else
        let d := vecAssign (List.replicate n x) t.cap
        .ok ⟨(Meta.mk es.length (overwrite es t.sh.ext) t.sh.str).recompute, d.1, d.2⟩

/-- Tensor.hpp:702-721 `reshape`. -/
def Ten.reshape (t : Ten α) (es : List Nat) : Res (Ten α) :=
  match product es with
  | none => .threw t
  | some n =>
    if n ≠ t.items.length then .threw t
    else if es.length > maxRank then .undefined
    else .ok { t with sh := (Meta.mk es.length (overwrite es t.sh.ext) t.sh.str).recompute }

/-- Tensor.hpp:1657-1685, 1719-1740 `operator=` from a range or a list of elements. -/
def Ten.set (t : Ten α) (xs : List α) : Res (Ten α) :=
  if t.sh.rank = 0 then
    let d := vecAssign xs t.cap
    .ok ⟨(Meta.mk 1 (overwrite [xs.length] t.sh.ext) t.sh.str).recompute, d.1, d.2⟩
  else if xs.length ≠ t.items.length then .threw t
  else .ok { t with items := xs }

/-- Tensor.hpp:1697-1717 `assign` from a range: as `operator=`, without computing the strides. -/
def Ten.assign (t : Ten α) (xs : List α) : Res (Ten α) :=
  if t.sh.rank = 0 then
    let d := vecAssign xs t.cap
    .ok ⟨⟨1, overwrite [xs.length] t.sh.ext, t.sh.str⟩, d.1, d.2⟩
  else if xs.length ≠ t.items.length then .threw t
  else .ok { t with items := xs }

/-- Tensor.hpp:1742-1755 `assign` of a number of equal elements. -/
def Ten.assignN (t : Ten α) (n : Nat) (x : α) : Ten α :=
  let d := vecAssign (List.replicate n x) t.cap
  ⟨(Meta.mk 1 (overwrite [n] t.sh.ext) t.sh.str).recompute, d.1, d.2⟩

/-- Add one to the first extent. -/
def Meta.grow (m : Meta) : Meta := { m with ext := m.ext.modify 0 (· + 1) }

/-- A value handed to an operation: one of its own, or a reference to an element of the same tensor. -/
inductive Src (α : Type) where
  | other (x : α)
  | own (i : Nat)
deriving DecidableEq, Repr

/-- Does growing the container to one more element give back the old storage (PmtCollections.hpp:415-423)? Then a reference
to an old element is dangling. -/
def Ten.reallocates (t : Ten α) : Bool := decide (t.cap ≤ t.items.length)

/-- Tensor.hpp:1762-1782 `push_back(const T&)`. -/
def Ten.pushCopy (t : Ten α) (x : α) : Ten α :=
  let m := if 1 < t.sh.rank then { t.sh with rank := 1, ext := t.items.length :: List.replicate (maxRank - 1) 0 }
    else if t.sh.rank = 0 then { t.sh with rank := 1, ext := t.sh.ext.set 0 0 }
    else t.sh
  ⟨m.recompute.grow, t.items ++ [x], if t.items.length + 1 ≤ t.cap then t.cap else nextCap t.cap (t.items.length + 1)⟩

/-- Tensor.hpp:1762-1782 with a reference: the container is resized first (1779), the reference read afterwards (1780). -/
def Ten.pushRef (t : Ten α) : Src α → Res (Ten α)
  | .other x => .ok (t.pushCopy x)
  | .own i => match t.items[i]? with
    | none => .undefined
    | some x => if t.reallocates then .undefined else .ok (t.pushCopy x)

/-- Tensor.hpp:1784-1795 `push_back(T&&)`: strides are not computed. -/
def Ten.pushMove (t : Ten α) (x : α) : Ten α :=
  let m := if 1 < t.sh.rank then { t.sh with rank := 1, ext := t.sh.ext.set 0 t.items.length }
    else if t.sh.rank = 0 then { t.sh with rank := 1, ext := t.sh.ext.set 0 0 }
    else t.sh
  ⟨m.grow, t.items ++ [x], if t.items.length + 1 ≤ t.cap then t.cap else nextCap t.cap (t.items.length + 1)⟩

/-- Tensor.hpp:1797-1808 `emplace_back`: strides are not computed. -/
def Ten.emplace (t : Ten α) (x : α) : Ten α :=
  let m := if t.sh.rank ≠ 1 then { t.sh with rank := 1, ext := t.items.length :: List.replicate (maxRank - 1) 0 } else t.sh
  let d := vecEmplace t.items t.cap x
  ⟨m.grow, d.1, d.2⟩

/-- Tensor.hpp:1810-1834 `pop_back`: with more than one dimension the extents are replaced, but not the rank. -/
def Ten.pop (t : Ten α) : Res (Ten α) :=
  if t.items = [] then .threw t
  else if t.sh.rank = 0 then .ok { t with items := t.items.dropLast }
  else if t.sh.rank = 1 then
    let ext := t.sh.ext.modify 0 (· - 1)
    .ok { t with sh := { t.sh with ext := if ext[0]? = some 0 then zeros else ext }, items := t.items.dropLast }
  else
    .ok { t with sh := { t.sh with ext := (t.items.length - 1) :: List.replicate (maxRank - 1) 0 }, items := t.items.dropLast }

/-- Tensor.hpp:261-297 `bounds_check`. -/
def inBounds (size rank : Nat) (ext idx : List Nat) : Bool :=
  if idx.length = 1 then idx.all (fun i => decide (i < size))
  else decide (idx.length = rank) && (idx.zip ext).all fun p => decide (p.1 < p.2)

/-- Sum of the products of indices and strides. -/
def dot (idx str : List Nat) : Nat := (List.zipWith (· * ·) idx str).sum

/-- Tensor.hpp:300-311 `index_of`: a single index is taken as it is, without stride. -/
def indexOf (str idx : List Nat) : Nat :=
  match idx with
  | [i] => i
  | idx => dot idx str

/-- Access to an element of the container. -/
def fetch (mem : List α) (i : Nat) : Read α :=
  match mem[i]? with
  | some x => .val x
  | none => .undefined

/-- Tensor.hpp:580-604 `at`. -/
def Ten.at (t : Ten α) (idx : List Nat) : Read α :=
  if inBounds t.items.length t.sh.rank t.sh.extents idx then fetch t.items (indexOf t.sh.strides idx) else .throws

/-- Assignment through `at` (580-586). -/
def Ten.put (t : Ten α) (idx : List Nat) (x : α) : Res (Ten α) :=
  if inBounds t.items.length t.sh.rank t.sh.extents idx then
    if indexOf t.sh.strides idx < t.items.length then .ok { t with items := t.items.set (indexOf t.sh.strides idx) x }
    else .undefined
  else .threw t

/-! Views -/

/-- Tensor.hpp:1898-1986 `TensorView`: a place in the storage of a tensor, extents, strides and a number of elements. -/
structure View (α : Type) where
  mem : List α
  off : Nat
  ext : List Nat
  str : List Nat
  size : Nat
deriving DecidableEq, Repr

/-- Tensor.hpp:1967-1983: view of a whole tensor. -/
def Ten.view (t : Ten α) : View α := ⟨t.items, 0, t.sh.extents, t.sh.strides, t.items.length⟩

/-- Tensor.hpp:1917-1929: view of given place, extents and strides; a product that overflows is an exception. -/
def View.make (mem : List α) (off : Nat) (ext str : List Nat) : Option (View α) :=
  match product ext with
  | none => none
  | some n => some ⟨mem, off, ext, str, n⟩

/-- The extents, strides and the place of a slice (Tensor.hpp:724-776): dimensions without a range are kept whole. -/
def sliceParts : List (Nat × Nat) → List Nat → List Nat → List Nat × List Nat × Nat
  | r :: rs, _ :: es, s :: ss => let p := sliceParts rs es ss
    ((r.2 - r.1) :: p.1, s :: p.2.1, r.1 * s + p.2.2)
  | [], e :: es, s :: ss => let p := sliceParts [] es ss
    (e :: p.1, s :: p.2.1, p.2.2)
  | _, _, _ => ([], [], 0)

/-- Tensor.hpp:724-776 `slice`. -/
def View.slice (v : View α) (rs : List (Nat × Nat)) : Option (View α) :=
  let p := sliceParts rs v.ext v.str
  View.make v.mem (v.off + p.2.2) p.1 p.2.1

/-- Tensor.hpp:778-787 `transpose()`. -/
def View.reverse (v : View α) : Option (View α) := View.make v.mem v.off v.ext.reverse v.str.reverse

/-- Tensor.hpp:789-811 `transpose(axes)`. -/
def View.transpose (v : View α) (axes : List Nat) : Option (View α) :=
  View.make v.mem v.off (axes.map fun a => v.ext.getD a 0) (axes.map fun a => v.str.getD a 0)

/-- Tensor.hpp:580-604 `at` of a view. -/
def View.at (v : View α) (idx : List Nat) : Read α :=
  if inBounds v.size v.ext.length v.ext idx then fetch v.mem (v.off + indexOf v.str idx) else .throws

/-- Tensor.hpp:474-483: the coordinate of dimension `d` is the linear index divided by the extents behind `d`, one after the
other, modulo the extent of `d`. -/
def coords : List Nat → Nat → List Nat
  | [], _ => []
  | e :: es, n => es.foldl (· / ·) n % e :: coords es n

/-- Tensor.hpp:470-486 `strided_iterator::operator*`: an extent of zero is a division by zero. -/
def View.deref (v : View α) (n : Nat) : Read α :=
  if v.ext.any (· == 0) then .undefined else fetch v.mem (v.off + dot (coords v.ext n) v.str)

/-- Tensor.hpp:528-558 `begin` to `end`. -/
def View.elements (v : View α) : List (Read α) := (List.range v.size).map v.deref

/-- Tensor.hpp:702-721 `reshape` of a view: the strides are those of the new shape. None is an exception. -/
def View.reshape (v : View α) (es : List Nat) : Option (View α) :=
  match product es with
  | none => none
  | some n => if n ≠ v.size then none else some { v with ext := es, str := stridesOf es }

/-- Tensor.hpp:842-857 `operator==`: rank, extents, then the elements in order. -/
def View.equal [DecidableEq α] (v w : View α) : Bool :=
  if v.ext.length ≠ w.ext.length then false
  else if v.ext ≠ w.ext then false
  else decide (v.elements = w.elements)

/-- All the values read, if none was undefined. -/
def allVals : List (Read α) → Option (List α)
  | [] => some []
  | .val x :: rs => (allVals rs).map (x :: ·)
  | _ :: _ => none

/-- Tensor.hpp:690-697: the conversion of a view to a tensor; none is undefined behaviour or an exception. -/
def View.toTensor [Inhabited α] (v : View α) : Option (Ten α) :=
  match Ten.ofExtents (α := α) v.ext, allVals v.elements with
  | some t, some xs => if xs.length ≤ t.items.length then some { t with items := xs ++ t.items.drop xs.length } else none
  | _, _ => none

/-- Tensor.hpp:1995-2015 `owned`. -/
def View.owned [Inhabited α] (v : View α) : Option (Ten α) :=
  if v.size = 0 then some Ten.new
  else match allVals v.elements with
    | none => none
    | some xs =>
      match Ten.new.resize (if v.ext = [] then [1] else v.ext) default with
      | .ok t =>
        if xs.length ≤ t.items.length then
          let t := { t with items := xs ++ t.items.drop xs.length }
          some (if v.ext = [] then { t with sh := { t.sh with rank := 0, ext := zeros } } else t)
        else none
      | _ => none

end Verif.Tensor
