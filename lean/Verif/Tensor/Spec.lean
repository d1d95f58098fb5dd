import Verif.Tensor.Model

/- What a tensor is: a shape and an element for every index, the elements listed with the last index running fastest. -/
namespace Verif.Tensor

variable {α : Type}

/-- An index of the shape: one number for each dimension, below its extent. -/
def Valid : List Nat → List Nat → Prop
  | [], [] => True
  | e :: es, i :: is => i < e ∧ Valid es is
  | _, _ => False

instance : ∀ (s i : List Nat), Decidable (Valid s i)
  | [], [] => .isTrue trivial
  | e :: es, i :: is => by
    unfold Valid
    have := instDecidableValid es is
    exact inferInstance
  | [], _ :: _ => .isFalse id
  | _ :: _, [] => .isFalse id

/-- All indices of a shape, the last index running fastest. -/
def indices : List Nat → List (List Nat)
  | [] => [[]]
  | e :: es => (List.range e).flatMap fun i => (indices es).map (i :: ·)

/-- The number of indices of a shape. -/
def count : List Nat → Nat
  | [] => 1
  | e :: es => e * count es

/-- The place of an index in the row-major order. -/
def place : List Nat → List Nat → Nat
  | _ :: es, i :: is => i * count es + place es is
  | _, _ => 0

/-- A shape with its elements in row-major order. -/
structure Arr (α : Type) where
  shape : List Nat
  elems : List α
deriving DecidableEq, Repr

/-- The element at an index. -/
def Arr.get? (a : Arr α) (idx : List Nat) : Option α :=
  if Valid a.shape idx then a.elems[place a.shape idx]? else none

/-- What a program can do to a tensor. -/
inductive Op (α : Type) where
  | fill (x : α)
  | clear
  | resizeDim (dim n : Nat)
  | resize (es : List Nat) (x : α)
  | reshape (es : List Nat)
  | set (xs : List α)
  | assign (xs : List α)
  | assignN (n : Nat) (x : α)
  | pushCopy (x : α)
  | pushMove (x : α)
  | emplace (x : α)
  | pop
deriving Repr

/-- What each operation should do: none is an exception, after which nothing has changed. A tensor without shape
has no element, or a single one. -/
def Arr.step [Inhabited α] (a : Arr α) : Op α → Option (Arr α)
  | .fill x => some { a with elems := List.replicate a.elems.length x }
  | .clear => some ⟨[], []⟩
  | .resizeDim d n =>
    if d < a.shape.length then
      if count (a.shape.set d n) < 2 ^ 64 then
        some ⟨a.shape.set d n, (indices (a.shape.set d n)).map fun idx => (a.get? idx).getD default⟩
      else none
    else none
  | .resize es x =>
    if es = [] then some ⟨[], []⟩
    else if count es < 2 ^ 64 then some ⟨es, List.replicate (count es) x⟩ else none
  | .reshape es => if count es = a.elems.length then some ⟨es, a.elems⟩ else none
  | .set xs | .assign xs =>
    if a.shape = [] then some ⟨[xs.length], xs⟩
    else if xs.length = a.elems.length then some ⟨a.shape, xs⟩ else none
  | .assignN n x => some ⟨[n], List.replicate n x⟩
  | .pushCopy x | .pushMove x | .emplace x => some ⟨[a.elems.length + 1], a.elems ++ [x]⟩
  | .pop =>
    if a.elems = [] then none
    else some ⟨if a.shape = [] then [] else [a.elems.length - 1], a.elems.dropLast⟩

/-- The tensor shows this array: its shape and elements, and the view of the tensor shows it as well. -/
def Shows (t : Ten α) (a : Arr α) : Prop :=
  t.sh.extents = a.shape ∧ t.items = a.elems ∧
  (a.shape ≠ [] → ∀ idx, Valid a.shape idx → ∃ x, a.get? idx = some x ∧ t.at idx = .val x) ∧
  t.view.elements = a.elems.map .val

/-- One operation on a tensor. -/
def Ten.step [Inhabited α] (t : Ten α) : Op α → Res (Ten α)
  | .fill x => .ok (t.fill x)
  | .clear => .ok t.clear
  | .resizeDim d n => t.resizeDim d n
  | .resize es x => t.resize es x
  | .reshape es => t.reshape es
  | .set xs => t.set xs
  | .assign xs => t.assign xs
  | .assignN n x => .ok (t.assignN n x)
  | .pushCopy x => .ok (t.pushCopy x)
  | .pushMove x => .ok (t.pushMove x)
  | .emplace x => .ok (t.emplace x)
  | .pop => t.pop

/-- A program on a tensor: an exception is caught and the program goes on. Returns the tensor and, for each operation,
whether it threw; none is undefined behaviour. -/
def Ten.run [Inhabited α] (t : Ten α) : List (Op α) → Option (Ten α × List Bool)
  | [] => some (t, [])
  | o :: os => match t.step o with
    | .ok u => (u.run os).map fun r => (r.1, false :: r.2)
    | .threw u => (u.run os).map fun r => (r.1, true :: r.2)
    | .undefined => none

/-- The same for arrays. -/
def Arr.run [Inhabited α] (a : Arr α) : List (Op α) → Arr α × List Bool
  | [] => (a, [])
  | o :: os => match a.step o with
    | some b => let r := b.run os; (r.1, false :: r.2)
    | none => let r := a.run os; (r.1, true :: r.2)

/-- No leading part of the shape has 2^64 indices or more. -/
def Small (es : List Nat) : Prop := ∀ k, k ≤ es.length → count (es.take k) < 2 ^ 64

/-- The operations for which the code does what it should, given the array before. -/
def Sound (a : Arr α) : Op α → Prop
  | .resizeDim d n => (d = 0 ∧ Small (a.shape.set d n)) ∨ a.shape.length ≤ d ∨
    (a.shape[d]? = some n ∧ count a.shape < 2 ^ 64)
  | .resize es _ => es.length ≤ 8 ∧ Small es
  | .reshape es => es.length ≤ 8 ∧ Small es
  | .assign _ => a.shape ≠ []
  | .pushCopy _ => a.shape ≠ [] ∨ a.elems = []
  | .pushMove _ | .emplace _ => a.shape.length = 1
  | .pop => a.shape.length ≤ 1
  | _ => True

/-- Every operation of the program is sound when its turn comes. -/
def AllSound [Inhabited α] (a : Arr α) : List (Op α) → Prop
  | [] => True
  | o :: os => Sound a o ∧ AllSound ((a.step o).getD a) os

instance (es : List Nat) : Decidable (Small es) :=
  inferInstanceAs (Decidable (∀ k, k ≤ es.length → count (es.take k) < 2 ^ 64))

instance (a : Arr Nat) : ∀ o : Op Nat, Decidable (Sound a o)
  | .resizeDim d n => inferInstanceAs (Decidable ((d = 0 ∧ Small (a.shape.set d n)) ∨ a.shape.length ≤ d ∨
      (a.shape[d]? = some n ∧ count a.shape < 2 ^ 64)))
  | .resize es _ => inferInstanceAs (Decidable (es.length ≤ 8 ∧ Small es))
  | .reshape es => inferInstanceAs (Decidable (es.length ≤ 8 ∧ Small es))
  | .assign _ => inferInstanceAs (Decidable (a.shape ≠ []))
  | .pushCopy _ => inferInstanceAs (Decidable (a.shape ≠ [] ∨ a.elems = []))
  | .pushMove _ => inferInstanceAs (Decidable (a.shape.length = 1))
  | .emplace _ => inferInstanceAs (Decidable (a.shape.length = 1))
  | .pop => inferInstanceAs (Decidable (a.shape.length ≤ 1))
  | .fill _ => .isTrue trivial
  | .clear => .isTrue trivial
  | .set _ => .isTrue trivial
  | .assignN _ _ => .isTrue trivial

instance decAllSound (a : Arr Nat) : ∀ os : List (Op Nat), Decidable (AllSound a os)
  | [] => .isTrue trivial
  | o :: os =>
    have := decAllSound ((a.step o).getD a) os
    inferInstanceAs (Decidable (Sound a o ∧ AllSound ((a.step o).getD a) os))

end Verif.Tensor
