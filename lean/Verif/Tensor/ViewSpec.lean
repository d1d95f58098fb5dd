import Verif.Tensor.Spec

/- What slices and transposed views should show: an index of the view stands for an index of the tensor. -/
namespace Verif.Tensor

variable {α : Type}

/-- A range for each of the first dimensions, within its extent. -/
def RangesOk : List (Nat × Nat) → List Nat → Prop
  | [], _ => True
  | r :: rs, e :: es => r.1 ≤ r.2 ∧ r.2 ≤ e ∧ RangesOk rs es
  | _ :: _, [] => False

/-- The shape of a slice. -/
def sliceShape : List (Nat × Nat) → List Nat → List Nat
  | r :: rs, _ :: es => (r.2 - r.1) :: sliceShape rs es
  | _, es => es

/-- An index of a slice, as an index of what was sliced. -/
def shift : List (Nat × Nat) → List Nat → List Nat
  | r :: rs, i :: is => (r.1 + i) :: shift rs is
  | _, is => is

/-- An index of a transposed view, as an index of what was transposed: dimension `k` of the view is dimension `axes[k]`. -/
def unpermute (axes : List Nat) (idx : List Nat) : List Nat :=
  (List.range axes.length).map fun a => idx.getD (axes.idxOf a) 0

/-- `Derived t v s f`: `v` is a view obtained from `t` by slicing and transposing any number of times; it should have
the shape `s`, and the index `i` of the view should stand for the index `f i` of the tensor. -/
inductive Derived (t : Ten α) : View α → List Nat → (List Nat → List Nat) → Prop
  | whole : Derived t t.view t.sh.extents id
  | slice {v w : View α} {s : List Nat} {f : List Nat → List Nat} (rs : List (Nat × Nat)) :
      Derived t v s f → RangesOk rs s → v.slice rs = some w → Derived t w (sliceShape rs s) (fun i => f (shift rs i))
  | reverse {v w : View α} {s : List Nat} {f : List Nat → List Nat} :
      Derived t v s f → v.reverse = some w → Derived t w s.reverse (fun i => f i.reverse)
  | transpose {v w : View α} {s : List Nat} {f : List Nat → List Nat} (axes : List Nat) :
      Derived t v s f → axes.Perm (List.range s.length) → v.transpose axes = some w →
      Derived t w (axes.map fun a => s.getD a 0) (fun i => f (unpermute axes i))

end Verif.Tensor
