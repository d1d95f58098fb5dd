import Verif.Gemm.Model
/-!
# What a matrix product is

Entries are read off the memory of a matrix, missing ones as zero; sums run over the numbers below a bound.
Nothing here uses the loops of the model.
-/
namespace Verif.Gemm.Spec

open Lean.Grind (CommRing)

variable {α : Type} [CommRing α]

/-- f 0 + … + f (n - 1). -/
def sum (n : Nat) (f : Nat → α) : α :=
  match n with
  | 0 => 0
  | n + 1 => sum n f + f n

/-- Entry (i, j) of a matrix stored row after row. -/
def entry (C : Mat α) (i j : Nat) : α := C.data.getD (i * C.cols + j) 0

/-- Element (i, j) of a view. -/
def viewEntry (w : View α) (i j : Nat) : α := w.mem.getD (w.off + (i * w.s0 + j * w.s1)) 0

/-- A matrix has as many elements as its shape says. -/
def Full (C : Mat α) : Prop := C.data.length = C.rows * C.cols

/-- Every element of a view lies in its memory. -/
def Inside (w : View α) : Prop := ∀ i < w.e0, ∀ j < w.e1, w.off + (i * w.s0 + j * w.s1) < w.mem.length

/-- Entry (i, j) of op(W): the index pair is swapped when the matrix is to be transposed, and the entry
conjugated too when the conjugated transpose is asked for. -/
def opEntry (conj : α → α) (o : Op) (w : View α) (i j : Nat) : α :=
  match o with
  | .noTrans => viewEntry w i j
  | .trans => viewEntry w j i
  | .conjTrans => conj (viewEntry w j i)

/-- Rows of op(W). -/
def opRows (o : Op) (w : View α) : Nat := match o with | .noTrans => w.e0 | _ => w.e1

/-- Columns of op(W). -/
def opCols (o : Op) (w : View α) : Nat := match o with | .noTrans => w.e1 | _ => w.e0

/-- `C'` is alpha · op(A) · op(B) + beta · C. -/
def IsProduct (conj : α → α) (ta tb : Op) (A B : View α) (alpha beta : α) (C C' : Mat α) : Prop :=
  C'.rows = C.rows ∧ C'.cols = C.cols ∧ Full C' ∧
    ∀ i < C.rows, ∀ j < C.cols,
      entry C' i j = alpha * sum (opCols ta A) (fun k => opEntry conj ta A i k * opEntry conj tb B k j) + beta * entry C i j

/-- `y'` is alpha · op(A) · x + beta · y. -/
def IsImage (conj : α → α) (ta : Op) (A : View α) (x : List α) (alpha beta : α) (y y' : List α) : Prop :=
  y'.length = y.length ∧
    ∀ i < y.length,
      y'.getD i 0 = alpha * sum (opCols ta A) (fun k => opEntry conj ta A i k * x.getD k 0) + beta * y.getD i 0

end Verif.Gemm.Spec
