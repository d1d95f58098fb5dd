/-!
# Matrix products (core/include/gnuradio-4.0/math/gemm_simd.hpp, gemv_simd.hpp, TensorMath.hpp)

Memory is a list of elements.  A kernel that reads or writes outside a list has no result (`none`):
in C++ that access is undefined.  Elements live in any commutative ring, so that unsigned types which wrap
are covered as they are; rounding of floating-point types, signed overflow and matrices sharing memory with
the result (the kernels say `__restrict__`) are left out.  The width of a vector register is a parameter.
-/
namespace Verif.Gemm

open Lean.Grind (CommRing)

variable {α σ : Type}

/-- A C++ `for` whose condition is `go` and whose step is `step`.  The first number bounds the iterations;
a loop that would go on after that has no result. -/
def loop (go : Nat → Bool) (step : Nat) (body : Nat → σ → Option σ) : Nat → Nat → σ → Option (Nat × σ)
  | 0, j, s => if go j then none else some (j, s)
  | f + 1, j, s => if go j then (body j s).bind (loop go step body f (j + step)) else some (j, s)

/-- `for (i = a; i < b; i += step)`: the shape of the loops over rows, columns and blocks
(gemm_simd.hpp:95,99,103,107,196,199). -/
def forTo (a b step : Nat) (body : Nat → σ → Option σ) (s : σ) : Option σ :=
  (loop (fun i => decide (i < b)) step body (b - a) a s).map Prod.snd

/-- `simd.copy_from(&m[i])` of `n` elements (gemm_simd.hpp:119-127), and the input range of a
`std::transform` (gemm_simd.hpp:157). -/
def load (m : List α) (i n : Nat) : Option (List α) :=
  if i + n ≤ m.length then some ((m.drop i).take n) else none

/-- `simd.copy_to(&m[i])` (gemm_simd.hpp:134-137), and the output range of a `std::transform`. -/
def store (m : List α) (i : Nat) (xs : List α) : Option (List α) :=
  if i + xs.length ≤ m.length then some (m.take i ++ (xs ++ m.drop (i + xs.length))) else none

section
variable [CommRing α] [DecidableEq α]

/-- gemm_simd.hpp:25-43 and gemv_simd.hpp:21-39, `fma(a, b, c)`, without rounding. -/
def fma (a b c : α) : α := a * b + c

/-- gemm_simd.hpp:153-159 (also 202-206): `std::transform(b_row, b_row + n, c_row, c_row, fma)`; `b_row` is
`&b[bo]` and `c_row` is `&c[co]`. -/
def rowPlain (n : Nat) (a : α) (b : List α) (bo : Nat) (c : List α) (co : Nat) : Option (List α) := do
  let x ← load b bo n
  let y ← load c co n
  store c co (List.zipWith (fma a) x y)

/-- gemm_simd.hpp:115-138: one turn of the loop unrolled four times, eight loads before the four stores. -/
def rowQuad (v : Nat) (a : α) (b : List α) (bo : Nat) (co j : Nat) (c : List α) : Option (List α) := do
  let b0 ← load b (bo + j) v
  let b1 ← load b (bo + (j + v)) v
  let b2 ← load b (bo + (j + 2 * v)) v
  let b3 ← load b (bo + (j + 3 * v)) v
  let c0 ← load c (co + j) v
  let c1 ← load c (co + (j + v)) v
  let c2 ← load c (co + (j + 2 * v)) v
  let c3 ← load c (co + (j + 3 * v)) v
  let c ← store c (co + j) (List.zipWith (fma a) b0 c0)
  let c ← store c (co + (j + v)) (List.zipWith (fma a) b1 c1)
  let c ← store c (co + (j + 2 * v)) (List.zipWith (fma a) b2 c2)
  store c (co + (j + 3 * v)) (List.zipWith (fma a) b3 c3)

/-- gemm_simd.hpp:141-147: one turn of the loop over single vectors. -/
def rowVec (v : Nat) (a : α) (b : List α) (bo : Nat) (co j : Nat) (c : List α) : Option (List α) := do
  let x ← load b (bo + j) v
  let y ← load c (co + j) v
  store c (co + j) (List.zipWith (fma a) x y)

/-- gemm_simd.hpp:150-152: one turn of the epilogue. -/
def rowOne (a : α) (b : List α) (bo : Nat) (co j : Nat) (c : List α) : Option (List α) := do
  let x ← b[bo + j]?
  let y ← c[co + j]?
  store c (co + j) [fma a x y]

/-- gemm_simd.hpp:112-152 and gemv_simd.hpp:170-228: unrolled loop, single vectors, epilogue, `j` running on
from one loop to the next. -/
def rowSimd (v n : Nat) (a : α) (b : List α) (bo : Nat) (c : List α) (co : Nat) : Option (List α) := do
  let (j, c) ← loop (fun j => decide (j + 4 * v ≤ n)) (4 * v) (rowQuad v a b bo co) n 0 c
  let (j, c) ← loop (fun j => decide (j + v ≤ n)) v (rowVec v a b bo co) n j c
  let (_, c) ← loop (fun j => decide (j < n)) 1 (rowOne a b bo co) n j c
  return c

/-- A two-dimensional `TensorView`: where its elements start in memory, its extents and its strides. -/
structure View (α : Type) where
  mem : List α
  off : Nat
  e0 : Nat
  e1 : Nat
  s0 : Nat
  s1 : Nat

/-- A matrix that owns its elements, row after row (`Tensor` of rank two). -/
structure Mat (α : Type) where
  rows : Nat
  cols : Nat
  data : List α

/-- `TensorView<const T>(tensor)`: gemm_simd.hpp:230; Tensor.hpp:1959-1976. -/
def Mat.view (t : Mat α) : View α := ⟨t.data, 0, t.rows, t.cols, t.cols, 1⟩

/-- Tensor.hpp:779-788, `transpose()`: extents and strides reversed over the same memory. -/
def View.transpose (w : View α) : View α := ⟨w.mem, w.off, w.e1, w.e0, w.s1, w.s0⟩

/-- Tensor.hpp:436-454 for rank two. -/
def View.isContiguous (w : View α) : Bool := decide (w.s1 = 1 ∧ w.s0 = w.s1 * w.e1)

/-- `&w[i, j]`: Tensor.hpp:583-590 with `index_of`. -/
def View.addr (w : View α) (i j : Nat) : Nat := w.off + (i * w.s0 + j * w.s1)

/-- `w.size()`: Tensor.hpp, product of the extents. -/
def View.size (w : View α) : Nat := w.e0 * w.e1

/-- gemm_simd.hpp:73-84 (also 178-189): the part of C = alpha A B + beta C that handles beta. -/
def scale (m n : Nat) (beta : α) (c : List α) : Option (List α) :=
  if beta = 0 then some (c.map fun _ => 0)
  else if beta = 1 then some c
  else forTo 0 m 1 (fun i c => (load c (i * n) n).bind fun x => store c (i * n) (x.map fun y => beta * y)) c

/-- gemm_simd.hpp:52. -/
def blockK : Nat := 256
/-- gemm_simd.hpp:53. -/
def blockM : Nat := 128

/-- gemm_simd.hpp:111-159: the update of one row of C; vectors from 64 columns. -/
def rowUpdate (v n : Nat) (a : α) (b : List α) (bo : Nat) (c : List α) (co : Nat) : Option (List α) :=
  if 64 ≤ n then rowSimd v n a b bo c co else rowPlain n a b bo c co

/-- gemm_simd.hpp:59-165, `CacheOptimizedGemm`: C is m × n, k is the inner extent. -/
def cacheGemm (v : Nat) (A B : View α) (m n k : Nat) (alpha beta : α) (c : List α) : Option (List α) := do
  let c ← scale m n beta c
  if alpha = 0 then return c else
  forTo 0 k blockK (fun kc c =>
    forTo 0 m blockM (fun ic c =>
      forTo ic (min (ic + blockM) m) 1 (fun i c =>
        forTo kc (min (kc + blockK) k) 1 (fun q c => do
          let a ← A.mem[A.addr i q]?
          rowUpdate v n (alpha * a) B.mem (B.addr q 0) c (i * n)) c) c) c) c

/-- gemm_simd.hpp:167-211, `SmallGemm`. -/
def smallGemm (A B : View α) (m n k : Nat) (alpha beta : α) (c : List α) : Option (List α) := do
  let c ← scale m n beta c
  if alpha = 0 then return c else
  forTo 0 m 1 (fun i c =>
    forTo 0 k 1 (fun q c => do
      let a ← A.mem[A.addr i q]?
      rowPlain n (alpha * a) B.mem (B.addr q 0) c (i * n)) c) c

/-- TensorMath.hpp:79-84, without the value that is not implemented. -/
inductive Op where
  | noTrans
  | trans
  | conjTrans
  deriving DecidableEq

/-- gemm_simd.hpp:226-235, `apply_transpose`: every value but `NoTrans` transposes. -/
def Op.apply (o : Op) (w : View α) : View α := if o = .noTrans then w else w.transpose

/-- What a call does: a result, an exception, or an access outside a matrix. -/
inductive Out (τ : Type) where
  | ok : τ → Out τ
  | refused : Out τ
  | ub : Out τ

def Out.of : Option τ → Out τ
  | some x => .ok x
  | none => .ub

/-- gemm_simd.hpp:215-263 with TensorMath.hpp:1008-1018: the call `gemm<ta, tb>(C, A, B, alpha, beta)`.
`small` says that the element type is complex.  C is a matrix that owns its elements, so it is contiguous. -/
def gemm (small : Bool) (v : Nat) (ta tb : Op) (C : Mat α) (A B : View α) (alpha beta : α) : Out (Mat α) :=
  if C.rows * C.cols = 0 ∨ A.size = 0 ∨ B.size = 0 then .ok C
  else if !A.isContiguous || !B.isContiguous then .refused
  else
    let A' := ta.apply A
    let B' := tb.apply B
    if A'.e0 ≠ C.rows ∨ B'.e1 ≠ C.cols ∨ A'.e1 ≠ B'.e0 then .refused
    else
      let m := C.rows
      let n := C.cols
      let k := A'.e1
      let r :=
        if small then smallGemm A' B' m n k alpha beta C.data
        else if m ≤ 128 ∧ n ≤ 128 ∧ k ≤ 128 then smallGemm A' B' m n k alpha beta C.data
        else cacheGemm v A' B' m n k alpha beta C.data
      .of (r.map fun d => { C with data := d })

/-! ## Matrix times vector (gemv_simd.hpp) -/

/-- gemv_simd.hpp:53-59 (also 248-254): `fill_n` or one product per element. -/
def scaleVec (m : Nat) (beta : α) (y : List α) : Option (List α) :=
  if beta = 0 then store y 0 (List.replicate m 0)
  else if beta = 1 then some y
  else forTo 0 m 1 (fun i y => y[i]?.bind fun t => store y i [t * beta]) y

/-- gemv_simd.hpp:120-122,127-129: `dot += a_row[j] * x[j]`. -/
def dotStep (a : List α) (ao : Nat) (x : List α) (j : Nat) (d : α) : Option α := do
  let p ← a[ao + j]?
  let q ← x[j]?
  return d + p * q

/-- `acc = fma(a, x, acc)` or `acc + a * x` on vectors (gemv_simd.hpp:92-102): the same without rounding. -/
def accStep (a x acc : List α) : List α := List.zipWith (· + ·) (List.zipWith (· * ·) a x) acc

/-- The four accumulators (gemv_simd.hpp:70-73). -/
structure Acc (α : Type) where
  a0 : List α
  a1 : List α
  a2 : List α
  a3 : List α

/-- gemv_simd.hpp:78-103: one turn of the unrolled loop. -/
def dotQuad (v : Nat) (a : List α) (ao : Nat) (x : List α) (j : Nat) (s : Acc α) : Option (Acc α) := do
  let a0 ← load a (ao + j) v
  let a1 ← load a (ao + (j + v)) v
  let a2 ← load a (ao + (j + 2 * v)) v
  let a3 ← load a (ao + (j + 3 * v)) v
  let x0 ← load x j v
  let x1 ← load x (j + v) v
  let x2 ← load x (j + 2 * v) v
  let x3 ← load x (j + 3 * v) v
  return ⟨accStep a0 x0 s.a0, accStep a1 x1 s.a1, accStep a2 x2 s.a2, accStep a3 x3 s.a3⟩

/-- gemv_simd.hpp:105-115: one turn of the loop over single vectors. -/
def dotVec (v : Nat) (a : List α) (ao : Nat) (x : List α) (j : Nat) (s : Acc α) : Option (Acc α) := do
  let a0 ← load a (ao + j) v
  let x0 ← load x j v
  return { s with a0 := accStep a0 x0 s.a0 }

/-- `stdx::reduce`: the sum over a vector (gemv_simd.hpp:118). -/
def reduce (xs : List α) : α := xs.foldl (· + ·) 0

/-- gemv_simd.hpp:69-124: the dot product of one row with x. -/
def dotSimd (v n : Nat) (a : List α) (ao : Nat) (x : List α) : Option α := do
  let z := List.replicate v (0 : α)
  let (j, s) ← loop (fun j => decide (j + 4 * v ≤ n)) (4 * v) (dotQuad v a ao x) n 0 ⟨z, z, z, z⟩
  let (j, s) ← loop (fun j => decide (j + v ≤ n)) v (dotVec v a ao x) n j s
  let total := List.zipWith (· + ·) (List.zipWith (· + ·) (List.zipWith (· + ·) s.a0 s.a1) s.a2) s.a3
  let (_, d) ← loop (fun j => decide (j < n)) 1 (dotStep a ao x) n j (reduce total)
  return d

/-- gemv_simd.hpp:125-130: the plain dot product. -/
def dotPlain (n : Nat) (a : List α) (ao : Nat) (x : List α) : Option α :=
  forTo 0 n 1 (dotStep a ao x) 0

/-- gemv_simd.hpp:262-268: `std::transform_reduce` over n elements of the row and of x. -/
def dotReduce (n : Nat) (a : List α) (ao : Nat) (x : List α) : Option α := do
  let p ← load a ao n
  let q ← load x 0 n
  return reduce (List.zipWith (· * ·) p q)

/-- `y[i] += alpha * dot` (gemv_simd.hpp:124,130,270). -/
def addTo (y : List α) (i : Nat) (t : α) : Option (List α) := y[i]?.bind fun u => store y i [u + t]

/-- gemv_simd.hpp:69-130: vectors from 32 columns. -/
def dotRow (v n : Nat) (a : List α) (ao : Nat) (x : List α) : Option α :=
  if 32 ≤ n then dotSimd v n a ao x else dotPlain n a ao x

/-- gemv_simd.hpp:42-134, `GemvNoTrans`. -/
def gemvNoTrans (v : Nat) (A : View α) (x : List α) (alpha beta : α) (y : List α) : Option (List α) := do
  let y ← scaleVec A.e0 beta y
  if alpha = 0 then return y else
  forTo 0 A.e0 1 (fun i y => do
    let d ← dotRow v A.e1 A.mem (A.addr i 0) x
    addTo y i (alpha * d)) y

/-- gemv_simd.hpp:239-273, `SimpleGemv`. -/
def simpleGemv (A : View α) (x : List α) (alpha beta : α) (y : List α) : Option (List α) := do
  let y ← scaleVec A.e0 beta y
  if alpha = 0 then return y else
  forTo 0 A.e0 1 (fun i y => do
    let d ← dotReduce A.e1 A.mem (A.addr i 0) x
    addTo y i (alpha * d)) y

/-- gemv_simd.hpp:136-236, `GemvTrans`: A has the shape it has in memory, y as many elements as A columns. -/
def gemvTrans (v : Nat) (A : View α) (x : List α) (alpha beta : α) (y : List α) : Option (List α) :=
  let y := if beta = 0 then y.map fun _ => 0 else if beta = 1 then y else y.map fun t => t * beta
  if alpha = 0 then some y else
  forTo 0 A.e0 1 (fun i y => do
    let xi ← x[i]?
    if alpha * xi = 0 then return y else
    if 32 ≤ A.e1 then rowSimd v A.e1 (alpha * xi) A.mem (A.addr i 0) y 0
    else forTo 0 A.e1 1 (rowOne (alpha * xi) A.mem (A.addr i 0) 0) y) y

/-- gemv_simd.hpp:275-315 with TensorMath.hpp:1042-1052: `gemv<ta>(y, A, x, alpha, beta)`.  The vectors own
their elements.  Nothing asks whether A is contiguous. -/
def gemv (v : Nat) (ta : Op) (y : List α) (A : View α) (x : List α) (alpha beta : α) : Out (List α) :=
  if y.length = 0 ∨ A.size = 0 ∨ x.length = 0 then .ok y
  else if ta = .noTrans then
    if A.e0 ≠ y.length ∨ A.e1 ≠ x.length then .refused
    else if A.e1 ≤ 64 then .of (simpleGemv A x alpha beta y)
    else .of (gemvNoTrans v A x alpha beta y)
  else
    if A.e1 ≠ y.length ∨ A.e0 ≠ x.length then .refused
    else .of (gemvTrans v A x alpha beta y)

end

end Verif.Gemm
