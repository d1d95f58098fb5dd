import Verif.Gemm.Vec
import Verif.Gemm.Gauss
/-!
Matrix products: what `gemm` and `gemv` compute, and where they do not compute it.
-/
namespace Verif.Gemm

open Lean.Grind (CommRing)
open Spec

variable {α : Type} [CommRing α] [DecidableEq α]

/-! ## shapes -/

/-- The shapes fit: op(A) is m × k, op(B) is k × n, C is m × n. -/
def Fits (ta tb : Op) (C : Mat α) (A B : View α) : Prop :=
  opRows ta A = C.rows ∧ opCols tb B = C.cols ∧ opCols ta A = opRows tb B

/-- No matrix is empty. -/
def NonEmpty (C : Mat α) (A B : View α) : Prop := C.rows * C.cols ≠ 0 ∧ A.e0 * A.e1 ≠ 0 ∧ B.e0 * B.e1 ≠ 0

/-- The elements of a view lie in memory as those of a matrix of its own would. -/
def Packed (w : View α) : Prop := w.s1 = 1 ∧ w.s0 = w.e1

theorem packed_iff (w : View α) : w.isContiguous = true ↔ Packed w := by
  unfold View.isContiguous Packed
  constructor
  · intro h
    obtain ⟨h1, h2⟩ := of_decide_eq_true h
    rw [h1] at h2
    exact ⟨h1, by omega⟩
  · rintro ⟨h1, h2⟩
    exact decide_eq_true ⟨h1, by rw [h1]; omega⟩

theorem apply_e0 (o : Op) (w : View α) : (o.apply w).e0 = opRows o w := by cases o <;> rfl
theorem apply_e1 (o : Op) (w : View α) : (o.apply w).e1 = opCols o w := by cases o <;> rfl

theorem apply_addr {o : Op} {w : View α} (h : Inside w) {i j : Nat} (hi : i < opRows o w) (hj : j < opCols o w) :
    (o.apply w).addr i j < (o.apply w).mem.length := by
  cases o with
  | noTrans => exact h i hi j hj
  | trans =>
    have := h j hj i hi
    show w.off + (i * w.s1 + j * w.s0) < w.mem.length
    omega
  | conjTrans =>
    have := h j hj i hi
    show w.off + (i * w.s1 + j * w.s0) < w.mem.length
    omega

theorem apply_entry {o : Op} (ho : o ≠ .conjTrans) (conj : α → α) (w : View α) (i j : Nat) :
    (o.apply w).mem.getD ((o.apply w).addr i j) 0 = opEntry conj o w i j := by
  cases o with
  | noTrans => rfl
  | trans =>
    show w.mem.getD (w.off + (i * w.s1 + j * w.s0)) 0 = w.mem.getD (w.off + (j * w.s0 + i * w.s1)) 0
    rw [Nat.add_comm (i * w.s1)]
  | conjTrans => exact absurd rfl ho

/-- Rows read as if packed stay inside the memory of a packed view, transposed or not. -/
theorem apply_rows {o : Op} {w : View α} (h : Inside w) (hp : Packed w) {q : Nat} (hq : q < opRows o w)
    (hn : 0 < opCols o w) : (o.apply w).addr q 0 + opCols o w ≤ (o.apply w).mem.length := by
  obtain ⟨h1, h2⟩ := hp
  cases o with
  | noTrans =>
    have := h q hq (w.e1 - 1) (by have : 0 < w.e1 := hn; omega)
    show w.off + (q * w.s0 + 0 * w.s1) + w.e1 ≤ w.mem.length
    rw [h1] at *
    have : 0 < w.e1 := hn
    omega
  | trans =>
    have hq : q < w.e1 := hq
    have hn : 0 < w.e0 := hn
    have := h (w.e0 - 1) (by omega) (w.e1 - 1) (by omega)
    show w.off + (q * w.s1 + 0 * w.s0) + w.e0 ≤ w.mem.length
    rw [h1, h2] at *
    have e : w.e0 - 1 ≤ (w.e0 - 1) * w.e1 := Nat.le_mul_of_pos_right _ (by omega)
    omega
  | conjTrans =>
    have hq : q < w.e1 := hq
    have hn : 0 < w.e0 := hn
    have := h (w.e0 - 1) (by omega) (w.e1 - 1) (by omega)
    show w.off + (q * w.s1 + 0 * w.s0) + w.e0 ≤ w.mem.length
    rw [h1, h2] at *
    have e : w.e0 - 1 ≤ (w.e0 - 1) * w.e1 := Nat.le_mul_of_pos_right _ (by omega)
    omega

/-- What the call computes if it is not refused. -/
theorem gemm_kernel (small : Bool) {v : Nat} (hv : 0 < v) {ta tb : Op} {C : Mat α} {A B : View α} (alpha beta : α)
    (hne : NonEmpty C A B) (hC : Full C) (hA : Inside A) (hB : Inside B) (pA : Packed A) (pB : Packed B)
    (hf : Fits ta tb C A B) :
    ∃ d, gemm small v ta tb C A B alpha beta = .ok { C with data := d } ∧
      Kernel (ta.apply A) (tb.apply B) alpha beta C.rows C.cols (opCols ta A) C.data d := by
  obtain ⟨n1, n2, n3⟩ := hne
  obtain ⟨f1, f2, f3⟩ := hf
  have hcols : 0 < C.cols := Nat.pos_of_ne_zero fun h => n1 (by rw [h, Nat.mul_zero])
  have hb : Bounds (ta.apply A) (tb.apply B) C.rows C.cols (opCols ta A) :=
    ⟨fun i hi q hq => apply_addr hA (by omega) hq,
      fun q hq => by rw [← f2]; exact apply_rows hB pB (by omega) (by omega)⟩
  obtain ⟨d1, e1, k1⟩ := smallGemm_kernel alpha beta hb hC
  obtain ⟨d2, e2, k2⟩ := cacheGemm_kernel hv alpha beta hb hC
  unfold gemm
  rw [if_neg (by simp only [View.size]; omega), if_neg (by simp [(packed_iff A).2 pA, (packed_iff B).2 pB])]
  dsimp only
  rw [if_neg (by rw [apply_e0, apply_e1, apply_e1, apply_e0]; omega), apply_e1]
  cases small with
  | true => exact ⟨d1, by rw [if_pos rfl, e1]; rfl, k1⟩
  | false =>
    rw [if_neg (by decide)]
    split
    · exact ⟨d1, by rw [e1]; rfl, k1⟩
    · exact ⟨d2, by rw [e2]; rfl, k2⟩

/-! ## the product -/

/-- **C105.** `gemm` with a second factor that is not transposed replaces C by alpha · op(A) · B + beta · C,
exactly, for every shape, every register width, both kernels and every alpha and beta; nothing outside the
matrices is read or written. -/
theorem gemm_exact (conj : α → α) (small : Bool) {v : Nat} (hv : 0 < v) {ta : Op} (hta : ta ≠ .conjTrans) {C : Mat α}
    {A B : View α} (alpha beta : α) (hne : NonEmpty C A B) (hC : Full C) (hA : Inside A) (hB : Inside B)
    (pA : Packed A) (pB : Packed B) (hf : Fits ta .noTrans C A B) :
    ∃ C', gemm small v ta .noTrans C A B alpha beta = .ok C' ∧ IsProduct conj ta .noTrans A B alpha beta C C' := by
  obtain ⟨d, e, hl, hk⟩ := gemm_kernel small hv alpha beta hne hC hA hB pA pB hf
  refine ⟨_, e, rfl, rfl, hl, fun i hi j hj => ?_⟩
  show d.getD (i * C.cols + j) 0 = _
  rw [hk i hi j hj]
  congr 2
  refine sum_congr fun q hq => ?_
  rw [apply_entry hta conj]
  congr 1
  show B.mem.getD (B.off + (q * B.s0 + 0 * B.s1) + j) 0 = B.mem.getD (B.off + (q * B.s0 + j * B.s1)) 0
  rw [pB.1]
  congr 1
  omega

/-- The hypotheses hold for a product of a 2 × 3 with a 3 × 2 matrix of bytes that wrap, and the result is as
computed by hand. -/
example : NonEmpty (⟨2, 2, [1, 1, 1, 1]⟩ : Mat (BitVec 8)) (Mat.view ⟨2, 3, [1, 2, 3, 4, 5, 100]⟩) (Mat.view ⟨3, 2, [7, 8, 9, 10, 11, 12]⟩) ∧
    Packed (Mat.view ⟨2, 3, [1, 2, 3, 4, 5, (100 : BitVec 8)]⟩) ∧
    gemm false 4 .noTrans .noTrans (⟨2, 2, [1, 1, 1, 1]⟩ : Mat (BitVec 8)) (Mat.view ⟨2, 3, [1, 2, 3, 4, 5, 100]⟩)
      (Mat.view ⟨3, 2, [7, 8, 9, 10, 11, 12]⟩) 2 3 = .ok ⟨2, 2, [119, 131, 45, 7]⟩ := by
  refine ⟨?_, ?_, ?_⟩
  · unfold NonEmpty; decide
  · unfold Packed; decide
  · rfl

/-- **C105.** A matrix that owns its elements is packed and inside its memory. -/
theorem mat_packed (t : Mat α) (h : Full t) : Packed t.view ∧ Inside t.view := by
  refine ⟨⟨rfl, rfl⟩, fun i hi j hj => ?_⟩
  have hi : i < t.rows := hi
  have hj : j < t.cols := hj
  show 0 + (i * t.cols + j * 1) < t.data.length
  have := row_lt (n := t.cols) hi
  have hF : t.data.length = t.rows * t.cols := h
  omega

/-- **C105.** Shapes that do not fit, and views that are not packed, are refused and nothing else is (as long
as no matrix is empty). -/
theorem gemm_refuses_iff (small : Bool) {v : Nat} (hv : 0 < v) (ta tb : Op) {C : Mat α} {A B : View α} (alpha beta : α)
    (hne : NonEmpty C A B) (hC : Full C) (hA : Inside A) (hB : Inside B) :
    gemm small v ta tb C A B alpha beta = .refused ↔ ¬ (Packed A ∧ Packed B ∧ Fits ta tb C A B) := by
  constructor
  · rintro h ⟨pA, pB, hf⟩
    obtain ⟨d, e, _⟩ := gemm_kernel small hv alpha beta hne hC hA hB pA pB hf
    rw [e] at h
    cases h
  · intro h
    unfold gemm
    obtain ⟨n1, n2, n3⟩ := hne
    rw [if_neg (by simp only [View.size]; omega)]
    split
    · rfl
    · rename_i hc
      have pA : Packed A := (packed_iff A).1 (by cases h1 : A.isContiguous <;> simp [h1] at hc ⊢)
      have pB : Packed B := (packed_iff B).1 (by cases h1 : B.isContiguous <;> simp [h1] at hc ⊢)
      dsimp only
      rw [if_pos]
      rw [apply_e0, apply_e1, apply_e1, apply_e0]
      have : ¬ (opRows ta A = C.rows ∧ opCols tb B = C.cols ∧ opCols ta A = opRows tb B) := fun hf => h ⟨pA, pB, hf⟩
      omega

example : ¬ Fits .noTrans .noTrans (⟨1, 1, [0]⟩ : Mat Int) (Mat.view ⟨1, 2, [1, 2]⟩) (Mat.view ⟨1, 1, [1]⟩) := by
  unfold Fits; decide

/-- **C105, C106.** No call touches memory outside the matrices, transposed or not. -/
theorem gemm_safe (small : Bool) {v : Nat} (hv : 0 < v) (ta tb : Op) {C : Mat α} {A B : View α} (alpha beta : α)
    (hC : Full C) (hA : Inside A) (hB : Inside B) : gemm small v ta tb C A B alpha beta ≠ .ub := by
  intro h
  by_cases hne : NonEmpty C A B
  · by_cases hr : Packed A ∧ Packed B ∧ Fits ta tb C A B
    · obtain ⟨d, e, _⟩ := gemm_kernel small hv alpha beta hne hC hA hB hr.1 hr.2.1 hr.2.2
      rw [e] at h
      cases h
    · rw [(gemm_refuses_iff small hv ta tb alpha beta hne hC hA hB).2 hr] at h
      cases h
  · unfold gemm at h
    rw [if_pos (by unfold NonEmpty at hne; simp only [View.size]; omega)] at h
    cases h

/-- **C105, negation.** With an inner extent of zero the product is beta · C, but the call returns with C as it
was: here it ought to be zero and stays seven. -/
theorem gemm_empty_wrong :
    gemm false 4 .noTrans .noTrans (⟨1, 1, [7]⟩ : Mat Int) (Mat.view ⟨1, 0, []⟩) (Mat.view ⟨0, 1, []⟩) 1 0 =
      .ok ⟨1, 1, [7]⟩ ∧
    ¬ IsProduct id .noTrans .noTrans (Mat.view ⟨1, 0, []⟩) (Mat.view ⟨0, 1, []⟩) 1 0
      (⟨1, 1, [7]⟩ : Mat Int) ⟨1, 1, [7]⟩ := by
  refine ⟨rfl, fun h => ?_⟩
  have := h.2.2.2 0 (by decide) 0 (by decide)
  revert this
  decide

/-- **C105, negation.** Shapes that do not fit are not noticed if a factor is empty. -/
theorem gemm_empty_unchecked :
    gemm false 4 .noTrans .noTrans (⟨1, 1, [7]⟩ : Mat Int) (Mat.view ⟨0, 5, []⟩) (Mat.view ⟨3, 2, [1, 2, 3, 4, 5, 6]⟩) 1 0 =
      .ok ⟨1, 1, [7]⟩ := rfl

/-! ## the second factor transposed -/

/-- **C106, what is computed.** With a transposed second factor the entry used for row q and column j of op(B)
is the one q + j places behind the first element of B, whatever the shape of B. -/
theorem gemm_transB (conj : α → α) (small : Bool) {v : Nat} (hv : 0 < v) {ta : Op} (hta : ta ≠ .conjTrans) {C : Mat α}
    {A B : View α} (alpha beta : α) (hne : NonEmpty C A B) (hC : Full C) (hA : Inside A) (hB : Inside B)
    (pA : Packed A) (pB : Packed B) (hf : Fits ta .trans C A B) :
    ∃ C', gemm small v ta .trans C A B alpha beta = .ok C' ∧ Full C' ∧ ∀ i < C.rows, ∀ j < C.cols,
      entry C' i j = alpha * sum (opCols ta A) (fun q => opEntry conj ta A i q * B.mem.getD (B.off + (q + j)) 0) +
        beta * entry C i j := by
  obtain ⟨d, e, hl, hk⟩ := gemm_kernel small hv alpha beta hne hC hA hB pA pB hf
  refine ⟨_, e, hl, fun i hi j hj => ?_⟩
  show d.getD (i * C.cols + j) 0 = _
  rw [hk i hi j hj]
  congr 2
  refine sum_congr fun q hq => ?_
  rw [apply_entry hta conj]
  congr 1
  show B.mem.getD (B.off + (q * B.s1 + 0 * B.s0) + j) 0 = B.mem.getD (B.off + (q + j)) 0
  rw [pB.1]
  congr 1
  omega

/-- **C106, partial.** The product with a transposed second factor is right if that factor has one row or one
column. -/
theorem gemm_transB_partial (conj : α → α) (small : Bool) {v : Nat} (hv : 0 < v) {ta : Op} (hta : ta ≠ .conjTrans)
    {C : Mat α} {A B : View α} (alpha beta : α) (hne : NonEmpty C A B) (hC : Full C) (hA : Inside A) (hB : Inside B)
    (pA : Packed A) (pB : Packed B) (hf : Fits ta .trans C A B) (hone : B.e0 = 1 ∨ B.e1 = 1) :
    ∃ C', gemm small v ta .trans C A B alpha beta = .ok C' ∧ IsProduct conj ta .trans A B alpha beta C C' := by
  obtain ⟨d, e, hl, hk⟩ := gemm_kernel small hv alpha beta hne hC hA hB pA pB hf
  refine ⟨_, e, rfl, rfl, hl, fun i hi j hj => ?_⟩
  show d.getD (i * C.cols + j) 0 = _
  rw [hk i hi j hj]
  congr 2
  refine sum_congr fun q hq => ?_
  rw [apply_entry hta conj]
  congr 1
  show B.mem.getD (B.off + (q * B.s1 + 0 * B.s0) + j) 0 = B.mem.getD (B.off + (j * B.s0 + q * B.s1)) 0
  rw [pB.1, pB.2]
  obtain ⟨f1, f2, f3⟩ := hf
  have f2 : B.e0 = C.cols := f2
  have f3 : opCols ta A = B.e1 := f3
  congr 1
  rcases hone with h | h
  · have : j = 0 := by omega
    subst this
    omega
  · have : q = 0 := by omega
    subst this
    rw [h]
    omega

example : Fits .noTrans .trans (⟨2, 1, [0, 0]⟩ : Mat Int) (Mat.view ⟨2, 3, [1, 2, 3, 4, 5, 6]⟩) (Mat.view ⟨1, 3, [7, 8, 9]⟩) := by
  unfold Fits; decide

/-- **C106, negation.** The identity times the transpose of (1 2; 3 4) comes out as (1 2; 2 3), and not as
(1 3; 2 4). -/
theorem gemm_transB_wrong :
    gemm false 4 .noTrans .trans (⟨2, 2, [0, 0, 0, 0]⟩ : Mat Int) (Mat.view ⟨2, 2, [1, 0, 0, 1]⟩)
      (Mat.view ⟨2, 2, [1, 2, 3, 4]⟩) 1 0 = .ok ⟨2, 2, [1, 2, 2, 3]⟩ ∧
    ¬ IsProduct id .noTrans .trans (Mat.view ⟨2, 2, [1, 0, 0, 1]⟩) (Mat.view ⟨2, 2, [1, 2, 3, 4]⟩) 1 0
      (⟨2, 2, [0, 0, 0, 0]⟩ : Mat Int) ⟨2, 2, [1, 2, 2, 3]⟩ := by
  refine ⟨rfl, fun h => ?_⟩
  have := h.2.2.2 0 (by decide) 1 (by decide)
  revert this
  decide

/-! ## the conjugated transpose -/

/-- **C106.** The conjugated transpose is taken for the plain one, in both factors, whatever the matrices. -/
theorem conj_dropped (small : Bool) (v : Nat) (ta tb : Op) (C : Mat α) (A B : View α) (alpha beta : α) :
    gemm small v .conjTrans tb C A B alpha beta = gemm small v .trans tb C A B alpha beta ∧
    gemm small v ta .conjTrans C A B alpha beta = gemm small v ta .trans C A B alpha beta := ⟨rfl, rfl⟩

/-- **C106, negation.** The product of the conjugated transpose of (i) with (1) comes out as i, and not as -i. -/
theorem conj_wrong :
    gemm true 4 .conjTrans .noTrans (⟨1, 1, [0]⟩ : Mat Gauss) (Mat.view ⟨1, 1, [⟨0, 1⟩]⟩) (Mat.view ⟨1, 1, [1]⟩) 1 0 =
      .ok ⟨1, 1, [⟨0, 1⟩]⟩ ∧
    ¬ IsProduct Gauss.conj .conjTrans .noTrans (Mat.view ⟨1, 1, [⟨0, 1⟩]⟩) (Mat.view ⟨1, 1, [1]⟩) 1 0
      (⟨1, 1, [0]⟩ : Mat Gauss) ⟨1, 1, [⟨0, 1⟩]⟩ := by
  refine ⟨rfl, fun h => ?_⟩
  have := h.2.2.2 0 (by decide) 0 (by decide)
  revert this
  decide

/-! ## matrix times vector -/

/-- The elements of a row lie one behind the other. -/
def RowPacked (A : View α) : Prop := A.s1 = 1

/-- The shapes fit: op(A) has a column for every element of x and a row for every one of y. -/
def FitsVec (ta : Op) (y : List α) (A : View α) (x : List α) : Prop := opRows ta A = y.length ∧ opCols ta A = x.length

/-- Neither the matrix nor a vector is empty. -/
def NonEmptyVec (y : List α) (A : View α) (x : List α) : Prop := y ≠ [] ∧ A.e0 * A.e1 ≠ 0 ∧ x ≠ []

theorem rows_inside {A : View α} (h : Inside A) (hs : 0 < A.s1) (h1 : 0 < A.e1) : RowsInside A := by
  intro i hi
  have := h i hi (A.e1 - 1) (by omega)
  show A.off + (i * A.s0 + 0 * A.s1) + A.e1 ≤ A.mem.length
  have e : A.e1 - 1 ≤ (A.e1 - 1) * A.s1 := Nat.le_mul_of_pos_right _ hs
  omega

theorem gemv_cases {v : Nat} (hv : 0 < v) {ta : Op} {y : List α} {A : View α} {x : List α} (alpha beta : α)
    (hne : NonEmptyVec y A x) (hA : Inside A) (hs : 0 < A.s1) (hf : FitsVec ta y A x) :
    ∃ y', gemv v ta y A x alpha beta = .ok y' ∧ y'.length = y.length ∧ ∀ i < y.length, y'.getD i 0 =
      (if ta = .noTrans then alpha * dotTo A.mem (A.addr i 0) x A.e1
       else alpha * sum A.e0 (fun q => A.mem.getD (A.addr q 0 + i) 0 * x.getD q 0)) + beta * y.getD i 0 := by
  obtain ⟨n1, n2, n3⟩ := hne
  obtain ⟨f1, f2⟩ := hf
  have n1 : y.length ≠ 0 := fun h => n1 (List.length_eq_zero_iff.1 h)
  have n3 : x.length ≠ 0 := fun h => n3 (List.length_eq_zero_iff.1 h)
  have he : 0 < A.e1 := Nat.pos_of_ne_zero fun h => n2 (by rw [h, Nat.mul_zero])
  have hr := rows_inside hA hs he
  unfold gemv
  rw [if_neg (by simp only [View.size]; omega)]
  by_cases hta : ta = .noTrans
  · subst hta
    have f1 : A.e0 = y.length := f1
    have f2 : A.e1 = x.length := f2
    rw [if_pos rfl, if_neg (by omega)]
    split
    · obtain ⟨y', e, l, g⟩ := simpleGemv_some alpha beta hr f2.symm f1.symm
      exact ⟨y', by rw [e]; rfl, l, fun i hi => by rw [g i hi, if_pos rfl]⟩
    · obtain ⟨y', e, l, g⟩ := gemvNoTrans_some hv alpha beta hr f2.symm f1.symm
      exact ⟨y', by rw [e]; rfl, l, fun i hi => by rw [g i hi, if_pos rfl]⟩
  · have f1 : A.e1 = y.length := by cases ta <;> first | exact absurd rfl hta | exact f1
    have f2 : A.e0 = x.length := by cases ta <;> first | exact absurd rfl hta | exact f2
    rw [if_neg hta, if_neg (by omega)]
    obtain ⟨y', e, l, g⟩ := gemvTrans_some hv alpha beta hr f2.symm f1.symm
    exact ⟨y', by rw [e]; rfl, l, fun i hi => by rw [g i hi, if_neg hta]⟩

/-- **C107, partial.** `gemv` replaces y by alpha · op(A) · x + beta · y, exactly, for every shape, every
register width, every kernel and every alpha and beta, if the elements of each row of A lie one behind the
other (rows may be any distance apart).  Missing: views with another stride, see `gemv_strided_wrong`. -/
theorem gemv_exact_partial (conj : α → α) {v : Nat} (hv : 0 < v) {ta : Op} (hta : ta ≠ .conjTrans) {y : List α}
    {A : View α} {x : List α} (alpha beta : α) (hne : NonEmptyVec y A x) (hA : Inside A) (hp : RowPacked A)
    (hf : FitsVec ta y A x) :
    ∃ y', gemv v ta y A x alpha beta = .ok y' ∧ IsImage conj ta A x alpha beta y y' := by
  have hp : A.s1 = 1 := hp
  obtain ⟨y', e, l, g⟩ := gemv_cases hv alpha beta hne hA (by omega) hf
  refine ⟨y', e, l, fun i hi => ?_⟩
  rw [g i hi]
  cases ta with
  | noTrans =>
    rw [if_pos rfl]
    congr 2
    refine sum_congr fun q hq => ?_
    congr 1
    show A.mem.getD (A.off + (i * A.s0 + 0 * A.s1) + q) 0 = A.mem.getD (A.off + (i * A.s0 + q * A.s1)) 0
    rw [hp]
    congr 1
    omega
  | trans =>
    rw [if_neg (by decide)]
    congr 2
    refine sum_congr fun q hq => ?_
    congr 1
    show A.mem.getD (A.off + (q * A.s0 + 0 * A.s1) + i) 0 = A.mem.getD (A.off + (q * A.s0 + i * A.s1)) 0
    rw [hp]
    congr 1
    omega
  | conjTrans => exact absurd rfl hta

/-- The hypotheses hold for the right half of a 2 × 4 matrix, whose rows are four elements apart. -/
example : NonEmptyVec [1, 1] (⟨[1, 2, 3, 4, 5, 6, 7, 8], 2, 2, 2, 4, 1⟩ : View Int) [10, 100] ∧
    RowPacked (⟨[1, 2, 3, 4, 5, 6, 7, 8], 2, 2, 2, 4, 1⟩ : View Int) ∧
    Inside (⟨[1, 2, 3, 4, 5, 6, 7, 8], 2, 2, 2, 4, 1⟩ : View Int) ∧
    gemv 4 .noTrans [1, 1] (⟨[1, 2, 3, 4, 5, 6, 7, 8], 2, 2, 2, 4, 1⟩ : View Int) [10, 100] 1 2 = .ok [432, 872] :=
  ⟨by unfold NonEmptyVec; decide, rfl, by unfold Inside; decide, rfl⟩

/-- **C107.** Shapes that do not fit are refused and nothing else is, as long as nothing is empty. -/
theorem gemv_refuses_iff {v : Nat} (hv : 0 < v) (ta : Op) {y : List α} {A : View α} {x : List α} (alpha beta : α)
    (hne : NonEmptyVec y A x) (hA : Inside A) (hs : 0 < A.s1) :
    gemv v ta y A x alpha beta = .refused ↔ ¬ FitsVec ta y A x := by
  constructor
  · intro h hf
    obtain ⟨y', e, _⟩ := gemv_cases hv alpha beta hne hA hs hf
    rw [e] at h
    cases h
  · intro h
    obtain ⟨n1, n2, n3⟩ := hne
    have n1 : y.length ≠ 0 := fun h => n1 (List.length_eq_zero_iff.1 h)
    have n3 : x.length ≠ 0 := fun h => n3 (List.length_eq_zero_iff.1 h)
    unfold gemv
    rw [if_neg (by simp only [View.size]; omega)]
    unfold FitsVec at h
    cases ta with
    | noTrans =>
      rw [if_pos rfl, if_pos (by simp only [opRows, opCols] at h; omega)]
    | trans => rw [if_neg (by decide), if_pos (by simp only [opRows, opCols] at h; omega)]
    | conjTrans => rw [if_neg (by decide), if_pos (by simp only [opRows, opCols] at h; omega)]

/-- **C107.** No call touches memory outside the matrix and the vectors, if the stride along a row is not zero. -/
theorem gemv_safe {v : Nat} (hv : 0 < v) (ta : Op) {y : List α} {A : View α} {x : List α} (alpha beta : α)
    (hA : Inside A) (hs : 0 < A.s1) : gemv v ta y A x alpha beta ≠ .ub := by
  intro h
  by_cases hne : NonEmptyVec y A x
  · by_cases hf : FitsVec ta y A x
    · obtain ⟨y', e, _⟩ := gemv_cases hv alpha beta hne hA hs hf
      rw [e] at h
      cases h
    · rw [(gemv_refuses_iff hv ta alpha beta hne hA hs).2 hf] at h
      cases h
  · unfold gemv at h
    rw [if_pos] at h
    · cases h
    · unfold NonEmptyVec at hne
      simp only [View.size, List.length_eq_zero_iff]
      by_cases a : y = []
      · exact .inl a
      · by_cases b : A.e0 * A.e1 = 0
        · exact .inr (.inl b)
        · exact .inr (.inr (Classical.byContradiction fun c => hne ⟨a, b, c⟩))

/-- **C107, negation.** Nothing asks whether a view is packed: the transposed view of (1 2; 3 4) times (0, 1)
comes out as (2, 3) instead of (3, 4). -/
theorem gemv_strided_wrong :
    gemv 4 .noTrans [0, 0] (Mat.view ⟨2, 2, [1, 2, 3, 4]⟩ : View Int).transpose [0, 1] 1 0 = .ok [2, 3] ∧
    ¬ IsImage id .noTrans (Mat.view ⟨2, 2, [1, 2, 3, 4]⟩ : View Int).transpose [0, 1] 1 0 [0, 0] [2, 3] := by
  refine ⟨rfl, fun h => ?_⟩
  have := h.2 0 (by decide)
  revert this
  decide

/-- **C107, negation.** With a matrix that has no columns y ought to be beta · y, but stays as it was. -/
theorem gemv_empty_wrong :
    gemv 4 .noTrans [7] (Mat.view ⟨1, 0, []⟩ : View Int) [] 1 0 = .ok [7] ∧
    ¬ IsImage id .noTrans (Mat.view ⟨1, 0, []⟩ : View Int) [] 1 0 [7] [7] := by
  refine ⟨rfl, fun h => ?_⟩
  have := h.2 0 (by decide)
  revert this
  decide

end Verif.Gemm
