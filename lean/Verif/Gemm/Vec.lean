import Verif.Gemm.Kernels
/-! Lemmas about the matrix times vector kernels. -/
namespace Verif.Gemm

open Lean.Grind (CommRing)

variable {α σ : Type}

section
variable [CommRing α]

theorem sum_add {n m : Nat} (f : Nat → α) : Spec.sum (n + m) f = Spec.sum n f + Spec.sum m (fun k => f (n + k)) := by
  induction m with
  | zero => simp only [Spec.sum, Nat.add_zero]; grind
  | succ m ih => rw [Nat.add_succ, Spec.sum, ih, Spec.sum]; grind

theorem sum_plus {n : Nat} (f g : Nat → α) : Spec.sum n (fun k => f k + g k) = Spec.sum n f + Spec.sum n g := by
  induction n with
  | zero => simp only [Spec.sum]; grind
  | succ n ih => simp only [Spec.sum, ih]; grind

theorem sum_zero {n : Nat} : Spec.sum n (fun _ => (0 : α)) = 0 := by
  induction n with
  | zero => rfl
  | succ n ih => simp only [Spec.sum, ih]; grind

theorem foldl_sum (xs : List α) (z : α) : xs.foldl (· + ·) z = z + Spec.sum xs.length (fun t => xs.getD t 0) := by
  induction xs generalizing z with
  | nil => simp only [List.foldl_nil, List.length_nil, Spec.sum]; grind
  | cons x xs ih =>
    rw [List.foldl_cons, ih, List.length_cons, Nat.add_comm xs.length 1, sum_add]
    simp only [Spec.sum, Nat.add_comm 1, List.getD_cons_succ, List.getD_cons_zero]
    grind

theorem reduce_sum [DecidableEq α] (xs : List α) : reduce xs = Spec.sum xs.length (fun t => xs.getD t 0) := by
  rw [reduce, foldl_sum]; grind

end

section
variable [CommRing α] [DecidableEq α]

/-- The dot product of the first n elements. -/
def dotTo (a : List α) (ao : Nat) (x : List α) (n : Nat) : α := Spec.sum n (fun j => a.getD (ao + j) 0 * x.getD j 0)

theorem dotStep_some {a : List α} {ao : Nat} {x : List α} {j : Nat} (h1 : ao + j < a.length) (h2 : j < x.length) :
    dotStep a ao x j (dotTo a ao x j) = some (dotTo a ao x (j + 1)) := by
  rw [dotStep, getElem?_of_lt h1, getElem?_of_lt h2]
  rfl

theorem dotPlain_some {n : Nat} {a : List α} {ao : Nat} {x : List α} (h1 : ao + n ≤ a.length) (h2 : n ≤ x.length) :
    dotPlain n a ao x = some (dotTo a ao x n) := by
  obtain ⟨s, e, h⟩ := forTo_one (a := 0) (b := n) (body := dotStep a ao x) (fun j d => d = dotTo a ao x j) (Nat.zero_le _)
    (fun j d _ hj h => ⟨_, by rw [h]; exact dotStep_some (by omega) (by omega), rfl⟩) 0 rfl
  rw [dotPlain, e, h]

theorem dotReduce_some {n : Nat} {a : List α} {ao : Nat} {x : List α} (h1 : ao + n ≤ a.length) (h2 : n ≤ x.length) :
    dotReduce n a ao x = some (dotTo a ao x n) := by
  obtain ⟨p, ep, hp, hpv⟩ := load_some (m := a) (i := ao) (n := n) h1
  obtain ⟨q, eq, hq, hqv⟩ := load_some (m := x) (i := 0) (n := n) (by omega)
  have : reduce (List.zipWith (· * ·) p q) = dotTo a ao x n := by
    rw [reduce_sum, List.length_zipWith, hp, hq, Nat.min_self]
    refine sum_congr fun t ht => ?_
    rw [getD_zipWith (by omega) (by omega), hpv t ht, hqv t ht, Nat.zero_add]
  simp [dotReduce, ep, eq, this]

theorem accStep_sum {v : Nat} {a x s : List α} (ha : a.length = v) (hx : x.length = v) (hs : s.length = v) :
    (accStep a x s).length = v ∧ Spec.sum v (fun t => (accStep a x s).getD t 0) =
      Spec.sum v (fun t => a.getD t 0 * x.getD t 0) + Spec.sum v (fun t => s.getD t 0) := by
  refine ⟨by simp [accStep, ha, hx, hs], ?_⟩
  rw [← sum_plus]
  refine sum_congr fun t ht => ?_
  rw [accStep, getD_zipWith (by simp [ha, hx]; omega) (by omega), getD_zipWith (by omega) (by omega)]

/-- Together the accumulators hold the dot product so far. -/
structure AccInv (v : Nat) (a : List α) (ao : Nat) (x : List α) (j : Nat) (s : Acc α) : Prop where
  l0 : s.a0.length = v
  l1 : s.a1.length = v
  l2 : s.a2.length = v
  l3 : s.a3.length = v
  total : Spec.sum v (fun t => s.a0.getD t 0) + Spec.sum v (fun t => s.a1.getD t 0) +
    Spec.sum v (fun t => s.a2.getD t 0) + Spec.sum v (fun t => s.a3.getD t 0) = dotTo a ao x j

theorem dotTo_add {a : List α} {ao : Nat} {x : List α} {j v : Nat} {p q : List α}
    (hp : ∀ t < v, p.getD t 0 = a.getD (ao + j + t) 0) (hq : ∀ t < v, q.getD t 0 = x.getD (j + t) 0) :
    dotTo a ao x (j + v) = dotTo a ao x j + Spec.sum v (fun t => p.getD t 0 * q.getD t 0) := by
  rw [dotTo, sum_add]
  congr 1
  refine sum_congr fun t ht => ?_
  rw [hp t ht, hq t ht, Nat.add_assoc]

theorem dotVec_step {v : Nat} {a : List α} {ao : Nat} {x : List α} {j : Nat} {s : Acc α} (h : AccInv v a ao x j s)
    (h1 : ao + (j + v) ≤ a.length) (h2 : j + v ≤ x.length) :
    ∃ s', dotVec v a ao x j s = some s' ∧ AccInv v a ao x (j + v) s' := by
  obtain ⟨p, ep, hp, hpv⟩ := load_some (m := a) (i := ao + j) (n := v) (by omega)
  obtain ⟨q, eq, hq, hqv⟩ := load_some (m := x) (i := j) (n := v) (by omega)
  obtain ⟨l, g⟩ := accStep_sum hp hq h.l0
  refine ⟨{ s with a0 := accStep p q s.a0 }, by simp [dotVec, ep, eq], l, h.l1, h.l2, h.l3, ?_⟩
  rw [dotTo_add hpv hqv, ← h.total]
  show Spec.sum v (fun t => (accStep p q s.a0).getD t 0) + _ + _ + _ = _
  rw [g]
  grind

theorem dotQuad_step {v : Nat} {a : List α} {ao : Nat} {x : List α} {j : Nat} {s : Acc α} (h : AccInv v a ao x j s)
    (h1 : ao + (j + 4 * v) ≤ a.length) (h2 : j + 4 * v ≤ x.length) :
    ∃ s', dotQuad v a ao x j s = some s' ∧ AccInv v a ao x (j + 4 * v) s' := by
  obtain ⟨p0, ep0, hp0, hpv0⟩ := load_some (m := a) (i := ao + j) (n := v) (by omega)
  obtain ⟨p1, ep1, hp1, hpv1⟩ := load_some (m := a) (i := ao + (j + v)) (n := v) (by omega)
  obtain ⟨p2, ep2, hp2, hpv2⟩ := load_some (m := a) (i := ao + (j + 2 * v)) (n := v) (by omega)
  obtain ⟨p3, ep3, hp3, hpv3⟩ := load_some (m := a) (i := ao + (j + 3 * v)) (n := v) (by omega)
  obtain ⟨q0, eq0, hq0, hqv0⟩ := load_some (m := x) (i := j) (n := v) (by omega)
  obtain ⟨q1, eq1, hq1, hqv1⟩ := load_some (m := x) (i := j + v) (n := v) (by omega)
  obtain ⟨q2, eq2, hq2, hqv2⟩ := load_some (m := x) (i := j + 2 * v) (n := v) (by omega)
  obtain ⟨q3, eq3, hq3, hqv3⟩ := load_some (m := x) (i := j + 3 * v) (n := v) (by omega)
  obtain ⟨m0, g0⟩ := accStep_sum hp0 hq0 h.l0
  obtain ⟨m1, g1⟩ := accStep_sum hp1 hq1 h.l1
  obtain ⟨m2, g2⟩ := accStep_sum hp2 hq2 h.l2
  obtain ⟨m3, g3⟩ := accStep_sum hp3 hq3 h.l3
  refine ⟨⟨accStep p0 q0 s.a0, accStep p1 q1 s.a1, accStep p2 q2 s.a2, accStep p3 q3 s.a3⟩,
    by simp [dotQuad, ep0, ep1, ep2, ep3, eq0, eq1, eq2, eq3], m0, m1, m2, m3, ?_⟩
  have t0 := dotTo_add (ao := ao) (a := a) (x := x) hpv0 hqv0
  have t1 := dotTo_add (ao := ao) (a := a) (x := x) hpv1 hqv1
  have t2 := dotTo_add (ao := ao) (a := a) (x := x) hpv2 hqv2
  have t3 := dotTo_add (ao := ao) (a := a) (x := x) hpv3 hqv3
  rw [show j + v + v = j + 2 * v by omega] at t1
  rw [show j + 2 * v + v = j + 3 * v by omega] at t2
  rw [show j + 3 * v + v = j + 4 * v by omega] at t3
  rw [t3, t2, t1, t0, ← h.total]
  show Spec.sum v (fun t => (accStep p0 q0 s.a0).getD t 0) + Spec.sum v (fun t => (accStep p1 q1 s.a1).getD t 0) +
    Spec.sum v (fun t => (accStep p2 q2 s.a2).getD t 0) + Spec.sum v (fun t => (accStep p3 q3 s.a3).getD t 0) = _
  rw [g0, g1, g2, g3]
  grind

theorem dotSimd_some {v n : Nat} (hv : 0 < v) {a : List α} {ao : Nat} {x : List α} (h1 : ao + n ≤ a.length)
    (h2 : n ≤ x.length) : dotSimd v n a ao x = some (dotTo a ao x n) := by
  have hz : Spec.sum v (fun t => (List.replicate v (0 : α)).getD t 0) = 0 := by
    rw [show (fun t => (List.replicate v (0 : α)).getD t 0) = (fun _ => (0 : α)) from ?_, sum_zero]
    funext t
    rw [List.getD_eq_getElem?_getD, List.getElem?_replicate]
    split <;> rfl
  obtain ⟨j1, s1, e1, ⟨u1, b1⟩, _⟩ := loop_inv (go := fun j => decide (j + 4 * v ≤ n)) (step := 4 * v)
    (body := dotQuad v a ao x) n (fun j s => AccInv v a ao x j s ∧ j ≤ n) (by omega)
    (fun j h => by have : j + 4 * v ≤ n := by simpa using h
                   omega)
    (fun j s h ⟨u, _⟩ => by
      have h : j + 4 * v ≤ n := by simpa using h
      obtain ⟨s', e, u'⟩ := dotQuad_step u (by omega) (by omega)
      exact ⟨s', e, u', h⟩) n 0
      ⟨List.replicate v 0, List.replicate v 0, List.replicate v 0, List.replicate v 0⟩ (by omega)
      ⟨⟨by simp, by simp, by simp, by simp, by
        show Spec.sum v (fun t => (List.replicate v (0 : α)).getD t 0) + _ + _ + _ = _
        rw [hz]
        show (0 : α) + 0 + 0 + 0 = 0
        grind⟩, by omega⟩
  obtain ⟨j2, s2, e2, ⟨u2, b2⟩, _⟩ := loop_inv (go := fun j => decide (j + v ≤ n)) (step := v)
    (body := dotVec v a ao x) n (fun j s => AccInv v a ao x j s ∧ j ≤ n) hv
    (fun j h => by have : j + v ≤ n := by simpa using h
                   omega)
    (fun j s h ⟨u, _⟩ => by
      have h : j + v ≤ n := by simpa using h
      obtain ⟨s', e, u'⟩ := dotVec_step u (by omega) (by omega)
      exact ⟨s', e, u', h⟩) n j1 s1 (by omega) ⟨u1, b1⟩
  have htot : reduce (List.zipWith (· + ·) (List.zipWith (· + ·) (List.zipWith (· + ·) s2.a0 s2.a1) s2.a2) s2.a3) =
      dotTo a ao x j2 := by
    rw [← u2.total, reduce_sum]
    have hl : (List.zipWith (· + ·) (List.zipWith (· + ·) (List.zipWith (· + ·) s2.a0 s2.a1) s2.a2) s2.a3).length = v := by
      simp [u2.l0, u2.l1, u2.l2, u2.l3]
    rw [hl, ← sum_plus, ← sum_plus, ← sum_plus]
    refine sum_congr fun t ht => ?_
    have k0 := u2.l0
    have k1 := u2.l1
    have k2 := u2.l2
    have k3 := u2.l3
    rw [getD_zipWith (by simp [k0, k1, k2]; omega) (by omega), getD_zipWith (by simp [k0, k1]; omega) (by omega),
      getD_zipWith (by omega) (by omega)]
  obtain ⟨j3, s3, e3, ⟨u3, b3⟩, g3⟩ := loop_inv (go := fun j => decide (j < n)) (step := 1)
    (body := dotStep a ao x) n (fun j d => d = dotTo a ao x j ∧ j ≤ n) Nat.one_pos
    (fun j h => by simpa using h)
    (fun j s h ⟨u, _⟩ => by
      have h : j < n := by simpa using h
      exact ⟨_, by rw [u]; exact dotStep_some (by omega) (by omega), rfl, h⟩) n j2 _ (by omega) ⟨htot, b2⟩
  have g3 : ¬ j3 < n := by simpa using g3
  obtain rfl : j3 = n := by omega
  rw [dotSimd]
  simp only [e1, Option.bind_eq_bind, Option.bind_some, e2, e3, u3]
  rfl

theorem scaleVec_some (beta : α) (y : List α) :
    ∃ y', scaleVec y.length beta y = some y' ∧ y'.length = y.length ∧ ∀ i < y.length, y'.getD i 0 = beta * y.getD i 0 := by
  unfold scaleVec
  split
  · rename_i h
    subst h
    obtain ⟨y', e, l, g⟩ := store_some (m := y) (i := 0) (xs := List.replicate y.length 0) (by simp)
    refine ⟨y', e, l, fun i hi => ?_⟩
    rw [g, if_pos (by simp; omega), List.getD_eq_getElem?_getD, List.getElem?_replicate, if_pos (by omega)]
    show (0 : α) = _
    grind
  split
  · rename_i h
    subst h
    exact ⟨y, rfl, rfl, fun i hi => by grind⟩
  · obtain ⟨y', e, l, g⟩ := forTo_one (a := 0) (b := y.length)
      (body := fun i y => y[i]?.bind fun t => store y i [t * beta])
      (fun i s => s.length = y.length ∧ ∀ p < y.length, s.getD p 0 = if p < i then beta * y.getD p 0 else y.getD p 0)
      (Nat.zero_le _) (fun i s _ hi ⟨hl, hv⟩ => by
        obtain ⟨s', e, l', g'⟩ := store_some (m := s) (i := i) (xs := [s.getD i 0 * beta])
          (by rw [List.length_singleton]; omega)
        refine ⟨s', by rw [getElem?_of_lt (show i < s.length by omega)]; exact e, by omega, fun p hp => ?_⟩
        rw [g', List.length_singleton]
        by_cases h1 : p = i
        · subst h1
          rw [if_pos (by omega), if_pos (by omega), Nat.sub_self]
          show s.getD p 0 * beta = _
          rw [hv p hp, if_neg (by omega)]
          grind
        · rw [if_neg (by omega), hv p hp]
          by_cases h2 : p < i
          · rw [if_pos h2, if_pos (by omega)]
          · rw [if_neg h2, if_neg (by omega)])
      y ⟨rfl, fun p hp => by rw [if_neg (by omega)]⟩
    exact ⟨y', e, l, fun i hi => by rw [g i hi, if_pos hi]⟩

/-- What the kernels without transposition compute: rows of A are read one element behind the other. -/
theorem rows_add {A : View α} {x : List α} {alpha : α} {y1 : List α} (hy : y1.length = A.e0)
    (D : Nat → Option α) (hD : ∀ i < A.e0, D i = some (dotTo A.mem (A.addr i 0) x A.e1)) :
    ∃ y', forTo 0 A.e0 1 (fun i y => do
        let d ← D i
        addTo y i (alpha * d)) y1 = some y' ∧ y'.length = y1.length ∧
      ∀ i < A.e0, y'.getD i 0 = y1.getD i 0 + alpha * dotTo A.mem (A.addr i 0) x A.e1 := by
  obtain ⟨y', e, l, g⟩ := forTo_one (a := 0) (b := A.e0)
    (body := fun i y => do
      let d ← D i
      addTo y i (alpha * d))
    (fun i s => s.length = y1.length ∧ ∀ p < A.e0, s.getD p 0 = if p < i
      then y1.getD p 0 + alpha * dotTo A.mem (A.addr p 0) x A.e1 else y1.getD p 0)
    (Nat.zero_le _) (fun i s _ hi ⟨hl, hv⟩ => by
      obtain ⟨s', e, l', g'⟩ := store_some (m := s) (i := i)
        (xs := [s.getD i 0 + alpha * dotTo A.mem (A.addr i 0) x A.e1]) (by rw [List.length_singleton]; omega)
      refine ⟨s', by
        simp only [hD i hi, Option.bind_eq_bind, Option.bind_some]
        rw [addTo, getElem?_of_lt (show i < s.length by omega)]
        exact e, by omega, fun p hp => ?_⟩
      rw [g', List.length_singleton]
      by_cases h1 : p = i
      · subst h1
        rw [if_pos (by omega), if_pos (by omega), Nat.sub_self]
        show s.getD p 0 + _ = _
        rw [hv p hp, if_neg (by omega)]
      · rw [if_neg (by omega), hv p hp]
        by_cases h2 : p < i
        · rw [if_pos h2, if_pos (by omega)]
        · rw [if_neg h2, if_neg (by omega)])
    y1 ⟨rfl, fun p hp => by rw [if_neg (by omega)]⟩
  exact ⟨y', e, l, fun i hi => by rw [g i hi, if_pos hi]⟩

/-- What the kernels ask of the memory of A. -/
def RowsInside (A : View α) : Prop := ∀ i < A.e0, A.addr i 0 + A.e1 ≤ A.mem.length

theorem simpleGemv_some {A : View α} {x y : List α} (alpha beta : α) (hA : RowsInside A) (hx : x.length = A.e1)
    (hy : y.length = A.e0) :
    ∃ y', simpleGemv A x alpha beta y = some y' ∧ y'.length = y.length ∧
      ∀ i < y.length, y'.getD i 0 = alpha * dotTo A.mem (A.addr i 0) x A.e1 + beta * y.getD i 0 := by
  obtain ⟨y1, e1, l1, g1⟩ := scaleVec_some beta y
  rw [hy] at e1
  by_cases ha : alpha = 0
  · subst ha
    refine ⟨y1, by simp [simpleGemv, e1], l1, fun i hi => ?_⟩
    rw [g1 i hi]
    grind
  obtain ⟨y', e, l, g⟩ := rows_add (A := A) (x := x) (alpha := alpha) (y1 := y1) (by omega)
    (fun i => dotReduce A.e1 A.mem (A.addr i 0) x)
    (fun i hi => dotReduce_some (hA i hi) (by omega))
  refine ⟨y', by simp [simpleGemv, e1, ha]; exact e, by omega, fun i hi => ?_⟩
  rw [g i (by omega), g1 i hi]
  grind

theorem gemvNoTrans_some {v : Nat} (hv : 0 < v) {A : View α} {x y : List α} (alpha beta : α) (hA : RowsInside A)
    (hx : x.length = A.e1) (hy : y.length = A.e0) :
    ∃ y', gemvNoTrans v A x alpha beta y = some y' ∧ y'.length = y.length ∧
      ∀ i < y.length, y'.getD i 0 = alpha * dotTo A.mem (A.addr i 0) x A.e1 + beta * y.getD i 0 := by
  obtain ⟨y1, e1, l1, g1⟩ := scaleVec_some beta y
  rw [hy] at e1
  by_cases ha : alpha = 0
  · subst ha
    refine ⟨y1, by simp [gemvNoTrans, e1], l1, fun i hi => ?_⟩
    rw [g1 i hi]
    grind
  obtain ⟨y', e, l, g⟩ := rows_add (A := A) (x := x) (alpha := alpha) (y1 := y1) (by omega)
    (fun i => dotRow v A.e1 A.mem (A.addr i 0) x)
    (fun i hi => by
      unfold dotRow
      split
      · exact dotSimd_some hv (hA i hi) (by omega)
      · exact dotPlain_some (hA i hi) (by omega))
  refine ⟨y', by simp [gemvNoTrans, e1, ha]; exact e, by omega, fun i hi => ?_⟩
  rw [g i (by omega), g1 i hi]
  grind

theorem rowLoop_upd {n : Nat} {a : α} {b : List α} {bo : Nat} {c : List α} (hb : bo + n ≤ b.length) (hc : n ≤ c.length) :
    ∃ c', forTo 0 n 1 (rowOne a b bo 0) c = some c' ∧ Upd a b bo c 0 n c' :=
  forTo_one (a := 0) (b := n) (body := rowOne a b bo 0) (fun j s => Upd a b bo c 0 j s) (Nat.zero_le _)
    (fun j s _ hj h => rowOne_step h (by omega) (by omega)) c (upd_zero _ _ _ _ _)

theorem gemvTrans_some {v : Nat} (hv : 0 < v) {A : View α} {x y : List α} (alpha beta : α) (hA : RowsInside A)
    (hx : x.length = A.e0) (hy : y.length = A.e1) :
    ∃ y', gemvTrans v A x alpha beta y = some y' ∧ y'.length = y.length ∧
      ∀ j < y.length, y'.getD j 0 =
        alpha * Spec.sum A.e0 (fun i => A.mem.getD (A.addr i 0 + j) 0 * x.getD i 0) + beta * y.getD j 0 := by
  unfold gemvTrans
  have key : ∃ y1, (if beta = 0 then y.map fun _ => (0 : α) else if beta = 1 then y else y.map fun t => t * beta) = y1 ∧
      y1.length = y.length ∧ ∀ j < y.length, y1.getD j 0 = beta * y.getD j 0 := by
    split
    · rename_i h
      subst h
      refine ⟨_, rfl, by simp, fun i hi => ?_⟩
      rw [List.getD_eq_getElem?_getD, List.getElem?_map, getElem?_of_lt hi]
      show (0 : α) = _
      grind
    split
    · rename_i h
      subst h
      exact ⟨y, rfl, rfl, fun i hi => by grind⟩
    · refine ⟨_, rfl, by simp, fun i hi => ?_⟩
      rw [List.getD_eq_getElem?_getD, List.getElem?_map, getElem?_of_lt hi]
      show y.getD i 0 * beta = _
      grind
  obtain ⟨y1, e1, l1, g1⟩ := key
  dsimp only
  rw [e1]
  by_cases ha : alpha = 0
  · subst ha
    refine ⟨y1, by simp, l1, fun i hi => ?_⟩
    rw [g1 i hi]
    grind
  rw [if_neg ha]
  obtain ⟨y', e, l, g⟩ := forTo_one (a := 0) (b := A.e0)
    (body := fun i y => do
      let xi ← x[i]?
      if alpha * xi = 0 then return y else
      if 32 ≤ A.e1 then rowSimd v A.e1 (alpha * xi) A.mem (A.addr i 0) y 0
      else forTo 0 A.e1 1 (rowOne (alpha * xi) A.mem (A.addr i 0) 0) y)
    (fun i s => s.length = y1.length ∧ ∀ j < A.e1, s.getD j 0 =
      y1.getD j 0 + Spec.sum i (fun q => alpha * (A.mem.getD (A.addr q 0 + j) 0 * x.getD q 0)))
    (Nat.zero_le _) (fun i s _ hi ⟨hl, hv'⟩ => by
      have hrow := hA i hi
      have ex := getElem?_of_lt (m := x) (p := i) (by omega)
      by_cases h0 : alpha * x.getD i 0 = 0
      · refine ⟨s, by simp only [ex, Option.bind_eq_bind, Option.bind_some, if_pos h0]; rfl, hl, fun j hj => ?_⟩
        rw [hv' j hj, Spec.sum]
        have : alpha * (A.mem.getD (A.addr i 0 + j) 0 * x.getD i 0) = A.mem.getD (A.addr i 0 + j) 0 * (alpha * x.getD i 0) := by
          grind
        rw [this, h0]
        grind
      · obtain ⟨s', e, hu⟩ : ∃ s', (if 32 ≤ A.e1 then rowSimd v A.e1 (alpha * x.getD i 0) A.mem (A.addr i 0) s 0
            else forTo 0 A.e1 1 (rowOne (alpha * x.getD i 0) A.mem (A.addr i 0) 0) s) = some s' ∧
            Upd (alpha * x.getD i 0) A.mem (A.addr i 0) s 0 A.e1 s' := by
          split
          · exact rowSimd_upd hv hrow (by omega)
          · exact rowLoop_upd hrow (by omega)
        refine ⟨s', by simp only [ex, Option.bind_eq_bind, Option.bind_some, if_neg h0]; exact e, by rw [hu.1, hl], fun j hj => ?_⟩
        rw [hu.2, if_pos (by omega), hv' j hj, Spec.sum, Nat.sub_zero]
        grind)
    y1 ⟨rfl, fun j hj => by simp only [Spec.sum]; grind⟩
  refine ⟨y', e, by omega, fun j hj => ?_⟩
  rw [g j (by omega), g1 j hj, sum_mul]
  grind

end

end Verif.Gemm
