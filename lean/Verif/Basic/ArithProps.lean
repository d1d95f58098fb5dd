import Verif.Basic.CastLemmas

/-!
# Arithmetic on several inputs
-/

namespace Verif.Basic

theorem transform_some {α : Type} [Inhabited α] (op : α → α → Option α) : ∀ (ys xs zs : List α), ys.length = xs.length →
    (transform op ys xs = some zs ↔ zs.length = ys.length ∧ ∀ i < ys.length, op ys[i]! xs[i]! = some zs[i]!) := by
  intro ys
  induction ys with
  | nil => intro xs zs _; simp [transform, eq_comm]
  | cons y ys ih =>
    intro xs zs h
    cases xs with
    | nil => simp at h
    | cons x xs =>
      simp only [List.length_cons, Nat.add_right_cancel_iff] at h
      simp only [transform, Option.bind_eq_bind, Option.bind_eq_some_iff, Option.pure_def, Option.some.injEq]
      constructor
      · rintro ⟨z, hz, t, ht, rfl⟩
        obtain ⟨a, b⟩ := (ih xs t h).1 ht
        refine ⟨by simp [a], fun i hi => ?_⟩
        cases i with
        | zero => simpa using hz
        | succ i => simp only [List.length_cons] at hi; simpa using b i (by omega)
      · rintro ⟨hl, hall⟩
        cases zs with
        | nil => simp at hl
        | cons z zs =>
          refine ⟨z, by simpa using hall 0 (by simp), zs, (ih xs zs h).2 ⟨by simpa using hl, fun i hi => ?_⟩, rfl⟩
          have := hall (i + 1) (by simp; omega)
          simpa using this

theorem transform_none {α : Type} [Inhabited α] (op : α → α → Option α) : ∀ (ys xs : List α), ys.length = xs.length →
    transform op ys xs = none → ∃ i < ys.length, op ys[i]! xs[i]! = none := by
  intro ys
  induction ys with
  | nil => intro xs _ h; simp [transform] at h
  | cons y ys ih =>
    intro xs h hn
    cases xs with
    | nil => simp at h
    | cons x xs =>
      simp only [List.length_cons, Nat.add_right_cancel_iff] at h
      cases hz : op y x with
      | none => exact ⟨0, by simp, by simpa using hz⟩
      | some z =>
        cases ht : transform op ys xs with
        | none =>
          obtain ⟨i, hi, he⟩ := ih xs h ht
          exact ⟨i + 1, by simp; omega, by simpa using he⟩
        | some t => simp [transform, hz, ht] at hn

theorem combineRest_some {α : Type} [Inhabited α] (op : α → α → Option α) (xs : List (List α)) : ∀ (s out : List α), (∀ x ∈ xs, x.length = s.length) →
    (combineRest op s xs = some out ↔ out.length = s.length ∧ ∀ i < s.length, xs.foldlM (fun a x => op a x[i]!) s[i]! = some out[i]!) := by
  induction xs with
  | nil =>
    intro s out _
    simp only [combineRest, Option.some.injEq, List.foldlM_nil, Option.pure_def]
    constructor
    · rintro rfl; exact ⟨rfl, fun _ _ => rfl⟩
    · rintro ⟨hl, h⟩
      apply List.ext_getElem hl.symm
      intro i h1 h2
      have := h i h1
      rwa [getElem!_pos s i h1, getElem!_pos out i h2] at this
  | cons x xs ih =>
    intro s out hl
    have hx := hl x (by simp)
    simp only [combineRest, Option.bind_eq_bind]
    cases ht : transform op s x with
    | none =>
      simp only [Option.bind_none, List.foldlM_cons, Option.bind_eq_bind]
      obtain ⟨i, hi, he⟩ := transform_none op s x hx.symm ht
      constructor
      · intro h; cases h
      · rintro ⟨_, h⟩
        have := h i hi
        rw [he] at this
        simp at this
    | some t =>
      obtain ⟨a, b⟩ := (transform_some op s x t hx.symm).1 ht
      simp only [Option.bind_some]
      rw [ih t out (fun y hy => by rw [a]; exact hl y (by simp [hy])), a]
      have : ∀ i < s.length, List.foldlM (fun a y => op a y[i]!) s[i]! (x :: xs) = List.foldlM (fun a y => op a y[i]!) t[i]! xs := by
        intro i hi
        rw [List.foldlM_cons, b i hi]
        rfl
      constructor
      · rintro ⟨h1, h2⟩; exact ⟨h1, fun i hi => by rw [this i hi]; exact h2 i hi⟩
      · rintro ⟨h1, h2⟩; exact ⟨h1, fun i hi => by rw [← this i hi]; exact h2 i hi⟩

/-- **Each output sample is the first input's sample combined with those of the others, from left to right**, at the same place of
the stream — whatever was in the output buffer before and however the stream is cut into chunks. If one sample's result is
undefined, so is the call. -/
theorem combine_samples {α : Type} [Inhabited α] (op : α → α → Option α) (x : List α) (xs : List (List α)) (sout out : List α)
    (h0 : x.length = sout.length) (hl : ∀ y ∈ xs, y.length = sout.length) :
    combine op (x :: xs) sout = some out ↔
      out.length = sout.length ∧ ∀ i < sout.length, xs.foldlM (fun a y => op a y[i]!) x[i]! = some out[i]! := by
  simp only [combine]
  rw [if_neg (by omega), List.drop_of_length_le (by omega), List.append_nil, combineRest_some op xs x out (fun y hy => by rw [hl y hy, h0]), h0]

example : combine (fun a b => some (a - b)) [[10, 20], [1, 2], [3, 4]] [0, 0] = some [(6 : Int), 14] := by decide

/-- A block without inputs — the initial number — has no defined result. -/
theorem combine_no_inputs {α : Type} (op : α → α → Option α) (sout : List α) : combine op [] sout = none := rfl

/-! ## integer operations -/

theorem bounds16 {t : IntTy} (h : t.bits ≤ 16) {x : Int} (hx : t.holds x = true) : -32768 ≤ x ∧ x ≤ 65535 := by
  rw [holds_iff] at hx
  have h1 : (2 ^ (t.bits - 1) : Nat) ≤ 2 ^ 15 := Nat.pow_le_pow_right (by omega) (by omega)
  have h2 : (2 ^ t.bits : Nat) ≤ 2 ^ 16 := Nat.pow_le_pow_right (by omega) h
  cases hs : t.signed with
  | true => simp only [IntTy.lo, IntTy.hi, hs, if_true] at hx; omega
  | false => simp only [IntTy.lo, IntTy.hi, hs, if_false, Bool.false_eq_true] at hx; omega

/-- types for which adding and subtracting never overflows: those narrower than `int`, and unsigned ones -/
def Safe (t : IntTy) : Prop := 0 < t.bits ∧ (t.bits ≤ 16 ∨ (t.signed = false ∧ 32 ≤ t.bits))

theorem arith_small {t : IntTy} (h : t.bits ≤ 16) {x : Int} (h1 : -2147483648 ≤ x) (h2 : x ≤ 2147483647) : t.promoted.arith x = some x := by
  have hp : t.promoted = ⟨true, 32⟩ := by simp only [IntTy.promoted]; rw [if_pos (by omega)]
  have hh : (⟨true, 32⟩ : IntTy).holds x = true := by
    rw [holds_iff]
    simp only [IntTy.lo, IntTy.hi, if_true]
    omega
  rw [hp]
  simp only [IntTy.arith, if_true, hh]

theorem arith_unsigned {t : IntTy} (hs : t.signed = false) (h : 32 ≤ t.bits) (x : Int) : t.promoted.arith x = some (t.cast x) := by
  have hp : t.promoted = t := by simp only [IntTy.promoted]; rw [if_neg (by omega)]
  rw [hp]
  simp only [IntTy.arith, hs, Bool.false_eq_true, if_false]

/-- **Addition in these types is addition modulo two to the number of bits**, -/
theorem add_eval {t : IntTy} (h : Safe t) {a b : Int} (ha : t.holds a = true) (hb : t.holds b = true) : Op.add.eval t a b = some (t.cast (a + b)) := by
  simp only [Op.eval, Op.exact, Option.bind_eq_bind, Option.bind_some, Option.pure_def]
  cases h.2 with
  | inl h16 =>
    have h1 := bounds16 h16 ha
    have h2 := bounds16 h16 hb
    rw [arith_small h16 (by omega) (by omega)]
    rfl
  | inr hu => rw [arith_unsigned hu.1 hu.2]; simp only [Option.bind_some, cast_cast]

theorem sub_eval {t : IntTy} (h : Safe t) {a b : Int} (ha : t.holds a = true) (hb : t.holds b = true) : Op.sub.eval t a b = some (t.cast (a - b)) := by
  simp only [Op.eval, Op.exact, Option.bind_eq_bind, Option.bind_some, Option.pure_def]
  cases h.2 with
  | inl h16 =>
    have h1 := bounds16 h16 ha
    have h2 := bounds16 h16 hb
    rw [arith_small h16 (by omega) (by omega)]
    rfl
  | inr hu => rw [arith_unsigned hu.1 hu.2]; simp only [Option.bind_some, cast_cast]

/-- **so an adding block outputs the sum of all inputs** modulo two to the number of bits, whatever the order of its ports, -/
theorem add_many {t : IntTy} (h : Safe t) (bs : List Int) (hb : ∀ b ∈ bs, t.holds b = true) : ∀ (a : Int), t.holds a = true →
    bs.foldlM (Op.add.eval t) a = some (t.cast (a + bs.sum)) := by
  induction bs with
  | nil => intro a ha; simp [cast_of_holds h.1 ha]
  | cons b bs ih =>
    intro a ha
    rw [List.foldlM_cons, add_eval h ha (hb b (by simp))]
    have := ih (fun c hc => hb c (by simp [hc])) (t.cast (a + b)) (cast_holds h.1 _)
    simp only [Option.bind_eq_bind, Option.bind_some, this, cast_cast_add, List.sum_cons, Int.add_assoc]

/-- **and a subtracting one the first input less the sum of the others.** -/
theorem sub_many {t : IntTy} (h : Safe t) (bs : List Int) (hb : ∀ b ∈ bs, t.holds b = true) : ∀ (a : Int), t.holds a = true →
    bs.foldlM (Op.sub.eval t) a = some (t.cast (a - bs.sum)) := by
  induction bs with
  | nil => intro a ha; simp [cast_of_holds h.1 ha]
  | cons b bs ih =>
    intro a ha
    rw [List.foldlM_cons, sub_eval h ha (hb b (by simp))]
    have := ih (fun c hc => hb c (by simp [hc])) (t.cast (a - b)) (cast_holds h.1 _)
    simp only [Option.bind_eq_bind, Option.bind_some, this, List.sum_cons]
    rw [Int.sub_eq_add_neg, cast_cast_add]
    congr 2
    omega

example : Safe ⟨false, 8⟩ ∧ Safe ⟨true, 16⟩ ∧ Safe ⟨false, 64⟩ := by simp [Safe]
example : [100, 100, 100].foldlM (Op.add.eval ⟨false, 8⟩) 100 = some 144 := by decide

/-- Multiplication: 8 bit types and unsigned types as wide as `int` or wider. -/
theorem mul_many {t : IntTy} (h0 : 0 < t.bits) (h : t.bits ≤ 8 ∨ (t.signed = false ∧ 32 ≤ t.bits)) (bs : List Int) (hb : ∀ b ∈ bs, t.holds b = true) :
    ∀ (a : Int), t.holds a = true → bs.foldlM (Op.mul.eval t) a = some (t.cast (bs.foldl (· * ·) a)) := by
  have one : ∀ a b : Int, t.holds a = true → t.holds b = true → Op.mul.eval t a b = some (t.cast (a * b)) := by
    intro a b ha hb
    simp only [Op.eval, Op.exact, Option.bind_eq_bind, Option.bind_some, Option.pure_def]
    cases h with
    | inl h8 =>
      have bd : ∀ x : Int, t.holds x = true → x.natAbs ≤ 256 := by
        intro x hx
        rw [holds_iff] at hx
        have h1 : (2 ^ (t.bits - 1) : Nat) ≤ 2 ^ 7 := Nat.pow_le_pow_right (by omega) (by omega)
        have h2 : (2 ^ t.bits : Nat) ≤ 2 ^ 8 := Nat.pow_le_pow_right (by omega) h8
        cases hs : t.signed with
        | true => simp only [IntTy.lo, IntTy.hi, hs, if_true] at hx; omega
        | false => simp only [IntTy.lo, IntTy.hi, hs, if_false, Bool.false_eq_true] at hx; omega
      have hm : (a * b).natAbs ≤ 256 * 256 := by rw [Int.natAbs_mul]; exact Nat.mul_le_mul (bd a ha) (bd b hb)
      rw [arith_small (by omega) (by omega) (by omega)]
      rfl
    | inr hu => rw [arith_unsigned hu.1 hu.2]; simp only [Option.bind_some, cast_cast]
  have hc : ∀ (bs : List Int) (a : Int), t.cast (bs.foldl (· * ·) (t.cast a)) = t.cast (bs.foldl (· * ·) a) := by
    intro bs
    induction bs with
    | nil => intro a; simp [cast_cast]
    | cons b bs ih => intro a; simp only [List.foldl_cons]; rw [← ih (t.cast a * b), cast_cast_mul, ih]
  induction bs with
  | nil => intro a ha; simp [cast_of_holds h0 ha]
  | cons b bs ih =>
    intro a ha
    rw [List.foldlM_cons, one a b ha (hb b (by simp))]
    have := ih (fun c hc => hb c (by simp [hc])) (t.cast (a * b)) (cast_holds h0 _)
    simp only [Option.bind_eq_bind, Option.bind_some, this, hc, List.foldl_cons]

example : [20, 3].foldlM (Op.mul.eval ⟨false, 8⟩) 5 = some 44 := by decide

/-- **Multiplying two 16 bit unsigned samples is undefined** when the product exceeds `int`, although the type is unsigned: both are
promoted to `int` first. -/
theorem mul_u16_undefined : Op.mul.eval ⟨false, 16⟩ 65535 65535 = none ∧ Op.mul.eval ⟨false, 16⟩ 46341 46341 = none ∧
    Op.mul.eval ⟨false, 16⟩ 46340 46340 = some ((46340 * 46340) % 65536) := by decide

/-- Division by zero is undefined, and so is the smallest value divided by minus one in a type as wide as `int`; a narrower type
yields the smallest value again. -/
theorem div_undefined (t : IntTy) (a : Int) : Op.div.eval t a 0 = none := by simp [Op.eval, Op.exact]

theorem div_smallest : Op.div.eval ⟨true, 32⟩ (-2147483648) (-1) = none ∧ Op.div.eval ⟨true, 8⟩ (-128) (-1) = some (-128) := by decide

/-- Otherwise it truncates towards zero. -/
theorem div_eval {t : IntTy} (h0 : 0 < t.bits) {a b : Int} (ha : t.holds a = true) (hb : t.holds b = true) (hz : b ≠ 0) (hm : b ≠ -1) :
    Op.div.eval t a b = some (a.tdiv b) := by
  have hpow : 0 < (2 ^ (t.bits - 1) : Nat) := Nat.two_pow_pos _
  have hq : t.holds (a.tdiv b) = true := by
    rw [holds_iff] at ha hb ⊢
    have habs : (a.tdiv b).natAbs = a.natAbs / b.natAbs := Int.natAbs_tdiv a b
    cases hs : t.signed with
    | true =>
      simp only [IntTy.lo, IntTy.hi, hs, if_true] at ha ⊢
      by_cases h1 : b = 1
      · subst h1; rw [Int.tdiv_one]; exact ha
      · have h2 : a.natAbs / b.natAbs ≤ a.natAbs / 2 := Nat.div_le_div_left (by omega) (by omega)
        omega
    | false =>
      simp only [IntTy.lo, IntTy.hi, hs, if_false, Bool.false_eq_true] at ha hb ⊢
      have h1 := Int.tdiv_nonneg ha.1 hb.1
      have h2 : a.natAbs / b.natAbs ≤ a.natAbs := Nat.div_le_self _ _
      omega
  have hp : t.promoted.arith (a.tdiv b) = some (a.tdiv b) := by
    by_cases h32 : t.bits < 32
    · have hp : t.promoted = ⟨true, 32⟩ := by simp only [IntTy.promoted]; rw [if_pos h32]
      have hh : (⟨true, 32⟩ : IntTy).holds (a.tdiv b) = true := by
        rw [holds_iff] at hq ⊢
        have h1 : (2 ^ (t.bits - 1) : Nat) ≤ 2 ^ 30 := Nat.pow_le_pow_right (by omega) (by omega)
        have h2 : (2 ^ t.bits : Nat) ≤ 2 ^ 31 := Nat.pow_le_pow_right (by omega) (by omega)
        cases hs : t.signed with
        | true => simp only [IntTy.lo, IntTy.hi, hs, if_true] at hq ⊢; omega
        | false => simp only [IntTy.lo, IntTy.hi, hs, if_false, if_true, Bool.false_eq_true] at hq ⊢; omega
      rw [hp]
      simp only [IntTy.arith, if_true, hh]
    · have hp : t.promoted = t := by simp only [IntTy.promoted]; rw [if_neg h32]
      rw [hp]
      simp only [IntTy.arith, hq, if_true, cast_of_holds h0 hq, ite_self]
  simp only [Op.eval, Op.exact, hz, if_false, Option.bind_eq_bind, Option.bind_some, hp, Option.pure_def, cast_of_holds h0 hq]

example : Op.div.eval ⟨true, 16⟩ (-7) 2 = some (-3) := by decide

end Verif.Basic
