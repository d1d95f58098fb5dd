import Verif.Basic.ArithProps

/-!
# Conversions
-/

namespace Verif.Basic

/-- **A conversion keeps every value the target type can hold**, -/
theorem convert_exact {r : IntTy} (h0 : 0 < r.bits) {x : Int} (h : r.holds x = true) : convert r x = x := cast_of_holds h0 h

/-- and always yields a value of that type, differing by a multiple of two to its number of bits. -/
theorem convert_modulo {r : IntTy} (h0 : 0 < r.bits) (x : Int) : r.holds (convert r x) = true ∧ ∃ k : Int, convert r x = x + k * (2 ^ r.bits : Nat) :=
  ⟨cast_holds h0 x, cast_congr r x⟩

/-- **Converting to a type and back again is lossless if the other type holds the value.** In particular to a wider type of the
same signedness, and between signed and unsigned of the same width. -/
theorem convert_back {t r : IntTy} (ht : 0 < t.bits) (hw : t.bits ≤ r.bits) {x : Int} (h : t.holds x = true) : convert t (convert r x) = x := by
  obtain ⟨k, hk⟩ := cast_congr r x
  have e : (2 ^ r.bits : Nat) = 2 ^ (r.bits - t.bits) * 2 ^ t.bits := by rw [← Nat.pow_add]; congr 1; omega
  simp only [convert]
  rw [hk, e, Int.natCast_mul, ← Int.mul_assoc, cast_add_mul, cast_of_holds ht h]

example : convert ⟨true, 8⟩ (convert ⟨false, 16⟩ (-5)) = -5 ∧ convert ⟨false, 16⟩ (-5) = 65531 := by decide

/-- **Scaling by the product when it fits the input type**: one value and a lane of a vector agree. -/
theorem scale_fits {t : IntTy} (r : IntTy) (h0 : 0 < t.bits) {scale x : Int} (h : t.holds (x * scale) = true) :
    scaleOne t r scale x = some (r.cast (x * scale)) ∧ scaleLane t r scale x = some (r.cast (x * scale)) := by
  have hp : t.promoted.arith (x * scale) = some (x * scale) := by
    by_cases h32 : t.bits < 32
    · have hp : t.promoted = ⟨true, 32⟩ := by simp only [IntTy.promoted]; rw [if_pos h32]
      have hh : (⟨true, 32⟩ : IntTy).holds (x * scale) = true := by
        rw [holds_iff] at h ⊢
        have h1 : (2 ^ (t.bits - 1) : Nat) ≤ 2 ^ 30 := Nat.pow_le_pow_right (by omega) (by omega)
        have h2 : (2 ^ t.bits : Nat) ≤ 2 ^ 31 := Nat.pow_le_pow_right (by omega) (by omega)
        generalize x * scale = p at h ⊢
        cases hs : t.signed with
        | true => simp only [IntTy.lo, IntTy.hi, hs, if_true] at h ⊢; omega
        | false => simp only [IntTy.lo, IntTy.hi, hs, if_false, if_true, Bool.false_eq_true] at h ⊢; omega
      rw [hp]
      simp only [IntTy.arith, if_true, hh]
    · have hp : t.promoted = t := by simp only [IntTy.promoted]; rw [if_neg h32]
      rw [hp]
      simp only [IntTy.arith, h, if_true, cast_of_holds h0 h, ite_self]
  simp only [scaleOne, scaleLane, hp, Option.bind_eq_bind, Option.bind_some, Option.pure_def, cast_of_holds h0 h, and_self]

/-- **Otherwise they differ**: 200 scaled by 2 from 8 to 16 bits is 400 as a single value, but 144 as part of a vector. -/
theorem scale_differs : scaleOne ⟨false, 8⟩ ⟨false, 16⟩ 2 200 = some 400 ∧ scaleLane ⟨false, 8⟩ ⟨false, 16⟩ 2 200 = some 144 := by decide

/-- In the runtime, where the vector form is used, the result is the conversion of the product modulo two to the number of bits of the
**input** type. -/
theorem scale_lane {t : IntTy} (r : IntTy) (h : t.bits ≤ 8 ∧ 0 < t.bits) {scale x : Int} (hs : t.holds scale = true) (hx : t.holds x = true) :
    scaleLane t r scale x = some (r.cast (t.cast (x * scale))) := by
  have bd : ∀ x : Int, t.holds x = true → x.natAbs ≤ 256 := by
    intro x hx
    rw [holds_iff] at hx
    have h1 : (2 ^ (t.bits - 1) : Nat) ≤ 2 ^ 7 := Nat.pow_le_pow_right (by omega) (by omega)
    have h2 : (2 ^ t.bits : Nat) ≤ 2 ^ 8 := Nat.pow_le_pow_right (by omega) h.1
    cases hs : t.signed with
    | true => simp only [IntTy.lo, IntTy.hi, hs, if_true] at hx; omega
    | false => simp only [IntTy.lo, IntTy.hi, hs, if_false, Bool.false_eq_true] at hx; omega
  have hm : (x * scale).natAbs ≤ 256 * 256 := by rw [Int.natAbs_mul]; exact Nat.mul_le_mul (bd x hx) (bd scale hs)
  simp only [scaleLane, arith_small (show t.bits ≤ 16 by omega) (show -2147483648 ≤ x * scale by omega) (show x * scale ≤ 2147483647 by omega),
    Option.bind_eq_bind, Option.bind_some, Option.pure_def]

theorem arith_signed_fits {b : Nat} {x : Int} (h1 : 0 < b) (h2 : 0 ≤ x) (h3 : x < (2 ^ (b - 1) : Nat) ∨ (b < 32 ∧ x ≤ (2 ^ (b - 1) : Nat))) :
    (⟨true, b⟩ : IntTy).promoted.arith x = some x := by
  have hp0 : 0 < (2 ^ (b - 1) : Nat) := Nat.two_pow_pos _
  by_cases h32 : b < 32
  · have hp : (⟨true, b⟩ : IntTy).promoted = ⟨true, 32⟩ := by simp only [IntTy.promoted]; rw [if_pos h32]
    have h4 : (2 ^ (b - 1) : Nat) ≤ 2 ^ 30 := Nat.pow_le_pow_right (by omega) (by omega)
    have hh : (⟨true, 32⟩ : IntTy).holds x = true := by
      rw [holds_iff]; simp only [IntTy.lo, IntTy.hi, if_true]; omega
    rw [hp]
    simp only [IntTy.arith, if_true, hh]
  · have hp : (⟨true, b⟩ : IntTy).promoted = ⟨true, b⟩ := by simp only [IntTy.promoted]; rw [if_neg h32]
    have hh : (⟨true, b⟩ : IntTy).holds x = true := by
      rw [holds_iff]; simp only [IntTy.lo, IntTy.hi, if_true]; omega
    rw [hp]
    simp only [IntTy.arith, if_true, hh]

/-- **The absolute value of a signed sample is right unless the sample is the smallest value**, -/
theorem abs_signed {b : Nat} (h0 : 0 < b) {x : Int} (hx : (⟨true, b⟩ : IntTy).holds x = true) (hm : x ≠ (⟨true, b⟩ : IntTy).lo) :
    absOne ⟨true, b⟩ x = some (x.natAbs : Int) := by
  have hx' := hx
  rw [holds_iff] at hx'
  simp only [IntTy.lo, IntTy.hi, if_true] at hx' hm
  have ha := arith_signed_fits (b := b) (x := (x.natAbs : Int)) h0 (by omega) (Or.inl (by omega))
  have hc : (⟨true, b⟩ : IntTy).cast (x.natAbs : Int) = (x.natAbs : Int) := by
    apply cast_of_holds h0
    rw [holds_iff]; simp only [IntTy.lo, IntTy.hi, if_true]; omega
  simp only [absOne, if_true, ha, Option.bind_eq_bind, Option.bind_some, Option.pure_def, hc]

/-- whose absolute value is negative in 8 and 16 bits, and undefined in 32 and 64. -/
theorem abs_smallest : absOne ⟨true, 8⟩ (-128) = some (-128) ∧ absOne ⟨true, 16⟩ (-32768) = some (-32768) ∧
    absOne ⟨true, 32⟩ (-2147483648) = none ∧ absOne ⟨true, 64⟩ (-9223372036854775808) = none := by decide

/-- **The absolute value of an unsigned sample is right in the lower half of its range**, -/
theorem abs_unsigned_low {b : Nat} (h0 : 0 < b) {x : Int} (h1 : 0 ≤ x) (h2 : x < (2 ^ (b - 1) : Nat)) : absOne ⟨false, b⟩ x = some x := by
  have hp := two_pow_half h0
  have hc : (⟨true, b⟩ : IntTy).cast x = x := by
    apply cast_of_holds h0
    rw [holds_iff]; simp only [IntTy.lo, IntTy.hi, if_true]; omega
  have hn : (x.natAbs : Int) = x := by omega
  have ha := arith_signed_fits (b := b) (x := x) h0 h1 (Or.inl h2)
  have hc' : (⟨false, b⟩ : IntTy).cast x = x := by
    apply cast_of_holds h0
    rw [holds_iff]; simp only [IntTy.lo, IntTy.hi, if_false, Bool.false_eq_true]; omega
  simp only [absOne, Bool.false_eq_true, if_false, hc, hn, ha, Option.bind_eq_bind, Option.bind_some, Option.pure_def, hc']

/-- **and wrong above its middle**: `x` becomes `2 ^ bits - x`. -/
theorem abs_unsigned_high {b : Nat} (h0 : 0 < b) {x : Int} (h1 : (2 ^ (b - 1) : Nat) < x) (h2 : x < (2 ^ b : Nat)) :
    absOne ⟨false, b⟩ x = some ((2 ^ b : Nat) - x) ∧ ((2 ^ b : Nat) : Int) - x ≠ x := by
  have hp := two_pow_half h0
  have hc : (⟨true, b⟩ : IntTy).cast x = x - (2 ^ b : Nat) := by
    have h3 : (⟨true, b⟩ : IntTy).cast (x + (-1) * (2 ^ b : Nat)) = (⟨true, b⟩ : IntTy).cast x := cast_add_mul ⟨true, b⟩ x (-1)
    rw [← h3]
    have h4 : x + (-1) * (2 ^ b : Nat) = x - (2 ^ b : Nat) := by omega
    rw [h4]
    apply cast_of_holds h0
    rw [holds_iff]; simp only [IntTy.lo, IntTy.hi, if_true]; omega
  have hn : ((x - (2 ^ b : Nat)).natAbs : Int) = (2 ^ b : Nat) - x := by omega
  have ha := arith_signed_fits (b := b) (x := (2 ^ b : Nat) - x) h0 (by omega) (Or.inl (by omega))
  have hc' : (⟨false, b⟩ : IntTy).cast ((2 ^ b : Nat) - x) = (2 ^ b : Nat) - x := by
    apply cast_of_holds h0
    rw [holds_iff]; simp only [IntTy.lo, IntTy.hi, if_false, Bool.false_eq_true]; omega
  refine ⟨?_, by omega⟩
  simp only [absOne, Bool.false_eq_true, if_false, hc, hn, ha, Option.bind_eq_bind, Option.bind_some, Option.pure_def, hc']

example : absOne ⟨false, 8⟩ 200 = some 56 ∧ absOne ⟨false, 32⟩ 2147483648 = none := by decide

/-! ## complex numbers -/

theorem interleave_length {α β : Type} (c : α → β) (zs : List (α × α)) : (interleave c zs).length = 2 * zs.length := by
  induction zs with
  | nil => rfl
  | cons z zs ih => simp only [interleave, List.length_cons, ih]; omega

/-- **Interleaving: sample `2 i` is the real part of number `i`, sample `2 i + 1` its imaginary part**, -/
theorem interleave_samples {α β : Type} (c : α → β) (zs : List (α × α)) (i : Nat) :
    (interleave c zs)[2 * i]? = zs[i]?.map (fun z => c z.1) ∧ (interleave c zs)[2 * i + 1]? = zs[i]?.map (fun z => c z.2) := by
  induction zs generalizing i with
  | nil => simp [interleave]
  | cons z zs ih =>
    cases i with
    | zero => simp [interleave]
    | succ i =>
      obtain ⟨a, b⟩ := ih i
      simp only [interleave, show 2 * (i + 1) = 2 * i + 1 + 1 by omega, show 2 * i + 1 + 1 + 1 = (2 * i + 1) + 1 + 1 by omega,
        List.getElem?_cons_succ, a, b, and_self]

/-- however the stream is cut. -/
theorem interleave_chunks {α β : Type} (c : α → β) (xs ys : List (α × α)) : interleave c (xs ++ ys) = interleave c xs ++ interleave c ys := by
  induction xs with
  | nil => rfl
  | cons x xs ih => simp [interleave, ih]

/-- **Taking apart and putting together are inverse**: with conversions which undo each other the complex stream comes back, -/
theorem deinterleave_interleave {α β : Type} (c : α → β) (d : β → α) (h : ∀ x, d (c x) = x) (zs : List (α × α)) :
    deinterleave d zs.length (interleave c zs) = some zs := by
  induction zs with
  | nil => rfl
  | cons z zs ih => simp [interleave, deinterleave, ih, h]

/-- and so does the interleaved one, when it has an even number of samples — the block is only ever given two for each output. -/
theorem interleave_deinterleave {α β : Type} (c : α → β) (d : β → α) (h : ∀ x, d (c x) = x) : ∀ (n : Nat) (xs : List α), xs.length = 2 * n →
    (deinterleave c n xs).map (interleave d) = some xs := by
  intro n
  induction n with
  | zero => intro xs hl; simp at hl; simp [hl, deinterleave, interleave]
  | succ n ih =>
    intro xs hl
    match xs, hl with
    | [], hl => simp at hl
    | [_], hl => simp at hl; omega
    | x :: y :: rest, hl =>
      have := ih rest (by simp at hl; omega)
      cases ht : deinterleave c n rest with
      | none => simp [ht] at this
      | some t =>
        simp only [ht, Option.map_some, Option.some.injEq] at this
        simp [deinterleave, ht, interleave, h, this]

theorem realImag_roundtrip {α : Type} (z : α × α) (re im : α) : fromRealImag (toRealImag z).1 (toRealImag z).2 = z ∧ toRealImag (fromRealImag re im) = (re, im) :=
  ⟨rfl, rfl⟩

example : interleave (fun x => x) [(1, 2), (3, 4)] = [1, 2, 3, 4] ∧ deinterleave (fun x => x) 2 [1, 2, 3, 4] = some [(1, 2), (3, 4)] := by decide

end Verif.Basic
