import Verif.Conv.Ints

/- C77: a value set for a member of another type arrives unchanged, or is refused. -/
namespace Verif.Conv

/-! ### Integers -/

/-- C77, integer to integer: accepted, unchanged, if the number is in the range of the target; refused if not.
Left out: `std::uint64_t` from 2 ^ 63 on, for a signed target. -/
theorem integer_conversion_partial {s t : Bool} {w v : W} {x : Int} (hv : InRange s w x)
    (hl : ¬ TooLarge (.int s w x) (.int t v)) :
    (InRange t v x → convertParameter (.int t v) (.int s w x) = .ok (.int t v x)) ∧
    (¬ InRange t v x → convertParameter (.int t v) (.int s w x) = .refused) := by
  simp only [convertParameter, convertSafely]
  split
  · rename_i h
    obtain ⟨rfl, rfl⟩ := h
    exact ⟨fun _ => rfl, fun h => absurd hv h⟩
  · apply intToInt_eq hv
    rintro ⟨rfl, rfl, rfl, h⟩
    exact hl h

example : convertParameter (.int true .w16) (.int false .w64 32767) = .ok (.int true .w16 32767) :=
  (integer_conversion_partial (by simp [InRange, W.bits]) (by simp [TooLarge])).1 (by simp [InRange, W.bits])

/-- Against the full claim: every unsigned number in the upper half of 64 bits becomes negative, as long as the
negative number is in the range of the signed target. -/
theorem large_unsigned_wraps (v : W) (x : Int) (h0 : 2 ^ 64 - 2 ^ (v.bits - 1) ≤ x) (h1 : x < 2 ^ 64) :
    convertParameter (.int true v) (.int false .w64 x) = .ok (.int true v (x - 2 ^ 64)) := by
  have e : wrap true .w64 x = x - 2 ^ 64 := by
    have h63 : 2 ^ 63 ≤ x := by revert h0; cases v <;> simp [W.bits] <;> omega
    have : x % ((2 ^ 64 : Nat) : Int) = x := Int.emod_eq_of_lt (by omega) (by omega)
    simp only [wrap, W.bits, this, true_and]
    rw [if_pos (by omega)]
    omega
  have hr : InRange true v (x - 2 ^ 64) := by
    revert h0; cases v <;> simp [InRange, W.bits] <;> omega
  have e2 : wrap true v x = x - 2 ^ 64 := by
    rw [← wrap_of_inRange hr]
    have hm : x % ((2 ^ v.bits : Nat) : Int) = (x - 2 ^ 64) % ((2 ^ v.bits : Nat) : Int) := by
      have : (2 : Int) ^ 64 = ((2 ^ v.bits : Nat) : Int) * ((2 ^ (64 - v.bits) : Nat) : Int) := by
        cases v <;> simp [W.bits]
      rw [this, Int.sub_mul_emod_self_left]
    simp only [wrap, hm]
  have hd : ¬ digits false .w64 ≤ digits true v := by cases v <;> simp [digits, W.bits]
  simp only [convertParameter, convertSafely, Bool.false_eq_true, false_and, if_false, intToInt, and_false]
  rw [if_neg hd, e, e2, if_pos]
  exact inRange_iff.1 hr

example : convertParameter (.int true .w8) (.int false .w64 18446744073709551615) = .ok (.int true .w8 (-1)) := by decide
example : convertParameter (.int true .w64) (.int false .w64 9223372036854775808) = .ok (.int true .w64 (-9223372036854775808)) := by
  decide

/-- C77, integer to `bool`: only 0 and 1. -/
theorem integer_to_bool {s : Bool} {w : W} {x : Int} (hv : InRange s w x) :
    convertParameter .bool (.int s w x)
      = if x = 0 then .ok (.bool false) else if x = 1 then .ok (.bool true) else .refused := by
  simp only [convertParameter, convertSafely, intToBool]
  by_cases hx : s = true ∨ w ≠ .w64 ∨ x < 2 ^ 63
  · rw [wrap_of_inRange (inRange_64 hv hx)]
    by_cases h0 : x = 0
    · subst h0; simp
    · by_cases h1 : x = 1
      · subst h1; simp
      · rw [if_neg h0, if_neg h1]
        split
        · rfl
        · rw [if_neg (by omega)]
  · have h63 : ¬ x < 2 ^ 63 := fun h => hx (.inr (.inr h))
    have hs : s = false := by cases s <;> simp_all
    have hw : w = .w64 := by cases w <;> simp_all
    subst hs hw
    have hlt : x < 2 ^ 64 := by simp only [InRange, Bool.false_eq_true, if_false, W.bits] at hv; omega
    have : x % ((2 ^ 64 : Nat) : Int) = x := Int.emod_eq_of_lt (by omega) (by omega)
    have e : wrap true .w64 x = x - 2 ^ 64 := by
      simp only [wrap, W.bits, this, true_and]
      rw [if_pos (by omega)]
      omega
    rw [if_neg (by simp), e, if_neg (by omega), if_neg (by omega), if_neg (by omega)]

/-- C77, integer to floating point: accepted if the number has no more binary digits than the target; refused
if not, and `std::uint64_t` 0 is refused as well. -/
theorem integer_to_floating {s : Bool} {w : W} {x : Int} (hv : InRange s w x) (d : Bool) :
    convertParameter (.flt d) (.int s w x)
      = if x.natAbs < 2 ^ (if d then 53 else 24) ∧ ¬ (s = false ∧ w = .w64 ∧ x = 0) then .ok (.flt d (.fin (x * 2 ^ 1074)))
        else .refused := by
  have hp : (if d then 53 else 24) = prec d := rfl
  rw [hp, ← one_int]
  have hx := natAbs_lt_digits hv
  simp only [convertParameter, convertSafely, intToFlt]
  by_cases hd : digits s w ≤ prec d
  · have hlt : digits s w < prec d := by revert hd; cases s <;> cases w <;> cases d <;> simp [digits, prec, W.bits]
    have hle : 2 ^ digits s w < 2 ^ prec d := Nat.pow_lt_pow_right (by omega) hlt
    have hn : ¬ (s = false ∧ w = .w64 ∧ x = 0) := by
      rintro ⟨rfl, rfl, _⟩
      revert hlt; cases d <;> simp [digits, prec, W.bits]
    rw [if_pos hd, if_pos ⟨by omega, hn⟩, round_exact (int_rep (by omega))]
  · rw [if_neg hd]
    by_cases hl : x = lowest (if w = .w64 then s else true) .w64
    · rw [if_pos hl, if_neg]
      rintro ⟨h1, h2⟩
      cases s
      · by_cases hw : w = .w64
        · rw [if_pos hw] at hl
          exact h2 ⟨rfl, hw, hl⟩
        · rw [if_neg hw] at hl
          rw [inRange_iff] at hv
          simp only [lowest, if_true, Bool.false_eq_true, if_false, W.bits] at hl hv
          omega
      · have e : lowest (if w = .w64 then true else true) .w64 = -(2 ^ 63 : Nat) := by simp [lowest, W.bits]
        rw [e] at hl
        have : 2 ^ prec d ≤ 2 ^ 53 := Nat.pow_le_pow_right (by omega) (by cases d <;> simp [prec])
        omega
    · rw [if_neg hl]
      have hn : ¬ (s = false ∧ w = .w64 ∧ x = 0) := by
        rintro ⟨rfl, rfl, rfl⟩
        exact hl rfl
      by_cases hb : bitWidth x.natAbs ≤ prec d
      · have := lt_of_bitWidth hb
        rw [if_pos hb, if_pos ⟨this, hn⟩, round_exact (int_rep this)]
      · rw [if_neg hb, if_neg]
        rintro ⟨h1, _⟩
        exact hb (bitWidth_le h1)

/-- Against the full claim: a zero is refused. -/
theorem unsigned_zero_refused (d : Bool) : convertParameter (.flt d) (.int false .w64 0) = .refused := by
  rw [integer_to_floating (by simp [InRange, W.bits])]
  rw [if_neg (by simp)]

example : convertParameter (.flt false) (.int true .w32 (-16777215)) = .ok (.flt false (.fin (-16777215 * 2 ^ 1074))) := by
  rw [integer_to_floating (by simp [InRange, W.bits]), if_pos (by simp)]

example : convertParameter (.flt false) (.int true .w32 16777217) = .refused := by
  rw [integer_to_floating (by simp [InRange, W.bits]), if_neg (by simp)]

/-! ### Floating point -/

/-- C77, floating point to integer: a whole number in the range of the target is accepted unchanged. -/
theorem whole_number_accepted {d t : Bool} {v : W} {x : Int} (h : InRange t v x) :
    convertParameter (.int t v) (.flt d (.fin (x * 2 ^ 1074))) = .ok (.int t v x) := by
  have hr := inRange_iff.1 h
  have h1 := one_int_pos
  have ha : lowest t v * one ≤ x * one := Int.mul_le_mul_of_nonneg_right hr.1 (by omega)
  have hb : x * one ≤ highest t v * one := Int.mul_le_mul_of_nonneg_right hr.2 (by omega)
  have hc : highest t v * one ≤ (highest t v + 1) * one := Int.mul_le_mul_of_nonneg_right (by omega) (by omega)
  rw [← one_int]
  simp only [convertParameter, convertSafely, fltToInt]
  rw [round_lowest, round_highest, if_neg, if_neg, truncTo]
  · rw [Int.mul_tdiv_cancel _ (by omega), if_pos hr]
  · simp [Int.mul_emod_left]
  · simp only [Fl.below, decide_eq_true_eq, not_or]
    exact ⟨by omega, by split <;> omega⟩

/-- C77: a number that is not whole, or beyond the target's range by more than one, or by one where the
source is exact, is refused; so are NaN and the infinities. -/
theorem unfit_refused {d t : Bool} {v : W} {f : Fl}
    (h : ∀ x, f = .fin (x * 2 ^ 1074) → ¬ InRange t v x ∧ ¬ (x = 2 ^ digits t v ∧ (if d then 53 else 24) < digits t v)) :
    convertParameter (.int t v) (.flt d f) = .refused := by
  rw [← one_int] at h
  have h1 := one_int_pos
  cases f with
  | nan => rfl
  | inf n => rfl
  | fin n =>
    simp only [convertParameter, convertSafely, fltToInt]
    split
    · rfl
    · rename_i hc
      split
      · rfl
      · rename_i hm
        have hm' : n % one = 0 := by omega
        obtain ⟨x, hx⟩ := Int.dvd_of_emod_eq_zero hm'
        have hx' : n = x * one := by rw [hx, Int.mul_comm]
        subst hx'
        have ⟨ha, hb⟩ := h x rfl
        rw [round_lowest, round_highest] at hc
        simp only [Fl.below, decide_eq_true_eq, not_or, Int.not_lt] at hc
        have hlo : lowest t v ≤ x := Int.le_of_mul_le_mul_right hc.1 h1
        exfalso
        by_cases hd : digits t v ≤ prec d
        · rw [if_pos hd] at hc
          exact ha (inRange_iff.2 ⟨hlo, Int.le_of_mul_le_mul_right hc.2 h1⟩)
        · rw [if_neg hd] at hc
          have hhi : x ≤ highest t v + 1 := Int.le_of_mul_le_mul_right hc.2 h1
          have hne : ¬ x ≤ highest t v := fun h' => ha (inRange_iff.2 ⟨hlo, h'⟩)
          apply hb
          refine ⟨?_, by have : prec d = if d then 53 else 24 := rfl; omega⟩
          have e : ((2 ^ digits t v : Nat) : Int) = (2 : Int) ^ digits t v := Int.natCast_pow 2 _
          unfold highest at hhi hne
          omega

/-- Against the full claim: one beyond the range, where the limit is not exact in the source's format, the
conversion is undefined behaviour: the check compares with the limit rounded up. -/
theorem limit_undefined {d t : Bool} {v : W} (h : (if d then 53 else 24) < digits t v) :
    convertParameter (.int t v) (.flt d (.fin (2 ^ digits t v * 2 ^ 1074))) = .undefined := by
  have h1 := one_int_pos
  have hp : prec d < digits t v := h
  have e : (2 : Int) ^ digits t v = highest t v + 1 := by
    unfold highest
    have : ((2 ^ digits t v : Nat) : Int) = (2 : Int) ^ digits t v := Int.natCast_pow 2 _
    omega
  have hlh : lowest t v ≤ highest t v + 1 := by
    have := Nat.two_pow_pos (digits t v)
    have ha : lowest t v ≤ 0 := by
      cases t
      · exact Int.le_refl _
      · exact Int.neg_nonpos_of_nonneg (Int.natCast_nonneg _)
    have hb : 0 ≤ highest t v + 1 := by unfold highest; omega
    omega
  rw [← one_int, e]
  have ha : lowest t v * one ≤ (highest t v + 1) * one := Int.mul_le_mul_of_nonneg_right hlh (by omega)
  simp only [convertParameter, convertSafely, fltToInt]
  rw [round_lowest, round_highest, if_neg (show ¬ digits t v ≤ prec d by omega), if_neg, if_neg, truncTo]
  · rw [Int.mul_tdiv_cancel _ (by omega), if_neg (by omega)]
  · simp [Int.mul_emod_left]
  · simp only [Fl.below, decide_eq_true_eq, not_or]
    exact ⟨by omega, by omega⟩

/-- 2 ^ 63 as `double` for `std::int64_t`, and 2 ^ 31 as `float` for `std::int32_t`. -/
example : convertParameter (.int true .w64) (.flt true (.fin (2 ^ 63 * 2 ^ 1074))) = .undefined :=
  limit_undefined (by simp [digits, W.bits])

example : convertParameter (.int true .w32) (.flt false (.fin (2 ^ 31 * 2 ^ 1074))) = .undefined :=
  limit_undefined (by simp [digits, W.bits])

example : convertParameter (.int true .w32) (.flt true (.fin (-5 * 2 ^ 1074))) = .ok (.int true .w32 (-5)) :=
  whole_number_accepted (by simp [InRange, W.bits])

/-- One half is refused. -/
example : convertParameter (.int true .w32) (.flt true (.fin (2 ^ 1073))) = .refused := by
  apply unfit_refused
  intro x hx
  exfalso
  have e : (2 : Int) ^ 1074 = 2 ^ 1073 * 2 := Int.pow_succ 2 1073
  have hp : (0 : Int) < 2 ^ 1073 := Int.pow_pos (by omega)
  rw [Fl.fin.injEq, e, ← Int.mul_assoc, Int.mul_comm x, Int.mul_assoc] at hx
  have : (2 : Int) ^ 1073 * 1 = 2 ^ 1073 * (x * 2) := by rw [Int.mul_one]; exact hx
  have := Int.eq_of_mul_eq_mul_left (by omega) this
  omega

/-- C77, `double` to `float`: a finite number within the range becomes the nearest `float`; any other is refused. -/
theorem double_to_float {n : Int} :
    (n.natAbs ≤ (2 ^ 24 - 1) * 2 ^ (104 + 1074) → ∃ r, convertParameter (.flt false) (.flt true (.fin n)) = .ok (.flt false (.fin r)) ∧
      Rep false r ∧ ∀ z, Rep false z → (r - n).natAbs ≤ (z - n).natAbs) ∧
    (¬ n.natAbs ≤ (2 ^ 24 - 1) * 2 ^ (104 + 1074) → convertParameter (.flt false) (.flt true (.fin n)) = .refused) := by
  have e : (2 ^ 24 - 1) * 2 ^ (104 + 1074) = maxFin false := by rw [maxFin_eq, if_neg (by simp)]
  rw [e]
  simp only [convertParameter, convertSafely, fltToFlt, Bool.true_eq_false, if_false]
  constructor
  · intro h
    obtain ⟨r, h1, h2, h3⟩ := round_nearest h
    refine ⟨r, ?_, h2, h3⟩
    rw [if_pos (by omega), h1]
  · intro h
    rw [if_neg (by omega)]

/-- C77, `float` to `double`: every finite number is kept; infinities and NaN are refused. -/
theorem float_to_double {n : Int} (h : Rep false n) :
    convertParameter (.flt true) (.flt false (.fin n)) = .ok (.flt true (.fin n)) := by
  have hr : Rep true n := by
    rw [rep_iff] at *
    obtain ⟨⟨m, k, h1, h2, h3⟩, h4⟩ := h
    refine ⟨⟨m, k, Nat.zero_le _, Nat.lt_of_lt_of_le h2 (Nat.pow_le_pow_right (by omega) (by simp [prec])), h3⟩, ?_⟩
    refine Nat.le_trans h4 ?_
    unfold maxFin
    apply Nat.mul_le_mul
    · exact Nat.sub_le_sub_right (Nat.pow_le_pow_right (by omega) (by simp [prec])) 1
    · exact Nat.pow_le_pow_right (by omega) (by simp [top])
  have := (rep_iff.1 hr).2
  simp only [convertParameter, convertSafely, fltToFlt, Bool.false_eq_true, if_false]
  rw [if_pos (by omega), round_exact hr]

theorem not_finite_refused {d e : Bool} {f : Fl} (h : ∀ n, f ≠ .fin n) (hd : d ≠ e) :
    convertParameter (.flt e) (.flt d f) = .refused := by
  cases f with
  | fin n => exact absurd rfl (h n)
  | nan => simp [convertParameter, convertSafely, fltToFlt, hd]
  | inf b => simp [convertParameter, convertSafely, fltToFlt, hd]

/-- Against the full claim: an infinite `float` is no `double`. -/
example : convertParameter (.flt true) (.flt false (.inf false)) = .refused := not_finite_refused (by simp) (by simp)

/-! ### Complex numbers, text, and all together -/

/-- C77: an integer or floating-point number converts to a complex type as it does to the type of its parts, with
0 as imaginary part. -/
theorem to_complex (d : Bool) (v : Val) (h : (∃ s w x, v = .int s w x) ∨ ∃ e f, v = .flt e f) :
    (∀ f, convertParameter (.flt d) v = .ok (.flt d f) → convertParameter (.cpx d) v = .ok (.cpx d f (.fin 0))) ∧
    (convertParameter (.flt d) v = .refused → convertParameter (.cpx d) v = .refused) := by
  rcases h with ⟨s, w, x, rfl⟩ | ⟨e, g, rfl⟩
  · simp only [convertParameter, convertSafely]
    cases intToFlt s w x d with
    | none => exact ⟨fun f h => by simp at h, fun _ => rfl⟩
    | some y => exact ⟨fun f h => by simpa using h, fun h => by simp at h⟩
  · simp only [convertParameter, convertSafely]
    cases fltToFlt e g d with
    | none => exact ⟨fun f h => by simp at h, fun _ => rfl⟩
    | some y => exact ⟨fun f h => by simpa using h, fun h => by simp at h⟩

/-- Against what the branches for it are made for: no complex number converts to any other type, not even 0. -/
theorem complex_refused (d : Bool) (re im : Fl) (t : Ty) (h : t ≠ .cpx d) :
    convertParameter t (.cpx d re im) = .refused := by
  cases t with
  | cpx e =>
    have : ¬ d = e := fun h' => h (by rw [h'])
    simp only [convertParameter, convertSafely, if_neg this]
  | _ => rfl

/-- Nor does text, however it reads; nor a truth value. -/
theorem text_refused (s : String) (t : Ty) (h : t ≠ .str) : convertParameter t (.str s) = .refused := by
  cases t <;> first | rfl | exact absurd rfl h

theorem bool_refused (b : Bool) (t : Ty) (h : t ≠ .bool) : convertParameter t (.bool b) = .refused := by
  cases t <;> first | rfl | exact absurd rfl h

/-- C77: a value is always accepted, unchanged, for its own type. -/
theorem same_type_accepted (v : Val) : convertParameter v.ty v = .ok v := by
  cases v with
  | flt d f => simp [Val.ty, convertParameter, convertSafely, fltToFlt]
  | _ => simp [Val.ty, convertParameter, convertSafely]

theorem intToFlt_number {s d : Bool} {w : W} {x : Int} {f : Fl} (hv : InRange s w x) (h : intToFlt s w x d = some f) :
    f = .fin (x * 2 ^ 1074) ∧ Rep d (x * 2 ^ 1074) := by
  have := integer_to_floating hv d
  rw [show (if d then 53 else 24) = prec d from rfl] at this
  simp only [convertParameter, convertSafely, h] at this
  split at this
  · rename_i hc
    refine ⟨by simpa using this, ?_⟩
    rw [← one_int]
    exact int_rep hc.1
  · cases this

/-- C77: a result is a value of the type asked for. -/
theorem result_typed (t : Ty) (v r : Val) (hv : v.Ok) (h : convertParameter t v = .ok r) : r.ty = t ∧ r.Ok := by
  cases v with
  | bool b =>
    cases t with
    | bool => simp [convertParameter, convertSafely] at h; subst h; exact ⟨rfl, trivial⟩
    | _ => simp [convertParameter, convertSafely] at h
  | str s =>
    cases t with
    | str => simp [convertParameter] at h; subst h; exact ⟨rfl, trivial⟩
    | _ => simp [convertParameter, convertSafely] at h
  | cpx d re im =>
    by_cases ht : t = .cpx d
    · subst ht
      simp [convertParameter, convertSafely] at h; subst h; exact ⟨rfl, hv⟩
    · rw [complex_refused d re im t ht] at h; cases h
  | int s w x =>
    cases t with
    | str => simp [convertParameter] at h
    | bool =>
      rw [integer_to_bool hv] at h
      split at h
      · cases h; exact ⟨rfl, trivial⟩
      · split at h
        · cases h; exact ⟨rfl, trivial⟩
        · cases h
    | int t v =>
      simp only [convertParameter, convertSafely] at h
      split at h
      · rename_i hc
        obtain ⟨rfl, rfl⟩ := hc
        cases h; exact ⟨rfl, hv⟩
      · simp only [intToInt] at h
        split at h
        · cases h
        · split at h
          · cases h; exact ⟨rfl, inRange_wrap _ _ _⟩
          · split at h
            · cases h; exact ⟨rfl, inRange_wrap _ _ _⟩
            · cases h
    | flt d =>
      simp only [convertParameter, convertSafely] at h
      split at h
      · rename_i f hf
        cases h
        obtain ⟨rfl, h2⟩ := intToFlt_number hv hf
        exact ⟨rfl, h2⟩
      · cases h
    | cpx d =>
      simp only [convertParameter, convertSafely] at h
      split at h
      · rename_i f hf
        cases h
        obtain ⟨rfl, h2⟩ := intToFlt_number hv hf
        exact ⟨rfl, h2, rep_iff.2 ⟨zero_rep d, Nat.zero_le _⟩⟩
      · cases h
  | flt d f =>
    have key : ∀ e g, fltToFlt d f e = some g → g.Ok e := by
      intro e g hg
      simp only [fltToFlt] at hg
      split at hg
      · rename_i hd; subst hd; cases hg; exact hv
      · cases f with
        | fin n =>
          simp only at hg
          split at hg
          · obtain ⟨r, h1, h2, _⟩ := round_nearest (d := e) (n := n) (by omega)
            rw [h1] at hg; cases hg; exact h2
          · cases hg
        | nan => cases hg
        | inf _ => cases hg
    cases t with
    | str => simp [convertParameter] at h
    | bool =>
      simp only [convertParameter, convertSafely, fltToBool] at h
      cases f with
      | fin n =>
        simp only at h
        split at h
        · cases h
        · split at h
          · cases h
          · cases h; exact ⟨rfl, trivial⟩
      | nan => cases h
      | inf _ => cases h
    | int t v =>
      simp only [convertParameter, convertSafely, fltToInt] at h
      cases f with
      | fin n =>
        simp only at h
        split at h
        · cases h
        · split at h
          · cases h
          · simp only [truncTo] at h
            split at h
            · rename_i hr; cases h; exact ⟨rfl, inRange_iff.2 hr⟩
            · cases h
      | nan => cases h
      | inf _ => cases h
    | flt e =>
      simp only [convertParameter, convertSafely] at h
      split at h
      · rename_i g hg; cases h; exact ⟨rfl, key e g hg⟩
      · cases h
    | cpx e =>
      simp only [convertParameter, convertSafely] at h
      split at h
      · rename_i g hg; cases h; exact ⟨rfl, key e g hg, rep_iff.2 ⟨zero_rep e, Nat.zero_le _⟩⟩
      · cases h

/-- C77: whatever is accepted stands for the same number (or is the same text) as before. Left out:
`std::uint64_t` from 2 ^ 63 on for a signed target (`large_unsigned_wraps`), and `double` for `float`, which is
rounded (`double_to_float`). -/
theorem number_kept_partial (t : Ty) (v r : Val) (hv : v.Ok) (hr : ¬ Rounds v.ty t) (hl : ¬ TooLarge v t)
    (h : convertParameter t v = .ok r) : r.number = v.number ∧ (v.ty = t → r = v) := by
  refine ⟨?_, fun ht => by subst ht; rw [same_type_accepted] at h; cases h; rfl⟩
  cases v with
  | bool b =>
    cases t with
    | bool => simp [convertParameter, convertSafely] at h; subst h; rfl
    | _ => simp [convertParameter, convertSafely] at h
  | str s =>
    cases t with
    | str => simp [convertParameter] at h; subst h; rfl
    | _ => simp [convertParameter, convertSafely] at h
  | cpx d re im =>
    by_cases ht : t = .cpx d
    · subst ht
      simp [convertParameter, convertSafely] at h; subst h; rfl
    · rw [complex_refused d re im t ht] at h; cases h
  | int s w x =>
    cases t with
    | str => simp [convertParameter] at h
    | bool =>
      rw [integer_to_bool hv] at h
      split at h
      · rename_i h0; cases h; subst h0; simp only [Val.number, Bool.false_eq_true, if_false, Int.zero_mul]
      · split at h
        · rename_i h1; cases h; subst h1; simp only [Val.number, if_true, Int.one_mul]
        · cases h
    | int t v =>
      have := integer_conversion_partial hv hl
      by_cases hc : InRange t v x
      · rw [this.1 hc] at h; cases h; rfl
      · rw [this.2 hc] at h; cases h
    | flt d =>
      simp only [convertParameter, convertSafely] at h
      split at h
      · rename_i f hf
        cases h
        obtain ⟨rfl, _⟩ := intToFlt_number hv hf
        rfl
      · cases h
    | cpx d =>
      simp only [convertParameter, convertSafely] at h
      split at h
      · rename_i f hf
        cases h
        obtain ⟨rfl, _⟩ := intToFlt_number hv hf
        rfl
      · cases h
  | flt d f =>
    have key : ∀ e g, (d = true → e = false → False) → fltToFlt d f e = some g → g = f := by
      intro e g hd hg
      cases d with
      | true =>
        cases e with
        | true => simp [fltToFlt] at hg; exact hg.symm
        | false => exact (hd rfl rfl).elim
      | false =>
        cases e with
        | false => simp [fltToFlt] at hg; exact hg.symm
        | true =>
          cases f with
          | fin n =>
            have := float_to_double hv
            simp only [convertParameter, convertSafely, hg] at this
            simpa using this
          | nan => simp [fltToFlt] at hg
          | inf b => simp [fltToFlt] at hg
    cases t with
    | str => simp [convertParameter] at h
    | bool =>
      simp only [convertParameter, convertSafely, fltToBool] at h
      cases f with
      | fin n =>
        have h1 := one_int_pos
        simp only at h
        split at h
        · cases h
        · rename_i ha
          split at h
          · cases h
          · rename_i hb
            cases h
            have hb' : n % one = 0 := by omega
            obtain ⟨x, hx⟩ := Int.dvd_of_emod_eq_zero hb'
            have hx0 : n = 0 ∨ n = one := by
              rcases Int.lt_or_le x 1 with hc | hc
              · have : one * x ≤ one * 0 := Int.mul_le_mul_of_nonneg_left (by omega) (by omega)
                left; omega
              · have : one * 1 ≤ one * x := Int.mul_le_mul_of_nonneg_left hc (by omega)
                right; omega
            simp only [Val.number]
            rw [← one_int]
            rcases hx0 with h0 | h0
            · simp [h0]
            · simp only [h0]; rw [if_pos (by simp; omega)]
      | nan => cases h
      | inf _ => cases h
    | int t v =>
      cases f with
      | fin n =>
        have h1 := one_int_pos
        simp only [convertParameter, convertSafely, fltToInt] at h
        split at h
        · cases h
        · split at h
          · cases h
          · rename_i hb
            have hb' : n % one = 0 := by omega
            obtain ⟨x, hx⟩ := Int.dvd_of_emod_eq_zero hb'
            simp only [truncTo] at h
            split at h
            · cases h
              simp only [Val.number]
              rw [← one_int, hx, Int.mul_comm (one : Int) x, Int.mul_tdiv_cancel _ (by omega)]
            · cases h
      | nan => cases h
      | inf _ => cases h
    | flt e =>
      simp only [convertParameter, convertSafely] at h
      split at h
      · rename_i g hg
        cases h
        rw [key e g (by rintro rfl rfl; exact hr trivial) hg]
        cases f <;> rfl
      · cases h
    | cpx e =>
      simp only [convertParameter, convertSafely] at h
      split at h
      · rename_i g hg
        cases h
        rw [key e g (by rintro rfl rfl; exact hr trivial) hg]
        cases f <;> rfl
      · cases h

example : ¬ Rounds (Val.int true .w64 (-7)).ty (.flt true) ∧ ¬ TooLarge (.int true .w64 (-7)) (.flt true) ∧ (Val.int true .w64 (-7)).Ok ∧
    convertParameter (.flt true) (.int true .w64 (-7)) = .ok (.flt true (.fin (-7 * 2 ^ 1074))) := by
  refine ⟨id, id, by simp [Val.Ok, InRange, W.bits], ?_⟩
  rw [integer_to_floating (by simp [InRange, W.bits]), if_pos (by simp)]

end Verif.Conv
