import Verif.Annot.Model

/-!
# Property C161: limits of settings

A value is *allowed* if it lies between the limits (unless these are equal, which switches the check off) and the validator, if there
is one, says so without throwing.
-/

namespace Verif.Annot

/-- What the limits allow. -/
def Allowed {L : Type} (num : Num L) (l : Limits L) (v : L) : Prop :=
  (num.eq l.lower l.upper = false → num.le l.lower v = true ∧ num.le v l.upper = true) ∧
  ∀ f, l.validator = some f → f v = some true

theorem getD_true {o : Option Bool} : o.getD false = true ↔ o = some true := by
  cases o with
  | none => simp
  | some b => cases b <;> simp

/-- `validate` says yes to the allowed values and to no other. -/
theorem validate_iff {L : Type} (num : Num L) (l : Limits L) (v : L) : validate num l v = true ↔ Allowed num l v := by
  unfold validate Allowed
  cases he : num.eq l.lower l.upper <;> cases hf : l.validator with
  | none => simp
  | some f =>
    simp [getD_true, and_assoc]

example : validate intNum { lower := 1, upper := 32 } 32 = true ∧ validate intNum { lower := 1, upper := 32 } 33 = false ∧
    validate intNum { lower := 1, upper := 32, validator := some fun v => if v = 3 then none else some (v % 2 == 0) } 3 = false ∧
    validate intNum { lower := 1, upper := 32, validator := some fun v => if v = 3 then none else some (v % 2 == 0) } 4 = true := by decide

/-- Equal limits switch the check of the range off: without a validator every value is allowed. -/
theorem equal_limits {L : Type} (num : Num L) (l : Limits L) (h : num.eq l.lower l.upper = true) (hv : l.validator = none) (v : L) :
    validate num l v = true := by
  rw [validate_iff]
  refine ⟨fun h' => ?_, fun f hf => ?_⟩
  · rw [h] at h'; cases h'
  · rw [hv] at hf; cases hf

/-- The finding: limits that should pin a value to 5 let 1000 through. -/
theorem pinned_not_pinned : validate intNum { lower := 5, upper := 5 } 1000 = true := by decide

/-- An attempt to set a value: an allowed one is taken over, any other leaves the old one, and the answer says which. -/
theorem set_spec {T L : Type} (num : Num L) (l : Limits L) (cast : T → Option L) (old new : T) (c : L) (hc : cast new = some c) :
    (Allowed num l c → validateAndSet num (some l) cast old new = .done new true) ∧
    (¬ Allowed num l c → validateAndSet num (some l) cast old new = .done old false) := by
  constructor <;> intro h
  · simp [validateAndSet, hc, (validate_iff num l c).2 h]
  · have : validate num l c = false := by
      cases hv : validate num l c with
      | false => rfl
      | true => exact absurd ((validate_iff num l c).1 hv) h
    simp [validateAndSet, hc, this]

/-- Without limits every value is taken over. -/
theorem set_free {T L : Type} (num : Num L) (cast : T → Option L) (old new : T) : validateAndSet num none cast old new = .done new true := rfl

/-- What a staged value does to a setting: a refused one changes nothing at all; an allowed one becomes the value and is reported as
applied under its key, and other keys keep what they have. -/
theorem apply_spec {T L : Type} (num : Num L) (l : Limits L) (cast : T → Option L) (cb : Bool) (key : String) (m m' : Member T)
    (v : Option T) (ok : Bool) (h : apply num (some l) cast cb key m v = some (m', ok)) :
    (ok = true ↔ ∃ x c, v = some x ∧ cast x = some c ∧ Allowed num l c) ∧
    (ok = false → m' = m) ∧
    (ok = true → v = some m'.value ∧ m'.applied.find? (·.1 = key) = some (key, m'.value) ∧
      (∀ k, k ≠ key → m'.applied.find? (·.1 = k) = m.applied.find? (·.1 = k)) ∧ (cb = false → m'.staged = m.staged) ∧
      (cb = true → m'.staged.find? (·.1 = key) = some (key, m'.value))) := by
  have hother : ∀ (a : List (String × T)) (x : T) (k : String), k ≠ key → (assign a key x).find? (·.1 = k) = a.find? (·.1 = k) := by
    intro a x k hk
    unfold assign
    rw [List.find?_cons_of_neg (by simpa using fun h => hk h.symm), List.find?_filter]
    congr 1
    funext p
    by_cases hp : p.1 = k
    · simp [hp, hk]
    · simp [hp]
  cases v with
  | none =>
    simp only [apply, Option.some.injEq, Prod.mk.injEq] at h
    obtain ⟨rfl, rfl⟩ := h
    simp
  | some x =>
    cases hc : cast x with
    | none => simp [apply, validateAndSet, hc] at h
    | some c =>
      by_cases ha : Allowed num l c
      · have hs := (set_spec num l cast m.value x c hc).1 ha
        simp only [apply, hs, Option.some.injEq, Prod.mk.injEq] at h
        obtain ⟨rfl, rfl⟩ := h
        refine ⟨⟨fun _ => ⟨x, c, rfl, hc, ha⟩, fun _ => rfl⟩, by simp, fun _ => ⟨rfl, by simp [assign], fun k hk => hother _ _ k hk, ?_, ?_⟩⟩
        · rintro rfl; simp
        · rintro rfl; simp [assign]
      · have hs := (set_spec num l cast m.value x c hc).2 ha
        simp only [apply, hs, Option.some.injEq, Prod.mk.injEq] at h
        obtain ⟨rfl, rfl⟩ := h
        refine ⟨⟨by simp, ?_⟩, fun _ => rfl, by simp⟩
        rintro ⟨x', c', hx, hc', ha'⟩
        cases hx
        rw [hc] at hc'
        cases hc'
        exact absurd ha' ha

/-- The last of the offered values that passes, or the first value. -/
def lastPassing {T : Type} (p : T → Bool) (first : T) (vs : List (Option T)) : T := ((vs.filterMap id).filter p).getLastD first

/-- After any staged values, the setting holds the last one of them that was allowed, or what it held before. -/
theorem history {T L : Type} (num : Num L) (l : Limits L) (cast : T → Option L) (cb : Bool) (key : String) (p : T → Bool)
    (hp : ∀ x, p x = true ↔ ∃ c, cast x = some c ∧ Allowed num l c) (vs : List (Option T)) :
    ∀ (m m' : Member T), applyAll num (some l) cast cb key m vs = some m' → m'.value = lastPassing p m.value vs := by
  induction vs with
  | nil => intro m m' h; cases h; rfl
  | cons v vs ih =>
    intro m m' h
    simp only [applyAll, Option.bind_eq_some_iff] at h
    obtain ⟨⟨m1, ok⟩, h1, h2⟩ := h
    have hs := apply_spec num l cast cb key m m1 v ok h1
    rw [ih m1 m' h2]
    unfold lastPassing
    cases v with
    | none =>
      have : ok = false := by
        cases ok with
        | false => rfl
        | true => obtain ⟨x, c, hx, _⟩ := hs.1.1 rfl; cases hx
      rw [hs.2.1 this]
      simp
    | some x =>
      cases ok with
      | true =>
        obtain ⟨y, c, hx, hc, ha⟩ := hs.1.1 rfl
        cases hx
        have hpx : p x = true := (hp x).2 ⟨c, hc, ha⟩
        have hv : x = m1.value := Option.some.inj (hs.2.2 rfl).1
        rw [List.filterMap_cons_some (f := id) (b := x) rfl, List.filter_cons_of_pos hpx, List.getLastD_cons, hv]
      | false =>
        have hpx : p x = false := by
          cases hq : p x with
          | false => rfl
          | true =>
            obtain ⟨c, hc, ha⟩ := (hp x).1 hq
            have := hs.1.2 ⟨x, c, rfl, hc, ha⟩
            cases this
        rw [hs.2.1 rfl]
        simp [hpx]

/-- If the limits have the type of the setting, a setting that starts within its limits never leaves them. -/
theorem stays_within {T : Type} (num : Num T) (l : Limits T) (cb : Bool) (key : String) (vs : List (Option T)) :
    ∀ (m : Member T), Allowed num l m.value →
      ∃ m', applyAll num (some l) some cb key m vs = some m' ∧ Allowed num l m'.value := by
  induction vs with
  | nil => intro m h; exact ⟨m, rfl, h⟩
  | cons v vs ih =>
    intro m h
    simp only [applyAll]
    cases h1 : apply num (some l) some cb key m v with
    | none =>
      cases v with
      | none => simp [apply] at h1
      | some x =>
        simp only [apply, validateAndSet] at h1
        cases hv : validate num l x <;> simp [hv] at h1
    | some r =>
      obtain ⟨m1, ok⟩ := r
      have hs := apply_spec num l some cb key m m1 v ok h1
      refine ih m1 ?_
      cases ok with
      | false => rw [hs.2.1 rfl]; exact h
      | true =>
        obtain ⟨x, c, hx, hc, ha⟩ := hs.1.1 rfl
        have := (hs.2.2 rfl).1
        rw [hx] at this
        cases this
        cases hc
        exact ha

/-- Non-trivial case: a number of inputs between 1 and 32. -/
example : (applyAll intNum (some { lower := 1, upper := 32 }) some true "n_inputs" { value := 2 } [some 40, some 7, none, some 0]) =
    some { value := 7, applied := [("n_inputs", 7)], staged := [("n_inputs", 7)] } := by decide

/-- The finding: if the limits have another type, the value that is checked is not the one that is stored. A sample rate of -1/2 passes
for not negative, and 2^32 + 50 for at most 100; not-a-number and values from 2^63 on have no defined outcome. -/
theorem checked_after_conversion :
    validateAndSet intNum (some rateLimits) fltToInt64 (.fin 1) (.fin (-1 / 2)) = .done (.fin (-1 / 2)) true ∧
    validateAndSet intNum (some { lower := 1, upper := 100 }) u64ToInt 7 4294967346 = .done 4294967346 true ∧
    validateAndSet intNum (some rateLimits) fltToInt64 (.fin 1) .nan = .undefined ∧
    validateAndSet intNum (some rateLimits) fltToInt64 (.fin 1) (.fin 9223372036854775808) = .undefined := by
  decide +kernel

theorem trunc_bounds (r : Rat) : (0 ≤ r → (trunc r : Rat) ≤ r ∧ r < (trunc r : Rat) + 1) ∧ (r ≤ 0 → r ≤ (trunc r : Rat) ∧ (trunc r : Rat) - 1 < r) := by
  have h1 := Rat.floor_le r
  have h2 := Rat.lt_floor_add_one r
  have h3 := Rat.floor_le (-r)
  have h4 := Rat.lt_floor_add_one (-r)
  rw [Rat.intCast_add] at h2 h4
  have e1 : ((1 : Int) : Rat) = 1 := rfl
  rw [e1] at h2 h4
  constructor
  · intro h
    have : ¬ r < 0 := by grind
    unfold trunc
    rw [if_neg this]
    exact ⟨h1, h2⟩
  · intro h
    unfold trunc
    by_cases h0 : r < 0
    · rw [if_pos h0, Rat.intCast_neg]
      constructor <;> grind
    · have : r = 0 := by grind
      subst this
      decide +kernel

/-- What remains true of a sample rate checked as a whole number: it is above -1. -/
theorem rate_partial (old new : Flt) (v : Flt) (h : validateAndSet intNum (some rateLimits) fltToInt64 old new = .done v true) :
    ∃ r, v = .fin r ∧ -1 < r ∧ r < 9223372036854775808 := by
  cases new with
  | nan => simp [validateAndSet, fltToInt64] at h
  | inf b => simp [validateAndSet, fltToInt64] at h
  | fin r =>
    simp only [validateAndSet, fltToInt64] at h
    by_cases hr : -9223372036854775808 ≤ trunc r ∧ trunc r ≤ 9223372036854775807
    · rw [if_pos hr] at h
      dsimp only at h
      by_cases hv : validate intNum rateLimits (trunc r) = true
      · rw [if_pos hv] at h
        cases h
        refine ⟨r, rfl, ?_⟩
        have ha := ((validate_iff _ _ _).1 hv).1 (by decide)
        simp only [intNum, rateLimits, decide_eq_true_eq] at ha
        have hb := trunc_bounds r
        have c0 : ((0 : Int) : Rat) ≤ (trunc r : Rat) := Rat.intCast_le_intCast.2 ha.1
        have c1 : (trunc r : Rat) ≤ ((9223372036854775807 : Int) : Rat) := Rat.intCast_le_intCast.2 ha.2
        have e0 : ((0 : Int) : Rat) = 0 := rfl
        have e2 : ((9223372036854775807 : Int) : Rat) = 9223372036854775807 := rfl
        rw [e0] at c0
        rw [e2] at c1
        rcases (Rat.le_total : 0 ≤ r ∨ r ≤ 0) with h0 | h0
        · have := hb.1 h0
          constructor <;> grind
        · have := hb.2 h0
          constructor <;> grind
      · rw [if_neg hv] at h
        cases h
    · rw [if_neg hr] at h
      cases h

end Verif.Annot
