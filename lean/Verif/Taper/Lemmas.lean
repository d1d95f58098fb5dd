import Verif.Taper.Spec
/-! # Helper lemmas: one sample, ramps, blocks of samples -/
namespace Verif.Taper
open Spec

variable {α : Type} [Lean.Grind.CommRing α]

/-- What holds of every taper in use. -/
structure Sound (t : Taper α) : Prop where
  even : t.fall.length = t.rise.length
  pos : t.pos ≤ t.rise.length
  ramp : t.ramping = true → 0 < t.rise.length
  off : t.phase = .off → t.target = false
  on : t.phase = .on → t.target = true

/-- Not at the very end of a ramp. -/
def Inside (t : Taper α) : Prop := t.ramping = true → t.pos < t.rise.length

/-- The coefficients of the direction. -/
def coeffs (t : Taper α) : List α := if t.phase = .up then t.rise else t.fall

theorem ramping_cases {t : Taper α} (h : t.ramping = true) : t.phase = .up ∨ t.phase = .down := by
  unfold Taper.ramping at h
  cases hp : t.phase <;> simp [hp] at h ⊢

theorem coeffs_length {t : Taper α} (h : Sound t) : (coeffs t).length = t.rise.length := by
  unfold coeffs; split
  · rfl
  · exact h.even

theorem one_ramp {t : Taper α} (hr : t.ramping = true) : t.one = t.rampOne (coeffs t) := by
  unfold Taper.one coeffs
  rcases ramping_cases hr with h | h <;> simp [h]

theorem one_inside {t : Taper α} (h : Sound t) (hr : t.ramping = true) (hp : t.pos < t.rise.length) :
    ∃ v, (coeffs t)[t.pos]? = some v ∧ t.one = some (v, if t.rise.length ≤ t.pos + 1 then Taper.transition { t with pos := t.pos + 1 } else { t with pos := t.pos + 1 }) := by
  have hc : t.pos < (coeffs t).length := by rw [coeffs_length h]; exact hp
  refine ⟨(coeffs t)[t.pos], List.getElem?_eq_getElem hc, ?_⟩
  rw [one_ramp hr, Taper.rampOne, if_neg, List.getElem?_eq_getElem hc]
  · rfl
  · unfold Taper.len; omega

theorem one_end {t : Taper α} (hr : t.ramping = true) (hp : t.rise.length ≤ t.pos) :
    t.one = some (if t.transition.phase = .on then 1 else 0, t.transition) := by
  rw [one_ramp hr, Taper.rampOne, if_pos]
  exact .inr hp

theorem one_off {t : Taper α} (h : t.phase = .off) : t.one = some (0, t) := by unfold Taper.one; rw [h]
theorem one_on {t : Taper α} (h : t.phase = .on) : t.one = some (1, t) := by unfold Taper.one; rw [h]

theorem phase_cases (t : Taper α) : t.phase = .off ∨ t.phase = .on ∨ t.ramping = true := by
  unfold Taper.ramping; cases t.phase <;> simp

/-! ## the invariant is kept -/

theorem sound_transition {t : Taper α} (h : Sound t) (hr : t.ramping = true) :
    Sound t.transition ∧ Inside t.transition := by
  have hl := h.ramp hr
  refine ⟨⟨h.even, Nat.zero_le _, fun _ => hl, ?_, ?_⟩, fun _ => hl⟩
  · unfold Taper.transition; simp only; grind
  · unfold Taper.transition; simp only; grind

theorem sound_pos {t : Taper α} (h : Sound t) {p : Nat} (hp : p ≤ t.rise.length) : Sound { t with pos := p } :=
  ⟨h.even, hp, h.ramp, h.off, h.on⟩

theorem one_sound {t : Taper α} (h : Sound t) : ∃ v t', t.one = some (v, t') ∧ Sound t' ∧ Inside t' ∧ t'.target = t.target
    ∧ t'.rise = t.rise ∧ t'.fall = t.fall := by
  rcases phase_cases t with hp | hp | hr
  · exact ⟨0, t, one_off hp, h, fun hr => by simp [Taper.ramping, hp] at hr, rfl, rfl, rfl⟩
  · exact ⟨1, t, one_on hp, h, fun hr => by simp [Taper.ramping, hp] at hr, rfl, rfl, rfl⟩
  · by_cases hp : t.pos < t.rise.length
    · obtain ⟨v, _, e⟩ := one_inside h hr hp
      refine ⟨v, _, e, ?_⟩
      have hs : Sound ({ t with pos := t.pos + 1 } : Taper α) := sound_pos h hp
      split
      · obtain ⟨a, b⟩ := sound_transition hs hr
        exact ⟨a, b, rfl, rfl, rfl⟩
      · refine ⟨hs, fun _ => ?_, rfl, rfl, rfl⟩
        show t.pos + 1 < t.rise.length
        omega
    · obtain ⟨a, b⟩ := sound_transition h hr
      exact ⟨_, _, one_end hr (Nat.not_lt.1 hp), a, b, rfl, rfl, rfl⟩

theorem set_sound {t : Taper α} (h : Sound t) (on force : Bool) :
    Sound (t.setTarget on force).1 ∧ (t.setTarget on force).1.target = on ∧
    (t.setTarget on force).1.rise = t.rise ∧ (t.setTarget on force).1.fall = t.fall := by
  obtain ⟨ph, pos, tg, r, f⟩ := t
  obtain ⟨h1, h2, h3, h4, h5⟩ := h
  simp only [Taper.ramping] at h1 h2 h3 h4 h5
  by_cases hl : r.length = 0
  · cases ph <;> cases on <;> cases force <;>
      simp [Taper.setTarget, Taper.startRamp, Taper.turn, Taper.len, hl] at h3 ⊢ <;>
      (constructor <;> simp_all [Taper.ramping])
  · have hl' : 0 < r.length := by omega
    cases ph <;> cases on <;> cases force <;>
      simp only [Taper.setTarget, Taper.startRamp, Taper.turn, Taper.len, hl] <;>
      exact ⟨⟨h1, by first | exact h2 | exact Nat.zero_le _ | (simp; done) | (simp only; omega), fun _ => hl', by first | (intro h; cases h; done) | (intro _; rfl) | exact h4, by first | (intro h; cases h; done) | (intro _; rfl) | exact h5⟩, rfl, rfl, rfl⟩

theorem set_inside {t : Taper α} (h : Sound t) (hi : Inside t) (on : Bool) : Inside (t.setTarget on false).1 := by
  obtain ⟨ph, pos, tg, r, f⟩ := t
  intro hr
  unfold Inside at hi
  obtain ⟨h1, h2, h3, h4, h5⟩ := h
  by_cases hl : r.length = 0
  · cases ph <;> cases on <;> simp_all [Taper.setTarget, Taper.startRamp, Taper.len, Taper.ramping]
  · cases ph <;> cases on <;> simp_all [Taper.setTarget, Taper.startRamp, Taper.len, Taper.ramping] <;>
      exact List.length_pos_iff.2 hl

/-! ## sample by sample -/

/-- Multiplying sample by sample with `processOne`. -/
def oneByOne (t : Taper α) : List α → Option (List α × Taper α)
  | [] => some ([], t)
  | x :: xs => match t.one with
    | none => none
    | some (v, t) => (oneByOne t xs).map fun r => (x * v :: r.1, r.2)

theorem oneByOne_append (t : Taper α) (xs ys : List α) : oneByOne t (xs ++ ys) =
    match oneByOne t xs with
    | none => none
    | some (us, t) => (oneByOne t ys).map fun r => (us ++ r.1, r.2) := by
  induction xs generalizing t with
  | nil => simp only [List.nil_append, oneByOne]; cases oneByOne t ys <;> rfl
  | cons x xs ih =>
    simp only [List.cons_append, oneByOne]
    cases t.one with
    | none => rfl
    | some p =>
      simp only [ih]
      cases oneByOne p.2 xs with
      | none => rfl
      | some q => simp only [Option.map_some, Option.map_map]; rfl

theorem ramp_steps {t : Taper α} (h : Sound t) (hr : t.ramping = true) {xs : List α} (hx : xs ≠ [])
    (hl : xs.length ≤ t.rise.length - t.pos) :
    oneByOne t xs = some (List.zipWith (· * ·) xs (((coeffs t).drop t.pos).take xs.length),
      if t.rise.length ≤ t.pos + xs.length then Taper.transition { t with pos := t.pos + xs.length }
      else { t with pos := t.pos + xs.length }) := by
  induction xs generalizing t with
  | nil => exact absurd rfl hx
  | cons x xs ih =>
    rw [List.length_cons] at hl
    have hp : t.pos < t.rise.length := by omega
    obtain ⟨v, hv, e⟩ := one_inside h hr hp
    rw [oneByOne, e]
    have hd : (coeffs t).drop t.pos = v :: (coeffs t).drop (t.pos + 1) := by
      obtain ⟨hlt, hv⟩ := List.getElem?_eq_some_iff.1 hv
      rw [List.drop_eq_getElem_cons hlt, hv]
    rw [hd, List.length_cons, List.take_succ_cons, List.zipWith_cons_cons]
    cases xs with
    | nil => simp [oneByOne]
    | cons y ys =>
      rw [List.length_cons] at hl
      rw [if_neg (by omega)]
      simp only
      have hs : Sound ({ t with pos := t.pos + 1 } : Taper α) := sound_pos h hp
      rw [ih hs hr (List.cons_ne_nil _ _) (by simp only [List.length_cons]; omega)]
      simp only [Option.map_some, List.length_cons, Nat.add_assoc, Nat.add_comm 1]
      rfl

theorem values_eq (t : Taper α) (n : Nat) : t.values n = oneByOne t (List.replicate n 1) := by
  induction n generalizing t with
  | zero => rfl
  | succ n ih =>
    rw [List.replicate_succ, Taper.values, oneByOne]
    cases t.one with
    | none => rfl
    | some p =>
      simp only [ih]
      have : (1 : α) * p.1 = p.1 := by grind
      rw [this]

theorem zip_ones (n : Nat) (l : List α) : List.zipWith (· * ·) (List.replicate n 1) (l.take n) = l.take n := by
  induction n generalizing l with
  | zero => simp
  | succ n ih =>
    cases l with
    | nil => simp
    | cons a l =>
      rw [List.replicate_succ, List.take_succ_cons, List.zipWith_cons_cons, ih]
      congr 1
      grind

/-- A ramp to its end. -/
theorem ramp_values {t : Taper α} (h : Sound t) (hr : t.ramping = true) (hp : t.pos < t.rise.length) :
    t.values (t.rise.length - t.pos) = some ((coeffs t).drop t.pos, Taper.transition t) := by
  rw [values_eq, ramp_steps h hr (by simp; omega) (by simp), zip_ones_len]
  · rw [List.length_replicate, if_pos (by omega)]; rfl
where
  zip_ones_len : List.zipWith (· * ·) (List.replicate (t.rise.length - t.pos) (1 : α))
      (((coeffs t).drop t.pos).take (List.replicate (t.rise.length - t.pos) (1 : α)).length) = (coeffs t).drop t.pos := by
    rw [List.length_replicate, zip_ones, List.take_of_length_le]
    rw [List.length_drop, coeffs_length h]; exact Nat.le_refl _

/-! ## blocks of samples -/

theorem oneByOne_off {t : Taper α} (h : t.phase = .off) (xs : List α) : oneByOne t xs = some (xs.map fun _ => 0, t) := by
  induction xs with
  | nil => rfl
  | cons x xs ih =>
    rw [oneByOne, one_off h]; simp only [ih, Option.map_some, List.map_cons]
    have : x * 0 = 0 := by grind
    rw [this]

theorem oneByOne_on {t : Taper α} (h : t.phase = .on) (xs : List α) : oneByOne t xs = some (xs, t) := by
  induction xs with
  | nil => rfl
  | cons x xs ih =>
    rw [oneByOne, one_on h]; simp only [ih, Option.map_some]
    have : x * 1 = x := by grind
    rw [this]

theorem bulk_ramp {n : Nat} {t : Taper α} {xs : List α} (hx : xs ≠ []) (hr : t.ramping = true) : Taper.bulk (n + 1) t xs =
    match t.applyRamp xs (coeffs t) with
    | none => none
    | some (ys, xs, t) => (Taper.bulk n t xs).map fun r => (ys ++ r.1, r.2) := by
  rw [Taper.bulk, if_neg hx]
  unfold coeffs
  rcases ramping_cases hr with h | h
  · simp only [h, if_true]; cases t.applyRamp xs t.rise <;> rfl
  · simp only [h, reduceCtorEq, if_false]; cases t.applyRamp xs t.fall <;> rfl

theorem applyRamp_eq {t : Taper α} (h : Sound t) (xs : List α) : t.applyRamp xs (coeffs t) =
    some (List.zipWith (· * ·) (xs.take (min (t.rise.length - t.pos) xs.length))
        (((coeffs t).drop t.pos).take (min (t.rise.length - t.pos) xs.length)),
      xs.drop (min (t.rise.length - t.pos) xs.length),
      if t.rise.length ≤ t.pos + min (t.rise.length - t.pos) xs.length
      then Taper.transition { t with pos := t.pos + min (t.rise.length - t.pos) xs.length }
      else { t with pos := t.pos + min (t.rise.length - t.pos) xs.length }) := by
  have h1 := h.pos
  have h2 := coeffs_length h
  unfold Taper.applyRamp Taper.len
  rw [if_neg (by omega)]
  simp only
  rw [if_neg (by omega)]

theorem bulk_inside (k : Nat) : ∀ (t : Taper α) (xs : List α) (n : Nat), xs.length ≤ k → Sound t → Inside t → xs.length < n →
    Taper.bulk n t xs = oneByOne t xs := by
  induction k with
  | zero =>
    intro t xs n hk _ _ hn
    have : xs = [] := List.length_eq_zero_iff.1 (by omega)
    subst this
    obtain ⟨n, rfl⟩ : ∃ m, n = m + 1 := ⟨n - 1, by simp at hn; omega⟩
    rw [Taper.bulk, if_pos rfl]; rfl
  | succ k ih =>
    intro t xs n hk h hi hn
    obtain ⟨n, rfl⟩ : ∃ m, n = m + 1 := ⟨n - 1, by omega⟩
    by_cases hx : xs = []
    · subst hx; rw [Taper.bulk, if_pos rfl]; rfl
    · rcases phase_cases t with hp | hp | hr
      · rw [Taper.bulk, if_neg hx, oneByOne_off hp]; simp only [hp]
      · rw [Taper.bulk, if_neg hx, oneByOne_on hp]; simp only [hp]
      · have hp := hi hr
        have hl : 0 < xs.length := List.length_pos_iff.2 hx
        rw [bulk_ramp hx hr, applyRamp_eq h]
        simp only
        generalize hc : min (t.rise.length - t.pos) xs.length = c
        have hc0 : 0 < c := by omega
        have hcx : c ≤ xs.length := by omega
        have hlen : (xs.take c).length = c := by rw [List.length_take]; omega
        have step := ramp_steps h hr (xs := xs.take c) (by intro hh; rw [hh] at hlen; simp at hlen; omega) (by omega)
        rw [hlen] at step
        have hs : Sound (if t.rise.length ≤ t.pos + c then Taper.transition { t with pos := t.pos + c } else { t with pos := t.pos + c }) ∧
            Inside (if t.rise.length ≤ t.pos + c then Taper.transition { t with pos := t.pos + c } else { t with pos := t.pos + c }) := by
          have hs : Sound ({ t with pos := t.pos + c } : Taper α) := sound_pos h (by omega)
          split
          · exact sound_transition hs hr
          · exact ⟨hs, fun _ => by show t.pos + c < t.rise.length; omega⟩
        rw [ih _ _ n (by rw [List.length_drop]; omega) hs.1 hs.2 (by rw [List.length_drop]; omega)]
        conv => rhs; rw [← List.take_append_drop c xs, oneByOne_append, step]

theorem bulk_end {t : Taper α} (h : Sound t) (hr : t.ramping = true) (hp : t.pos = t.rise.length) {xs : List α} (hx : xs ≠ [])
    (n : Nat) : Taper.bulk (n + 1) t xs = Taper.bulk n t.transition xs := by
  rw [bulk_ramp hx hr, applyRamp_eq h]
  have : min (t.rise.length - t.pos) xs.length = 0 := by omega
  simp only [this, List.take_zero, List.zipWith_nil_left, List.drop_zero, List.nil_append, Nat.add_zero]
  rw [if_pos (by omega)]
  cases Taper.bulk n t.transition xs <;> rfl

/-- Where the next sample is taken from. -/
def settle (t : Taper α) : Taper α := if t.ramping = true ∧ t.pos = t.rise.length then t.transition else t

theorem settle_sound {t : Taper α} (h : Sound t) : Sound (settle t) ∧ Inside (settle t) := by
  unfold settle
  split
  · rename_i hc; exact sound_transition h hc.1
  · rename_i hc
    refine ⟨h, fun hr => ?_⟩
    have := h.pos
    have : t.pos ≠ t.rise.length := fun e => hc ⟨hr, e⟩
    omega

theorem apply_eq {t : Taper α} (h : Sound t) {xs : List α} (hx : xs ≠ []) : t.apply xs = oneByOne (settle t) xs := by
  have hs := settle_sound h
  unfold Taper.apply
  rw [← bulk_inside xs.length (settle t) xs (2 * xs.length + 1) (Nat.le_refl _) hs.1 hs.2 (by omega)]
  by_cases hc : t.ramping = true ∧ t.pos = t.rise.length
  · rw [bulk_end h hc.1 hc.2 hx, settle, if_pos hc]
  · have : settle t = t := if_neg hc
    rw [this]
    rw [bulk_inside xs.length t xs _ (Nat.le_refl _) h (this ▸ hs.2) (by omega),
      bulk_inside xs.length t xs _ (Nat.le_refl _) h (this ▸ hs.2) (by omega)]

theorem oneByOne_sound (xs : List α) : ∀ {t : Taper α}, Sound t → ∃ ys t', oneByOne t xs = some (ys, t') ∧ Sound t' ∧
    (Inside t ∨ xs ≠ [] → Inside t') ∧ ys.length = xs.length := by
  induction xs with
  | nil => intro t h; exact ⟨[], t, rfl, h, fun hh => hh.elim id (fun c => absurd rfl c), rfl⟩
  | cons x xs ih =>
    intro t h
    obtain ⟨v, t', e, hs, hi, _⟩ := one_sound h
    obtain ⟨ys, t'', e', hs', hi', hl⟩ := ih hs
    refine ⟨x * v :: ys, t'', ?_, hs', fun _ => hi' (.inl hi), by simp [hl]⟩
    rw [oneByOne, e]; simp only [e']; rfl

end Verif.Taper
