import Verif.Taper.Lemmas
/-! # Helper lemmas: what comes out -/
namespace Verif.Taper
open Spec

variable {α : Type} [Lean.Grind.CommRing α]

theorem fresh_sound (rise fall : List α) (h : fall.length = rise.length) : Sound (fresh rise fall) :=
  ⟨h, Nat.zero_le _, fun h => by simp [fresh, Taper.ramping] at h, fun _ => rfl, fun h => nomatch h⟩

theorem op_sound {t : Taper α} (h : Sound t) (o : Op α) (ho : EvenOp o) : ∃ t', t.op o = some t' ∧ Sound t' := by
  cases o with
  | set on force => exact ⟨_, rfl, (set_sound h on force).1⟩
  | one =>
    obtain ⟨v, t', e, hs, _⟩ := one_sound h
    exact ⟨t', by simp only [Taper.op, e]; rfl, hs⟩
  | apply xs =>
    by_cases hx : xs = []
    · subst hx; exact ⟨t, rfl, h⟩
    · obtain ⟨ys, t', e, hs, _⟩ := oneByOne_sound xs (settle_sound h).1
      exact ⟨t', by simp only [Taper.op, apply_eq h hx, e]; rfl, hs⟩
  | reset => exact ⟨_, rfl, h.even, Nat.zero_le _, fun h => by simp [Taper.reset, Taper.ramping] at h, fun _ => rfl, fun h => nomatch h⟩
  | configure rise fall =>
    exact ⟨_, rfl, ho, Nat.zero_le _, fun h => by simp [Taper.configure, Taper.reset, Taper.ramping] at h, fun _ => rfl, fun h => nomatch h⟩

theorem ops_sound (os : List (Op α)) (ho : ∀ o ∈ os, EvenOp o) : ∀ {t : Taper α}, Sound t → ∃ t', t.ops os = some t' ∧ Sound t' := by
  induction os with
  | nil => intro t h; exact ⟨t, rfl, h⟩
  | cons o os ih =>
    intro t h
    obtain ⟨t', e, hs⟩ := op_sound h o (ho o List.mem_cons_self)
    obtain ⟨t'', e', hs'⟩ := ih (fun x hx => ho x (List.mem_cons_of_mem _ hx)) hs
    exact ⟨t'', by rw [Taper.ops, e]; exact e', hs'⟩

/-- What may come out of a state. -/
def From (t : Taper α) (e : List α) : Prop :=
  match t.phase with
  | .off => FromOff t.rise t.fall e
  | .on => FromOn t.rise t.fall e
  | .up => e <+: t.rise.drop t.pos ∨ ∃ e', e = t.rise.drop t.pos ++ e' ∧ FromOn t.rise t.fall e'
  | .down => e <+: t.fall.drop t.pos ∨ ∃ e', e = t.fall.drop t.pos ++ e' ∧ FromOff t.rise t.fall e'

theorem from_transition {t : Taper α} (hr : t.ramping = true) {e : List α} (h : From t.transition e) :
    if t.phase = .up then FromOn t.rise t.fall e else FromOff t.rise t.fall e := by
  unfold From Taper.transition at h
  rcases ramping_cases hr with hp | hp <;> cases ht : t.target <;> simp [hp, ht] at h ⊢
  · rcases h with h | ⟨e', he, h⟩
    · exact .part h
    · exact he ▸ .ramp h
  · exact h
  · exact h
  · rcases h with h | ⟨e', he, h⟩
    · exact .part h
    · exact he ▸ .ramp h

theorem from_one {t t' : Taper α} (h : Sound t) (hi : Inside t) {v : α} {e : List α} (ho : t.one = some (v, t')) (he : From t' e) :
    From t (v :: e) := by
  rcases phase_cases t with hp | hp | hr
  · rw [one_off hp] at ho
    injection ho with ho; injection ho with h1 h2
    subst h1; subst h2
    unfold From at he ⊢; rw [hp] at he ⊢
    exact .zero he
  · rw [one_on hp] at ho
    injection ho with ho; injection ho with h1 h2
    subst h1; subst h2
    unfold From at he ⊢; rw [hp] at he ⊢
    exact .one he
  · obtain ⟨v', hv, e1⟩ := one_inside h hr (hi hr)
    rw [e1] at ho
    injection ho with ho; injection ho with h1 h2
    subst h1; subst h2
    obtain ⟨hlt, hv⟩ := List.getElem?_eq_some_iff.1 hv
    have hd : (coeffs t).drop t.pos = v' :: (coeffs t).drop (t.pos + 1) := by
      rw [List.drop_eq_getElem_cons hlt, hv]
    by_cases hc : t.rise.length ≤ t.pos + 1
    · rw [if_pos hc] at he
      have hn : (coeffs t).drop (t.pos + 1) = [] := List.drop_eq_nil_of_le (by rw [coeffs_length h]; exact hc)
      rw [hn] at hd
      have hf := from_transition (t := { t with pos := t.pos + 1 }) hr he
      unfold From
      rcases ramping_cases hr with hp | hp <;> simp only [hp, coeffs, if_true, reduceCtorEq, if_false] at hd hf ⊢
      · exact .inr ⟨e, by rw [hd]; rfl, hf⟩
      · exact .inr ⟨e, by rw [hd]; rfl, hf⟩
    · rw [if_neg hc] at he
      unfold From at he ⊢
      rcases ramping_cases hr with hp | hp <;> simp only [hp, coeffs, if_true, reduceCtorEq, if_false] at hd he ⊢
      all_goals
        rw [hd]
        rcases he with he | ⟨e', he, hf⟩
        · exact .inl (List.cons_prefix_cons.2 ⟨rfl, he⟩)
        · exact .inr ⟨e', by rw [he]; rfl, hf⟩

theorem from_set {t : Taper α} (h : Sound t) (on : Bool) {e : List α} (he : From (t.setTarget on false).1 e) : From t e := by
  have hev := h.even
  obtain ⟨ph, pos, tg, r, f⟩ := t
  unfold From at he ⊢
  by_cases hl : r.length = 0
  · have hr0 : r = [] := List.length_eq_zero_iff.1 hl
    have hf0 : f = [] := List.length_eq_zero_iff.1 (hev.trans hl)
    subst hr0; subst hf0
    cases ph <;> cases on <;> simp [Taper.setTarget, Taper.startRamp, Taper.len] at he ⊢
    · exact he
    · exact FromOff.ramp he
    · exact he
    · exact he
    · exact FromOn.ramp he
    · exact he
    · exact he
    · exact he
  · cases ph <;> cases on <;> simp [Taper.setTarget, Taper.startRamp, Taper.len, hl] at he ⊢
    · exact he
    · rcases he with he | ⟨e', he, h2⟩
      · exact .part he
      · rw [he]; exact FromOff.ramp h2
    · exact he
    · exact he
    · rcases he with he | ⟨e', he, h2⟩
      · exact .part he
      · rw [he]; exact FromOn.ramp h2
    · exact he
    · exact he
    · exact he

theorem from_nil (t : Taper α) : From t [] := by
  unfold From
  cases t.phase with
  | off => exact .stop
  | on => exact .stop
  | up => exact .inl (List.nil_prefix)
  | down => exact .inl (List.nil_prefix)

theorem values_from (n : Nat) : ∀ {t : Taper α}, Sound t → Inside t → ∃ vs t', t.values n = some (vs, t') ∧ Sound t' ∧ Inside t' ∧
    t'.rise = t.rise ∧ t'.fall = t.fall ∧ t'.target = t.target ∧ vs.length = n ∧ ∀ e, From t' e → From t (vs ++ e) := by
  induction n with
  | zero => intro t h hi; exact ⟨[], t, rfl, h, hi, rfl, rfl, rfl, rfl, fun e he => he⟩
  | succ n ih =>
    intro t h hi
    obtain ⟨v, t1, e1, hs, hi1, ht, hr, hf⟩ := one_sound h
    obtain ⟨vs, t2, e2, hs2, hi2, hr2, hf2, ht2, hl, hfrom⟩ := ih hs hi1
    refine ⟨v :: vs, t2, ?_, hs2, hi2, hr2.trans hr, hf2.trans hf, ht2.trans ht, by simp [hl], fun e he => ?_⟩
    · rw [Taper.values, e1]; simp only [e2]; rfl
    · exact from_one h hi e1 (hfrom e he)

theorem requests_from (rs : List (Bool × Nat)) : ∀ {t : Taper α}, Sound t → Inside t → ∃ vs t', t.requests rs = some (vs, t') ∧
    From t vs := by
  induction rs with
  | nil => intro t _ _; exact ⟨[], t, rfl, from_nil t⟩
  | cons r rs ih =>
    obtain ⟨on, n⟩ := r
    intro t h hi
    obtain ⟨vs, t1, e1, hs, hi1, _, _, _, _, hf⟩ := values_from n (set_sound h on false).1 (set_inside h hi on)
    obtain ⟨us, t2, e2, hf2⟩ := ih hs hi1
    refine ⟨vs ++ us, t2, ?_, from_set h on (hf us hf2)⟩
    rw [Taper.requests, e1]; simp only [e2]; rfl

/-- How many samples it takes at most to be where the target says. -/
def toGo (t : Taper α) : Nat :=
  match t.phase with
  | .off => 0
  | .on => 0
  | .up => max 1 (t.rise.length - t.pos) + if t.target then 0 else t.rise.length
  | .down => max 1 (t.rise.length - t.pos) + if t.target then t.rise.length else 0

theorem one_toGo {t t' : Taper α} (h : Sound t) {v : α} (ho : t.one = some (v, t')) : toGo t' ≤ toGo t - 1 := by
  rcases phase_cases t with hp | hp | hr
  · rw [one_off hp] at ho; injection ho with ho; injection ho with _ h2; subst h2; simp [toGo, hp]
  · rw [one_on hp] at ho; injection ho with ho; injection ho with _ h2; subst h2; simp [toGo, hp]
  · have hl := h.ramp hr
    have htr : ∀ p, t.rise.length ≤ p → toGo (Taper.transition { t with pos := p }) ≤ toGo t - 1 := by
      intro p _
      unfold toGo Taper.transition
      rcases ramping_cases hr with hp | hp <;> cases ht : t.target <;> simp [hp, ht] <;> omega
    by_cases hp : t.pos < t.rise.length
    · obtain ⟨v', _, e⟩ := one_inside h hr hp
      rw [e] at ho
      injection ho with ho; injection ho with _ h2; subst h2
      split
      · rename_i hc; exact htr _ hc
      · unfold toGo
        rcases ramping_cases hr with hq | hq <;> simp only [hq] <;> omega
    · rw [one_end hr (Nat.not_lt.1 hp)] at ho
      injection ho with ho; injection ho with _ h2; subst h2
      exact htr t.pos (Nat.not_lt.1 hp)

theorem values_toGo (n : Nat) : ∀ {t : Taper α}, Sound t → ∃ vs t', t.values n = some (vs, t') ∧ Sound t' ∧
    t'.target = t.target ∧ toGo t' ≤ toGo t - n := by
  induction n with
  | zero => intro t h; exact ⟨[], t, rfl, h, rfl, Nat.le_refl _⟩
  | succ n ih =>
    intro t h
    obtain ⟨v, t1, e1, hs, _, ht, _, _⟩ := one_sound h
    obtain ⟨vs, t2, e2, hs2, ht2, hg⟩ := ih hs
    have := one_toGo h e1
    refine ⟨v :: vs, t2, ?_, hs2, ht2.trans ht, by omega⟩
    rw [Taper.values, e1]; simp only [e2]; rfl

theorem toGo_zero {t : Taper α} (h : Sound t) (hz : toGo t = 0) : t.phase = if t.target then .on else .off := by
  unfold toGo at hz
  cases hp : t.phase with
  | off => rw [h.off hp]; rfl
  | on => rw [h.on hp]; rfl
  | up => rw [hp] at hz; simp only at hz; omega
  | down => rw [hp] at hz; simp only at hz; omega

theorem toGo_le {t : Taper α} (h : Sound t) : toGo t ≤ 2 * t.rise.length := by
  unfold toGo
  cases hp : t.phase with
  | off => simp
  | on => simp
  | up =>
    have hl := h.ramp (by simp [Taper.ramping, hp])
    simp only; split <;> omega
  | down =>
    have hl := h.ramp (by simp [Taper.ramping, hp])
    simp only; split <;> omega

theorem mushroom_partial_sum (m : Rat) (h : m ≠ 0) (k : Nat) :
    2 * m ^ 4 * ((List.range k).map fun (i : Nat) => riseMushroom ((i : Rat) * (1 / m))).sum =
      -4 * m ^ 2 * ((k : Rat) - 1) * k * (2 * k - 1) + 14 * m * ((k : Rat) - 1) ^ 2 * k ^ 2
        - ((k : Rat) - 1) * k * (2 * k - 1) * (3 * (k : Rat) ^ 2 - 3 * k - 1) := by
  induction k with
  | zero => simp; grind
  | succ k ih =>
    rw [List.range_succ, List.map_append, List.sum_append, Rat.mul_add, ih]
    have hk : ((k + 1 : Nat) : Rat) = (k : Rat) + 1 := by exact_mod_cast rfl
    have hg : m ^ 4 * riseMushroom ((k : Rat) * (1 / m)) = -12 * m ^ 2 * (k : Rat) ^ 2 + 28 * m * (k : Rat) ^ 3 - 15 * (k : Rat) ^ 4 := by
      simp only [riseMushroom]
      have : m * (1 / m) = 1 := by grind
      generalize 1 / m = w at this
      grind
    simp only [List.map_cons, List.map_nil, List.sum_cons, List.sum_nil, hk]
    grind

end Verif.Taper
