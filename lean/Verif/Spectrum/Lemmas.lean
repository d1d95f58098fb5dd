import Verif.Spectrum.Model

/-! Helper lemmas for the spectra. -/

namespace Verif.Spectrum

theorem rotate_get {α : Type} (l : List α) (h i : Nat) (hh : h ≤ l.length) (hi : i < l.length) :
    (rotate l h)[i]? = l[(i + h) % l.length]? := by
  unfold rotate
  by_cases hc : i < l.length - h
  · rw [List.getElem?_append_left (by simpa using hc), List.getElem?_drop, Nat.mod_eq_of_lt (by omega), Nat.add_comm]
  · rw [List.getElem?_append_right (by simp; omega), List.length_drop, List.getElem?_take_of_lt (by omega)]
    congr 1
    rw [show i + h = (i - (l.length - h)) + l.length by omega, Nat.add_mod_right, Nat.mod_eq_of_lt (by omega)]

theorem rotate_length {α : Type} (l : List α) (h : Nat) (hh : h ≤ l.length) : (rotate l h).length = l.length := by
  simp [rotate]
  omega

theorem down_done (pi prev : Rat) (hpi : 0 < pi) (fuel : Nat) : ∀ cur, cur - prev ≤ 2 * pi * fuel + pi →
    down pi prev fuel cur - prev ≤ pi ∧ ∃ k : Nat, down pi prev fuel cur = cur - 2 * pi * k := by
  induction fuel with
  | zero =>
    intro cur h
    have e : ((0 : Nat) : Rat) = 0 := rfl
    rw [e] at h
    exact ⟨by unfold down; grind, 0, by unfold down; rw [e]; grind⟩
  | succ fuel ih =>
    intro cur h
    rw [Rat.natCast_add] at h
    have e : ((1 : Nat) : Rat) = 1 := rfl
    rw [e] at h
    unfold down
    by_cases hc : cur - prev > pi
    · rw [if_pos hc]
      obtain ⟨h1, k, hk⟩ := ih (cur - 2 * pi) (by grind)
      exact ⟨h1, k + 1, by rw [hk, Rat.natCast_add, e]; grind⟩
    · rw [if_neg hc]
      refine ⟨by grind, 0, ?_⟩
      have e0 : ((0 : Nat) : Rat) = 0 := rfl
      rw [e0]; grind

theorem up_done (pi prev : Rat) (hpi : 0 < pi) (fuel : Nat) : ∀ cur, prev - cur ≤ 2 * pi * fuel + pi → cur - prev ≤ pi →
    up pi prev fuel cur - prev ≤ pi ∧ -pi ≤ up pi prev fuel cur - prev ∧ ∃ k : Nat, up pi prev fuel cur = cur + 2 * pi * k := by
  induction fuel with
  | zero =>
    intro cur h h'
    have e : ((0 : Nat) : Rat) = 0 := rfl
    rw [e] at h
    refine ⟨by unfold up; grind, by unfold up; grind, 0, by unfold up; rw [e]; grind⟩
  | succ fuel ih =>
    intro cur h h'
    rw [Rat.natCast_add] at h
    have e : ((1 : Nat) : Rat) = 1 := rfl
    rw [e] at h
    unfold up
    by_cases hc : cur - prev < -pi
    · rw [if_pos hc]
      obtain ⟨h1, h2, k, hk⟩ := ih (cur + 2 * pi) (by grind) (by grind)
      exact ⟨h1, h2, k + 1, by rw [hk, Rat.natCast_add, e]; grind⟩
    · rw [if_neg hc]
      refine ⟨h', by grind, 0, ?_⟩
      have e0 : ((0 : Nat) : Rat) = 0 := rfl
      rw [e0]; grind

theorem passes_enough (pi d : Rat) (hpi : 0 < pi) : d ≤ 2 * pi * passes pi d + pi := by
  have h2 : 0 < 2 * pi := by grind
  have hlt := Rat.lt_floor_add_one (d / (2 * pi))
  have hle : (((d / (2 * pi)).floor + 1 : Int) : Rat) ≤ ((passes pi d : Nat) : Rat) := by
    have : ((passes pi d : Nat) : Rat) = (((passes pi d : Nat) : Int) : Rat) := rfl
    rw [this, Rat.intCast_le_intCast]
    unfold passes
    omega
  have h3 : d / (2 * pi) ≤ ((passes pi d : Nat) : Rat) := by grind
  have h4 := Rat.mul_le_mul_of_nonneg_right h3 (Rat.le_of_lt h2)
  rw [Rat.div_mul_cancel (by grind)] at h4
  grind

theorem unwrap1_spec (pi prev cur : Rat) (hpi : 0 < pi) :
    (∃ k : Int, unwrap1 pi prev cur = cur + 2 * pi * k) ∧ unwrap1 pi prev cur - prev ≤ pi ∧ -pi ≤ unwrap1 pi prev cur - prev := by
  unfold unwrap1
  dsimp only
  obtain ⟨d1, k, hk⟩ := down_done pi prev hpi (passes pi (cur - prev)) cur (passes_enough pi _ hpi)
  generalize down pi prev (passes pi (cur - prev)) cur = c at d1 hk
  obtain ⟨u1, u2, j, hj⟩ := up_done pi prev hpi (passes pi (prev - c)) c (passes_enough pi _ hpi) d1
  refine ⟨⟨(j : Int) - k, ?_⟩, u1, u2⟩
  rw [hj, hk, Rat.intCast_sub]
  have e1 : ((j : Int) : Rat) = (j : Rat) := rfl
  have e2 : ((k : Int) : Rat) = (k : Rat) := rfl
  rw [e1, e2]
  grind

theorem unwrapRest_length (pi : Rat) (l : List Rat) : ∀ prev, (unwrapRest pi prev l).length = l.length := by
  induction l with
  | nil => intro _; rfl
  | cons c cs ih => intro prev; simp [unwrapRest, ih]

theorem unwrapRest_spec (pi : Rat) (hpi : 0 < pi) (l : List Rat) : ∀ (prev : Rat) (i : Nat) (v : Rat), l[i]? = some v →
    ∃ u, (unwrapRest pi prev l)[i]? = some u ∧ (∃ k : Int, u = v + 2 * pi * k) ∧
      ∃ p, (prev :: unwrapRest pi prev l)[i]? = some p ∧ u - p ≤ pi ∧ -pi ≤ u - p := by
  induction l with
  | nil => intro _ i v h; simp at h
  | cons c cs ih =>
    intro prev i v h
    have hs := unwrap1_spec pi prev c hpi
    cases i with
    | zero =>
      simp only [List.getElem?_cons_zero, Option.some.injEq] at h
      subst h
      exact ⟨_, rfl, hs.1, prev, rfl, hs.2⟩
    | succ i =>
      rw [List.getElem?_cons_succ] at h
      obtain ⟨u, h1, h2, p, h3, h4⟩ := ih (unwrap1 pi prev c) i v h
      exact ⟨u, by rw [unwrapRest, List.getElem?_cons_succ]; exact h1, h2, p, by rw [unwrapRest, List.getElem?_cons_succ]; exact h3, h4⟩

theorem minmax_fold (vs : List Rat) : ∀ (a b : Rat), a ≤ b →
    let r := vs.foldl (fun m x => (if x < m.1 then x else m.1, if x < m.2 then m.2 else x)) (a, b)
    r.1 ≤ a ∧ b ≤ r.2 ∧ (r.1 = a ∨ r.1 ∈ vs) ∧ (r.2 = b ∨ r.2 ∈ vs) ∧ ∀ x ∈ vs, r.1 ≤ x ∧ x ≤ r.2 := by
  induction vs with
  | nil => intro a b _; simp
  | cons x xs ih =>
    intro a b hab
    dsimp only [List.foldl_cons]
    have hab' : (if x < a then x else a) ≤ (if x < b then b else x) := by split <;> split <;> grind
    have h := ih (if x < a then x else a) (if x < b then b else x) hab'
    dsimp only at h
    generalize List.foldl _ _ xs = r at h ⊢
    obtain ⟨h1, h2, h3, h4, h5⟩ := h
    have q1 : (if x < a then x else a) ≤ a ∧ (if x < a then x else a) ≤ x ∧ ((if x < a then x else a) = a ∨ (if x < a then x else a) = x) := by
      split <;> grind
    have q2 : b ≤ (if x < b then b else x) ∧ x ≤ (if x < b then b else x) ∧ ((if x < b then b else x) = b ∨ (if x < b then b else x) = x) := by
      split <;> grind
    refine ⟨by grind, by grind, ?_, ?_, ?_⟩
    · rcases h3 with h3 | h3
      · rcases q1.2.2 with q | q
        · exact .inl (h3.trans q)
        · exact .inr (by rw [h3, q]; exact List.mem_cons_self)
      · exact .inr (List.mem_cons_of_mem _ h3)
    · rcases h4 with h4 | h4
      · rcases q2.2.2 with q | q
        · exact .inl (h4.trans q)
        · exact .inr (by rw [h4, q]; exact List.mem_cons_self)
      · exact .inr (List.mem_cons_of_mem _ h4)
    · intro y hy
      rcases List.mem_cons.1 hy with rfl | hy
      · exact ⟨by grind, by grind⟩
      · exact h5 y hy

theorem minmax_spec (l : List Rat) (a b : Rat) (h : minmax l = some (a, b)) : a ∈ l ∧ b ∈ l ∧ ∀ x ∈ l, a ≤ x ∧ x ≤ b := by
  cases l with
  | nil => simp [minmax] at h
  | cons v vs =>
    have hf := minmax_fold vs v v Rat.le_refl
    simp only [minmax, Option.some.injEq] at h
    dsimp only at hf
    rw [h] at hf
    obtain ⟨h1, h2, h3, h4, h5⟩ := hf
    dsimp only at h1 h2 h3 h4 h5
    refine ⟨List.mem_cons.2 h3, List.mem_cons.2 h4, ?_⟩
    intro x hx
    rcases List.mem_cons.1 hx with rfl | hx
    · exact ⟨h1, h2⟩
    · exact h5 x hx

end Verif.Spectrum
