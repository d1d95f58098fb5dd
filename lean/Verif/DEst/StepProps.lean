import Verif.DEst.Step
import Verif.DEst.ShapeProps

/-!
# C157: step starts and settling times
-/

namespace Verif.DEst

open Verif.DSet (Res)

/-- `m` is the greatest value of the first `hi` samples. -/
def IsGreatest (ys : List Rat) (hi : Nat) (m : Rat) : Prop :=
  (∃ j, j < hi ∧ ys[j]? = some m) ∧ ∀ (j : Nat) v, j < hi → ys[j]? = some v → v ≤ m

/-- `m` is the least value of the first `hi` samples. -/
def IsLeast (ys : List Rat) (hi : Nat) (m : Rat) : Prop :=
  (∃ j, j < hi ∧ ys[j]? = some m) ∧ ∀ (j : Nat) v, j < hi → ys[j]? = some v → m ≤ v

theorem map_some_get (ys : List Rat) (j : Nat) (v : Rat) : (ys.map some)[j]? = some (some v) ↔ ys[j]? = some v := by
  rw [List.getElem?_map]
  cases ys[j]? <;> simp

theorem maximum_is (lowest : Rat) (ys : List Rat) (hi : Nat) (m : Rat) (h : IsGreatest ys hi m) (hh : 0 < hi)
    (hlow : ∀ v ∈ ys, lowest < v) : ∃ i, getMaximum lowest (ys.map some) 0 hi = some (i, some m) := by
  obtain ⟨h1, h2⟩ := maximum_spec lowest (ys.map some) 0 hi hh (by
    intro v hv
    simp only [List.mem_map, Option.some.injEq, exists_eq_right] at hv
    exact hlow v hv)
  obtain ⟨⟨j, j1, j2⟩, hb⟩ := h
  cases hc : getMaximum lowest (ys.map some) 0 hi with
  | none => exact absurd ((map_some_get ys j m).2 j2) (h1.1 hc j m (by omega) j1)
  | some r =>
    obtain ⟨i, m'⟩ := r
    obtain ⟨v, rfl, _, i2, i3, i4, _⟩ := h2 i m' hc
    have e1 := i4 j m (by omega) j1 ((map_some_get ys j m).2 j2)
    have e2 := hb i v i2 ((map_some_get ys i v).1 i3)
    exact ⟨i, by rw [Rat.le_antisymm e1 e2]⟩

theorem minimum_is (highest : Rat) (ys : List Rat) (hi : Nat) (m : Rat) (h : IsLeast ys hi m) (hh : 0 < hi)
    (hhigh : ∀ v ∈ ys, v ≤ highest) : ∃ i, getMinimum highest (ys.map some) 0 hi = some (i, some m) := by
  obtain ⟨h1, h2⟩ := minimum_spec_partial highest (ys.map some) 0 hi hh (by
    intro v hv
    simp only [List.mem_map, Option.some.injEq, exists_eq_right] at hv
    exact hhigh v hv)
  obtain ⟨⟨j, j1, j2⟩, hb⟩ := h
  cases hc : getMinimum highest (ys.map some) 0 hi with
  | none => exact absurd ((map_some_get ys j m).2 j2) (h1.1 hc j m (by omega) j1)
  | some r =>
    obtain ⟨i, m'⟩ := r
    obtain ⟨⟨v, rfl, ⟨k, _, k2, k3⟩, i4⟩, _⟩ := h2 i m' hc
    have e1 := i4 j m (by omega) j1 ((map_some_get ys j m).2 j2)
    have e2 := hb k v k2 ((map_some_get ys k v).1 k3)
    exact ⟨i, by rw [Rat.le_antisymm e2 e1]⟩

theorem lower_bound_is (xs : List Rat) (n : Nat) (x0 x1 p : Rat) (h0 : 0 < n) (e0 : xs[n - 1]? = some x0) (e1 : xs[n]? = some x1)
    (mono : xs.Pairwise (· < ·)) (hp : x0 < p) (hp1 : p ≤ x1) : (xs.findIdx fun x => !decide (x < p)) = n := by
  obtain ⟨l1, rfl⟩ := List.getElem?_eq_some_iff.1 e1
  obtain ⟨l0, rfl⟩ := List.getElem?_eq_some_iff.1 e0
  rw [List.findIdx_eq l1]
  refine ⟨?_, fun j hj => ?_⟩
  · have : ¬ xs[n] < p := by grind
    simp [this]
  · have : xs[j] < p := by
      by_cases e : j = n - 1
      · subst e; exact hp
      · have := List.pairwise_iff_getElem.1 mono j (n - 1) (by omega) l0 (by omega)
        grind
    simp [this]

theorem start_common (xs ys : List Rat) (y : Rat) (rest : List Rat) (level : Rat) (hi : Nat) (he : ys = y :: rest) (hy : y ≠ level)
    (hh : 0 < hi) (hhi : hi ≤ ys.length) (hl : ys.length = xs.length) (mono : xs.Pairwise (· < ·))
    (hcross : ∃ j v, j < hi ∧ ys[j]? = some v ∧ ¬ ((v < level ↔ y < level) ∧ v ≠ level)) :
    ∃ n p y1, 0 < n ∧ n < hi ∧ getZeroCrossing xs (ys.map some) level 0 hi = some p ∧
      (xs.findIdx fun x => !decide (x < p)) = n ∧ ys[n]? = some y1 ∧ ((y1 < level ↔ ¬ y < level) ∨ y1 = level) ∧
      ∀ (j : Nat) v, j < n → ys[j]? = some v → (v < level ↔ y < level) ∧ v ≠ level := by
  rcases crossing_spec_partial xs ys level y rest hi he hy hh hhi hl (mono.imp Rat.le_of_lt) with
    ⟨n, x0, x1, y0, y1, p, n0, n1, f0, f1, e0, e1, hb, hs, hp, b1, b2, hline⟩ | ⟨hall, _⟩
  · refine ⟨n, p, y1, n0, n1, hp, lower_bound_is xs n x0 x1 p n0 f0 f1 mono ?_ b2, e1, hs, hb⟩
    have hx : x0 < x1 := by
      obtain ⟨l0, rfl⟩ := List.getElem?_eq_some_iff.1 f0
      obtain ⟨l1, rfl⟩ := List.getElem?_eq_some_iff.1 f1
      exact List.pairwise_iff_getElem.1 mono _ _ l0 l1 (by omega)
    have h0 := hb (n - 1) y0 (by omega) e0
    have hd : level - y0 ≠ 0 := by grind
    have hne : p ≠ x0 := by
      intro e
      rw [e] at hline
      have hz : (level - y0) * (x1 - x0) = 0 := by rw [← hline]; grind
      rcases Rat.mul_eq_zero.1 hz with h | h
      · exact hd h
      · grind
    grind
  · obtain ⟨j, v, h1, h2, h3⟩ := hcross
    exact absurd (hall j v h1 h2) h3

/-- **A rising step** starts at the first sample that has gone the wanted share of the way from the first sample to the greatest. -/
theorem step_rising (lowest highest : Rat) (xs ys : List Rat) (y : Rat) (rest : List Rat) (th mx mn : Rat) (hi : Nat)
    (he : ys = y :: rest) (hh : 0 < hi) (hhi : hi ≤ ys.length) (hl : ys.length = xs.length) (mono : xs.Pairwise (· < ·))
    (hr : ∀ v ∈ ys, lowest < v ∧ v ≤ highest) (hmx : IsGreatest ys hi mx) (hmn : IsLeast ys hi mn) (ht0 : 0 < th) (ht1 : th ≤ 1)
    (hup : y < mx) :
    ∃ n v, detectStepStart lowest highest xs ys th 0 hi = .ok (some (n, true)) ∧ n < hi ∧ ys[n]? = some v ∧
      y + th * (mx - y) ≤ v ∧ ∀ (j : Nat) w, j < n → ys[j]? = some w → w < y + th * (mx - y) := by
  have hd : 0 < mx - y := by grind
  have hpos : 0 < th * (mx - y) := Rat.mul_pos ht0 hd
  have hle : th * (mx - y) ≤ 1 * (mx - y) := Rat.mul_le_mul_of_nonneg_right ht1 (Rat.le_of_lt hd)
  obtain ⟨j, j1, j2⟩ := hmx.1
  have hylt : y < y + th * (mx - y) := by grind
  obtain ⟨n, p, y1, n0, n1, hz, hf, e1, hs, hb⟩ := start_common xs ys y rest (y + th * (mx - y)) hi he (by grind) hh hhi hl mono
    ⟨j, mx, j1, j2, by grind⟩
  obtain ⟨_, hM⟩ := maximum_is lowest ys hi mx hmx hh fun v hv => (hr v hv).1
  obtain ⟨_, hN⟩ := minimum_is highest ys hi mn hmn hh fun v hv => (hr v hv).2
  refine ⟨n, y1, ?_, n1, e1, by grind, fun j w hj hw => by have := hb j w hj hw; grind⟩
  subst he
  unfold detectStepStart
  rw [hM, hN]
  dsimp only
  rw [show decide (y < mx) = true by simp [hup]]
  simp only [Bool.not_true, Bool.false_and, Bool.false_eq_true, if_false, if_true, hz, hf]
  rw [if_neg (by omega), if_neg (by omega)]

/-- **A falling step** whose first sample is the greatest starts at the first sample that has gone the wanted share of the way down. -/
theorem step_falling_partial (lowest highest : Rat) (xs ys : List Rat) (y : Rat) (rest : List Rat) (th mn : Rat) (hi : Nat)
    (he : ys = y :: rest) (hh : 0 < hi) (hhi : hi ≤ ys.length) (hl : ys.length = xs.length) (mono : xs.Pairwise (· < ·))
    (hr : ∀ v ∈ ys, lowest < v ∧ v ≤ highest) (hmx : IsGreatest ys hi y) (hmn : IsLeast ys hi mn) (ht0 : 0 < th) (ht1 : th ≤ 1)
    (hdown : mn < y) :
    ∃ n v, detectStepStart lowest highest xs ys th 0 hi = .ok (some (n, false)) ∧ n < hi ∧ ys[n]? = some v ∧
      v ≤ y - th * (y - mn) ∧ ∀ (j : Nat) w, j < n → ys[j]? = some w → y - th * (y - mn) < w := by
  have hd : 0 < y - mn := by grind
  have hpos : 0 < th * (y - mn) := Rat.mul_pos ht0 hd
  have hle : th * (y - mn) ≤ 1 * (y - mn) := Rat.mul_le_mul_of_nonneg_right ht1 (Rat.le_of_lt hd)
  obtain ⟨j, j1, j2⟩ := hmn.1
  have hylt : y - th * (y - mn) < y := by grind
  obtain ⟨n, p, y1, n0, n1, hz, hf, e1, hs, hb⟩ := start_common xs ys y rest (y - th * (y - mn)) hi he (by grind) hh hhi hl mono
    ⟨j, mn, j1, j2, by grind⟩
  obtain ⟨_, hM⟩ := maximum_is lowest ys hi y hmx hh fun v hv => (hr v hv).1
  obtain ⟨_, hN⟩ := minimum_is highest ys hi mn hmn hh fun v hv => (hr v hv).2
  refine ⟨n, y1, ?_, n1, e1, by grind, fun j w hj hw => by have := hb j w hj hw; grind⟩
  subst he
  unfold detectStepStart
  rw [hM, hN]
  dsimp only
  rw [show decide (y < y) = false by simp, show decide (y > mn) = true by simp; exact hdown]
  simp only [Bool.not_false, Bool.not_true, Bool.true_and, Bool.false_eq_true, if_false, hz, hf]
  rw [if_neg (by omega), if_neg (by omega)]

/-- A signal that stays at its first value has no step. -/
theorem step_flat (lowest highest : Rat) (xs ys : List Rat) (y : Rat) (rest : List Rat) (th : Rat) (hi : Nat) (he : ys = y :: rest)
    (hh : 0 < hi) (hr : ∀ v ∈ ys, lowest < v ∧ v ≤ highest) (hmx : IsGreatest ys hi y) (hmn : IsLeast ys hi y) :
    detectStepStart lowest highest xs ys th 0 hi = .ok none := by
  obtain ⟨_, hM⟩ := maximum_is lowest ys hi y hmx hh fun v hv => (hr v hv).1
  obtain ⟨_, hN⟩ := minimum_is highest ys hi y hmn hh fun v hv => (hr v hv).2
  subst he
  unfold detectStepStart
  rw [hM, hN]
  dsimp only
  rw [show decide (y < y) = false by simp]
  rfl

example : detectStepStart (-1000) 1000 [0, 1, 2, 3, 4] [0, 1, 4, 9, 10] (1 / 2) 0 5 = .ok (some (3, true)) ∧
    detectStepStart (-1000) 1000 [0, 1, 2, 3, 4] [10, 9, 4, 1, 0] (1 / 2) 0 5 = .ok (some (2, false)) := by decide +kernel

/-- **Noise turns a falling step into a rising one**: one sample a little above the first one, and a fall from 10 to 0 is reported as a
rise at that sample. -/
theorem step_falling_noise :
    detectStepStart (-1000) 1000 [0, 1, 2, 3, 4] [10, 101 / 10, 10, 0, 0] (1 / 2) 0 5 = .ok (some (1, true)) := by decide +kernel

/-- In part of a signal the level of a falling step still counts from the first value of the whole signal, not from the greatest of
the part: the step is placed at the first sample at or after the place where the signal crosses this level. -/
theorem step_falling_part_partial (lowest highest : Rat) (xs ys : List Rat) (y : Rat) (rest : List Rat) (th mx mn t : Rat) (lo hi i j : Nat)
    (he : ys = y :: rest) (hM : getMaximum lowest (ys.map some) lo hi = some (i, some mx))
    (hN : getMinimum highest (ys.map some) lo hi = some (j, some mn)) (hmx : mx ≤ y) (hmn : mn < y)
    (hz : getZeroCrossing xs (ys.map some) (y - th * (y - mn)) lo hi = some t) (n : Nat) (xn : Rat) (hn : n < ys.length)
    (hxn : xs[n]? = some xn) (hge : t ≤ xn) (hlt : ∀ (k : Nat) x, k < n → xs[k]? = some x → x < t) :
    detectStepStart lowest highest xs ys th lo hi = .ok (some (n, false)) := by
  obtain ⟨ln, rfl⟩ := List.getElem?_eq_some_iff.1 hxn
  have hidx : (xs.findIdx fun x => !decide (x < t)) = n := by
    rw [List.findIdx_eq ln]
    refine ⟨?_, fun k hk => ?_⟩
    · have : ¬ xs[n] < t := by grind
      simp [this]
    · have := hlt k xs[k] hk (List.getElem?_eq_getElem (by omega))
      simp [this]
  have h1 : decide (y < mx) = false := by
    have : ¬ y < mx := by grind
    simp [this]
  have h2 : decide (y > mn) = true := by
    have : y > mn := hmn
    simp [this]
  subst he
  unfold detectStepStart
  rw [hM, hN]
  dsimp only
  rw [h1, h2]
  simp only [Bool.not_false, Bool.not_true, Bool.and_false, Bool.false_eq_true, if_false]
  rw [hz]
  dsimp only
  rw [hidx, if_neg (by omega), if_neg (by omega)]

example : detectStepStart (-1000) 1000 [0, 1, 2, 3, 4, 5] [20, 12, 12, 8, 2, 0] (1 / 2) 1 6 = .ok (some (3, false)) := by decide +kernel

/-! ### Settling -/

theorem settleScan_spec (ys : List (Option Rat)) (w : Nat) (tol : Rat) (htol : 0 ≤ tol) (hi fuel i : Nat) (hf : hi < fuel + i + w) :
    (settleScan ys w tol hi fuel i = none → ∀ j, i ≤ j → j + w ≤ hi → tol * tol < getRms2 ys j (j + w)) ∧
    ∀ s, settleScan ys w tol hi fuel i = some s → i ≤ s ∧ s + w ≤ hi ∧ getRms2 ys s (s + w) ≤ tol * tol ∧
      ∀ j, i ≤ j → j < s → tol * tol < getRms2 ys j (j + w) := by
  induction fuel generalizing i with
  | zero => exact ⟨fun _ j h1 h2 => by omega, by simp [settleScan]⟩
  | succ fuel ih =>
    rw [settleScan]
    by_cases h : i + w ≤ hi
    · rw [if_pos h]
      by_cases hr : getRms2 ys i (i + w) ≤ tol * tol
      · rw [if_pos ⟨htol, hr⟩]
        refine ⟨by simp, fun s hs => ?_⟩
        cases hs
        exact ⟨Nat.le_refl _, h, hr, fun j h1 h2 => by omega⟩
      · rw [if_neg (by simp [hr])]
        obtain ⟨a, b⟩ := ih (i + 1) (by omega)
        have hr' := Rat.not_le.1 hr
        refine ⟨fun hn j h1 h2 => ?_, fun s hs => ?_⟩
        · by_cases e : j = i
          · subst e; exact hr'
          · exact a hn j (by omega) h2
        · obtain ⟨c1, c2, c3, c4⟩ := b s hs
          refine ⟨by omega, c2, c3, fun j h1 h2 => ?_⟩
          by_cases e : j = i
          · subst e; exact hr'
          · exact c4 j (by omega) h2
    · rw [if_neg h]
      exact ⟨fun _ j h1 h2 => by omega, by simp⟩

/-- The second loop never gets beyond its first pass: the window it looks at first is the one it compares with. -/
theorem window_never_grows (ys : List (Option Rat)) (s w hi fuel : Nat) : growLoop ys s w hi fuel s (getRms2 ys s (s + w)) = s := by
  cases fuel with
  | zero => rfl
  | succ fuel =>
    rw [growLoop]
    dsimp only
    rw [if_pos Rat.le_refl]
    split <;> rfl

/-- **Settled** is reported half a window after the begin of the first window whose spread is within the tolerance, with the mean of
this window as the level; nothing is reported exactly if there is no such window. -/
theorem settling_spec (lowest highest : Rat) (ys : List (Option Rat)) (w : Nat) (tol : Rat) (lo hi : Nat) (hw : 0 < w)
    (hlen : lo + w ≤ hi) (htol : 0 < tol) :
    (settling lowest highest ys w tol lo hi = .ok none ↔ ∀ j, lo ≤ j → j + w ≤ hi → tol * tol < getRms2 ys j (j + w)) ∧
    ∀ k l, settling lowest highest ys w tol lo hi = .ok (some (k, l)) →
      ∃ s, k = s + w / 2 ∧ l = getMean ys s (s + w) ∧ lo ≤ s ∧ s + w ≤ hi ∧ getRms2 ys s (s + w) ≤ tol * tol ∧
        ∀ j, lo ≤ j → j < s → tol * tol < getRms2 ys j (j + w) := by
  unfold settling
  rw [if_neg (by simp; omega), if_neg (by grind)]
  dsimp only
  obtain ⟨a, b⟩ := settleScan_spec ys w tol (Rat.le_of_lt htol) hi (hi - lo + 1) lo (by omega)
  cases hc : settleScan ys w tol hi (hi - lo + 1) lo with
  | none => exact ⟨⟨fun _ => a hc, fun _ => rfl⟩, by simp⟩
  | some s =>
    obtain ⟨c1, c2, c3, c4⟩ := b s hc
    dsimp only
    refine ⟨⟨by simp, fun hall => ?_⟩, fun k l h => ?_⟩
    · have := hall s c1 c2
      grind
    · simp only [Res.ok.injEq, Option.some.injEq, Prod.mk.injEq] at h
      obtain ⟨rfl, rfl⟩ := h
      exact ⟨s, rfl, by rw [window_never_grows], c1, c2, c3, c4⟩

/-- A tolerance of 0 stands for two percent of the distance between the least and the greatest value. -/
theorem settling_default (lowest highest : Rat) (ys : List Rat) (w : Nat) (hi : Nat) (mn mx : Rat) (hh : 0 < hi)
    (hr : ∀ v ∈ ys, lowest < v ∧ v ≤ highest) (hmx : IsGreatest ys hi mx) (hmn : IsLeast ys hi mn) (h : mn < mx) :
    settling lowest highest (ys.map some) w 0 0 hi = settling lowest highest (ys.map some) w (1 / 50 * (mx - mn)) 0 hi := by
  obtain ⟨_, hM⟩ := maximum_is lowest ys hi mx hmx hh fun v hv => (hr v hv).1
  obtain ⟨_, hN⟩ := minimum_is highest ys hi mn hmn hh fun v hv => (hr v hv).2
  unfold settling
  by_cases hc : (decide (w = 0) || decide (hi - 0 < w)) = true
  · rw [if_pos hc, if_pos hc]
  · have e : (2 / 100 * (if mx - mn < 0 then -(mx - mn) else mx - mn) : Rat) = 1 / 50 * (mx - mn) := by
      rw [if_neg (by grind)]; grind
    have e0 : ¬ (1 / 50 * (mx - mn) : Rat) = 0 := by grind
    rw [if_neg hc, if_neg hc, if_pos rfl, if_neg e0, hM, hN]
    dsimp only
    rw [e]

/-- Windows that do not fit, and windows of no length, give nothing. -/
theorem settling_short (lowest highest : Rat) (ys : List (Option Rat)) (w : Nat) (tol : Rat) (lo hi : Nat)
    (h : w = 0 ∨ hi - lo < w) : settling lowest highest ys w tol lo hi = .ok none := by
  unfold settling
  rw [if_pos (by simp; exact h)]

example : settling (-1000) 1000 [some 0, some 8, some 12, some 10, some 10, some 10] 2 1 0 6 = .ok (some (3, some 11)) := by decide +kernel

/-- **A flat stretch before the step counts as settled**, although the signal leaves that level afterwards. -/
theorem settled_before_step :
    settling (-1000) 1000 [some 0, some 0, some 0, some 10, some 10, some 10] 2 1 0 6 = .ok (some (1, some 0)) := by decide +kernel

end Verif.DEst
