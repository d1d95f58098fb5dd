import Verif.DEst.Model
import Verif.DSet.Props

/-!
# C154, C155, C156: estimators of data sets
-/

namespace Verif.DEst

open Verif.DSet (Res sorted total variance IsMedian)

/-! ## C154: extremes, mean, median and spread -/

/-- A range is accepted exactly if it lies within the axis and starts before its end; left open it goes to the end. -/
theorem range_checked (n lo : Nat) (hi : Option Nat) :
    (∀ h, checkRange n lo hi = .ok h ↔ h = hi.getD n ∧ lo ≤ h ∧ lo < n ∧ h ≤ n) ∧ checkRange n lo hi ≠ .undef := by
  unfold checkRange
  dsimp only
  refine ⟨fun h => ?_, ?_⟩
  · split
    · rename_i hc
      simp only [Bool.or_eq_true, decide_eq_true_eq] at hc
      simp only [false_iff, reduceCtorEq]
      omega
    · rename_i hc
      simp only [Bool.or_eq_true, decide_eq_true_eq] at hc
      simp only [Res.ok.injEq]
      omega
  · split <;> simp

example : checkRange 5 2 none = .ok 5 ∧ checkRange 5 2 (some 6) = .throws := by decide

theorem maxLoop_spec (l : List (Option Rat)) (i : Nat) (loc : Option Nat) (m : Rat) :
    (maxLoop l i loc m = (loc, m) ∧ ∀ v, some v ∈ l → v ≤ m) ∨
    ∃ k v, maxLoop l i loc m = (some (i + k), v) ∧ l[k]? = some (some v) ∧ m < v ∧
      (∀ (j : Nat) w, l[j]? = some (some w) → w ≤ v) ∧ (∀ (j : Nat) w, j < k → l[j]? = some (some w) → w < v) := by
  induction l generalizing i loc m with
  | nil => left; simp [maxLoop]
  | cons y rest ih =>
    have lift : ∀ (loc' : Option Nat) (m' : Rat), m ≤ m' → (∀ w, y = some w → w ≤ m') →
        maxLoop (y :: rest) i loc m = maxLoop rest (i + 1) loc' m' →
        (maxLoop (y :: rest) i loc m = (loc', m') ∧ ∀ v, some v ∈ y :: rest → v ≤ m') ∨
        ∃ k v, maxLoop (y :: rest) i loc m = (some (i + k), v) ∧ (y :: rest)[k]? = some (some v) ∧ m < v ∧
          (∀ (j : Nat) w, (y :: rest)[j]? = some (some w) → w ≤ v) ∧
          (∀ (j : Nat) w, j < k → (y :: rest)[j]? = some (some w) → w < v) := by
      intro loc' m' hm hy e
      rcases ih (i + 1) loc' m' with ⟨h1, h2⟩ | ⟨k, v, h1, h2, h3, h4, h5⟩
      · left
        refine ⟨by rw [e, h1], fun v hv => ?_⟩
        rcases List.mem_cons.1 hv with h | h
        · exact hy v h.symm
        · exact h2 v h
      · right
        refine ⟨k + 1, v, by rw [e, h1]; congr 2; omega, by simpa using h2, by grind, fun j w hj => ?_, fun j w hjk hj => ?_⟩
        · cases j with
          | zero =>
            have : y = some w := by simpa using hj
            have := hy w this
            grind
          | succ j => exact h4 j w (by simpa using hj)
        · cases j with
          | zero =>
            have : y = some w := by simpa using hj
            have := hy w this
            grind
          | succ j => exact h5 j w (by omega) (by simpa using hj)
    cases y with
    | none => exact lift loc m Rat.le_refl (by simp) (by rw [maxLoop])
    | some v =>
      by_cases hv : v > m
      · have e : maxLoop (some v :: rest) i loc m = maxLoop rest (i + 1) (some i) v := by
          rw [maxLoop, if_pos hv]
        rcases lift (some i) v (by grind) (by intro w hw; cases hw; exact Rat.le_refl) e with ⟨h1, h2⟩ | h
        · right
          refine ⟨0, v, by simpa using h1, rfl, hv, fun j w hj => h2 w (List.mem_of_getElem? hj), fun j w hj => absurd hj (by omega)⟩
        · exact .inr h
      · have e : maxLoop (some v :: rest) i loc m = maxLoop rest (i + 1) loc m := by
          rw [maxLoop, if_neg hv]
        exact lift loc m Rat.le_refl (by intro w hw; cases hw; grind) e

theorem range_get (ys : List (Option Rat)) (lo hi j : Nat) (h : lo + j < hi) :
    ((ys.drop lo).take (hi - lo))[j]? = ys[lo + j]? := by
  rw [List.getElem?_take_of_lt (by omega), List.getElem?_drop]

theorem range_get' (ys : List (Option Rat)) (lo hi j : Nat) (w : Option Rat)
    (h : ((ys.drop lo).take (hi - lo))[j]? = some w) : lo + j < hi ∧ ys[lo + j]? = some w := by
  have hj : j < hi - lo := by
    rcases Nat.lt_or_ge j (hi - lo) with h' | h'
    · exact h'
    · rw [List.getElem?_eq_none (by simp; omega)] at h; simp at h
  exact ⟨by omega, by rw [← range_get ys lo hi j (by omega)]; exact h⟩

/-- **The maximum** is the greatest finite value of the range, with the first place it stands at; there is none exactly if no value of
the range is finite. (Values must lie above the least number of the type, from which the search starts.) -/
theorem maximum_spec (lowest : Rat) (ys : List (Option Rat)) (lo hi : Nat) (h : lo < hi)
    (hlow : ∀ v, some v ∈ ys → lowest < v) :
    (getMaximum lowest ys lo hi = none ↔ ∀ j v, lo ≤ j → j < hi → ys[j]? ≠ some (some v)) ∧
    ∀ i m, getMaximum lowest ys lo hi = some (i, m) → ∃ v, m = some v ∧ lo ≤ i ∧ i < hi ∧ ys[i]? = some (some v) ∧
      (∀ j w, lo ≤ j → j < hi → ys[j]? = some (some w) → w ≤ v) ∧
      (∀ j w, lo ≤ j → j < i → ys[j]? = some (some w) → w < v) := by
  unfold getMaximum
  rw [if_neg (by omega)]
  rcases maxLoop_spec ((ys.drop lo).take (hi - lo)) lo none lowest with ⟨h1, h2⟩ | ⟨k, v, h1, h2, h3, h4, h5⟩
  · rw [h1]
    refine ⟨⟨fun _ j v hj1 hj2 hv => ?_, fun _ => rfl⟩, by simp⟩
    have hm : some v ∈ (ys.drop lo).take (hi - lo) := by
      apply List.mem_of_getElem? (i := j - lo)
      rw [range_get _ _ _ _ (by omega)]
      rw [show lo + (j - lo) = j by omega]; exact hv
    have := h2 v hm
    have := hlow v (List.mem_of_getElem? hv)
    grind
  · rw [h1]
    obtain ⟨hk, hv⟩ := range_get' _ _ _ _ _ h2
    refine ⟨⟨by simp, fun hall => absurd hv (hall _ v (by omega) hk)⟩, fun i m e => ?_⟩
    simp only [Option.some.injEq, Prod.mk.injEq] at e
    obtain ⟨rfl, rfl⟩ := e
    refine ⟨v, rfl, by omega, hk, hv, fun j w a b c => ?_, fun j w a b c => ?_⟩
    · exact h4 (j - lo) w (by rw [range_get _ _ _ _ (by omega), show lo + (j - lo) = j by omega]; exact c)
    · exact h5 (j - lo) w (by omega) (by rw [range_get _ _ _ _ (by omega), show lo + (j - lo) = j by omega]; exact c)

example : getMaximum (-1000) [some 1, none, some 7, some 7, some 2] 0 5 = some (2, some 7) := by decide +kernel

/-- If all values are the least number of the type, no maximum is found. -/
theorem maximum_of_lowest : getMaximum (-1000) [some (-1000), some (-1000)] 0 2 = none := by decide +kernel

theorem minLoop_spec (l : List (Option Rat)) (i : Nat) (loc : Option Nat) (m : Rat) :
    (minLoop l i loc m).2 ≤ m ∧ (∀ v, some v ∈ l → (minLoop l i loc m).2 ≤ v) ∧
    ((minLoop l i loc m).2 = m ∨ some (minLoop l i loc m).2 ∈ l) ∧
    (((minLoop l i loc m).1 = loc ∧ ∀ v, some v ∉ l) ∨
      ∃ k v, (minLoop l i loc m).1 = some (i + k) ∧ l[k]? = some (some v) ∧ ∀ j w, k < j → l[j]? ≠ some (some w)) := by
  induction l generalizing i loc m with
  | nil => simp [minLoop]
  | cons y rest ih =>
    cases y with
    | none =>
      have e : minLoop (none :: rest) i loc m = minLoop rest (i + 1) loc m := by rw [minLoop]
      rw [e]
      obtain ⟨h1, h2, h3, h4⟩ := ih (i + 1) loc m
      refine ⟨h1, fun v hv => h2 v (by simpa using hv), ?_, ?_⟩
      · rcases h3 with h | h
        · exact .inl h
        · exact .inr (List.mem_cons_of_mem _ h)
      · rcases h4 with ⟨h, h'⟩ | ⟨k, v, a, b, c⟩
        · exact .inl ⟨h, fun v hv => h' v (by simpa using hv)⟩
        · refine .inr ⟨k + 1, v, by rw [a]; congr 1; omega, by simpa using b, fun j w hj => ?_⟩
          cases j with
          | zero => omega
          | succ j => simpa using c j w (by omega)
    | some v =>
      have e : minLoop (some v :: rest) i loc m = minLoop rest (i + 1) (some i) (if v < m then v else m) := by rw [minLoop]
      rw [e]
      obtain ⟨h1, h2, h3, h4⟩ := ih (i + 1) (some i) (if v < m then v else m)
      have hle : (if v < m then v else m) ≤ m ∧ (if v < m then v else m) ≤ v := by split <;> grind
      refine ⟨Rat.le_trans h1 hle.1, fun w hw => ?_, ?_, ?_⟩
      · rcases List.mem_cons.1 hw with h | h
        · cases h; exact Rat.le_trans h1 hle.2
        · exact h2 w h
      · rcases h3 with h | h
        · by_cases hv : v < m
          · right; rw [h, if_pos hv]; simp
          · left; rw [h, if_neg hv]
        · exact .inr (List.mem_cons_of_mem _ h)
      · rcases h4 with ⟨h, h'⟩ | ⟨k, w, a, b, c⟩
        · refine .inr ⟨0, v, by simpa using h, rfl, fun j w hj hw => ?_⟩
          cases j with
          | zero => omega
          | succ j => exact h' w (List.mem_of_getElem? (by simpa using hw))
        · refine .inr ⟨k + 1, w, by rw [a]; congr 1; omega, by simpa using b, fun j w hj => ?_⟩
          cases j with
          | zero => omega
          | succ j => simpa using c j w (by omega)

/-- **The minimum** is the least finite value of the range, and there is none exactly if no value is finite. The place reported with
it, however, is that of the last finite value. -/
theorem minimum_spec_partial (highest : Rat) (ys : List (Option Rat)) (lo hi : Nat) (h : lo < hi)
    (hhigh : ∀ v, some v ∈ ys → v ≤ highest) :
    (getMinimum highest ys lo hi = none ↔ ∀ j v, lo ≤ j → j < hi → ys[j]? ≠ some (some v)) ∧
    ∀ i m, getMinimum highest ys lo hi = some (i, m) →
      (∃ v, m = some v ∧ (∃ j, lo ≤ j ∧ j < hi ∧ ys[j]? = some (some v)) ∧
        (∀ j w, lo ≤ j → j < hi → ys[j]? = some (some w) → v ≤ w)) ∧
      lo ≤ i ∧ i < hi ∧ (∃ w, ys[i]? = some (some w)) ∧ ∀ j w, i < j → j < hi → ys[j]? ≠ some (some w) := by
  unfold getMinimum
  rw [if_neg (by omega)]
  have inRange : ∀ j v, lo ≤ j → j < hi → ys[j]? = some (some v) → ((ys.drop lo).take (hi - lo))[j - lo]? = some (some v) := by
    intro j v a b c
    rw [range_get _ _ _ _ (by omega), show lo + (j - lo) = j by omega]; exact c
  obtain ⟨h1, h2, h3, h4⟩ := minLoop_spec ((ys.drop lo).take (hi - lo)) lo none highest
  generalize hr : minLoop ((ys.drop lo).take (hi - lo)) lo none highest = r at *
  obtain ⟨loc, m⟩ := r
  dsimp only at h1 h2 h3 h4 ⊢
  rcases h4 with ⟨rfl, h'⟩ | ⟨k, v, rfl, b, c⟩
  · exact ⟨⟨fun _ j v a b c => h' v (List.mem_of_getElem? (inRange j v a b c)), fun _ => rfl⟩, by simp⟩
  · obtain ⟨hk, hv⟩ := range_get' _ _ _ _ _ b
    refine ⟨⟨by simp, fun hall => absurd hv (hall _ v (by omega) hk)⟩, fun i m' e => ?_⟩
    simp only [Option.some.injEq, Prod.mk.injEq] at e
    obtain ⟨rfl, rfl⟩ := e
    refine ⟨⟨m, rfl, ?_, fun j w a' b' c' => h2 w (List.mem_of_getElem? (inRange j w a' b' c'))⟩, by omega, hk, ⟨v, hv⟩,
      fun j w hj1 hj2 hw => c (j - lo) w (by omega) (inRange j w (by omega) hj2 hw)⟩
    have hmem : some m ∈ (ys.drop lo).take (hi - lo) := by
      rcases h3 with h3 | h3
      · have hvm := h2 v (List.mem_of_getElem? b)
        have := hhigh v (List.mem_of_getElem? hv)
        have : m = v := Rat.le_antisymm hvm (by rw [h3]; exact this)
        rw [this]; exact List.mem_of_getElem? b
      · exact h3
    obtain ⟨j, hj⟩ := List.getElem?_of_mem hmem
    obtain ⟨a', b'⟩ := range_get' _ _ _ _ _ hj
    exact ⟨lo + j, by omega, a', b'⟩

/-- So the place of the minimum is wrong unless it comes last: the value 1 stands at place 0, and place 2 is reported. -/
theorem minimum_place_wrong : getMinimum 1000 [some 1, some 2, some 3] 0 3 = some (2, some 1) := by decide +kernel

theorem foldl_add (l : List Rat) (a : Rat) : l.foldl (· + ·) a = a + total l := by
  induction l generalizing a with
  | nil => show a = a + total []; unfold total; grind
  | cons x l ih =>
    rw [List.foldl_cons, ih]
    have : total (x :: l) = x + total l := rfl
    rw [this]; grind

theorem foldl_count (l : List Rat) (a : Rat) : l.foldl (fun c _ => c + 1) a = a + (l.length : Rat) := by
  induction l generalizing a with
  | nil => show a = a + ((0 : Nat) : Rat); have : ((0 : Nat) : Rat) = 0 := rfl; rw [this]; grind
  | cons x l ih =>
    rw [List.foldl_cons, ih, List.length_cons, Rat.natCast_add]
    have : ((1 : Nat) : Rat) = 1 := rfl
    rw [this]; grind

theorem foldl_sq (l : List Rat) (a : Rat) : l.foldl (fun s v => s + v * v) a = a + total (l.map fun x => x * x) := by
  induction l generalizing a with
  | nil => show a = a + total []; unfold total; grind
  | cons x l ih =>
    rw [List.foldl_cons, ih]
    have : total ((x :: l).map fun x => x * x) = x * x + total (l.map fun x => x * x) := rfl
    rw [this]; grind

/-- The values a range holds: finite ones between its ends. -/
theorem mem_finite (ys : List (Option Rat)) (lo hi : Nat) (v : Rat) :
    v ∈ finite ys lo hi ↔ ∃ j, lo ≤ j ∧ j < hi ∧ ys[j]? = some (some v) := by
  unfold finite
  simp only [List.mem_filterMap, id]
  constructor
  · rintro ⟨a, ha, rfl⟩
    obtain ⟨j, hj⟩ := List.getElem?_of_mem ha
    obtain ⟨h1, h2⟩ := range_get' _ _ _ _ _ hj
    exact ⟨lo + j, by omega, h1, h2⟩
  · rintro ⟨j, h1, h2, h3⟩
    refine ⟨some v, List.mem_of_getElem? (i := j - lo) ?_, rfl⟩
    rw [range_get _ _ _ _ (by omega), show lo + (j - lo) = j by omega]; exact h3

theorem length_pos_cast {l : List Rat} (h : l ≠ []) : (0 : Rat) < (l.length : Rat) := by
  have := List.length_pos_iff.2 h
  have h0 : ((0 : Nat) : Rat) < (l.length : Rat) := Rat.natCast_lt_natCast.2 this
  exact h0

/-- **The mean** is the sum of the finite values of the range divided by their number; there is none without finite values. -/
theorem mean_spec (ys : List (Option Rat)) (lo hi : Nat) :
    getMean ys lo hi = if finite ys lo hi = [] then none else some (total (finite ys lo hi) / ((finite ys lo hi).length : Rat)) := by
  unfold getMean
  dsimp only
  rw [foldl_add, foldl_count]
  by_cases h : finite ys lo hi = []
  · rw [if_pos h, h, if_neg]
    show ¬ (0 : Rat) + ((0 : Nat) : Rat) > 0
    have : ((0 : Nat) : Rat) = 0 := rfl
    rw [this]; grind
  · have hp := length_pos_cast h
    rw [if_neg h, if_pos (by grind)]
    congr 1
    grind

example : getMean [some 1, none, some 4, some 10] 0 3 = some (5 / 2) := by decide +kernel

/-- **The spread** squared is the mean squared distance of the finite values from their mean, 0 without finite values: it is the
standard deviation, not the root of the mean square the name says. -/
theorem rms_is_deviation (ys : List (Option Rat)) (lo hi : Nat) :
    (finite ys lo hi = [] → getRms2 ys lo hi = 0) ∧
    (finite ys lo hi ≠ [] → getRms2 ys lo hi = variance (finite ys lo hi)) := by
  refine ⟨fun h => ?_, fun h => ?_⟩
  · unfold getRms2; dsimp only; rw [if_pos h]
  · unfold getRms2
    dsimp only
    rw [if_neg h, foldl_add, foldl_count, foldl_sq]
    obtain ⟨e, nn⟩ := Verif.DSet.variance_eq (finite ys lo hi) (List.length_pos_iff.2 h)
    have hz : ∀ x : Rat, 0 + x = x := fun x => by grind
    simp only [hz]
    rw [← e] at nn ⊢
    generalize total (finite ys lo hi) / ((finite ys lo hi).length : Rat) * (total (finite ys lo hi) / ((finite ys lo hi).length : Rat)) = a at *
    generalize total ((finite ys lo hi).map fun x => x * x) / ((finite ys lo hi).length : Rat) = b at *
    split <;> grind

example : getRms2 [some 3, some 3] 0 2 = 0 ∧ getRms2 [some 1, some 3] 0 2 = 1 := by decide +kernel

/-- **The median** splits the values in halves. -/
theorem median_splits (vs : List Rat) (h : vs ≠ []) : ∃ m, getMedian vs = some m ∧ IsMedian m vs := by
  have hl := List.length_pos_iff.2 h
  have hlen : (sorted vs).length = vs.length := (Verif.DSet.sorted_perm vs).length_eq
  obtain ⟨mid, h1, h2, h3⟩ := Verif.DSet.sorted_median vs hl
  obtain ⟨p, hp⟩ : ∃ p, (sorted vs)[vs.length / 2 - 1]? = some p := ⟨_, List.getElem?_eq_getElem (by omega)⟩
  unfold getMedian
  rw [if_neg h, h1, hp]
  dsimp only
  by_cases he : vs.length % 2 = 0
  · obtain ⟨prev, h4, h5⟩ := h3 he
    rw [hp] at h4; cases h4
    rw [if_pos he]; exact ⟨_, rfl, h5⟩
  · rw [if_neg he]; exact ⟨_, rfl, h2 (by omega)⟩

example : getMedian [4, 1, 3] = some 3 ∧ getMedian [4, 1, 3, 2] = some (5 / 2) := by decide +kernel

end Verif.DEst
