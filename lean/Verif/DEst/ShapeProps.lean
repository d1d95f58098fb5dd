import Verif.DEst.Props

/-!
# C155, C156: areas, centres, widths, duty cycles, frequencies and crossings of data sets
-/

namespace Verif.DEst

open Verif.DSet (Res total)

/-! ## C155: areas and centres -/

theorem total_append (a b : List Rat) : total (a ++ b) = total a + total b := by
  induction a with
  | nil => show total b = 0 + total b; grind
  | cons x a ih =>
    have e1 : total (x :: a ++ b) = x + total (a ++ b) := rfl
    have e2 : total (x :: a) = x + total a := rfl
    rw [e1, e2, ih]; grind

/-- The sum of the pieces `start, …, start + n − 1`. -/
def pieces (xs : List Rat) (ys : List (Option Rat)) (start n : Nat) : Rat :=
  total ((List.range n).map fun k => area xs ys (start + k))

theorem pieces_succ (xs : List Rat) (ys : List (Option Rat)) (start n : Nat) :
    pieces xs ys start (n + 1) = pieces xs ys start n + area xs ys (start + n) := by
  unfold pieces
  rw [List.range_succ, List.map_append, total_append]
  congr 1
  show area xs ys (start + n) + 0 = _
  grind

theorem pieces_add (xs : List Rat) (ys : List (Option Rat)) (start a b : Nat) :
    pieces xs ys start (a + b) = pieces xs ys start a + pieces xs ys (start + a) b := by
  induction b with
  | zero => show _ = _ + (0 : Rat); rw [Nat.add_zero]; grind
  | succ b ih => rw [← Nat.add_assoc, pieces_succ, ih, pieces_succ, Nat.add_assoc]; grind

theorem integral_pieces (xs : List Rat) (ys : List (Option Rat)) (lo hi : Nat) (h : lo < hi) :
    getIntegral xs ys lo hi = pieces xs ys lo (hi - 1 - lo) := by
  unfold getIntegral
  dsimp only
  rw [Nat.min_eq_left (by omega), Nat.max_eq_right (by omega)]
  have hs : (if (hi : Int) - lo ≥ 0 then (1 : Rat) else -1) = 1 := if_pos (by omega)
  rw [hs]
  by_cases h1 : hi ≤ lo + 1
  · rw [if_pos h1, show hi - 1 - lo = 0 by omega]; rfl
  · rw [if_neg h1, foldl_add]
    unfold pieces
    grind

/-- **Areas add up** if the two ranges share a sample: the range ending after a sample and the one beginning at it. -/
theorem integral_adds (xs : List Rat) (ys : List (Option Rat)) (lo mid hi : Nat) (h1 : lo ≤ mid) (h2 : mid < hi) :
    getIntegral xs ys lo (mid + 1) + getIntegral xs ys mid hi = getIntegral xs ys lo hi := by
  rw [integral_pieces _ _ _ _ (by omega), integral_pieces _ _ _ _ h2, integral_pieces _ _ _ _ (by omega)]
  rw [show hi - 1 - lo = (mid + 1 - 1 - lo) + (hi - 1 - mid) by omega, pieces_add,
    show lo + (mid + 1 - 1 - lo) = mid by omega]

/-- Two ranges that merely touch lose the piece between them. -/
theorem integral_halves_lose :
    getIntegral [0, 1, 2, 3] [some 1, some 1, some 1, some 1] 0 2 + getIntegral [0, 1, 2, 3] [some 1, some 1, some 1, some 1] 2 4 = 2 ∧
    getIntegral [0, 1, 2, 3] [some 1, some 1, some 1, some 1] 0 4 = 3 := by decide +kernel

/-- **The area is exact for straight lines**, whatever the spacing: for `y = m·x + q` it is the integral from the first to the last
sample of the range. -/
theorem integral_line (xs : List Rat) (ys : List (Option Rat)) (m q : Rat) (lo hi : Nat) (h1 : lo < hi) (h2 : hi ≤ xs.length)
    (hy : ys = xs.map fun x => some (m * x + q)) :
    ∀ a b, xs[lo]? = some a → xs[hi - 1]? = some b →
      getIntegral xs ys lo hi = (m / 2 * (b * b) + q * b) - (m / 2 * (a * a) + q * a) := by
  intro a b ha hb
  rw [integral_pieces _ _ _ _ h1]
  have key : ∀ n b, lo + n < xs.length → xs[lo + n]? = some b →
      pieces xs ys lo n = (m / 2 * (b * b) + q * b) - (m / 2 * (a * a) + q * a) := by
    intro n
    induction n with
    | zero =>
      intro b _ hb
      rw [Nat.add_zero, ha] at hb; cases hb
      show (0 : Rat) = _
      grind
    | succ n ih =>
      intro b hn hb
      have hc : xs[lo + n]? = some xs[lo + n] := List.getElem?_eq_getElem (by omega)
      rw [pieces_succ, ih _ (by omega) hc]
      have hb' : xs[lo + n + 1]? = some b := by rw [Nat.add_assoc]; exact hb
      unfold area
      simp only [hy, List.getElem?_map, hc, hb', Option.map_some, Option.getD_some, List.getD_eq_getElem?_getD]
      grind
  exact key _ b (by omega) (by rw [show lo + (hi - 1 - lo) = hi - 1 by omega]; exact hb)

example : getIntegral [0, 1, 3, 7] [some 1, some 3, some 7, some 15] 0 4 = 56 := by decide +kernel

/-- The sums the centre is made of, over the finite samples of the range. -/
def moments (l : List (Rat × Option Rat)) : Rat × Rat :=
  (total (l.filterMap fun p => p.2.map (p.1 * ·)), total (l.filterMap (·.2)))

theorem com_fold (l : List (Rat × Option Rat)) (acc : Rat × Rat) :
    l.foldl comStep acc = (acc.1 + (moments l).1, acc.2 + (moments l).2) := by
  induction l generalizing acc with
  | nil =>
    show acc = (acc.1 + 0, acc.2 + 0)
    have h : ∀ x : Rat, x + 0 = x := fun x => by grind
    rw [h, h]
  | cons p l ih =>
    obtain ⟨x, y⟩ := p
    rw [List.foldl_cons, ih]
    cases y with
    | none => rfl
    | some v =>
      have e1 : (moments ((x, some v) :: l)).1 = x * v + (moments l).1 := rfl
      have e2 : (moments ((x, some v) :: l)).2 = v + (moments l).2 := rfl
      rw [e1, e2]
      show ((acc.1 + x * v) + _, (acc.2 + v) + _) = _
      congr 1 <;> grind

/-- **The centre of mass** is the first moment of the finite samples over their sum; without a sum there is none. -/
theorem centre_spec (xs : List Rat) (ys : List (Option Rat)) (lo hi : Nat) :
    (centreOfMass xs ys lo hi = none ↔ (moments (((xs.zip ys).drop lo).take (hi - lo))).2 = 0) ∧
    ∀ c, centreOfMass xs ys lo hi = some c →
      c * (moments (((xs.zip ys).drop lo).take (hi - lo))).2 = (moments (((xs.zip ys).drop lo).take (hi - lo))).1 := by
  unfold centreOfMass
  dsimp only
  rw [com_fold]
  dsimp only
  generalize moments (((xs.zip ys).drop lo).take (hi - lo)) = r
  have h0 : ∀ x : Rat, 0 + x = x := fun x => by grind
  rw [h0, h0]
  by_cases h : r.2 = 0
  · rw [if_pos h]; simp [h]
  · rw [if_neg h]
    refine ⟨by simp [h], fun c hc => ?_⟩
    simp only [Option.some.injEq] at hc
    rw [← hc, Rat.div_mul_cancel h]

theorem moments_bounds (l : List (Rat × Option Rat)) (a b : Rat)
    (h : ∀ x v, (x, some v) ∈ l → a ≤ x ∧ x ≤ b ∧ 0 ≤ v) :
    0 ≤ (moments l).2 ∧ a * (moments l).2 ≤ (moments l).1 ∧ (moments l).1 ≤ b * (moments l).2 := by
  induction l with
  | nil =>
    show (0 : Rat) ≤ 0 ∧ a * 0 ≤ 0 ∧ (0 : Rat) ≤ b * 0
    grind
  | cons p l ih =>
    obtain ⟨x, y⟩ := p
    have ih := ih fun x v hm => h x v (List.mem_cons_of_mem _ hm)
    cases y with
    | none => exact ih
    | some v =>
      obtain ⟨h1, h2, h3⟩ := h x v (by simp)
      have e1 : (moments ((x, some v) :: l)).1 = x * v + (moments l).1 := rfl
      have e2 : (moments ((x, some v) :: l)).2 = v + (moments l).2 := rfl
      rw [e1, e2]
      have ha : a * v ≤ x * v := Rat.mul_le_mul_of_nonneg_right h1 h3
      have hb : x * v ≤ b * v := Rat.mul_le_mul_of_nonneg_right h2 h3
      grind

/-- **The centre lies between the ends** if no mass is negative. -/
theorem centre_within (xs : List Rat) (ys : List (Option Rat)) (lo hi : Nat) (a b c : Rat)
    (hx : ∀ x ∈ xs, a ≤ x ∧ x ≤ b) (hy : ∀ v, some v ∈ ys → 0 ≤ v) (h : centreOfMass xs ys lo hi = some c) : a ≤ c ∧ c ≤ b := by
  obtain ⟨h1, h2⟩ := centre_spec xs ys lo hi
  have hc := h2 c h
  have hne : ¬ (moments (((xs.zip ys).drop lo).take (hi - lo))).2 = 0 := by rw [← h1, h]; simp
  obtain ⟨n, l, u⟩ := moments_bounds (((xs.zip ys).drop lo).take (hi - lo)) a b fun x v hm => by
    have := List.of_mem_zip (List.mem_of_mem_drop (List.mem_of_mem_take hm))
    exact ⟨(hx x this.1).1, (hx x this.1).2, hy v this.2⟩
  generalize moments (((xs.zip ys).drop lo).take (hi - lo)) = r at *
  have hp : 0 < r.2 := by grind
  rw [← hc] at l u
  exact ⟨Rat.le_of_mul_le_mul_right l hp, Rat.le_of_mul_le_mul_right u hp⟩

example : centreOfMass [0, 1, 2, 3] [some 1, some 0, none, some 1] 0 4 = some (3 / 2) := by decide +kernel

/-- With masses of both signs it may lie anywhere. -/
theorem centre_outside : centreOfMass [0, 1] [some (-1), some 2] 0 2 = some 2 := by decide +kernel

/-! ## C156: widths, duty cycles, frequencies, crossings -/

theorem scanUp_spec (half : Rat) (l : List Rat) (i : Nat) :
    ∃ k, scanUp half l i = i + k ∧ k ≤ l.length ∧ (∀ j v, j < k → l[j]? = some v → half < v) ∧ (∀ v, l[k]? = some v → v ≤ half) := by
  induction l generalizing i with
  | nil => exact ⟨0, rfl, Nat.le_refl _, by omega, by simp⟩
  | cons x l ih =>
    rw [scanUp]
    by_cases hx : x > half
    · rw [if_pos hx]
      obtain ⟨k, h1, h2, h3, h4⟩ := ih (i + 1)
      refine ⟨k + 1, by omega, by simp; omega, fun j v hj hv => ?_, fun v hv => h4 v (by simpa using hv)⟩
      cases j with
      | zero => simp at hv; rw [← hv]; exact hx
      | succ j => exact h3 j v (by omega) (by simpa using hv)
    · rw [if_neg hx]
      exact ⟨0, rfl, by omega, by omega, fun v hv => by simp at hv; rw [← hv]; grind⟩

theorem scanDown_spec (half : Rat) (data : List Rat) (i : Nat) (hi : i < data.length) :
    (scanDown half data i = none ↔ ∀ j v, j ≤ i → data[j]? = some v → half < v) ∧
    ∀ k, scanDown half data i = some k → k ≤ i ∧ (∃ v, data[k]? = some v ∧ v ≤ half) ∧
      ∀ j v, k < j → j ≤ i → data[j]? = some v → half < v := by
  induction i with
  | zero =>
    have hd : data[0]? = some data[0] := List.getElem?_eq_getElem hi
    rw [scanDown, hd]
    dsimp only
    by_cases h : data[0] > half
    · rw [if_pos h]
      refine ⟨⟨fun _ j v hj hv => ?_, fun _ => rfl⟩, by simp⟩
      obtain rfl : j = 0 := by omega
      rw [hd] at hv; cases hv; exact h
    · rw [if_neg h]
      refine ⟨⟨by simp, fun hall => absurd (hall 0 _ (Nat.le_refl _) hd) h⟩, fun k hk => ?_⟩
      simp only [Option.some.injEq] at hk
      subst hk
      exact ⟨Nat.le_refl _, ⟨_, hd, by grind⟩, by omega⟩
  | succ i ih =>
    have hd : data[i + 1]? = some data[i + 1] := List.getElem?_eq_getElem hi
    obtain ⟨ih1, ih2⟩ := ih (by omega)
    rw [scanDown, hd]
    dsimp only
    by_cases h : data[i + 1] > half
    · rw [if_pos h]
      have ext : ∀ (P : Nat → Prop), (∀ j v, P j → j ≤ i → data[j]? = some v → half < v) →
          ∀ j v, P j → j ≤ i + 1 → data[j]? = some v → half < v := by
        intro P hall j v hP hj hv
        by_cases e : j = i + 1
        · subst e; rw [hd] at hv; cases hv; exact h
        · exact hall j v hP (by omega) hv
      refine ⟨?_, fun k hk => ?_⟩
      · rw [ih1]
        exact ⟨fun hall j v hj hv => ext (fun _ => True) (fun j v _ => hall j v) j v trivial hj hv,
          fun hall j v hj => hall j v (by omega)⟩
      · obtain ⟨a, b, c⟩ := ih2 k hk
        exact ⟨by omega, b, ext (fun j => k < j) c⟩
    · rw [if_neg h]
      refine ⟨⟨by simp, fun hall => absurd (hall (i + 1) _ (Nat.le_refl _) hd) h⟩, fun k hk => ?_⟩
      simp only [Option.some.injEq] at hk
      subst hk
      exact ⟨Nat.le_refl _, ⟨_, hd, by grind⟩, by omega⟩

/-- The places nearest the peak on both sides where the signal is at most half the peak. -/
structure HalfWay (data : List Rat) (index low up : Nat) (peak : Rat) : Prop where
  order : low ≤ index ∧ index ≤ up ∧ up < data.length
  lowHalf : ∃ v, data[low]? = some v ∧ v ≤ peak / 2
  upHalf : ∃ v, data[up]? = some v ∧ v ≤ peak / 2
  between : ∀ j v, low < j → j < up → data[j]? = some v → peak / 2 < v

theorem halfPlaces_spec (data : List Rat) (index : Nat) (k : Rat → Nat → Nat → Width) (hi : 0 < index) (hl : index + 1 < data.length)
    (low up : Nat) (hw : HalfWay data index low up data[index]) (hpos : 0 < data[index]) :
    halfPlaces data index k = k (1 / 2 * data[index]) low up := by
  have hd : data[index]? = some data[index] := List.getElem?_eq_getElem (by omega)
  unfold halfPlaces
  rw [if_neg (by omega), hd]
  dsimp only
  obtain ⟨⟨o1, o2, o3⟩, ⟨lv, l1, l2⟩, ⟨uv, u1, u2⟩, bt⟩ := hw
  have hh : 1 / 2 * data[index] = data[index] / 2 := by grind
  rw [hh]
  have hpk : data[index] / 2 < data[index] := by grind
  have hlow : low < index := by
    rcases Nat.lt_or_ge low index with h | h
    · exact h
    · obtain rfl : low = index := by omega
      rw [hd] at l1; cases l1; grind
  have hup : index < up := by
    rcases Nat.lt_or_ge index up with h | h
    · exact h
    · obtain rfl : up = index := by omega
      rw [hd] at u1; cases u1; grind
  obtain ⟨n, s1, s2, s3, s4⟩ := scanUp_spec (data[index] / 2) (data.drop index) index
  have hn : index + n = up := by
    rcases Nat.lt_trichotomy (index + n) up with h | h | h
    · obtain ⟨w, hw⟩ : ∃ w, data[index + n]? = some w := ⟨_, List.getElem?_eq_getElem (by omega)⟩
      have := s4 w (by rw [List.getElem?_drop]; exact hw)
      have := bt (index + n) w (by omega) h hw
      grind
    · exact h
    · have := s3 (up - index) uv (by omega) (by rw [List.getElem?_drop, show index + (up - index) = up by omega]; exact u1)
      grind
  obtain ⟨d1, d2⟩ := scanDown_spec (data[index] / 2) data index (by omega)
  have hdn : scanDown (data[index] / 2) data index = some low := by
    cases hc : scanDown (data[index] / 2) data index with
    | none =>
      have := d1.1 hc low lv (by omega) l1
      grind
    | some k =>
      obtain ⟨a, ⟨w, b1, b2⟩, c⟩ := d2 k hc
      rcases Nat.lt_trichotomy k low with h | h | h
      · have := c low lv h (by omega) l1
        grind
      · rw [h]
      · have := bt k w h (by omega) b1
        grind
  rw [hdn, s1, hn]
  dsimp only
  rw [if_neg (by omega)]

/-- **The full width at half maximum** in samples: the distance of the nearest places left and right of a positive peak at which the
signal has fallen to half of it. -/
theorem fwhm_spec (data : List Rat) (index : Nat) (hi : 0 < index) (hl : index + 1 < data.length)
    (low up : Nat) (hw : HalfWay data index low up data[index]) (hpos : 0 < data[index]) :
    fwhm data index = .val ((up - low : Nat) : Rat) := by
  unfold fwhm
  rw [halfPlaces_spec data index _ hi hl low up hw hpos]

/-- At the first and the last sample there is no width. -/
theorem fwhm_edges (data : List Rat) : fwhm data 0 = .nan ∧ (0 < data.length → fwhm data (data.length - 1) = .nan) := by
  unfold fwhm halfPlaces
  refine ⟨by rw [if_pos (by omega)], fun h => by rw [if_pos (by omega)]⟩

/-- A peak that does not fall to half on the right has no width. -/
theorem fwhm_no_right : fwhm [1, 4, 3] 1 = .nan := by decide +kernel

/-- **A peak that does not fall to half on the left reads outside the data.** -/
theorem fwhm_no_left (data : List Rat) (index : Nat) (hi : 0 < index) (hl : index + 1 < data.length)
    (h : ∀ j v, j ≤ index → data[j]? = some v → data[index] / 2 < v) : fwhm data index = .undef := by
  have hd : data[index]? = some data[index] := List.getElem?_eq_getElem (by omega)
  unfold fwhm halfPlaces
  rw [if_neg (by omega), hd]
  dsimp only
  rw [show 1 / 2 * data[index] = data[index] / 2 by grind, (scanDown_spec _ data index (by omega)).1.2 h]

example : fwhm [3, 4, 1] 1 = .undef := by decide +kernel
example : fwhm [0, 1, 3, 4, 3, 2, 0] 3 = .val 4 := by decide +kernel

theorem linearInterpolate_spec (x0 x1 y0 y1 y : Rat) (h : y1 ≠ y0) :
    (linearInterpolate x0 x1 y0 y1 y - x0) * (y1 - y0) = (y - y0) * (x1 - x0) := by
  unfold linearInterpolate
  rw [if_neg h]
  have hne : y1 - y0 ≠ 0 := by grind
  rw [show x0 + (y - y0) * (x1 - x0) / (y1 - y0) - x0 = (y - y0) * (x1 - x0) / (y1 - y0) by grind, Rat.div_mul_cancel hne]

theorem linearInterpolate_between (x0 x1 y0 y1 y : Rat) (hx : x0 ≤ x1) (h : (y0 < y ∧ y ≤ y1) ∨ (y1 ≤ y ∧ y < y0)) :
    x0 ≤ linearInterpolate x0 x1 y0 y1 y ∧ linearInterpolate x0 x1 y0 y1 y ≤ x1 := by
  have hs := linearInterpolate_spec x0 x1 y0 y1 y (by grind)
  generalize linearInterpolate x0 x1 y0 y1 y = v at *
  rcases h with ⟨h1, h2⟩ | ⟨h1, h2⟩
  · have hp : 0 < y1 - y0 := by grind
    have n1 := Rat.mul_nonneg (show 0 ≤ y - y0 by grind) (show 0 ≤ x1 - x0 by grind)
    have n2 := Rat.mul_nonneg (show 0 ≤ y1 - y by grind) (show 0 ≤ x1 - x0 by grind)
    have a : 0 ≤ v - x0 := Rat.le_of_mul_le_mul_right (c := y1 - y0) (by grind) hp
    have b : v - x0 ≤ x1 - x0 := Rat.le_of_mul_le_mul_right (c := y1 - y0) (by grind) hp
    grind
  · have hp : 0 < y0 - y1 := by grind
    have n1 := Rat.mul_nonneg (show 0 ≤ y0 - y by grind) (show 0 ≤ x1 - x0 by grind)
    have n2 := Rat.mul_nonneg (show 0 ≤ y - y1 by grind) (show 0 ≤ x1 - x0 by grind)
    have a : 0 ≤ v - x0 := Rat.le_of_mul_le_mul_right (c := y0 - y1) (by grind) hp
    have b : v - x0 ≤ x1 - x0 := Rat.le_of_mul_le_mul_right (c := y0 - y1) (by grind) hp
    grind

/-- **The interpolated width** is the distance of two points that lie on the straight lines through the neighbouring samples, exactly
at half the peak, and between those samples. -/
theorem fwhm_interpolated_spec (data : List Rat) (index : Nat) (hi : 0 < index) (hl : index + 1 < data.length)
    (low up : Nat) (hw : HalfWay data index low up data[index]) (hpos : 0 < data[index]) :
    ∃ a b c d r l, data[low]? = some a ∧ data[low + 1]? = some b ∧ data[up - 1]? = some c ∧ data[up]? = some d ∧
      fwhmInterpolated data index = .val (r - l) ∧
      (low : Rat) ≤ l ∧ l ≤ ((low + 1 : Nat) : Rat) ∧ ((up - 1 : Nat) : Rat) ≤ r ∧ r ≤ (up : Rat) ∧
      (l - (low : Rat)) * (b - a) = data[index] / 2 - a ∧ (r - ((up - 1 : Nat) : Rat)) * (d - c) = data[index] / 2 - c := by
  have hd : data[index]? = some data[index] := List.getElem?_eq_getElem (by omega)
  have e := halfPlaces_spec data index (interpolatedWidth data) hi hl low up hw hpos
  obtain ⟨⟨o1, o2, o3⟩, ⟨a, l1, l2⟩, ⟨d, u1, u2⟩, bt⟩ := hw
  have hpk : data[index] / 2 < data[index] := by grind
  have hlow : low ≠ index := by
    rintro rfl
    rw [hd] at l1; cases l1; grind
  have hup : index ≠ up := by
    rintro rfl
    rw [hd] at u1; cases u1; grind
  obtain ⟨b, hb⟩ : ∃ w, data[low + 1]? = some w := ⟨_, List.getElem?_eq_getElem (by omega)⟩
  obtain ⟨c, hc⟩ : ∃ w, data[up - 1]? = some w := ⟨_, List.getElem?_eq_getElem (by omega)⟩
  have b1 := bt _ _ (by omega) (by omega) hb
  have c1 := bt _ _ (by omega) (by omega) hc
  rw [show 1 / 2 * data[index] = data[index] / 2 by grind] at e
  generalize data[index] / 2 = half at *
  have hcast : ((low + 1 : Nat) : Rat) = (low : Rat) + 1 := by
    rw [Rat.natCast_add]; rfl
  have ucast : (up : Rat) = ((up - 1 : Nat) : Rat) + 1 := by
    have : up = up - 1 + 1 := by omega
    have h := congrArg (fun n : Nat => (n : Rat)) this
    rw [Rat.natCast_add] at h
    exact h
  refine ⟨a, b, c, d, linearInterpolate ((up - 1 : Nat) : Rat) (up : Rat) c d half,
    linearInterpolate (low : Rat) ((low + 1 : Nat) : Rat) a b half, l1, hb, hc, u1, ?_, ?_⟩
  · unfold fwhmInterpolated
    rw [e]; simp only [interpolatedWidth, l1, hb, hc, u1]
  · have L : (linearInterpolate (low : Rat) ((low + 1 : Nat) : Rat) a b half - (low : Rat)) * (b - a) = half - a := by
      rw [linearInterpolate_spec _ _ _ _ _ (by grind), hcast]; grind
    have R : (linearInterpolate ((up - 1 : Nat) : Rat) (up : Rat) c d half - ((up - 1 : Nat) : Rat)) * (d - c) = half - c := by
      rw [linearInterpolate_spec _ _ _ _ _ (by grind), ucast]; grind
    obtain ⟨r1, r2⟩ := linearInterpolate_between ((up - 1 : Nat) : Rat) (up : Rat) c d half (by rw [ucast]; grind) (.inr ⟨u2, c1⟩)
    refine ⟨?_, ?_, r1, r2, L, R⟩
    · unfold linearInterpolate
      by_cases hab : b = a
      · rw [if_pos hab]; grind
      · rw [if_neg hab, hcast]
        have hp : 0 < b - a := by grind
        have : 0 ≤ (half - a) / (b - a) := by
          rw [Rat.div_def]
          exact Rat.mul_nonneg (by grind) (Rat.le_of_lt (Rat.inv_pos.2 hp))
        grind
    · by_cases ha : a < half
      · exact (linearInterpolate_between (low : Rat) ((low + 1 : Nat) : Rat) a b half (by rw [hcast]; grind) (.inl ⟨ha, by grind⟩)).2
      · have : half = a := by grind
        subst this
        unfold linearInterpolate
        rw [if_neg (by grind), hcast]
        grind

example : fwhmInterpolated [0, 1, 3, 4, 3, 2, 0] 3 = .val (7 / 2) := by decide +kernel

/-- **The duty cycle** is the share of the high among the high and low samples, those beyond 55 % and below 45 % of the way from the
least to the greatest value, and so lies between 0 and 1; a constant signal has none. -/
theorem duty_spec (vs : List Rat) (mn mx : Rat) (h : mn < mx) :
    dutyCycle vs mn mx =
      (let low := vs.countP fun v => v < mn + 45 / 100 * (mx - mn)
       let high := vs.countP fun v => v > mn + 55 / 100 * (mx - mn)
       if low + high = 0 then none else some ((high : Rat) / ((low + high : Nat) : Rat))) ∧
    (∀ d, dutyCycle vs mn mx = some d → 0 ≤ d ∧ d ≤ 1) ∧ dutyCycle vs mn mn = none := by
  have key : ∀ (l : List Rat) (c : Nat × Nat), l.foldl (fun (c : Nat × Nat) v =>
      if v < mn + 45 / 100 * (mx - mn) then (c.1 + 1, c.2) else if v > mn + 55 / 100 * (mx - mn) then (c.1, c.2 + 1) else c) c =
      (c.1 + l.countP (fun v => v < mn + 45 / 100 * (mx - mn)), c.2 + l.countP (fun v => v > mn + 55 / 100 * (mx - mn))) := by
    intro l
    induction l with
    | nil => simp
    | cons v l ih =>
      intro c
      rw [List.foldl_cons, ih, List.countP_cons, List.countP_cons]
      by_cases h1 : v < mn + 45 / 100 * (mx - mn)
      · have h2 : ¬ v > mn + 55 / 100 * (mx - mn) := by grind
        simp only [h1, h2, if_true, decide_true, decide_false, Bool.false_eq_true, if_false]
        congr 1; omega
      · by_cases h2 : v > mn + 55 / 100 * (mx - mn)
        · simp only [h1, h2, if_true, decide_true, decide_false, Bool.false_eq_true, if_false]
          congr 1; omega
        · simp only [h1, h2, decide_false, Bool.false_eq_true, if_false]
          congr 1
  have hf : dutyCycle vs mn mx =
      (let low := vs.countP fun v => v < mn + 45 / 100 * (mx - mn)
       let high := vs.countP fun v => v > mn + 55 / 100 * (mx - mn)
       if low + high = 0 then none else some ((high : Rat) / ((low + high : Nat) : Rat))) := by
    unfold dutyCycle
    rw [if_neg (by grind)]
    dsimp only
    rw [if_pos h, key]
    dsimp only
    rw [Nat.zero_add, Nat.zero_add]
    generalize vs.countP (fun v => v < mn + 45 / 100 * (mx - mn)) = low
    generalize vs.countP (fun v => v > mn + 55 / 100 * (mx - mn)) = high
    by_cases hz : low + high = 0
    · rw [if_neg (by omega), if_pos hz]
    · rw [if_pos (by omega), if_neg hz]
  refine ⟨hf, fun d hd => ?_, by unfold dutyCycle; rw [if_pos rfl]⟩
  rw [hf] at hd
  dsimp only at hd
  generalize vs.countP (fun v => v < mn + 45 / 100 * (mx - mn)) = low at hd
  generalize vs.countP (fun v => v > mn + 55 / 100 * (mx - mn)) = high at hd
  by_cases hz : low + high = 0
  · rw [if_pos hz] at hd; cases hd
  · rw [if_neg hz] at hd
    simp only [Option.some.injEq] at hd
    have hp : (0 : Rat) < ((low + high : Nat) : Rat) := by
      have h0 : ((0 : Nat) : Rat) < ((low + high : Nat) : Rat) := Rat.natCast_lt_natCast.2 (by omega)
      exact h0
    have hn : (0 : Rat) ≤ (high : Rat) := by
      have h0 : ((0 : Nat) : Rat) ≤ (high : Rat) := Rat.natCast_le_natCast.2 (by omega)
      exact h0
    have hle : (high : Rat) ≤ ((low + high : Nat) : Rat) := Rat.natCast_le_natCast.2 (by omega)
    have hm : d * ((low + high : Nat) : Rat) = high := by rw [← hd, Rat.div_mul_cancel (by grind)]
    generalize ((low + high : Nat) : Rat) = t at *
    exact ⟨Rat.le_of_mul_le_mul_right (c := t) (by grind) hp, Rat.le_of_mul_le_mul_right (c := t) (by grind) hp⟩

example : dutyCycle [0, 0, 0, 10] 0 10 = some (1 / 4) := by decide +kernel

/-- The places at which a signal goes up past `tMax` and down past `tMin`, in turn, beginning with up (`true`) or down. -/
def edges (tMin tMax : Rat) : Bool → List (Rat × Option Rat) → List (Bool × Rat)
  | _, [] => []
  | b, (_, none) :: l => edges tMin tMax b l
  | true, (x, some y) :: l => if y > tMax then (true, x) :: edges tMin tMax false l else edges tMin tMax true l
  | false, (x, some y) :: l => if y < tMin then (false, x) :: edges tMin tMax true l else edges tMin tMax false l

/-- The edges of one kind. -/
def kind (b : Bool) (l : List (Bool × Rat)) : List Rat := (l.filter (·.1 == b)).map (·.2)

/-- How often an edge of this kind follows an earlier one. -/
def repeats (before : Option Rat) (l : List Rat) : Nat := (before.toList ++ l).length - 1

/-- Every place is `T` after the one before it. -/
def Even (T : Rat) : List Rat → Prop
  | a :: b :: l => b - a = T ∧ Even T (b :: l)
  | _ => True

theorem freq_loop (tMin tMax T : Rat) (l : List (Rat × Option Rat)) (s : Freq)
    (hr : Even T (s.rise.toList ++ kind true (edges tMin tMax (!s.high) l)))
    (hf : Even T (s.fall.toList ++ kind false (edges tMin tMax (!s.high) l)))
    (hs : s.period = (s.count : Rat) * T) :
    let s' := l.foldl (Freq.feed tMin tMax) s
    s'.period = (s'.count : Rat) * T ∧
    s'.count = s.count + repeats s.rise (kind true (edges tMin tMax (!s.high) l)) +
      repeats s.fall (kind false (edges tMin tMax (!s.high) l)) := by
  induction l generalizing s with
  | nil =>
    refine ⟨hs, ?_⟩
    obtain ⟨r, f, p, c, hh⟩ := s
    cases r <;> cases f <;> simp [repeats, kind, edges]
  | cons p l ih =>
    obtain ⟨x, y⟩ := p
    rw [List.foldl_cons]
    obtain ⟨r, f, pd, c, hh⟩ := s
    have one : ((c + 1 : Nat) : Rat) * T = (c : Rat) * T + T := by
      rw [Rat.natCast_add]
      have : ((1 : Nat) : Rat) = 1 := rfl
      rw [this]; grind
    cases y with
    | none =>
      have e : edges tMin tMax (!hh) ((x, none) :: l) = edges tMin tMax (!hh) l := by cases hh <;> rfl
      dsimp only at hr hf ⊢
      rw [e] at hr hf ⊢
      exact ih _ hr hf hs
    | some y =>
      dsimp only at hs
      cases hh with
      | false =>
        by_cases hy : y > tMax
        · have e : edges tMin tMax (!false) ((x, some y) :: l) = (true, x) :: edges tMin tMax (!true) l := by show edges tMin tMax true _ = _; rw [edges, if_pos hy]; rfl
          have k1 : kind true ((true, x) :: edges tMin tMax (!true) l) = x :: kind true (edges tMin tMax (!true) l) := rfl
          have k2 : kind false ((true, x) :: edges tMin tMax (!true) l) = kind false (edges tMin tMax (!true) l) := rfl
          dsimp only at hr hf ⊢
          rw [e, k1] at hr ⊢
          rw [e, k2] at hf
          rw [k2]
          cases r with
          | none =>
            have st : Freq.feed tMin tMax ⟨none, f, pd, c, false⟩ (x, some y) = ⟨some x, f, pd, c, true⟩ := by
              simp [Freq.feed, Freq.step, hy]
            rw [st]
            obtain ⟨a, b⟩ := ih ⟨some x, f, pd, c, true⟩ hr hf hs
            refine ⟨a, ?_⟩
            rw [b]; simp [repeats]
          | some r =>
            have st : Freq.feed tMin tMax ⟨some r, f, pd, c, false⟩ (x, some y) = ⟨some x, f, pd + (x - r), c + 1, true⟩ := by
              simp [Freq.feed, Freq.step, hy]
            rw [st]
            obtain ⟨hd, hr'⟩ : x - r = T ∧ Even T (x :: kind true (edges tMin tMax (!true) l)) := hr
            obtain ⟨a, b⟩ := ih ⟨some x, f, pd + (x - r), c + 1, true⟩ hr' hf (by dsimp only; rw [one, hs, hd])
            refine ⟨a, ?_⟩
            rw [b]; simp [repeats]; omega
        · have e : edges tMin tMax (!false) ((x, some y) :: l) = edges tMin tMax (!false) l := by show edges tMin tMax true _ = _; rw [edges, if_neg hy]; rfl
          have st : Freq.feed tMin tMax ⟨r, f, pd, c, false⟩ (x, some y) = ⟨r, f, pd, c, false⟩ := by simp [Freq.feed, Freq.step, hy]
          dsimp only at hr hf ⊢
          rw [e] at hr hf ⊢
          rw [st]
          exact ih ⟨r, f, pd, c, false⟩ hr hf hs
      | true =>
        by_cases hy : y < tMin
        · have e : edges tMin tMax (!true) ((x, some y) :: l) = (false, x) :: edges tMin tMax (!false) l := by show edges tMin tMax false _ = _; rw [edges, if_pos hy]; rfl
          have k1 : kind false ((false, x) :: edges tMin tMax (!false) l) = x :: kind false (edges tMin tMax (!false) l) := rfl
          have k2 : kind true ((false, x) :: edges tMin tMax (!false) l) = kind true (edges tMin tMax (!false) l) := rfl
          dsimp only at hr hf ⊢
          rw [e, k1] at hf ⊢
          rw [e, k2] at hr
          rw [k2]
          cases f with
          | none =>
            have st : Freq.feed tMin tMax ⟨r, none, pd, c, true⟩ (x, some y) = ⟨r, some x, pd, c, false⟩ := by
              simp [Freq.feed, Freq.step, hy]
            rw [st]
            obtain ⟨a, b⟩ := ih ⟨r, some x, pd, c, false⟩ hr hf hs
            refine ⟨a, ?_⟩
            rw [b]; simp [repeats]
          | some f =>
            have st : Freq.feed tMin tMax ⟨r, some f, pd, c, true⟩ (x, some y) = ⟨r, some x, pd + (x - f), c + 1, false⟩ := by
              simp [Freq.feed, Freq.step, hy]
            rw [st]
            obtain ⟨hd, hf'⟩ : x - f = T ∧ Even T (x :: kind false (edges tMin tMax (!false) l)) := hf
            obtain ⟨a, b⟩ := ih ⟨r, some x, pd + (x - f), c + 1, false⟩ hr hf' (by dsimp only; rw [one, hs, hd])
            refine ⟨a, ?_⟩
            rw [b]; simp [repeats]; omega
        · have e : edges tMin tMax (!true) ((x, some y) :: l) = edges tMin tMax (!true) l := by show edges tMin tMax false _ = _; rw [edges, if_neg hy]; rfl
          have st : Freq.feed tMin tMax ⟨r, f, pd, c, true⟩ (x, some y) = ⟨r, f, pd, c, true⟩ := by simp [Freq.feed, Freq.step, hy]
          dsimp only at hr hf ⊢
          rw [e] at hr hf ⊢
          rw [st]
          exact ih ⟨r, f, pd, c, true⟩ hr hf hs

/-- **The frequency** of a signal whose rising edges are one period apart, and whose falling edges are too, is one over the period;
it is not known exactly if no edge is repeated. Values between the two thresholds never count as an edge. -/
theorem frequency_spec (tMin tMax T : Rat) (hT : 0 < T) (pts : List (Rat × Option Rat))
    (hr : Even T (kind true (edges tMin tMax true pts))) (hf : Even T (kind false (edges tMin tMax true pts))) :
    frequency tMin tMax pts =
      if (kind true (edges tMin tMax true pts)).length ≤ 1 ∧ (kind false (edges tMin tMax true pts)).length ≤ 1 then none
      else some (1 / T) := by
  obtain ⟨a, b⟩ := freq_loop tMin tMax T pts {} hr hf (by show (0 : Rat) = ((0 : Nat) : Rat) * T; have : ((0 : Nat) : Rat) = 0 := rfl; rw [this]; grind)
  unfold frequency
  dsimp only at a b ⊢
  generalize pts.foldl (Freq.feed tMin tMax) {} = s at *
  have hc : s.count = ((kind true (edges tMin tMax true pts)).length - 1) + ((kind false (edges tMin tMax true pts)).length - 1) := by
    rw [b]; simp [repeats]
  by_cases h : (kind true (edges tMin tMax true pts)).length ≤ 1 ∧ (kind false (edges tMin tMax true pts)).length ≤ 1
  · rw [if_pos (by omega), if_pos h]
  · rw [if_neg (by omega), if_neg h, a]
    have hp : (0 : Rat) < (s.count : Rat) := by
      have h0 : ((0 : Nat) : Rat) < (s.count : Rat) := Rat.natCast_lt_natCast.2 (by omega)
      exact h0
    congr 1
    generalize (s.count : Rat) = n at *
    have h1 : n / (n * T) * (n * T) = n := Rat.div_mul_cancel (by have := Rat.mul_pos hp hT; grind)
    have h2 : 1 / T * T = 1 := Rat.div_mul_cancel (by grind)
    have h3 : n / (n * T) * (n * T) = 1 / T * (n * T) := by
      rw [h1, show 1 / T * (n * T) = n * (1 / T * T) by grind, h2]; grind
    have hnt := Rat.mul_pos hp hT
    exact Rat.le_antisymm (Rat.le_of_mul_le_mul_right (c := n * T) (by rw [h3]; exact Rat.le_refl) hnt)
      (Rat.le_of_mul_le_mul_right (c := n * T) (by rw [h3]; exact Rat.le_refl) hnt)

example : frequency (-1) 1 [(0, some 2), (1, some 0), (2, some (-2)), (4, some 2), (6, some (-2)), (8, some 3)] = some (1 / 4) := by
  decide +kernel

theorem crossLoop_spec (rising : Bool) (th : Rat) (xs ys : List Rat) (hi fuel i : Nat) (h0 : 0 < i) (hh : hi ≤ ys.length)
    (hl : ys.length = xs.length) (hfuel : hi ≤ fuel + i)
    (hb : ∀ v, ys[i - 1]? = some v → if rising then v < th else th < v) :
    (crossLoop rising th xs (ys.map some) hi fuel i = none →
      ∀ j v, i ≤ j → j < hi → ys[j]? = some v → if rising then v < th else th < v) ∧
    ∀ n p, crossLoop rising th xs (ys.map some) hi fuel i = some (n, p) →
      i ≤ n ∧ n < hi ∧ ∃ x0 x1 y0 y1, xs[n - 1]? = some x0 ∧ xs[n]? = some x1 ∧ ys[n - 1]? = some y0 ∧ ys[n]? = some y1 ∧
        (if rising then y0 < th ∧ th ≤ y1 else y1 ≤ th ∧ th < y0) ∧ p = linearInterpolate x0 x1 y0 y1 th ∧
        ∀ j v, i ≤ j → j < n → ys[j]? = some v → if rising then v < th else th < v := by
  induction fuel generalizing i with
  | zero => exact ⟨fun _ j v a b => by omega, by simp [crossLoop]⟩
  | succ fuel ih =>
    rw [crossLoop]
    by_cases hc : i < hi
    · rw [if_pos hc]
      obtain ⟨y0, e0⟩ : ∃ v, ys[i - 1]? = some v := ⟨_, List.getElem?_eq_getElem (by omega)⟩
      obtain ⟨y1, e1⟩ : ∃ v, ys[i]? = some v := ⟨_, List.getElem?_eq_getElem (by omega)⟩
      obtain ⟨x0, f0⟩ : ∃ v, xs[i - 1]? = some v := ⟨_, List.getElem?_eq_getElem (by omega)⟩
      obtain ⟨x1, f1⟩ : ∃ v, xs[i]? = some v := ⟨_, List.getElem?_eq_getElem (by omega)⟩
      simp only [List.getElem?_map, e0, e1, Option.map_some, Option.getD_some, List.getD_eq_getElem?_getD, f0, f1]
      have hb0 := hb y0 e0
      by_cases hx : if rising then y1 ≥ th else y1 ≤ th
      · rw [if_pos hx]
        refine ⟨by simp, fun n p hp => ?_⟩
        simp only [Option.some.injEq, Prod.mk.injEq] at hp
        obtain ⟨rfl, rfl⟩ := hp
        refine ⟨Nat.le_refl _, hc, x0, x1, y0, y1, f0, f1, e0, e1, ?_, rfl, fun j v a b => by omega⟩
        cases rising
        · exact ⟨hx, hb0⟩
        · exact ⟨hb0, hx⟩
      · rw [if_neg hx]
        have hb1 : if rising then y1 < th else th < y1 := by
          cases rising
          · exact Rat.not_le.1 hx
          · exact Rat.not_le.1 hx
        obtain ⟨g1, g2⟩ := ih (i + 1) (by omega) (by omega) (by
          intro v hv
          rw [Nat.add_sub_cancel, e1] at hv; cases hv; exact hb1)
        have ext : ∀ m, (∀ j v, i + 1 ≤ j → j < m → ys[j]? = some v → if rising then v < th else th < v) →
            ∀ j v, i ≤ j → j < m → ys[j]? = some v → if rising then v < th else th < v := by
          intro m hall j v a b hv
          by_cases e : j = i
          · subst e; rw [e1] at hv; cases hv; exact hb1
          · exact hall j v (by omega) b hv
        refine ⟨fun hn => ext hi (g1 hn), fun n p hp => ?_⟩
        obtain ⟨a1, a2, x0, x1, y0, y1, r⟩ := g2 n p hp
        exact ⟨by omega, a2, x0, x1, y0, y1, r.1, r.2.1, r.2.2.1, r.2.2.2.1, r.2.2.2.2.1, r.2.2.2.2.2.1, ext n r.2.2.2.2.2.2⟩
    · rw [if_neg hc]
      exact ⟨fun _ j v a b => by omega, by simp⟩

/-- **The crossing** found from the start of a signal of finite values that is not at the threshold at first: it lies between the first
two neighbours on different sides, on the straight line through them. Only if the whole range stays on one side, the value of the
last sample comes back instead of a place. -/
theorem crossing_spec_partial (xs ys : List Rat) (th y : Rat) (rest : List Rat) (hi : Nat) (he : ys = y :: rest) (hy : y ≠ th)
    (hh : 0 < hi) (hhi : hi ≤ ys.length) (hl : ys.length = xs.length) (mono : xs.Pairwise (· ≤ ·)) :
    (∃ n x0 x1 y0 y1 p, 0 < n ∧ n < hi ∧ xs[n - 1]? = some x0 ∧ xs[n]? = some x1 ∧ ys[n - 1]? = some y0 ∧ ys[n]? = some y1 ∧
      (∀ (j : Nat) v, j < n → ys[j]? = some v → (v < th ↔ y < th) ∧ v ≠ th) ∧ ((y1 < th ↔ ¬ y < th) ∨ y1 = th) ∧
      getZeroCrossing xs (ys.map some) th 0 hi = some p ∧ x0 ≤ p ∧ p ≤ x1 ∧ (p - x0) * (y1 - y0) = (th - y0) * (x1 - x0)) ∨
    ((∀ (j : Nat) v, j < hi → ys[j]? = some v → (v < th ↔ y < th) ∧ v ≠ th) ∧
      getZeroCrossing xs (ys.map some) th 0 hi = ys[hi - 1]?) := by
  have hy0 : ys[0]? = some y := by rw [he]; rfl
  have hdir : ∀ v : Rat, (if decide (y < th) = true then v < th else th < v) ↔ ((v < th ↔ y < th) ∧ v ≠ th) := by
    intro v
    by_cases h : y < th
    · simp only [h, decide_true, if_true]; grind
    · simp only [h, decide_false, Bool.false_eq_true, if_false]; grind
  obtain ⟨g1, g2⟩ := crossLoop_spec (decide (y < th)) th xs ys hi hi 1 (by omega) hhi hl (by omega) (by
    intro v hv
    have : ys[0]? = some v := hv
    rw [hy0] at this; cases this
    rw [hdir]; exact ⟨Iff.rfl, hy⟩)
  have all : ∀ m, (∀ (j : Nat) v, 1 ≤ j → j < m → ys[j]? = some v → if decide (y < th) = true then v < th else th < v) →
      ∀ (j : Nat) v, j < m → ys[j]? = some v → (v < th ↔ y < th) ∧ v ≠ th := by
    intro m hall j v hj hv
    by_cases e : j = 0
    · subst e; rw [hy0] at hv; cases hv; exact ⟨Iff.rfl, hy⟩
    · exact (hdir v).1 (hall j v (by omega) hj hv)
  have hu : getZeroCrossing xs (ys.map some) th 0 hi = match crossLoop (decide (y < th)) th xs (ys.map some) hi hi 1 with
      | some (_, v) => some v
      | none => ((ys.map some)[hi - 1]?).getD none := by
    unfold getZeroCrossing
    simp only [List.getElem?_map, hy0, Option.map_some, Option.getD_some, Nat.sub_zero, Nat.zero_add]
    rfl
  rw [hu]
  cases hc : crossLoop (decide (y < th)) th xs (ys.map some) hi hi 1 with
  | none =>
    right
    refine ⟨all hi (g1 hc), ?_⟩
    dsimp only
    rw [List.getElem?_map]
    cases ys[hi - 1]? <;> rfl
  | some r =>
    obtain ⟨n, p⟩ := r
    left
    obtain ⟨n1, n2, x0, x1, y0, y1, f0, f1, e0, e1, hd, hp, hb⟩ := g2 n p hc
    have hx : x0 ≤ x1 := by
      obtain ⟨l0, rfl⟩ := List.getElem?_eq_some_iff.1 f0
      obtain ⟨l1, rfl⟩ := List.getElem?_eq_some_iff.1 f1
      exact List.pairwise_iff_getElem.1 mono _ _ l0 l1 (by omega)
    have hor : (y0 < th ∧ th ≤ y1) ∨ (y1 ≤ th ∧ th < y0) := by
      by_cases h : y < th
      · simp only [h, decide_true, if_true] at hd; exact .inl hd
      · simp only [h, decide_false, Bool.false_eq_true, if_false] at hd; exact .inr hd
    obtain ⟨b1, b2⟩ := linearInterpolate_between x0 x1 y0 y1 th hx hor
    refine ⟨n, x0, x1, y0, y1, p, by omega, n2, f0, f1, e0, e1, all n hb, ?_, rfl, hp ▸ b1, hp ▸ b2, ?_⟩
    · by_cases h : y < th
      · simp only [h, decide_true, if_true] at hd; grind
      · simp only [h, decide_false, Bool.false_eq_true, if_false] at hd; grind
    · rw [hp]; exact linearInterpolate_spec _ _ _ _ _ (by grind)

example : getZeroCrossing [0, 10, 20, 30] [some (-4), some (-2), some 6, some 9] 0 0 4 = some (25 / 2) := by decide +kernel

/-- Without a crossing the answer is a value of the signal, which looks like a place: here 2, although nothing crosses there. -/
theorem crossing_absent_value : getZeroCrossing [0, 1, 2, 3] [some 7, some 5, some 3, some 2] 0 0 4 = some 2 := by decide +kernel

/-- The side at the start is always judged by sample 0, even if the range begins later: from place 1 on this signal crosses 5 between
places 2 and 3, and the answer 3.5 lies outside the two samples 1 and 2 it was computed from. -/
theorem crossing_wrong_side :
    getZeroCrossing [0, 1, 2, 3, 4] [some 0, some 10, some 8, some 2, some 0] 5 1 5 = some (7 / 2) ∧
    getZeroCrossing [1, 2, 3, 4] [some 10, some 8, some 2, some 0] 5 0 4 = some (5 / 2) := by decide +kernel

end Verif.DEst
