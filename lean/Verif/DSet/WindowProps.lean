import Verif.DSet.Model
/-!
# C147: sliding windows over a data set
-/
namespace Verif.DSet

/-! ## the window -/

/-- The values near place `i`: those at places at most `h` away. -/
def near (xs : List Rat) (h i : Nat) : List Rat :=
  (List.range xs.length).filterMap fun j => if i ≤ j + h ∧ j ≤ i + h then xs[j]? else none

theorem filterMap_range (xs : List Rat) (p q off : Nat) :
    (List.range xs.length).filterMap (fun j => if p ≤ j + off ∧ j + off < q then xs[j]? else none) = (xs.take (q - off)).drop (p - off) := by
  induction xs generalizing off with
  | nil => simp
  | cons x xs ih =>
    rw [List.length_cons, List.range_succ_eq_map, List.filterMap_cons, List.filterMap_map]
    have shift : ((fun j => if p ≤ j + off ∧ j + off < q then (x :: xs)[j]? else none) ∘ Nat.succ) =
        fun j => if p ≤ j + (off + 1) ∧ j + (off + 1) < q then xs[j]? else none := by
      funext j
      show (if p ≤ j + 1 + off ∧ j + 1 + off < q then (x :: xs)[j + 1]? else none) = _
      rw [List.getElem?_cons_succ]
      by_cases h : p ≤ j + (off + 1) ∧ j + (off + 1) < q
      · rw [if_pos h, if_pos (by omega)]
      · rw [if_neg h, if_neg (by omega)]
    rw [shift, ih (off + 1)]
    by_cases h : p ≤ 0 + off ∧ 0 + off < q
    · rw [if_pos h]
      have e1 : p - off = 0 := by omega
      have e2 : q - off = (q - (off + 1)) + 1 := by omega
      have e3 : p - (off + 1) = 0 := by omega
      rw [e1, e2, e3]
      rfl
    · rw [if_neg h]
      dsimp only
      by_cases hq : off < q
      · have e1 : p - off = (p - (off + 1)) + 1 := by omega
        have e2 : q - off = (q - (off + 1)) + 1 := by omega
        rw [e1, e2]
        rfl
      · have e2 : q - off = 0 := by omega
        have e3 : q - (off + 1) = 0 := by omega
        rw [e2, e3]
        simp

/-- The code's window is that of the values near the place. -/
theorem window_near (xs : List Rat) (h i : Nat) : window xs h i = near xs h i := by
  have key := filterMap_range xs (i - h) (i + h + 1) 0
  rw [Nat.sub_zero, Nat.sub_zero] at key
  unfold window near
  have e : xs.take (min (i + h + 1) xs.length) = xs.take (i + h + 1) := by
    rw [← List.take_take, List.take_length]
  rw [e, ← key]
  congr 1
  funext j
  by_cases hc : i ≤ j + h ∧ j ≤ i + h
  · rw [if_pos hc, if_pos (by omega)]
  · rw [if_neg hc, if_neg (by omega)]

example : near [1, 2, 3, 4, 5] 1 0 = [1, 2] ∧ near [1, 2, 3, 4, 5] 1 2 = [2, 3, 4] ∧ near [1, 2, 3, 4, 5] 1 4 = [4, 5] := by
  decide +kernel

theorem window_length (xs : List Rat) (h i : Nat) : (window xs h i).length = min (i + h + 1) xs.length - (i - h) := by
  unfold window
  rw [List.length_drop, List.length_take]
  omega

theorem window_pos (xs : List Rat) (h i : Nat) (hi : i < xs.length) : 0 < (window xs h i).length := by
  rw [window_length]
  omega

/-! ## sums -/

/-- The sum of a list. -/
def total : List Rat → Rat
  | [] => 0
  | x :: xs => x + total xs

theorem foldl_add (f : Rat → Rat) (xs : List Rat) (a : Rat) : xs.foldl (fun acc x => acc + f x) a = a + total (xs.map f) := by
  induction xs generalizing a with
  | nil => show a = a + 0; grind
  | cons x xs ih =>
    rw [List.foldl_cons, ih, List.map_cons]
    show _ = a + (f x + total (xs.map f))
    grind

theorem foldl_sum (xs : List Rat) : xs.foldl (· + ·) 0 = total xs := by
  have := foldl_add id xs 0
  rw [List.map_id] at this
  show xs.foldl (fun a b => a + id b) 0 = _
  rw [this]
  grind

theorem natCast_succ (n : Nat) : ((n + 1 : Nat) : Rat) = (n : Rat) + 1 := by
  rw [Rat.natCast_add]; rfl

theorem natCast_pos {n : Nat} (h : 0 < n) : (0 : Rat) < (n : Rat) := by
  have := Rat.natCast_lt_natCast.2 h
  exact this

theorem total_bounds (lo hi : Rat) (xs : List Rat) (h : ∀ x ∈ xs, lo ≤ x ∧ x ≤ hi) :
    (xs.length : Rat) * lo ≤ total xs ∧ total xs ≤ (xs.length : Rat) * hi := by
  induction xs with
  | nil =>
    show ((0 : Nat) : Rat) * lo ≤ 0 ∧ 0 ≤ ((0 : Nat) : Rat) * hi
    have : ((0 : Nat) : Rat) = 0 := rfl
    rw [this]
    grind
  | cons x xs ih =>
    obtain ⟨a, b⟩ := ih (fun y hy => h y (List.mem_cons_of_mem _ hy))
    obtain ⟨c, d⟩ := h x List.mem_cons_self
    rw [List.length_cons, natCast_succ]
    show _ ≤ x + total xs ∧ x + total xs ≤ _
    grind

theorem le_div_iff {a b c : Rat} (hc : 0 < c) (h : c * a ≤ b) : a ≤ b / c := by
  have := Rat.mul_le_mul_of_nonneg_right h (Rat.le_of_lt (Rat.inv_pos.2 hc))
  have e : c * a * c⁻¹ = a := by
    have := Rat.mul_inv_cancel c (by grind)
    grind
  rw [e] at this
  rwa [Rat.div_def]

theorem div_le_iff {a b c : Rat} (hc : 0 < c) (h : b ≤ c * a) : b / c ≤ a := by
  have := Rat.mul_le_mul_of_nonneg_right h (Rat.le_of_lt (Rat.inv_pos.2 hc))
  have e : c * a * c⁻¹ = a := by
    have := Rat.mul_inv_cancel c (by grind)
    grind
  rw [e] at this
  rwa [Rat.div_def]

/-! ## the moving average -/

/-- **A moving average** is at each place the sum of the values near it over their number, and lies between the bounds of these. Windows
of even length are refused. -/
theorem movingAverage_spec (xs : List Rat) (w : Nat) :
    (w % 2 = 0 → movingAverage xs w = .throws) ∧
    (w % 2 = 1 → ∃ ys, movingAverage xs w = .ok ys ∧ ys.length = xs.length ∧
      ∀ i, i < xs.length → ∃ y, ys[i]? = some y ∧ y * ((near xs (w / 2) i).length : Rat) = total (near xs (w / 2) i) ∧
        ∀ lo hi, (∀ x ∈ near xs (w / 2) i, lo ≤ x ∧ x ≤ hi) → lo ≤ y ∧ y ≤ hi) := by
  refine ⟨fun h => if_pos (.inr h), fun h => ?_⟩
  refine ⟨_, if_neg (by omega), by simp, fun i hi => ?_⟩
  have hp : (0 : Rat) < ((near xs (w / 2) i).length : Rat) := by
    rw [← window_near]
    exact natCast_pos (window_pos xs _ i hi)
  refine ⟨total (near xs (w / 2) i) / ((near xs (w / 2) i).length : Rat), ?_, by grind, fun lo hi' hb => ?_⟩
  · rw [List.getElem?_map, List.getElem?_range hi, Option.map_some, foldl_sum, window_near]
  · obtain ⟨a, b⟩ := total_bounds lo hi' _ hb
    exact ⟨le_div_iff hp a, div_le_iff hp b⟩

example : movingAverage [3, 6, 9, 12] 3 = .ok [9 / 2, 6, 9, 21 / 2] := by decide +kernel

/-! ## the spread -/

/-- The mean of the squared deviations from the mean. -/
def variance (xs : List Rat) : Rat :=
  total (xs.map fun x => (x - total xs / (xs.length : Rat)) * (x - total xs / (xs.length : Rat))) / (xs.length : Rat)

theorem deviations (xs : List Rat) (m : Rat) :
    total (xs.map fun x => (x - m) * (x - m)) = total (xs.map fun x => x * x) - 2 * m * total xs + (xs.length : Rat) * m * m := by
  induction xs with
  | nil =>
    show (0 : Rat) = 0 - 2 * m * 0 + ((0 : Nat) : Rat) * m * m
    have : ((0 : Nat) : Rat) = 0 := rfl
    rw [this]
    grind
  | cons x xs ih =>
    rw [List.map_cons, List.map_cons, List.length_cons, natCast_succ]
    show (x - m) * (x - m) + total _ = (x * x + total _) - 2 * m * (x + total xs) + _
    rw [ih]
    grind

theorem total_nonneg (xs : List Rat) (h : ∀ x ∈ xs, 0 ≤ x) : 0 ≤ total xs := by
  induction xs with
  | nil => exact Rat.le_refl
  | cons x xs ih =>
    have := ih (fun y hy => h y (List.mem_cons_of_mem _ hy))
    have := h x List.mem_cons_self
    show 0 ≤ x + total xs
    grind

theorem mul_self_nonneg' (x : Rat) : 0 ≤ x * x := by
  cases Rat.le_total (a := 0) (b := x) with
  | inl h => exact Rat.mul_nonneg h h
  | inr h =>
    have h' : 0 ≤ -x := by grind
    have := Rat.mul_nonneg h' h'
    grind

theorem variance_eq (xs : List Rat) (h : 0 < xs.length) :
    total (xs.map fun x => x * x) / (xs.length : Rat) - total xs / (xs.length : Rat) * (total xs / (xs.length : Rat)) = variance xs ∧
      0 ≤ variance xs := by
  have hp : (0 : Rat) < (xs.length : Rat) := natCast_pos h
  constructor
  · unfold variance
    rw [deviations]
    generalize total (xs.map fun x => x * x) = s2
    generalize total xs = s
    generalize (xs.length : Rat) = n at hp
    grind
  · unfold variance
    have : 0 ≤ total (xs.map fun x => (x - total xs / (xs.length : Rat)) * (x - total xs / (xs.length : Rat))) :=
      total_nonneg _ (fun y hy => by
        obtain ⟨x, -, rfl⟩ := List.mem_map.1 hy
        exact mul_self_nonneg' _)
    rw [Rat.div_def]
    exact Rat.mul_nonneg this (Rat.le_of_lt (Rat.inv_pos.2 hp))

/-- **The sliding spread** is at each place the root of the mean squared deviation of the values near it from their mean; it is never the
root of a negative number, so taking the magnitude first changes nothing. -/
theorem rms_spec (root : Rat → Rat) (h0 : root 0 = 0) (xs : List Rat) (w : Nat) (hw : 0 < w) :
    ∃ ys, rms root xs w = .ok ys ∧ ys.length = xs.length ∧
      ∀ i, i < xs.length → ys[i]? = some (root (variance (near xs (w / 2) i))) ∧ 0 ≤ variance (near xs (w / 2) i) := by
  refine ⟨_, if_neg (by omega), by simp, fun i hi => ?_⟩
  have hp := window_pos xs (w / 2) i hi
  obtain ⟨e, nn⟩ := variance_eq (window xs (w / 2) i) hp
  rw [← window_near]
  refine ⟨?_, nn⟩
  rw [List.getElem?_map, List.getElem?_range hi, Option.map_some]
  dsimp only
  congr 1
  by_cases h1 : 1 < (window xs (w / 2) i).length
  · rw [if_pos h1, foldl_sum]
    have s2 := foldl_add (fun x => x * x) (window xs (w / 2) i) 0
    rw [s2, Rat.zero_add, e, Rat.abs_of_nonneg nn]
  · rw [if_neg h1]
    have hl : (window xs (w / 2) i).length = 1 := by omega
    obtain ⟨x, hx⟩ := List.length_eq_one_iff.1 hl
    rw [hx]
    have : variance [x] = 0 := by
      unfold variance
      show ((x - (x + 0) / ((1 : Nat) : Rat)) * (x - (x + 0) / ((1 : Nat) : Rat)) + 0) / ((1 : Nat) : Rat) = 0
      have : ((1 : Nat) : Rat) = 1 := rfl
      rw [this]
      grind
    rw [this, h0]

example : variance [1, 2, 3] = 2 / 3 ∧ rms id [1, 2, 3] 3 = .ok [1 / 4, 2 / 3, 1 / 4] := by decide +kernel

/-! ## peak to peak -/

theorem extremes (lo hi : Rat) (ws : List Rat) (m : Rat × Rat) :
    let r := ws.foldl (fun (m : Rat × Rat) x => (if x < m.1 then x else m.1, if m.2 < x then x else m.2)) m
    (r.1 = m.1 ∨ r.1 ∈ ws) ∧ (r.2 = m.2 ∨ r.2 ∈ ws) ∧ r.1 ≤ m.1 ∧ m.2 ≤ r.2 ∧ ∀ x ∈ ws, r.1 ≤ x ∧ x ≤ r.2 := by
  induction ws generalizing m with
  | nil => exact ⟨.inl rfl, .inl rfl, Rat.le_refl, Rat.le_refl, fun x hx => by cases hx⟩
  | cons w ws ih =>
    obtain ⟨a, b, c, d, e⟩ := ih (if w < m.1 then w else m.1, if m.2 < w then w else m.2)
    rw [List.foldl_cons]
    dsimp only at a b c d e ⊢
    revert a b c d e
    generalize ws.foldl _ _ = r
    intro a b c d e
    refine ⟨?_, ?_, ?_, ?_, fun x hx => ?_⟩
    · rcases a with a | a
      · rw [a]; split
        · exact .inr List.mem_cons_self
        · exact .inl rfl
      · exact .inr (List.mem_cons_of_mem _ a)
    · rcases b with b | b
      · rw [b]; split
        · exact .inr List.mem_cons_self
        · exact .inl rfl
      · exact .inr (List.mem_cons_of_mem _ b)
    · split at c <;> grind
    · split at d <;> grind
    · rcases List.mem_cons.1 hx with rfl | hx
      · constructor
        · split at c <;> grind
        · split at d <;> grind
      · exact e x hx

/-- **Peak to peak** is at each place the greatest minus the least of the values near it. -/
theorem peakToPeak_spec (lo hi : Rat) (xs : List Rat) (w : Nat) (hw : 0 < w) (hb : ∀ x ∈ xs, lo ≤ x ∧ x ≤ hi) :
    ∃ ys, peakToPeak lo hi xs w = .ok ys ∧ ys.length = xs.length ∧
      ∀ i, i < xs.length → ∃ top bot, ys[i]? = some (top - bot) ∧ top ∈ near xs (w / 2) i ∧ bot ∈ near xs (w / 2) i ∧
        ∀ x ∈ near xs (w / 2) i, bot ≤ x ∧ x ≤ top := by
  refine ⟨_, if_neg (by omega), by simp, fun i hi' => ?_⟩
  obtain ⟨a, b, c, d, e⟩ := extremes lo hi (window xs (w / 2) i) (hi, lo)
  rw [← window_near]
  refine ⟨_, _, ?_, ?_, ?_, e⟩
  · rw [List.getElem?_map, List.getElem?_range hi', Option.map_some]
  all_goals
    have hp := window_pos xs (w / 2) i hi'
    obtain ⟨x, rest, hx⟩ : ∃ x rest, window xs (w / 2) i = x :: rest := by
      cases h : window xs (w / 2) i with
      | nil => rw [h] at hp; simp at hp
      | cons x rest => exact ⟨x, rest, rfl⟩
    have hm : x ∈ window xs (w / 2) i := by rw [hx]; exact List.mem_cons_self
    have hxb : lo ≤ x ∧ x ≤ hi := hb x (List.mem_of_mem_take (List.mem_of_mem_drop hm))
    obtain ⟨e1, e2⟩ := e x hm
  · rcases b with b | b
    · have : x = _ := Rat.le_antisymm e2 (by rw [b]; exact hxb.1)
      rw [← this]; exact hm
    · exact b
  · rcases a with a | a
    · have : x = _ := Rat.le_antisymm (by rw [a]; exact hxb.2) e1
      rw [← this]; exact hm
    · exact a

example : peakToPeak (-100) 100 [3, 1, 4, 1, 5] 3 = .ok [2, 3, 3, 4, 4] := by decide +kernel

end Verif.DSet
