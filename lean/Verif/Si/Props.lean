import Verif.Si.Model

/-!
# Property C173: a number with a prefix stands for the number given
-/

namespace Verif.Si

theorem pow_pos (n : Nat) : (0 : Rat) < 1000 ^ n := Rat.pow_pos (by decide)

theorem up_exact (n : Nat) (v : Rat) (e : Nat) : (up n v e).1 * 1000 ^ (up n v e).2 = v * 1000 ^ e := by
  induction n generalizing v e with
  | zero => rfl
  | succ n ih =>
    unfold up
    split
    · rw [ih, Rat.pow_succ]; grind
    · rfl

theorem up_range (n : Nat) (v : Rat) (e : Nat) : e ≤ (up n v e).2 ∧ (up n v e).2 ≤ e + n ∧ ((up n v e).1 < 1000 ∨ (up n v e).2 = e + n) ∧
    ((up n v e).2 = e ∧ (up n v e).1 = v ∨ 1 ≤ (up n v e).1) := by
  induction n generalizing v e with
  | zero => simp [up]
  | succ n ih =>
    unfold up
    split
    · rename_i hv
      obtain ⟨h1, h2, h3, h4⟩ := ih (v / 1000) (e + 1)
      refine ⟨by omega, by omega, ?_, Or.inr ?_⟩
      · rcases h3 with h | h
        · exact Or.inl h
        · exact Or.inr (by omega)
      · rcases h4 with h | h
        · rw [h.2]; grind
        · exact h
    · rename_i hv
      exact ⟨Nat.le_refl _, by omega, Or.inl (by grind), Or.inl ⟨rfl, rfl⟩⟩

theorem down_exact (e : Nat) (v : Rat) : (down v e).1 * 1000 ^ (down v e).2 = v * 1000 ^ e := by
  induction e generalizing v with
  | zero => rfl
  | succ e ih =>
    unfold down
    split
    · rw [ih, Rat.pow_succ]; grind
    · rfl

theorem down_range (e : Nat) (v : Rat) (hv : v < 1000) : (down v e).1 < 1000 ∧ (down v e).2 ≤ e ∧ (1 ≤ (down v e).1 ∨ (down v e).2 = 0) := by
  induction e generalizing v with
  | zero => exact ⟨hv, Nat.le_refl _, Or.inr rfl⟩
  | succ e ih =>
    unfold down
    split
    · obtain ⟨h1, h2, h3⟩ := ih (v * 1000) (by grind)
      exact ⟨h1, by omega, h3⟩
    · exact ⟨hv, Nat.le_refl _, Or.inl (by grind)⟩

theorem down_none (e : Nat) (v : Rat) (hv : 1 ≤ v) : down v e = (v, e) := by
  cases e with
  | zero => rfl
  | succ e => unfold down; rw [if_neg (by grind)]

/-- Number times prefix is the number given, whatever it is; the prefix at place `e` stands for `1000 ^ (e - 10)`. -/
theorem scale_exact (v : Rat) : (scale v).1 * 1000 ^ (scale v).2 = v * 1000 ^ 10 := by
  unfold scale
  split
  · rfl
  · dsimp only
    rw [down_exact, up_exact]

theorem mul_le {a b c : Rat} (h : a ≤ b) (hc : 0 < c) : a * c ≤ b * c := Rat.mul_le_mul_of_nonneg_right h (by grind)

/-- From 10⁻³⁰ to 10³³ the number before the prefix is from 1 to 1000, and there is a prefix. -/
theorem scale_range (v : Rat) (h1 : 1 ≤ v * 1000 ^ 10) (h2 : v < 1000 ^ 11) : 1 ≤ (scale v).1 ∧ (scale v).1 < 1000 ∧ (scale v).2 < prefixes.length := by
  have hv : v ≠ 0 := by
    rintro rfl
    exact absurd h1 (by decide +kernel)
  have hlen : prefixes.length = 21 := rfl
  have hex := up_exact 11 v 10
  obtain ⟨u1, u2, u3, u4⟩ := up_range 11 v 10
  have hs : scale v = down (up 11 v 10).1 (up 11 v 10).2 := by
    unfold scale
    rw [if_neg hv]
    rfl
  have hlt : (up 11 v 10).2 < 21 := by
    rcases Nat.lt_or_ge (up 11 v 10).2 21 with h | h
    · exact h
    · have he : (up 11 v 10).2 = 21 := by omega
      have hone : 1 ≤ (up 11 v 10).1 := by
        rcases u4 with h | h
        · omega
        · exact h
      rw [he] at hex
      have := mul_le hone (pow_pos 21)
      rw [hex] at this
      have e1 : (1000 : Rat) ^ 21 = 1000 ^ 11 * 1000 ^ 10 := by decide +kernel
      rw [e1] at this
      have p := pow_pos 10
      have : (1000 : Rat) ^ 11 * 1000 ^ 10 > v * 1000 ^ 10 := Rat.mul_lt_mul_of_pos_right h2 p
      grind
  have hsmall : (up 11 v 10).1 < 1000 := by
    rcases u3 with h | h
    · exact h
    · omega
  rw [hs, hlen]
  obtain ⟨d1, d2, d3⟩ := down_range (up 11 v 10).2 _ hsmall
  refine ⟨?_, d1, by omega⟩
  rcases d3 with h | h
  · exact h
  · have hd := down_exact (up 11 v 10).2 (up 11 v 10).1
    rw [h, hex] at hd
    have : (down (up 11 v 10).1 (up 11 v 10).2).1 = v * 1000 ^ 10 := by
      rw [← hd]; simp
    rw [this]
    exact h1

/-- The finding: from 10³³ on, the prefix is read outside of its table. -/
theorem large_outside (v : Rat) (h : 1000 ^ 11 ≤ v) : prefixOf v = none := by
  have key : ∀ n (v : Rat) e, (1000 : Rat) ^ n ≤ v → (up n v e).2 = e + n ∧ 1 ≤ (up n v e).1 := by
    intro n
    induction n with
    | zero => intro v e h; exact ⟨rfl, by simpa [up] using h⟩
    | succ n ih =>
      intro v e h
      rw [Rat.pow_succ] at h
      have hone : (1 : Rat) ≤ 1000 ^ n := by
        clear ih h
        induction n with
        | zero => decide +kernel
        | succ n ih => rw [Rat.pow_succ]; grind
      unfold up
      rw [if_pos (by grind)]
      obtain ⟨a, b⟩ := ih (v / 1000) (e + 1) (by grind)
      exact ⟨by omega, b⟩
  obtain ⟨k1, k2⟩ := key 11 v 10 h
  have hv : v ≠ 0 := by
    rintro rfl
    exact absurd h (by decide +kernel)
  have hs : scale v = down (up 11 v 10).1 (up 11 v 10).2 := by
    unfold scale
    rw [if_neg hv]
    rfl
  unfold prefixOf
  rw [hs, down_none _ _ k2, k1]
  rfl

/-- The finding: every negative number gets the smallest prefix. -/
theorem negative_smallest (v : Rat) (h : v < 0) : scale v = (v * 1000 ^ 10, 0) := by
  have key : ∀ e (v : Rat), v < 0 → (down v e).2 = 0 := by
    intro e
    induction e with
    | zero => intro v _; rfl
    | succ e ih =>
      intro v h
      unfold down
      rw [if_pos (by grind)]
      exact ih _ (by grind)
  have hu : up (prefixes.length - 10) v 10 = (v, 10) := by
    show up 11 v 10 = (v, 10)
    unfold up
    rw [if_neg (by grind)]
  have hs : scale v = down v 10 := by
    unfold scale
    rw [if_neg (by grind)]
    dsimp only
    rw [hu]
  have h0 := key 10 v h
  have hd := down_exact 10 v
  rw [h0] at hd
  rw [hs]
  exact Prod.ext (by simpa using hd) h0

/-- Digits before the point. -/
def whole (v : Rat) : Nat := if v < 10 then 1 else if v < 100 then 2 else 3

/-- Numbers with a prefix for large numbers show three digits if no number of digits is asked for; from two digits after the point on, as many
digits are shown as for a number below 10. -/
theorem three_digits (v : Rat) (e : Nat) (he : e > 10) : whole v + digits 0 v e = 3 := by
  unfold whole digits
  grind

theorem asked_digits (sig : Nat) (v : Rat) (e : Nat) (hs : 2 ≤ sig) : whole v + digits sig v e = 1 + sig := by
  unfold whole digits
  grind

/-- With one digit after the point asked for, it is left out from 100 on. -/
theorem one_digit (v : Rat) (e : Nat) : digits 1 v e = if 100 ≤ v then 0 else 1 := by
  unfold digits
  grind

/-- The prefixes of the international system of units: the power of ten of each. -/
def power : Char → Option Int
  | 'Q' => some 30 | 'R' => some 27 | 'Y' => some 24 | 'Z' => some 21 | 'E' => some 18 | 'P' => some 15 | 'T' => some 12 | 'G' => some 9
  | 'M' => some 6 | 'k' => some 3 | ' ' => some 0 | 'm' => some (-3) | 'u' => some (-6) | 'n' => some (-9) | 'p' => some (-12)
  | 'f' => some (-15) | 'a' => some (-18) | 'z' => some (-21) | 'y' => some (-24) | 'r' => some (-27) | 'q' => some (-30)
  | _ => none

theorem prefix_table : ∀ i : Fin prefixes.length, power prefixes[i.1] = some (3 * (i.1 : Int) - 30) := by decide

/-- From 10⁻³⁰ to 10³³ the prefix shown is that of the units for the power of ten by which the number was divided. -/
theorem prefix_power (v : Rat) (h1 : 1 ≤ v * 1000 ^ 10) (h2 : v < 1000 ^ 11) :
    ∃ c, prefixOf v = some c ∧ power c = some (3 * ((scale v).2 : Int) - 30) := by
  have h := (scale_range v h1 h2).2.2
  exact ⟨prefixes[(scale v).2], List.getElem?_eq_getElem h, prefix_table ⟨_, h⟩⟩

example : scale 1234567 = (1234567 / 1000000, 12) ∧ prefixOf 1234567 = some 'M' ∧ digits 0 (1234567 / 1000000) 12 = 2 ∧
    prefixOf (1 / 2000) = some 'u' ∧ scale (1 / 2000) = (500, 8) ∧ scale (-5) = (-5000000000000000000000000000000, 0) := by decide +kernel

end Verif.Si
