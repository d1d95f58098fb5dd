import Verif.Conv.Round

/- Integer types: ranges and the modular cast. -/
namespace Verif.Conv

theorem two_pow_succ_int (n : Nat) : ((2 ^ (n + 1) : Nat) : Int) = 2 * ((2 ^ n : Nat) : Int) := by
  rw [Nat.pow_succ]; omega

theorem inRange_iff {s : Bool} {w : W} {x : Int} : InRange s w x ↔ lowest s w ≤ x ∧ x ≤ highest s w := by
  cases s <;> simp only [InRange, lowest, highest, digits] <;> simp <;> omega

theorem bits_split (w : W) : ((2 ^ w.bits : Nat) : Int) = 2 * ((2 ^ (w.bits - 1) : Nat) : Int) := by
  have := bits_le w
  rw [← two_pow_succ_int]
  congr 3; omega

theorem wrap_of_inRange {s : Bool} {w : W} {x : Int} (h : InRange s w x) : wrap s w x = x := by
  have hb := bits_split w
  have hp : (0 : Int) < ((2 ^ (w.bits - 1) : Nat) : Int) := by have := Nat.two_pow_pos (w.bits - 1); omega
  cases s with
  | false =>
    simp only [InRange, Bool.false_eq_true, if_false] at h
    simp only [wrap, Bool.false_eq_true, false_and, if_false]
    exact Int.emod_eq_of_lt h.1 h.2
  | true =>
    simp only [InRange, if_true] at h
    simp only [wrap, true_and]
    rcases Int.lt_or_le x 0 with hx | hx
    · have e : x % ((2 ^ w.bits : Nat) : Int) = x + ((2 ^ w.bits : Nat) : Int) := by
        rw [← Int.add_emod_right]
        exact Int.emod_eq_of_lt (by omega) (by omega)
      rw [e, if_pos (by omega)]; omega
    · have e : x % ((2 ^ w.bits : Nat) : Int) = x := Int.emod_eq_of_lt hx (by omega)
      rw [e, if_neg (by omega)]

theorem inRange_wrap (s : Bool) (w : W) (x : Int) : InRange s w (wrap s w x) := by
  have hb := bits_split w
  have hp : (0 : Int) < ((2 ^ (w.bits - 1) : Nat) : Int) := by have := Nat.two_pow_pos (w.bits - 1); omega
  have h1 := Int.emod_nonneg x (show ((2 ^ w.bits : Nat) : Int) ≠ 0 by omega)
  have h2 := Int.emod_lt_of_pos x (show (0 : Int) < ((2 ^ w.bits : Nat) : Int) by omega)
  cases s with
  | false =>
    simp only [InRange, wrap, Bool.false_eq_true, false_and, if_false]
    exact ⟨h1, h2⟩
  | true =>
    simp only [InRange, wrap, true_and, if_true]
    split <;> omega

/-- Every value of a type but `std::uint64_t` fits 64 bits with sign. -/
theorem inRange_64 {s : Bool} {w : W} {x : Int} (h : InRange s w x) (hs : s = true ∨ w ≠ .w64 ∨ x < 2 ^ 63) : InRange true .w64 x := by
  rw [inRange_iff] at *
  revert h hs
  cases s <;> cases w <;> simp [lowest, highest, digits, W.bits] <;> omega

/-- Fewer digits: a smaller range, apart from the sign. -/
theorem inRange_mono {s t : Bool} {w v : W} {x : Int} (h : InRange s w x) (hd : digits s w ≤ digits t v)
    (hn : ¬ (t = false ∧ s = true ∧ x < 0)) : InRange t v x := by
  rw [inRange_iff] at *
  revert h hd hn
  cases s <;> cases t <;> cases w <;> cases v <;> simp [lowest, highest, digits, W.bits] <;> omega

theorem natAbs_lt_digits {s : Bool} {w : W} {x : Int} (h : InRange s w x) : x.natAbs ≤ 2 ^ digits s w := by
  rw [inRange_iff] at h
  revert h
  cases s <;> cases w <;> simp [lowest, highest, digits, W.bits] <;> omega

theorem intToInt_eq {s t : Bool} {w v : W} {x : Int} (h : InRange s w x)
    (hl : ¬ (s = false ∧ w = .w64 ∧ t = true ∧ 2 ^ 63 ≤ x)) :
    (InRange t v x → intToInt s w x t v = .ok (.int t v x)) ∧ (¬ InRange t v x → intToInt s w x t v = .refused) := by
  have hneg : t = false ∧ s = true ∧ x < 0 → ¬ InRange t v x := by
    rintro ⟨rfl, _, hx⟩ hr
    simp only [InRange, Bool.false_eq_true, if_false] at hr
    omega
  simp only [intToInt]
  split
  · rename_i hc
    exact ⟨fun hr => absurd hr (hneg hc), fun _ => rfl⟩
  · rename_i hc
    split
    · rename_i hd
      have hr := inRange_mono h hd hc
      exact ⟨fun _ => by rw [wrap_of_inRange hr], fun hn => absurd hr hn⟩
    · rename_i hd
      by_cases hx : s = true ∨ w ≠ .w64 ∨ x < 2 ^ 63
      · rw [wrap_of_inRange (inRange_64 h hx)]
        split
        · rename_i hr
          rw [← inRange_iff] at hr
          exact ⟨fun _ => by rw [wrap_of_inRange hr], fun hn => absurd hr hn⟩
        · rename_i hr
          rw [← inRange_iff] at hr
          exact ⟨fun h' => absurd h' hr, fun _ => rfl⟩
      · -- an unsigned source with the highest bit set, an unsigned target
        have hs : s = false := by cases s <;> simp_all
        have hw : w = .w64 := by cases w <;> simp_all
        subst hs hw
        have hx63 : 2 ^ 63 ≤ x := by
          rcases Int.lt_or_le x (2 ^ 63) with h' | h'
          · exact absurd (Or.inr (Or.inr h')) hx
          · exact h'
        have ht : t = false := by
          cases t
          · rfl
          · exact absurd ⟨rfl, rfl, rfl, hx63⟩ hl
        subst ht
        have hlt : x < 2 ^ 64 := by
          simp only [InRange, Bool.false_eq_true, if_false, W.bits] at h; omega
        have e : wrap true .w64 x = x - 2 ^ 64 := by
          have : x % ((2 ^ 64 : Nat) : Int) = x := Int.emod_eq_of_lt (by omega) (by omega)
          simp only [wrap, W.bits, this, true_and]
          rw [if_pos (by omega)]
          omega
        have hnr : ¬ InRange false v x := by
          intro hr
          simp only [InRange, Bool.false_eq_true, if_false] at hr
          have : digits false v < 64 := by revert hd; cases v <;> simp [digits, W.bits]
          revert hr this
          cases v <;> simp [digits, W.bits] <;> omega
        refine ⟨fun h' => absurd h' hnr, fun _ => ?_⟩
        rw [e, if_neg]
        simp only [lowest, Bool.false_eq_true, if_false]
        omega

end Verif.Conv
