import Verif.Rng.NoiseProps
/-!
# C131, C132: the values themselves
-/
namespace Verif.Rng

/-- **Numbers between -1 and 1 are the upper 53 or 24 bits**, divided by 2^52 or 2^23, less one. -/
theorem uniformM11_value (raw : BitVec 64) :
    uniformM11 .double raw = ((raw.toNat / 2 ^ 11 : Nat) : Rat) / 2 ^ 52 - 1 ∧
    uniformM11 .single raw = ((raw.toNat / 2 ^ 40 : Nat) : Rat) / 2 ^ 23 - 1 := by
  simp only [uniformM11, uniform01, BitVec.toNat_ushiftRight, Nat.shiftRight_eq_div_pow]
  constructor
  · generalize ((raw.toNat / 2 ^ 11 : Nat) : Rat) = q
    rw [show ((2 ^ 53 : Nat) : Rat) = 2 ^ 52 * 2 by decide +kernel]
    have h : (2 ^ 52 : Rat) ≠ 0 := by decide +kernel
    generalize (2 ^ 52 : Rat) = d at h
    grind
  · generalize ((raw.toNat / 2 ^ 40 : Nat) : Rat) = q
    rw [show ((2 ^ 24 : Nat) : Rat) = 2 ^ 23 * 2 by decide +kernel]
    have h : (2 ^ 23 : Rat) ≠ 0 := by decide +kernel
    generalize (2 ^ 23 : Rat) = d at h
    grind

example : uniformM11 .double 0 = -1 ∧ uniformM11 .double (1#64 <<< 63) = 0 := by decide +kernel

/-- **The two normally distributed numbers come from a point inside the unit circle**: two successive numbers
of the generator which are not both zero, each times the same factor. -/
theorem polar_point (F : Prec) (factor : Rat → Rat) (fuel : Nat) (s s' : Xo) (a b : Rat)
    (h : polarPair F factor fuel s = some ((a, b), s')) :
    ∃ k, k < fuel ∧
      let s1 := stateAfter (2 * k) s
      let u := uniformM11 F (next s1).1
      let v := uniformM11 F (next (next s1).2).1
      0 < u * u + v * v ∧ u * u + v * v < 1 ∧ a = u * factor (u * u + v * v) ∧ b = v * factor (u * u + v * v) ∧
        s' = stateAfter (2 * k + 2) s := by
  induction fuel generalizing s with
  | zero => cases h
  | succ fuel ih =>
    rw [polarPair] at h
    dsimp only at h
    have h1 : ∀ x : Rat, 0 ≤ x * x := fun x => by
      cases Rat.le_total (a := 0) (b := x) with
      | inl h => exact Rat.mul_nonneg h h
      | inr h =>
        have h' : 0 ≤ -x := by grind
        have := Rat.mul_nonneg h' h'
        grind
    have hu := h1 (uniformM11 F (next s).1)
    have hv := h1 (uniformM11 F (next (next s).2).1)
    by_cases hc : (tryPair F s).1.2.2 ≥ 1 ∨ (tryPair F s).1.2.2 = 0
    · rw [if_pos hc] at h
      obtain ⟨k, hk, hh⟩ := ih _ h
      refine ⟨k + 1, by omega, ?_⟩
      have e : ∀ m, stateAfter m (next (next s).2).2 = stateAfter (m + 2) s := fun m => rfl
      simp only [e] at hh
      exact hh
    · rw [if_neg hc] at h
      cases h
      have hc : ¬ (uniformM11 F (next s).1 * uniformM11 F (next s).1 +
        uniformM11 F (next (next s).2).1 * uniformM11 F (next (next s).2).1 ≥ 1 ∨
        uniformM11 F (next s).1 * uniformM11 F (next s).1 + uniformM11 F (next (next s).2).1 * uniformM11 F (next (next s).2).1 = 0) := hc
      refine ⟨0, by omega, ?_⟩
      have e : stateAfter (2 * 0) s = s := rfl
      simp only [e]
      refine ⟨?_, ?_, rfl, rfl, rfl⟩
      · generalize uniformM11 F (next s).1 = u at *
        generalize uniformM11 F (next (next s).2).1 = v at *
        grind
      · generalize uniformM11 F (next s).1 = u at *
        generalize uniformM11 F (next (next s).2).1 = v at *
        grind

/-- A first point that is taken. -/
example : (polarPair .double (fun _ => 1) 10 (seed 1)).isSome = true := by decide +kernel

/-- **Configuring starts the generator over with the seed given**, as `reset` does. -/
theorem configure_seeds (g : Gen) (t : Noise) (amp off : Rat) (x : BitVec 64) :
    (g.configure t amp off x).gauss = ⟨seed x, none⟩ ∧ (g.configure t amp off x).reset x = g.configure t amp off x ∧
      (g.reset x).gauss = ⟨seed x, none⟩ := ⟨rfl, rfl, rfl⟩

/-- **Different seeds given to `configure`** give generators in different states. -/
theorem configured_seeds_differ (g : Gen) (t : Noise) (amp off : Rat) (x y : BitVec 64) (h : x ≠ y) :
    g.configure t amp off x ≠ g.configure t amp off y := by
  intro hh
  have := congrArg (fun g : Gen => g.gauss.rng) hh
  exact h (seed_injective this)

end Verif.Rng
