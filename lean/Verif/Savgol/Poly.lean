import Verif.Savgol.Lemmas
import Verif.Savgol.Spec

namespace Verif.Savgol

/-- The offsets of the samples in the window from the current sample. -/
def offset (a : Align) (W k : Nat) : Rat := (((k : Int) - shift a W : Int) : Rat)

/-- Column `j` of the Vandermonde matrix holds the `j`-th powers of the offsets. -/
theorem vander_column (a : Align) (W p j : Nat) (hj : j ≤ p) :
    (vander a W p).map (fun row => row.getD j 0) = (List.range W).map fun (k : Nat) => offset a W k ^ j := by
  unfold vander
  rw [List.map_map]
  apply List.map_congr_left
  intro k _
  simp only [Function.comp, offset]
  rw [List.getD_eq_getElem?_getD, powers_getElem? _ _ _ _ (by omega)]
  simp only [Option.getD_some]; grind

theorem deriv_getD (bs : List Rat) (j : Nat) : (deriv bs).getD j 0 = ((j + 1 : Nat) : Rat) * bs.getD (j + 1) 0 := by
  unfold deriv
  rw [List.getD_eq_getElem?_getD, List.getElem?_map]
  by_cases h : j < bs.length - 1
  · rw [List.getElem?_range h]; rfl
  · rw [List.getElem?_eq_none (by simp; omega), List.getD_eq_getElem?_getD,
      List.getElem?_eq_none (l := bs) (by omega)]
    simp only [Option.map_none, Option.getD_none]; grind

theorem factorial_succ (n : Nat) : factorial (n + 1) = factorial n * (n + 1) := by
  cases n with
  | zero => rfl
  | succ n => rw [factorial, if_neg (by omega)]

theorem derivN_getD (d : Nat) (bs : List Rat) (j : Nat) :
    (factorial j : Rat) * (derivN d bs).getD j 0 = (factorial (j + d) : Rat) * bs.getD (j + d) 0 := by
  induction d generalizing j with
  | zero => rfl
  | succ d ih =>
    have h := ih (j + 1)
    rw [derivN, deriv_getD]
    rw [factorial_succ, Rat.natCast_mul] at h
    have e : j + 1 + d = j + (d + 1) := by omega
    rw [e] at h
    rw [← h]; grind

theorem evalPoly_zero (bs : List Rat) : evalPoly bs 0 = bs.getD 0 0 := by
  cases bs with
  | nil => rfl
  | cons b bs => simp only [evalPoly, List.getD_cons_zero]; grind

theorem derivN_at_zero (d : Nat) (bs : List Rat) :
    evalPoly (derivN d bs) 0 = (factorial d : Rat) * bs.getD d 0 := by
  have h := derivN_getD d bs 0
  rw [evalPoly_zero]
  simp only [Nat.zero_add] at h
  rw [← h]
  show _ = ((1 : Nat) : Rat) * _
  have : ((1 : Nat) : Rat) = 1 := rfl
  rw [this]; grind

/-- Scalar product of a row of moments with a polynomial. -/
theorem dot_poly (coeffs : List Rat) (ks : List Nat) (t : Nat → Rat) (δ s : Rat) (d : Nat) (bs : List Rat) (j0 : Nat)
    (hm : ∀ j, j0 ≤ j → j < j0 + bs.length → dot coeffs (ks.map fun k => t k ^ j) = if j = d then s else 0) :
    dot coeffs (ks.map fun k => t k ^ j0 * evalPoly bs (t k * δ)) =
      if j0 ≤ d then s * (δ ^ (d - j0) * bs.getD (d - j0) 0) else 0 := by
  induction bs generalizing j0 with
  | nil =>
    have : (ks.map fun k => t k ^ j0 * evalPoly [] (t k * δ)) = ks.map fun k => (0 : Rat) * (1 : Rat) := by
      apply List.map_congr_left; intro k _; simp only [evalPoly]; grind
    rw [this, dot_smul]
    simp only [List.getD_nil]; split <;> grind
  | cons b bs ih =>
    have e : (ks.map fun k => t k ^ j0 * evalPoly (b :: bs) (t k * δ)) =
        ks.map fun k => b * t k ^ j0 + δ * (t k ^ (j0 + 1) * evalPoly bs (t k * δ)) := by
      apply List.map_congr_left; intro k _; simp only [evalPoly]; grind
    rw [e, dot_add, dot_smul, dot_smul, hm j0 (Nat.le_refl _) (by simp),
      ih (j0 + 1) (fun j h1 h2 => hm j (by omega) (by simp only [List.length_cons]; omega))]
    by_cases h1 : j0 = d
    · subst h1
      rw [if_pos rfl, if_neg (by omega), if_pos (Nat.le_refl _), Nat.sub_self, List.getD_cons_zero]; grind
    · rw [if_neg h1]
      by_cases h2 : j0 ≤ d
      · rw [if_pos (by omega), if_pos h2]
        have : d - j0 = (d - (j0 + 1)) + 1 := by omega
        rw [this, List.getD_cons_succ]; grind
      · rw [if_neg (by omega), if_neg h2]; grind

end Verif.Savgol
