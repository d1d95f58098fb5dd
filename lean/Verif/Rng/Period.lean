import Verif.Rng.Props
import Mathlib.Data.Fintype.Pigeonhole
import Mathlib.Data.Finite.Prod
/-!
# C131: the sequence of numbers repeats from its start
-/
namespace Verif.Rng

instance : Finite Xo := by
  have hb : Finite (BitVec 64) := Finite.of_injective BitVec.toFin (fun a b h => BitVec.toFin_inj.1 h)
  exact Finite.of_injective (fun s : Xo => (s.s0, s.s1, s.s2, s.s3)) (by
    rintro ⟨a, b, c, d⟩ ⟨a', b', c', d'⟩ h
    simpa using h)

/-- **The generator comes back to every state it was in**: there is no beginning that is left and never
seen again. -/
theorem purely_periodic (s : Xo) : ∃ n, 0 < n ∧ stateAfter n s = s := by
  obtain ⟨i, j, hij, h⟩ := Finite.exists_ne_map_eq_of_infinite (fun n => stateAfter n s)
  have back : ∀ (i j : Nat), i < j → stateAfter i s = stateAfter j s → stateAfter (j - i) s = s := by
    intro i
    induction i with
    | zero => intro j _ h; exact h.symm
    | succ i ih =>
      intro j hj h
      obtain ⟨k, rfl⟩ : ∃ k, j = k + 1 := ⟨j - 1, by omega⟩
      rw [stateAfter_succ, stateAfter_succ] at h
      have h1 := congrArg prev h
      rw [step_undone, step_undone] at h1
      have h2 := ih k (by omega) h1
      rwa [show k + 1 - (i + 1) = k - i by omega]
  rcases Nat.lt_or_gt_of_ne hij with hlt | hlt
  · exact ⟨j - i, by omega, back i j hlt h⟩
  · exact ⟨i - j, by omega, back j i hlt h.symm⟩

end Verif.Rng
