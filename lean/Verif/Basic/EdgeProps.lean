import Verif.Basic.CountProps
import Verif.Basic.ArithProps
import Verif.Basic.ConvProps
import Verif.Basic.RotProps
/-!
# C136–C140: limits
-/
namespace Verif.Basic

/-- **Without a limit a counting sink takes everything and never stops.** -/
theorem unlimited_sink (count : BitVec 32) (ns : List Nat) :
    (sinkCalls ⟨0, count⟩ ns).2 = (ns.sum, false) ∧ (sinkCalls ⟨0, count⟩ ns).1.count = count + BitVec.ofNat 32 ns.sum := by
  induction ns generalizing count with
  | nil => simp [sinkCalls]
  | cons n ns ih =>
    have hc : sinkCall ⟨0, count⟩ n = (⟨0, count + BitVec.ofNat 32 n⟩, n, false) := by simp [sinkCall]
    obtain ⟨h1, h2⟩ := ih (count + BitVec.ofNat 32 n)
    simp only [sinkCalls, hc, Bool.false_eq_true, if_false, List.sum_cons, h1, h2]
    refine ⟨trivial, ?_⟩
    rw [BitVec.add_assoc, ← BitVec.ofNat_add]

example : (sinkCalls ⟨0, 5⟩ [3, 4]).2 = (7, false) := by decide

/-- **A first input longer than the output, and no input at all, are undefined.** -/
theorem combine_undefined {α : Type} (op : α → α → Option α) (x : List α) (xs : List (List α)) (sout : List α)
    (h : sout.length < x.length) : combine op (x :: xs) sout = none ∧ combine op [] sout = none := by
  simp [combine, h]

/-- **Pairs are read exactly if there are enough samples**: reading `n` of them from fewer than `2 n` is undefined. -/
theorem deinterleave_defined {α β : Type} (c : α → β) (n : Nat) (l : List α) :
    deinterleave c n l = none ↔ l.length < 2 * n := by
  induction n generalizing l with
  | zero => simp [deinterleave]
  | succ n ih =>
    match l with
    | [] => simp [deinterleave]
    | [x] => simp only [deinterleave, List.length_cons, List.length_nil, true_iff]; omega
    | x :: y :: rest =>
      have := ih rest
      simp only [deinterleave, List.length_cons]
      cases hd : deinterleave c n rest with
      | none =>
        have := this.1 hd
        simp
        omega
      | some t =>
        have : ¬ rest.length < 2 * n := fun h => by rw [this.2 h] at hd; cases hd
        simp
        omega

/-- **A phase of exactly one turn is kept as one turn**, not as zero; more than that is taken back by a turn. -/
theorem full_turn_kept (tau inc phase : Rat) (h0 : 0 < tau) :
    (phase + inc = tau → nextPhase tau inc phase = tau) ∧ (tau < phase + inc → nextPhase tau inc phase = phase + inc - tau) := by
  constructor
  · intro h
    unfold nextPhase
    dsimp only
    rw [h, if_neg (by grind), if_neg (by grind)]
  · intro h
    unfold nextPhase
    dsimp only
    rw [if_pos h]

end Verif.Basic
