import Verif.Deflate.AdlerLemmas
/-! # C23: Adler-32 with deferred reduction -/
namespace Verif.Deflate
open Verif.Bytes (Byte)
open Spec

/-- **C23.** The checksum equals the RFC 1950 definition, for every input. -/
theorem adler32_eq_definition (data : List Byte) : adler32 data = adler data := by
  have e := updateAdler_eq data (1, 0) ⟨by omega, by omega⟩
  rw [rfc_eq] at e
  have h := rfc_lt data (1, 0) ⟨by omega, by omega⟩
  rw [rfc_eq] at h
  rw [adler32, e, adlerWord_eq (by have := h.1; omega) (by have := h.2; omega), adler]

example : adler32 [0x57, 0x69, 0x6b, 0x69, 0x70, 0x65, 0x64, 0x69, 0x61] = 0x11E60398 ∧
    adler [0x57, 0x69, 0x6b, 0x69, 0x70, 0x65, 0x64, 0x69, 0x61] = 0x11E60398 := by decide +kernel

/-- **C23.** Updating with any number of pieces, one after another, gives the sums of the whole. -/
theorem updateAdler_chunks (chunks : List (List Byte)) :
    chunks.foldl updateAdler (1, 0) = (s1 chunks.flatten, s2 chunks.flatten) := by
  have H : ∀ (cs : List (List Byte)) s, s.1 < 65521 ∧ s.2 < 65521 → cs.foldl updateAdler s = cs.flatten.foldl rfcStep s := by
    intro cs
    induction cs with
    | nil => intro s _; rfl
    | cons c cs ih =>
      intro s h
      simp only [List.foldl_cons, List.flatten_cons, List.foldl_append]
      rw [updateAdler_eq c s h, ih _ (rfc_lt c s h)]
  rw [H chunks (1, 0) ⟨by omega, by omega⟩, rfc_eq]

example : [[1], [], [2, 255], [7]].foldl updateAdler (1, 0) = (s1 [1, 2, 255, 7], s2 [1, 2, 255, 7]) := updateAdler_chunks [[1], [], [2, 255], [7]]

/-- **C23, no overflow.** From reduced sums, no prefix of a run of at most 5552 bytes takes an accumulator to 2^32, and the 32-bit
accumulators hold the unreduced sums. -/
theorem adler_run_no_overflow {a b : Nat} (ha : a < 65521) (hb : b < 65521) (run : List Byte) (hr : run.length ≤ 5552) :
    (∀ p, p <+: run → (wide a b p).1 < 2 ^ 32 ∧ (wide a b p).2 < 2 ^ 32) ∧ run.foldl adlerByte (a, b) = wide a b run := by
  have h : ∀ p, p <+: run → (wide a b p).1 < 2 ^ 32 ∧ (wide a b p).2 < 2 ^ 32 :=
    fun p hp => wide_lt ha hb p (by have := hp.length_le; omega)
  exact ⟨h, foldl_adlerByte run a b h⟩

example : ([0xff, 0xff] : List Byte).foldl adlerByte (65520, 65520) = (66030, 197325) := by decide

theorem wide_replicate (x : Byte) (n : Nat) : ∀ a b, 2 * (wide a b (List.replicate n x)).2 = 2 * b + 2 * (n * a) + x.toNat * (n * (n + 1)) := by
  induction n with
  | zero => intro a b; simp [wide]
  | succ n ih =>
    intro a b
    rw [List.replicate_succ]
    simp only [wide]
    rw [ih]
    grind

/-- the source's remark on the constant: one more byte could overflow -/
theorem adler_longest_run : ∃ a b, a < 65521 ∧ b < 65521 ∧ 2 ^ 32 ≤ (wide a b (List.replicate 5553 0xff#8)).2 :=
  ⟨65520, 65520, by omega, by omega, by have h := wide_replicate 0xff#8 5553 65520 65520; rw [show (0xff#8).toNat = 255 from rfl] at h; omega⟩

/-- Between runs the accumulators are reduced, so the hypotheses of `adler_run_no_overflow` hold at the start of every run. -/
theorem updateAdler_reduced (chunks : List (List Byte)) :
    (chunks.foldl updateAdler (1, 0)).1 < 65521 ∧ (chunks.foldl updateAdler (1, 0)).2 < 65521 := by
  rw [updateAdler_chunks]
  exact ⟨Nat.mod_lt _ (by omega), Nat.mod_lt _ (by omega)⟩

end Verif.Deflate
