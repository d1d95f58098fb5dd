import Verif.Deflate.Adler
import Verif.Deflate.AdlerSpec
/-! # Lemmas on Adler-32 -/
namespace Verif.Deflate
open Verif.Bytes (Byte)
open Spec

theorem wide_bound (r : List Byte) : ∀ a b, (wide a b r).1 ≤ a + 255 * r.length ∧
    2 * (wide a b r).2 ≤ 2 * b + 2 * (r.length * a) + 255 * (r.length * (r.length + 1)) := by
  induction r with
  | nil => intro a b; simp [wide]
  | cons x r ih =>
    intro a b
    have hx : x.toNat ≤ 255 := by have := x.isLt; omega
    have h := ih (a + x.toNat) (b + (a + x.toNat))
    simp only [wide, List.length_cons]
    have h1 : r.length * (a + x.toNat) ≤ r.length * a + r.length * 255 := by
      rw [Nat.mul_add]; exact Nat.add_le_add_left (Nat.mul_le_mul_left _ hx) _
    have e1 : (r.length + 1) * a = r.length * a + a := by grind
    have e2 : (r.length + 1) * (r.length + 1 + 1) = r.length * (r.length + 1) + 2 * r.length + 2 := by grind
    rw [e1, e2]
    omega

theorem wide_lt {a b : Nat} (ha : a < 65521) (hb : b < 65521) (r : List Byte) (hr : r.length ≤ 5552) :
    (wide a b r).1 < 2 ^ 32 ∧ (wide a b r).2 < 2 ^ 32 := by
  have h := wide_bound r a b
  have h1 : r.length * a ≤ 5552 * 65520 := Nat.mul_le_mul hr (by omega)
  have h2 : r.length * (r.length + 1) ≤ 5552 * 5553 := Nat.mul_le_mul hr (by omega)
  omega

theorem wide_append (p q : List Byte) : ∀ a b, wide a b (p ++ q) = wide (wide a b p).1 (wide a b p).2 q := by
  induction p with
  | nil => intro a b; rfl
  | cons x p ih => intro a b; simp only [List.cons_append, wide]; exact ih _ _

/-- as long as no prefix overflows, 32-bit accumulation is exact -/
theorem foldl_adlerByte (r : List Byte) : ∀ a b, (∀ p, p <+: r → (wide a b p).1 < 2 ^ 32 ∧ (wide a b p).2 < 2 ^ 32) →
    r.foldl adlerByte (a, b) = wide a b r := by
  induction r with
  | nil => intro a b _; rfl
  | cons x r ih =>
    intro a b h
    have h1 := h [x] ⟨r, rfl⟩
    simp only [wide] at h1
    simp only [List.foldl_cons, wide]
    have e : adlerByte (a, b) x = (a + x.toNat, b + (a + x.toNat)) := by
      simp only [adlerByte, Nat.mod_eq_of_lt h1.1, Nat.mod_eq_of_lt h1.2]
    rw [e]
    exact ih _ _ (fun p ⟨q, hq⟩ => by
      have := h (x :: p) ⟨q, by simp [hq]⟩
      simpa only [wide] using this)

/-- reduction after every byte -/
def rfcStep (s : Nat × Nat) (x : Byte) : Nat × Nat := ((s.1 + x.toNat) % 65521, (s.2 + (s.1 + x.toNat) % 65521) % 65521)

theorem wide_mod (r : List Byte) : ∀ a b, ((wide a b r).1 % 65521, (wide a b r).2 % 65521) = r.foldl rfcStep (a % 65521, b % 65521) := by
  induction r with
  | nil => intro a b; rfl
  | cons x r ih =>
    intro a b
    simp only [wide, List.foldl_cons]
    rw [ih]
    have e : rfcStep (a % 65521, b % 65521) x = ((a + x.toNat) % 65521, (b + (a + x.toNat)) % 65521) := by
      simp only [rfcStep, Prod.mk.injEq]; omega
    rw [e]

theorem rfc_lt (r : List Byte) (s : Nat × Nat) (h : s.1 < 65521 ∧ s.2 < 65521) :
    (r.foldl rfcStep s).1 < 65521 ∧ (r.foldl rfcStep s).2 < 65521 := by
  induction r generalizing s with
  | nil => exact h
  | cons x r ih => exact ih _ ⟨Nat.mod_lt _ (by omega), Nat.mod_lt _ (by omega)⟩

theorem adlerRun_eq {s : Nat × Nat} (h : s.1 < 65521 ∧ s.2 < 65521) (r : List Byte) (hr : r.length ≤ 5552) :
    adlerRun s r = r.foldl rfcStep s := by
  have e := foldl_adlerByte r s.1 s.2 (fun p hp => wide_lt h.1 h.2 p (by have := hp.length_le; omega))
  simp only [adlerRun]
  show ((r.foldl adlerByte (s.1, s.2)).1 % 65521, (r.foldl adlerByte (s.1, s.2)).2 % 65521) = _
  rw [e, wide_mod, Nat.mod_eq_of_lt h.1, Nat.mod_eq_of_lt h.2]

theorem updateAdler_eq (input : List Byte) (s : Nat × Nat) (h : s.1 < 65521 ∧ s.2 < 65521) : updateAdler s input = input.foldl rfcStep s := by
  fun_induction updateAdler s input with
  | case1 s => rfl
  | case2 s input hne ih =>
    have hl : (input.take (min 5552 input.length)).length ≤ 5552 := by rw [List.length_take]; omega
    rw [adlerRun_eq h _ hl] at ih ⊢
    rw [ih (rfc_lt _ _ h), ← List.foldl_append, List.take_append_drop]

theorem rfc_eq (data : List Byte) : data.foldl rfcStep (1, 0) = (s1 data, s2 data) := by
  have H : ∀ n (data : List Byte), data.length = n → data.foldl rfcStep (1, 0) = (s1 data, s2 data) := by
    intro n
    induction n with
    | zero => intro data h; rw [List.length_eq_zero_iff.1 h]; rfl
    | succ n ih =>
      intro data h
      have hne : data ≠ [] := by intro e; simp [e] at h
      obtain ⟨p, x, rfl⟩ : ∃ p x, data = p ++ [x] := ⟨data.dropLast, data.getLast hne, (List.dropLast_concat_getLast hne).symm⟩
      have hp : p.length = n := by simpa using h
      rw [List.foldl_append, ih p hp]
      simp only [List.foldl_cons, List.foldl_nil]
      have e1 : s1 (p ++ [x]) = (s1 p + x.toNat) % 65521 := by
        simp only [s1, List.map_append, List.map_cons, List.map_nil, List.sum_append, List.sum_cons, List.sum_nil]; omega
      have e2 : s2 (p ++ [x]) = (s2 p + s1 (p ++ [x])) % 65521 := by
        simp only [s2, List.length_append, List.length_cons, List.length_nil, List.range_succ, List.map_append, List.map_cons, List.map_nil,
          List.sum_append, List.sum_cons, List.sum_nil]
        have e : (List.range p.length).map (fun i => s1 ((p ++ [x]).take (i + 1))) = (List.range p.length).map (fun i => s1 (p.take (i + 1))) := by
          apply List.map_congr_left
          intro i hi
          rw [List.mem_range] at hi
          rw [List.take_append_of_le_length (by omega)]
        have e' : (p ++ [x]).take (p.length + 1) = p ++ [x] := List.take_of_length_le (by simp)
        rw [e, e']
        omega
      rw [e2, e1]
      rfl
  exact H _ data rfl

theorem adlerWord_eq {a b : Nat} (ha : a < 65536) (hb : b < 65536) : adlerWord (a, b) = b * 65536 + a := by
  have e1 : b <<< 16 < 2 ^ 32 := by rw [Nat.shiftLeft_eq]; omega
  simp only [adlerWord, Nat.mod_eq_of_lt e1]
  rw [← Nat.shiftLeft_add_eq_or_of_lt (by omega), Nat.shiftLeft_eq]

end Verif.Deflate
