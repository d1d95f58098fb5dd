/-!
# C33: `processOne` with SIMD arguments gives the same samples as one at a time

Sources: core/include/gnuradio-4.0/Block.hpp:37-53 (`simd_epilogue`, `simdize_tuple_load_and_apply`), 1699-1721
(`invokeProcessOneSimd`, `invokeProcessOnePure`).

The inputs are one list whose elements are the tuples of the input ports' samples, likewise the outputs. The buffers are the spans
handed out for the call; access outside them is the outcome `none`. The width is `2 ^ e` (`static_assert(std::has_single_bit(..))`).
-/
namespace Verif.Work.Simd

/-- a SIMD load of `w` elements at `i` — Block.hpp:48-53 -/
def load {α : Type} (xs : List α) (i w : Nat) : Option (List α) := if i + w ≤ xs.length then some ((xs.drop i).take w) else none

/-- `result.copy_to(output_range.data() + i)` — Block.hpp:1703, 1708 -/
def store {β : Type} (out : List β) (i : Nat) (ys : List β) : Option (List β) :=
  if i + ys.length ≤ out.length then some (out.take i ++ ys ++ out.drop (i + ys.length)) else none

/-- one SIMD call at `i` — Block.hpp:1702-1703, 1707-1708. `F w` is the block's `processOne` for vectors of width `w`. -/
def apply {α β : Type} (F : Nat → List α → List β) (w : Nat) (xs : List α) (i : Nat) (out : List β) : Option (List β) := do
  let v ← load xs i w
  store out i (F w v)

/-- the main loop — Block.hpp:1701-1704 -/
def mainLoop {α β : Type} (F : Nat → List α → List β) (w : Nat) (xs : List α) (n i : Nat) (out : List β) : Option (Nat × List β) :=
  if h : 0 < w ∧ i + w ≤ n then
    match apply F w xs i out with
    | none => none
    | some out => mainLoop F w xs n (i + w) out
  else some (i, out)
  termination_by n - i
  decreasing_by omega

/-- the epilogue: widths `2^(e-1)`, …, 1, each at most once — Block.hpp:37-46, 1705-1711 -/
def epilogue {α β : Type} (F : Nat → List α → List β) (xs : List α) (n : Nat) : Nat → Nat → List β → Option (Nat × List β)
  | 0, i, out => some (i, out)
  | e + 1, i, out =>
    if i + 2 ^ e ≤ n then
      match apply F (2 ^ e) xs i out with
      | none => none
      | some out => epilogue F xs n e (i + 2 ^ e) out
    else epilogue F xs n e i out

/-- `invokeProcessOneSimd` — Block.hpp:1699-1713 -/
def simd {α β : Type} (F : Nat → List α → List β) (e : Nat) (xs : List α) (n : Nat) (out : List β) : Option (Nat × List β) :=
  match mainLoop F (2 ^ e) xs n 0 out with
  | none => none
  | some (i, out) => epilogue F xs n e i out

/-- `invokeProcessOnePure` — Block.hpp:1715-1721 -/
def pure {α β : Type} (f : α → β) (xs : List α) (n : Nat) : Nat → List β → Option (List β)
  | 0, out => some out
  | k + 1, out =>
    match xs[n - (k + 1)]? with
    | none => none
    | some x => if n - (k + 1) < out.length then pure f xs n k (out.set (n - (k + 1)) (f x)) else none

/-- The block's vector function computes, lane by lane, what its scalar function computes. -/
def LaneWise {α β : Type} (F : Nat → List α → List β) (f : α → β) : Prop := ∀ w v, v.length = w → F w v = v.map f

/-- what the output span holds after `i` samples. -/
def filled {α β : Type} (f : α → β) (xs : List α) (out : List β) (i : Nat) : List β := (xs.take i).map f ++ out.drop i

section
variable {α β : Type} {F : Nat → List α → List β} {f : α → β} {xs : List α} {out : List β}

theorem filled_length {i : Nat} (h1 : i ≤ xs.length) (h2 : i ≤ out.length) : (filled f xs out i).length = out.length := by
  simp [filled, Nat.min_eq_left h1]; omega

theorem apply_filled (hF : LaneWise F f) {w i : Nat} (h1 : i + w ≤ xs.length) (h2 : i + w ≤ out.length) :
    apply F w xs i (filled f xs out i) = some (filled f xs out (i + w)) := by
  unfold apply load
  rw [if_pos h1]
  simp only [bind, Option.bind_some]
  have hl : ((xs.drop i).take w).length = w := by rw [List.length_take, List.length_drop]; omega
  rw [hF w _ hl]
  unfold store
  rw [List.length_map, hl, filled_length (by omega) (by omega), if_pos h2]
  congr 1
  unfold filled
  have hi : ((xs.take i).map f).length = i := by rw [List.length_map, List.length_take]; omega
  rw [List.take_append_of_le_length (by omega), List.take_of_length_le (by omega)]
  rw [List.drop_append, hi, List.drop_of_length_le (by omega : ((xs.take i).map f).length ≤ i + w), List.nil_append, List.drop_drop]
  rw [show i + (i + w - i) = i + w from by omega, List.take_add, List.map_append]

theorem mainLoop_filled (hF : LaneWise F f) {w n : Nat} (h1 : n ≤ xs.length) (h2 : n ≤ out.length) (hw : 0 < w) (i : Nat) (hi : i ≤ n) :
    ∃ j, mainLoop F w xs n i (filled f xs out i) = some (j, filled f xs out j) ∧ j ≤ n ∧ n < j + w := by
  induction hm : n - i using Nat.strongRecOn generalizing i with
  | ind m ih =>
    unfold mainLoop
    by_cases h : 0 < w ∧ i + w ≤ n
    · rw [dif_pos h, apply_filled hF (by omega) (by omega)]
      dsimp only
      exact ih (n - (i + w)) (by omega) (i + w) (by omega) rfl
    · rw [dif_neg h]
      exact ⟨i, rfl, hi, by omega⟩

theorem epilogue_filled (hF : LaneWise F f) {n : Nat} (h1 : n ≤ xs.length) (h2 : n ≤ out.length) : ∀ (e i : Nat), i ≤ n → n < i + 2 ^ e →
    epilogue F xs n e i (filled f xs out i) = some (n, filled f xs out n) := by
  intro e
  induction e with
  | zero =>
    intro i hi hn
    have : i = n := by omega
    subst this; rfl
  | succ e ih =>
    intro i hi hn
    rw [Nat.pow_succ] at hn
    unfold epilogue
    by_cases h : i + 2 ^ e ≤ n
    · rw [if_pos h, apply_filled hF (by omega) (by omega)]
      dsimp only
      exact ih _ (by omega) (by omega)
    · rw [if_neg h]
      exact ih i hi (by omega)

theorem pure_filled {n : Nat} (h1 : n ≤ xs.length) (h2 : n ≤ out.length) : ∀ (k : Nat), k ≤ n → pure f xs n k (filled f xs out (n - k)) = some (filled f xs out n) := by
  intro k
  induction k with
  | zero => intro _; rfl
  | succ k ih =>
    intro hk
    unfold pure
    rw [List.getElem?_eq_getElem (by omega : n - (k + 1) < xs.length)]
    dsimp only
    rw [filled_length (by omega) (by omega), if_pos (by omega)]
    have : (filled f xs out (n - (k + 1))).set (n - (k + 1)) (f xs[n - (k + 1)]) = filled f xs out (n - k) := by
      unfold filled
      have hl : ((xs.take (n - (k + 1))).map f).length = n - (k + 1) := by rw [List.length_map, List.length_take]; omega
      rw [List.set_append_right _ _ (by omega), hl, Nat.sub_self, List.drop_eq_getElem_cons (by omega : n - (k + 1) < out.length), List.set_cons_zero]
      rw [show n - k = n - (k + 1) + 1 from by omega, List.take_succ_eq_append_getElem (by omega), List.map_append, List.append_assoc]
      rfl
    rw [this]
    exact ih (by omega)
end

/-- **C33**: for every number of samples `n` (not only multiples of the width) and every power-of-two width, the SIMD path reads and
writes only inside the `n` samples of the call and leaves in the output exactly `f` of each input, as the scalar path does. -/
theorem simd_equals_scalar {α β : Type} {F : Nat → List α → List β} {f : α → β} (hF : LaneWise F f) (e : Nat) (xs : List α) (out : List β) {n : Nat}
    (h1 : xs.length = n) (h2 : n ≤ out.length) :
    simd F e xs n out = some (n, xs.map f ++ out.drop n) ∧ pure f xs n n out = some (xs.map f ++ out.drop n) := by
  have h0 : filled f xs out 0 = out := by simp [filled]
  have hn : filled f xs out n = xs.map f ++ out.drop n := by rw [filled, List.take_of_length_le (by omega)]
  have hp := Nat.two_pow_pos e
  constructor
  · unfold simd
    obtain ⟨j, hj, hj1, hj2⟩ := mainLoop_filled (xs := xs) (out := out) hF (by omega) h2 hp 0 (Nat.zero_le n)
    rw [h0] at hj
    rw [hj]
    dsimp only
    rw [epilogue_filled hF (by omega) h2 e j hj1 hj2, hn]
  · have := pure_filled (f := f) (xs := xs) (out := out) (by omega) h2 n (Nat.le_refl n)
    rw [Nat.sub_self, h0] at this
    rw [this, hn]

/-- The widths used: each call passes vectors of exactly the announced width, so that a block need not handle partial vectors. -/
theorem simd_widths_exact {α β : Type} {F G : Nat → List α → List β} {f : α → β} (hF : LaneWise F f) (hG : ∀ w v, v.length = w → G w v = F w v)
    (e : Nat) (xs : List α) (out : List β) {n : Nat} (h1 : xs.length = n) (h2 : n ≤ out.length) : simd G e xs n out = simd F e xs n out := by
  have hG' : LaneWise G f := fun w v hv => (hG w v hv).trans (hF w v hv)
  rw [(simd_equals_scalar hF e xs out h1 h2).1, (simd_equals_scalar hG' e xs out h1 h2).1]

/-- 11 samples at width 4: two full vectors, then widths 2 and 1; the 12th output slot is untouched. -/
example : simd (fun w v => if v.length = w then v.map (· + 100) else []) 2 [0, 1, 2, 3, 4, 5, 6, 7, 8, 9, 10] 11 (List.replicate 12 7)
    = some (11, [100, 101, 102, 103, 104, 105, 106, 107, 108, 109, 110, 7]) := by decide +kernel
example : LaneWise (fun w v => if v.length = w then v.map (· + 100) else []) (fun x : Nat => x + 100) := fun w v h => if_pos h

end Verif.Work.Simd
