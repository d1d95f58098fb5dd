import Verif.Filter.Hist
/-!
# Lemmas: the four forms
-/
namespace Verif.Filter
open Verif.History

variable {α : Type} [CommRing α]

/-- Output of the difference equation, newest first -/
def resp (b a : List α) : List α → List α
  | [] => []
  | x :: X => (dot b (x :: X) - dot a.tail (resp b a X)) :: resp b a X

/-- The intermediate signal of the direct form II, newest first -/
def mid (a : List α) : List α → List α
  | [] => []
  | x :: X => (x - dot a.tail (mid a X)) :: mid a X

theorem resp_length (b a X : List α) : (resp b a X).length = X.length := by
  induction X with
  | nil => rfl
  | cons x X ih => simp [resp, ih]

theorem resp_drop (b a X : List α) (k : Nat) : (resp b a X).drop k = resp b a (X.drop k) := by
  induction X generalizing k with
  | nil => simp [resp]
  | cons x X ih => cases k <;> simp [resp, ih]

theorem mid_drop (a X : List α) (k : Nat) : (mid a X).drop k = mid a (X.drop k) := by
  induction X generalizing k with
  | nil => simp [mid]
  | cons x X ih => cases k <;> simp [mid, ih]

theorem getD_drop (l : List α) (k i : Nat) : (l.drop k).getD i 0 = l.getD (k + i) 0 := by
  simp [List.getD_eq_getElem?_getD]

theorem mid_at (a X : List α) (k : Nat) : (mid a X).getD k 0 = X.getD k 0 - dot a.tail (mid a (X.drop (k + 1))) := by
  have h := mid_drop a X k
  have h0 : (mid a X).getD k 0 = (mid a (X.drop k)).getD 0 0 := by rw [← h, getD_drop, Nat.add_zero]
  rw [h0]
  cases hX : X.drop k with
  | nil =>
    have : X.length ≤ k := List.drop_eq_nil_iff.1 hX
    rw [List.drop_eq_nil_of_le (by omega)]
    simp [mid, dot_nil, List.getD_eq_getElem?_getD, List.getElem?_eq_none this]
  | cons x R =>
    have h1 : X.drop (k + 1) = R := by rw [← List.drop_drop, hX]; rfl
    have h2 : X.getD k 0 = x := by
      have := getD_drop X k 0
      rw [hX] at this
      simpa using this.symm
    rw [h1, h2]
    simp [mid]

theorem mid_resp (b a : List α) (n : Nat) : ∀ X : List α, X.length ≤ n → ∀ j, dot b (mid a (X.drop j)) = (resp b a X).getD j 0 := by
  induction n with
  | zero =>
    intro X hX j
    have : X = [] := List.length_eq_zero_iff.1 (by omega)
    subst this
    simp [mid, resp, dot_nil]
  | succ n ih =>
    intro X hX j
    have h0 : (resp b a X).getD j 0 = (resp b a (X.drop j)).getD 0 0 := by rw [← resp_drop, getD_drop, Nat.add_zero]
    rw [h0]
    cases hY : X.drop j with
    | nil => simp [mid, resp, dot_nil]
    | cons x R =>
      have hR : R.length ≤ n := by
        have := congrArg List.length hY
        simp at this; omega
      have e1 : ∀ k, (mid a (x :: R)).getD k 0 = (x :: R).getD k 0 - dot a.tail (mid a (R.drop k)) := fun k => by
        rw [mid_at]; rfl
      have e2 : dot b (mid a (x :: R)) = dot b (x :: R) - ∑ k ∈ Finset.range b.length, b.getD k 0 * dot a.tail (mid a (R.drop k)) := by
        unfold dot at e1 ⊢
        rw [← Finset.sum_sub_distrib]
        refine Finset.sum_congr rfl fun k _ => ?_
        rw [e1 k, mul_sub]
      have e3 : ∑ k ∈ Finset.range b.length, b.getD k 0 * dot a.tail (mid a (R.drop k)) = dot a.tail (resp b a R) := by
        have : ∀ j, (resp b a R).getD j 0 = dot b (mid a (R.drop j)) := fun j => (ih R hR j).symm
        simp only [dot] at this ⊢
        simp only [this, Finset.mul_sum]
        rw [Finset.sum_comm]
        refine Finset.sum_congr rfl fun j _ => Finset.sum_congr rfl fun k _ => ?_
        rw [← mid_drop, ← mid_drop, getD_drop, getD_drop, Nat.add_comm j k]
        ring
      rw [e2, e3]
      simp [resp]

/-- The direct form II computes the difference equation. -/
theorem mid_head (b a X : List α) (x : α) : dot b (mid a (x :: X)) = dot b (x :: X) - dot a.tail (resp b a X) := by
  have := mid_resp b a _ (x :: X) (Nat.le_refl _) 0
  simpa [resp] using this

/-- The reads of a form stay inside the storage. -/
def FitsIn (form : Form) (b a : List α) (rIn rOut : Nat) : Prop :=
  a ≠ [] ∧
  match form with
  | .dfI => b.length ≤ rIn ∧ a.length ≤ rOut + 1
  | .dfII => b.length ≤ rIn ∧ a.length ≤ rIn + 1
  | .dfIT => b.length ≤ rOut ∧ a.length ≤ rOut + 1
  | .dfIIT => b ≠ [] ∧ b.length ≤ rIn + 1 ∧ a.length ≤ rOut + 1

/-- State of the histories after the inputs `X` (newest first) -/
def Inv (form : Form) (f : Iir α) (X : List α) : Prop :=
  match form with
  | .dfI | .dfIIT => Rep f.input X ∧ Rep f.output (resp f.b f.a X)
  | .dfII => Rep f.input (mid f.a X) ∧ Rep f.output []
  | .dfIT => Rep f.output (mid f.a X) ∧ Rep f.input []

theorem Inv.oob {form : Form} {f : Iir α} {X : List α} (h : Inv form f X) : f.input.oob = false ∧ f.output.oob = false := by
  cases form
  · exact ⟨h.1.oob, h.2.oob⟩
  · exact ⟨h.1.oob, h.2.oob⟩
  · exact ⟨h.2.oob, h.1.oob⟩
  · exact ⟨h.1.oob, h.2.oob⟩

theorem inv_start (form : Form) (f : Iir α) (h1 : Rep f.input []) (h2 : Rep f.output []) : Inv form f [] := by
  cases form
  · exact ⟨h1, h2⟩
  · exact ⟨h1, h2⟩
  · exact ⟨h2, h1⟩
  · exact ⟨h1, h2⟩

/-- Same coefficients, same sizes of the histories -/
structure Same (f g : Iir α) : Prop where
  b : g.b = f.b
  a : g.a = f.a
  input : g.input.g = f.input.g
  output : g.output.g = f.output.g

theorem dot_cons (b : List α) (hb : b ≠ []) (x : α) (X : List α) : dot b (x :: X) = b.headD 0 * x + dot b.tail X := by
  match b, hb with
  | c :: b, _ =>
    simp only [dot, List.length_cons, List.headD_cons, List.tail_cons]
    rw [Finset.sum_range_succ', add_comm]
    simp

theorem tail_len {c : List α} {n : Nat} (h : c.length ≤ n + 1) : c.tail.length ≤ n := by simp; omega

theorem one_step (guarded : Bool) (form : Form) (f : Iir α) (X : List α) (h : Inv form f X)
    (hf : FitsIn form f.b f.a f.input.g.ring f.output.g.ring) (x : α) :
    Inv form (f.one guarded form x).1 (x :: X) ∧ (f.one guarded form x).2 = dot f.b (x :: X) - dot f.a.tail (resp f.b f.a X) ∧
    Same f (f.one guarded form x).1 := by
  obtain ⟨ha, hf⟩ := hf
  cases form with
  | dfI =>
    obtain ⟨hb, ha'⟩ := hf
    obtain ⟨h1, h2⟩ := h
    have p1 := rep_push h1 x
    have d1 := rep_dot p1 f.b (by rw [push_g]; exact hb)
    have d2 := rep_dot h2 f.a.tail (tail_len ha')
    have p2 := rep_push d2.1 (dot f.b (x :: X) - dot f.a.tail (resp f.b f.a X))
    simp only [Iir.one, Iir.dfI, rep_tail h2 ha, d1.2.1, d2.2.1]
    refine ⟨⟨d1.1, p2⟩, trivial, rfl, rfl, ?_, ?_⟩
    · rw [d1.2.2, push_g]
    · rw [push_g, d2.2.2]
  | dfIIT =>
    obtain ⟨hb, hb', ha'⟩ := hf
    obtain ⟨h1, h2⟩ := h
    have d1 := rep_dot h1 f.b.tail (tail_len hb')
    have p1 := rep_push d1.1 x
    have d2 := rep_dot h2 f.a.tail (tail_len ha')
    have p2 := rep_push d2.1 (dot f.b (x :: X) - dot f.a.tail (resp f.b f.a X))
    simp only [Iir.one, Iir.dfIIT, rep_tail h2 ha, rep_tail h1 hb, d1.2.1, d2.2.1]
    rw [← dot_cons f.b hb x X]
    refine ⟨⟨p1, p2⟩, rfl, rfl, rfl, ?_, ?_⟩
    · rw [push_g, d1.2.2]
    · rw [push_g, d2.2.2]
  | dfII =>
    obtain ⟨hb, ha'⟩ := hf
    obtain ⟨h1, h2⟩ := h
    simp only [Iir.one, Iir.dfII]
    split
    · rename_i hg
      have hl : f.a.length ≤ 1 := by simp at hg; exact hg.2
      have ht : f.a.tail = [] := List.length_eq_zero_iff.1 (by simp; omega)
      have hm : mid f.a (x :: X) = x :: mid f.a X := by rw [mid, ht]; simp [dot]
      have p1 := rep_push h1 x
      rw [← hm] at p1
      have d1 := rep_dot p1 f.b (by rw [push_g]; exact hb)
      simp only [d1.2.1]
      exact ⟨⟨d1.1, h2⟩, mid_head _ _ _ _, rfl, rfl, by rw [d1.2.2, push_g], rfl⟩
    · have d1 := rep_dot h1 f.a.tail (tail_len ha')
      have p1 := rep_push d1.1 (x - dot f.a.tail (mid f.a X))
      have d2 := rep_dot p1 f.b (by rw [push_g, d1.2.2]; exact hb)
      simp only [rep_tail h1 ha, d1.2.1, d2.2.1]
      exact ⟨⟨d2.1, h2⟩, mid_head _ _ _ _, rfl, rfl, by rw [d2.2.2, push_g, d1.2.2], rfl⟩
  | dfIT =>
    obtain ⟨hb, ha'⟩ := hf
    obtain ⟨h1, h2⟩ := h
    have d1 := rep_dot h1 f.a.tail (tail_len ha')
    have p1 := rep_push d1.1 (x - dot f.a.tail (mid f.a X))
    have d2 := rep_dot p1 f.b (by rw [push_g, d1.2.2]; exact hb)
    simp only [Iir.one, Iir.dfIT, rep_tail h1 ha, d1.2.1, d2.2.1]
    exact ⟨⟨d2.1, h2⟩, mid_head _ _ _ _, rfl, rfl, rfl, by rw [d2.2.2, push_g, d1.2.2]⟩

theorem run_inv (guarded : Bool) (form : Form) (xs : List α) (f : Iir α) (X : List α) (h : Inv form f X)
    (hf : FitsIn form f.b f.a f.input.g.ring f.output.g.ring) :
    Inv form (f.run guarded form xs).1 (xs.reverse ++ X) ∧
    resp f.b f.a (xs.reverse ++ X) = (f.run guarded form xs).2.reverse ++ resp f.b f.a X ∧ Same f (f.run guarded form xs).1 := by
  induction xs generalizing f X with
  | nil => exact ⟨h, rfl, rfl, rfl, rfl, rfl⟩
  | cons x xs ih =>
    obtain ⟨h1, h2, h3⟩ := one_step guarded form f X h hf x
    have ih := ih (f.one guarded form x).1 (x :: X) h1 (by rw [h3.b, h3.a, h3.input, h3.output]; exact hf)
    simp only [Iir.run]
    rw [h3.b, h3.a] at ih
    refine ⟨by simpa using ih.1, ?_, ?_⟩
    · have := ih.2.1
      rw [resp] at this
      simp only [List.reverse_cons, List.append_assoc, List.singleton_append]
      rw [this, ← h2]
    · have s := ih.2.2
      exact ⟨s.b.trans h3.b, s.a.trans h3.a, s.input.trans h3.input, s.output.trans h3.output⟩

theorem past_rev (xs : List α) (n k : Nat) (hn : n < xs.length) : (xs.reverse.drop (xs.length - 1 - n)).getD k 0 = past xs n k := by
  rw [getD_drop, past]
  split
  · rename_i h
    rw [List.getD_eq_getElem?_getD, List.getElem?_reverse (by omega), ← List.getD_eq_getElem?_getD]
    congr 1; omega
  · rename_i h
    rw [List.getD_eq_getElem?_getD, List.getElem?_eq_none (by simp; omega)]; rfl

theorem resp_solves (b a xs : List α) : Solves b a xs (resp b a xs.reverse).reverse := by
  have hlen : (resp b a xs.reverse).reverse.length = xs.length := by simp [resp_length]
  refine ⟨hlen, fun n hn => ?_⟩
  have h1 : (resp b a xs.reverse).reverse.getD n 0 = (resp b a (xs.reverse.drop (xs.length - 1 - n))).getD 0 0 := by
    rw [← resp_drop, getD_drop, List.getD_eq_getElem?_getD, List.getElem?_reverse (by rw [resp_length]; simpa using hn), resp_length,
      ← List.getD_eq_getElem?_getD]
    simp
  have h2 : xs.reverse.drop (xs.length - 1 - n) ≠ [] := by
    intro h; have := List.drop_eq_nil_iff.1 h; simp at this; omega
  have h3 : resp b a (xs.reverse.drop (xs.length - 1 - n + 1)) =
      (resp b a xs.reverse).reverse.reverse.drop (xs.length - 1 - n + 1) := by rw [List.reverse_reverse, resp_drop]
  rw [h1]
  cases hY : xs.reverse.drop (xs.length - 1 - n) with
  | nil => exact absurd hY h2
  | cons y Y =>
    have hYd : Y = xs.reverse.drop (xs.length - 1 - n + 1) := by rw [← List.drop_drop, hY]; rfl
    simp only [resp, List.getD_cons_zero]
    congr 1
    · unfold dot
      refine Finset.sum_congr rfl fun k _ => ?_
      rw [← hY, past_rev xs n k hn]
    · unfold dot
      rw [List.length_tail]
      refine Finset.sum_congr rfl fun k _ => ?_
      have e := past_rev (resp b a xs.reverse).reverse n (k + 1) (by rw [hlen]; exact hn)
      rw [hlen] at e
      rw [← e, hYd, h3, getD_drop, getD_drop]
      congr 1
      · simp [List.getD_eq_getElem?_getD]
      · congr 1; omega

/-- A signal is determined by the difference equation. -/
theorem solves_unique (b a xs ys zs : List α) (hy : Solves b a xs ys) (hz : Solves b a xs zs) : ys = zs := by
  have key : ∀ n, ∀ m < n, ys.getD m 0 = zs.getD m 0 := by
    intro n
    induction n with
    | zero => intro m hm; omega
    | succ n ih =>
      intro m hm
      by_cases hx : m < xs.length
      · rw [hy.eq m hx, hz.eq m hx]
        congr 1
        refine Finset.sum_congr rfl fun k _ => ?_
        simp only [past]
        split
        · rw [ih _ (by omega)]
        · rfl
      · rw [List.getD_eq_getElem?_getD, List.getD_eq_getElem?_getD, List.getElem?_eq_none (by rw [hy.length]; omega),
          List.getElem?_eq_none (by rw [hz.length]; omega)]
  apply List.ext_getElem (by rw [hy.length, hz.length])
  intro i h1 h2
  have := key (i + 1) i (by omega)
  simpa [List.getD_eq_getElem?_getD, h1, h2] using this

theorem run_solves (guarded : Bool) (form : Form) (f : Iir α) (h1 : Rep f.input []) (h2 : Rep f.output [])
    (hf : FitsIn form f.b f.a f.input.g.ring f.output.g.ring) (xs : List α) :
    Solves f.b f.a xs (f.run guarded form xs).2 ∧ (f.run guarded form xs).1.input.oob = false ∧
      (f.run guarded form xs).1.output.oob = false := by
  obtain ⟨i1, i2, i3⟩ := run_inv guarded form xs f [] (inv_start form f h1 h2) hf
  refine ⟨?_, i1.oob⟩
  simp only [List.append_nil, resp] at i2
  have := resp_solves f.b f.a xs
  rw [i2, List.reverse_reverse] at this
  exact this

end Verif.Filter
