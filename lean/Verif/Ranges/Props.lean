import Verif.Ranges.Model

/-!
# Property C170: merging sorted ranges and dropping duplicates
-/

namespace Verif.Ranges

variable {α : Type}

/-- A strict weak order, as comparisons for sorting have to be. -/
structure Weak (lt : α → α → Bool) : Prop where
  irrefl : ∀ a, lt a a = false
  trans : ∀ a b c, lt a b = true → lt b c = true → lt a c = true
  split : ∀ a b c, lt a b = true → lt a c = true ∨ lt c b = true

/-- The chosen element is the first of the smallest. -/
def Good (lt : α → α → Bool) (its : List (List α)) : Option (Nat × α) → Prop
  | none => ∀ (j : Nat) (y : α) (t : List α), its[j]? ≠ some (y :: t)
  | some (i, x) => (∃ t, its[i]? = some (x :: t)) ∧
      ∀ (j : Nat) (y : α) (t : List α), its[j]? = some (y :: t) → lt y x = false ∧ (j < i → lt x y = true)

theorem good_snoc_nil (lt : α → α → Bool) (pre : List (List α)) (c : Option (Nat × α)) (h : Good lt pre c) : Good lt (pre ++ [[]]) c := by
  have key : ∀ (j : Nat) (y : α) (t : List α), (pre ++ [[]])[j]? = some (y :: t) → pre[j]? = some (y :: t) := by
    intro j y t hj
    rw [List.getElem?_append] at hj
    split at hj
    · exact hj
    · rename_i hl
      cases hk : j - pre.length with
      | zero => rw [hk] at hj; simp at hj
      | succ k => rw [hk] at hj; simp at hj
  cases c with
  | none => exact fun j y t hj => h j y t (key j y t hj)
  | some b =>
    obtain ⟨⟨t, ht⟩, h2⟩ := h
    refine ⟨⟨t, ?_⟩, fun j y t hj => h2 j y t (key j y t hj)⟩
    obtain ⟨hi, _⟩ := List.getElem?_eq_some_iff.mp ht
    rw [List.getElem?_append_left hi]; exact ht

theorem snoc_cases (pre : List (List α)) (x : α) (xs : List α) (j : Nat) (y : α) (t : List α) (hj : (pre ++ [x :: xs])[j]? = some (y :: t)) :
    (j < pre.length ∧ pre[j]? = some (y :: t)) ∨ (j = pre.length ∧ y = x) := by
  rw [List.getElem?_append] at hj
  split at hj
  · exact Or.inl ⟨by assumption, hj⟩
  · rename_i hl
    cases hk : j - pre.length with
    | zero =>
      rw [hk] at hj
      simp only [List.getElem?_cons_zero, Option.some.injEq, List.cons.injEq] at hj
      exact Or.inr ⟨by omega, hj.1.symm⟩
    | succ k => rw [hk] at hj; simp at hj

theorem good_next (lt : α → α → Bool) (hw : Weak lt) (suf pre : List (List α)) (c : Option (Nat × α)) (h : Good lt pre c) :
    Good lt (pre ++ suf) (next lt pre.length c suf) := by
  induction suf generalizing pre c with
  | nil => cases c <;> simpa [next] using h
  | cons l r ih =>
    have hcat : pre ++ l :: r = (pre ++ [l]) ++ r := by simp
    have hlen : (pre ++ [l]).length = pre.length + 1 := by simp
    rw [hcat]
    cases l with
    | nil =>
      have := ih (pre ++ [[]]) c (good_snoc_nil lt pre c h)
      rw [hlen] at this
      cases c <;> simpa [next] using this
    | cons x xs =>
      have hhere : (pre ++ [x :: xs])[pre.length]? = some (x :: xs) := by simp
      cases c with
      | none =>
        have := ih (pre ++ [x :: xs]) (some (pre.length, x)) (by
          refine ⟨⟨xs, hhere⟩, fun j y t hj => ?_⟩
          rcases snoc_cases pre x xs j y t hj with ⟨_, h'⟩ | ⟨h1, h2⟩
          · exact absurd h' (h j y t)
          · subst h2; exact ⟨hw.irrefl y, fun hlt => by omega⟩)
        rw [hlen] at this
        simpa [next] using this
      | some b =>
        have := ih (pre ++ [x :: xs]) (if lt x b.2 then some (pre.length, x) else some b) (by
          obtain ⟨⟨t0, ht0⟩, h2⟩ := h
          obtain ⟨hi, _⟩ := List.getElem?_eq_some_iff.mp ht0
          split
          · rename_i hx
            refine ⟨⟨xs, hhere⟩, fun j y t hj => ?_⟩
            rcases snoc_cases pre x xs j y t hj with ⟨_, h'⟩ | ⟨h1, h3⟩
            · have hyb := (h2 j y t h').1
              have hxy : lt x y = true := by
                rcases hw.split x b.2 y hx with h4 | h4
                · exact h4
                · rw [hyb] at h4; cases h4
              refine ⟨?_, fun _ => hxy⟩
              cases hyx : lt y x with
              | false => rfl
              | true =>
                have := hw.trans y x b.2 hyx hx
                rw [hyb] at this; cases this
            · subst h3; exact ⟨hw.irrefl y, fun hlt => by omega⟩
          · rename_i hx
            refine ⟨⟨t0, ?_⟩, fun j y t hj => ?_⟩
            · rw [List.getElem?_append_left hi]; exact ht0
            · rcases snoc_cases pre x xs j y t hj with ⟨_, h'⟩ | ⟨h1, h3⟩
              · exact h2 j y t h'
              · subst h3; exact ⟨by simpa using hx, fun hlt => by omega⟩)
        rw [hlen] at this
        simpa [next] using this

theorem next_good (lt : α → α → Bool) (hw : Weak lt) (its : List (List α)) : Good lt its (next lt 0 none its) := by
  have := good_next lt hw its [] none (by intro j y t; simp)
  simpa using this

theorem modify_perm (its : List (List α)) (i : Nat) (x : α) (t : List α) (h : its[i]? = some (x :: t)) :
    (x :: (its.modify i List.tail).flatten).Perm its.flatten := by
  induction its generalizing i with
  | nil => simp at h
  | cons l r ih =>
    cases i with
    | zero =>
      simp only [List.getElem?_cons_zero, Option.some.injEq] at h
      subst h
      simp
    | succ i =>
      simp only [List.getElem?_cons_succ] at h
      rw [List.modify_succ_cons, List.flatten_cons, List.flatten_cons]
      exact (List.perm_middle.symm).trans ((ih i h).append_left l)

theorem flatten_nil (its : List (List α)) (h : ∀ (j : Nat) (y : α) (t : List α), its[j]? ≠ some (y :: t)) : its.flatten = [] := by
  induction its with
  | nil => rfl
  | cons l r ih =>
    cases l with
    | nil => simpa using ih fun j y t => by simpa using h (j + 1) y t
    | cons x xs => exact absurd rfl (h 0 x xs)

theorem run_perm (lt : α → α → Bool) (hw : Weak lt) (fuel : Nat) (its : List (List α)) (hf : its.flatten.length < fuel) :
    (run lt fuel its).Perm its.flatten := by
  induction fuel generalizing its with
  | zero => omega
  | succ n ih =>
    have hg := next_good lt hw its
    unfold run
    split
    · rename_i hn
      rw [hn] at hg
      rw [flatten_nil its hg]
    · rename_i i x hn
      rw [hn] at hg
      obtain ⟨⟨t, ht⟩, _⟩ := hg
      have hp := modify_perm its i x t ht
      have hl := hp.length_eq
      simp only [List.length_cons] at hl
      exact ((ih _ (by omega)).cons x).trans hp

/-- Nothing is lost, nothing is added. -/
theorem merge_all (lt : α → α → Bool) (hw : Weak lt) (its : List (List α)) : (merge lt its).Perm its.flatten :=
  run_perm lt hw _ its (by omega)

/-- In order; equal elements in the order of the ranges they are from. -/
def Before (lt : α → α → Bool) (src : α → Nat) (a b : α) : Prop := lt a b = true ∨ (lt b a = false ∧ src a ≤ src b)

theorem before_trans (lt : α → α → Bool) (hw : Weak lt) (src : α → Nat) (a b c : α) (h1 : Before lt src a b) (h2 : Before lt src b c) :
    Before lt src a c := by
  unfold Before at *
  rcases h1 with h1 | ⟨h1, s1⟩ <;> rcases h2 with h2 | ⟨h2, s2⟩
  · exact Or.inl (hw.trans a b c h1 h2)
  · rcases hw.split a b c h1 with h | h
    · exact Or.inl h
    · rw [h2] at h; cases h
  · rcases hw.split b c a h2 with h | h
    · rw [h1] at h; cases h
    · exact Or.inl h
  · refine Or.inr ⟨?_, by omega⟩
    cases h : lt c a with
    | false => rfl
    | true =>
      rcases hw.split c a b h with h' | h'
      · rw [h2] at h'; cases h'
      · rw [h1] at h'; cases h'

/-- The inner ranges are sorted, and `src` says from which of them an element is. -/
def Inputs (lt : α → α → Bool) (src : α → Nat) (its : List (List α)) : Prop :=
  ∀ (i : Nat) (l : List α), its[i]? = some l → l.Pairwise (fun a b => lt b a = false) ∧ ∀ a ∈ l, src a = i

theorem inputs_modify (lt : α → α → Bool) (src : α → Nat) (its : List (List α)) (k : Nat) (h : Inputs lt src its) :
    Inputs lt src (its.modify k List.tail) := by
  intro i l hl
  rw [List.getElem?_modify] at hl
  cases hi : its[i]? with
  | none => rw [hi] at hl; simp at hl
  | some m =>
    obtain ⟨h1, h2⟩ := h i m hi
    rw [hi] at hl
    simp only [Option.map_eq_map, Option.map_some, Option.some.injEq] at hl
    subst hl
    split
    · exact ⟨h1.sublist (List.tail_sublist m), fun a ha => h2 a (List.mem_of_mem_tail ha)⟩
    · exact ⟨h1, h2⟩

theorem run_sorted (lt : α → α → Bool) (hw : Weak lt) (src : α → Nat) (fuel : Nat) (its : List (List α)) (hf : its.flatten.length < fuel)
    (h : Inputs lt src its) : (run lt fuel its).Pairwise (Before lt src) := by
  induction fuel generalizing its with
  | zero => omega
  | succ n ih =>
    have hg := next_good lt hw its
    unfold run
    split
    · exact List.Pairwise.nil
    · rename_i i x hn
      rw [hn] at hg
      obtain ⟨⟨t, ht⟩, hmin⟩ := hg
      have hp := modify_perm its i x t ht
      have hl := hp.length_eq
      simp only [List.length_cons] at hl
      have hr := run_perm lt hw n (its.modify i List.tail) (by omega)
      refine List.Pairwise.cons (fun y hy => ?_) (ih _ (by omega) (inputs_modify lt src its i h))
      have hy' : y ∈ its.flatten := hp.mem_iff.mp (List.mem_cons_of_mem x (hr.mem_iff.mp hy))
      obtain ⟨l, hlm, hyl⟩ := List.mem_flatten.mp hy'
      obtain ⟨j, hj⟩ := List.mem_iff_getElem?.mp hlm
      have sx : src x = i := (h i _ ht).2 x (by simp)
      cases l with
      | nil => cases hyl
      | cons z zs =>
        have hm := hmin j z zs hj
        have sz : src z = j := (h j _ hj).2 z (by simp)
        have hxz : Before lt src x z := by
          by_cases hji : j < i
          · exact Or.inl (hm.2 hji)
          · exact Or.inr ⟨hm.1, by omega⟩
        rcases List.mem_cons.mp hyl with rfl | hyz
        · exact hxz
        · refine before_trans lt hw src x z y hxz (Or.inr ⟨?_, ?_⟩)
          · exact (List.pairwise_cons.mp (h j _ hj).1).1 y hyz
          · rw [sz, (h j _ hj).2 y hyl]; exact Nat.le_refl _

/-- Sorted ranges merge to one sorted range, in which equal elements stand in the order of the ranges they are from. -/
theorem merge_sorted (lt : α → α → Bool) (hw : Weak lt) (src : α → Nat) (its : List (List α)) (h : Inputs lt src its) :
    (merge lt its).Pairwise (Before lt src) := run_sorted lt hw src _ its (by omega) h

theorem run_sub (lt : α → α → Bool) (hw : Weak lt) (fuel : Nat) (its : List (List α)) (hf : its.flatten.length < fuel) (l : List α)
    (hl : l ∈ its) : l.Sublist (run lt fuel its) := by
  induction fuel generalizing its l with
  | zero => omega
  | succ n ih =>
    have hg := next_good lt hw its
    unfold run
    split
    · rename_i hn
      rw [hn] at hg
      have := flatten_nil its hg
      rw [List.flatten_eq_nil_iff] at this
      rw [this l hl]
      exact List.Sublist.refl _
    · rename_i i x hn
      rw [hn] at hg
      obtain ⟨⟨t, ht⟩, _⟩ := hg
      have hp := (modify_perm its i x t ht).length_eq
      simp only [List.length_cons] at hp
      obtain ⟨j, hj⟩ := List.mem_iff_getElem?.mp hl
      by_cases hji : i = j
      · subst hji
        rw [ht] at hj
        simp only [Option.some.injEq] at hj
        subst hj
        refine List.Sublist.cons_cons x (ih _ (by omega) t (List.mem_iff_getElem?.mpr ⟨i, ?_⟩))
        rw [List.getElem?_modify, ht]; simp
      · refine List.Sublist.cons x (ih _ (by omega) l (List.mem_iff_getElem?.mpr ⟨j, ?_⟩))
        rw [List.getElem?_modify, hj]; simp [hji]

/-- Each range is in the result in its own order, sorted or not. -/
theorem merge_keeps (lt : α → α → Bool) (hw : Weak lt) (its : List (List α)) (l : List α) (hl : l ∈ its) : l.Sublist (merge lt its) :=
  run_sub lt hw _ its (by omega) l hl

example : Weak (fun (a b : Nat × Nat) => decide (a.1 < b.1)) := by
  constructor <;> intros <;> simp_all only [decide_eq_true_eq, decide_eq_false_iff_not] <;> omega

example : Inputs (fun (a b : Nat × Nat) => decide (a.1 < b.1)) (·.2) [[(1, 0), (3, 0)], [], [(1, 2), (2, 2), (3, 2)]] := by
  intro i l h
  match i with
  | 0 => simp at h; subst h; decide
  | 1 => simp at h; subst h; decide
  | 2 => simp at h; subst h; decide
  | n + 3 => simp at h

example : merge (fun (a b : Nat × Nat) => decide (a.1 < b.1)) [[(1, 0), (3, 0)], [], [(1, 2), (2, 2), (3, 2)]] =
    [(1, 0), (1, 2), (2, 2), (3, 0), (3, 2)] := by decide

/-- The specification: an element is dropped exactly if one of the elements just before it, back to the last that is not in its group, is equal
to it; `seen` has the newest first. -/
def kept (eq1 eq2 : α → α → Bool) : List α → List α → List α
  | _, [] => []
  | seen, x :: xs => if (seen.takeWhile (eq1 x)).any (fun y => eq2 y x) then kept eq1 eq2 (x :: seen) xs else x :: kept eq1 eq2 (x :: seen) xs

theorem isDuplicate_eq (eq1 eq2 : α → α → Bool) (s cur : α) (acc : List α) :
    isDuplicate eq1 eq2 s cur acc = (acc.takeWhile (eq1 s)).any (fun y => eq2 y cur) := by
  induction acc with
  | nil => rfl
  | cons r rs ih =>
    unfold isDuplicate
    cases h : eq1 s r <;> cases h2 : eq2 r cur <;> simp [List.takeWhile_cons, h, h2, ih]

theorem loop_kept (eq1 eq2 : α → α → Bool) (r1 : ∀ a, eq1 a a = true) (s1 : ∀ a b, eq1 a b = true → eq1 b a = true)
    (t1 : ∀ a b c, eq1 a b = true → eq1 b c = true → eq1 a c = true) (t2 : ∀ a b c, eq2 a b = true → eq2 b c = true → eq2 a c = true)
    (l : List α) (s a0 b0 : α) (acc seen : List α) (ha : eq1 s a0 = true) (hb : eq1 s b0 = true)
    (hinv : ∀ z, ((a0 :: acc).takeWhile (eq1 s)).any (fun y => eq2 y z) = ((b0 :: seen).takeWhile (eq1 s)).any (fun y => eq2 y z)) :
    loop eq1 eq2 (some s) (a0 :: acc) l = (a0 :: acc).reverse ++ kept eq1 eq2 (b0 :: seen) l := by
  induction l generalizing s a0 b0 acc seen with
  | nil => simp [loop, kept]
  | cons x xs ih =>
    unfold loop kept
    dsimp only
    by_cases hx : eq1 s x = true
    · have hfun : eq1 x = eq1 s := by
        funext z
        rw [Bool.eq_iff_iff]
        exact ⟨fun h => t1 s x z hx h, fun h => t1 x s z (s1 s x hx) h⟩
      rw [if_pos hx, isDuplicate_eq, hfun, ← hinv x]
      cases hd : ((a0 :: acc).takeWhile (eq1 s)).any (fun y => eq2 y x) with
      | true =>
        simp only [if_true]
        refine ih s a0 x acc (b0 :: seen) ha hx fun z => ?_
        rw [hinv z, List.takeWhile_cons_of_pos (a := x) hx, List.any_cons]
        cases hz : eq2 x z with
        | false => rfl
        | true =>
          rw [hinv x] at hd
          obtain ⟨y, hy, he⟩ := List.any_eq_true.mp hd
          rw [Bool.true_or]
          exact List.any_eq_true.mpr ⟨y, hy, t2 y x z he hz⟩
      | false =>
        simp only [Bool.false_eq_true, if_false]
        rw [ih s x x (a0 :: acc) (b0 :: seen) hx hx (fun z => by
          rw [List.takeWhile_cons_of_pos hx, List.takeWhile_cons_of_pos hx, List.any_cons, List.any_cons, hinv z])]
        simp
    · have hno : ∀ y, eq1 s y = true → ¬ eq1 x y = true := fun y hy h => hx (t1 s y x hy (s1 x y h))
      rw [if_neg hx, isDuplicate_eq, List.takeWhile_cons_of_neg (hno a0 ha), List.takeWhile_cons_of_neg (hno b0 hb)]
      simp only [List.any_nil, Bool.false_eq_true, if_false]
      rw [ih x x x (a0 :: acc) (b0 :: seen) (r1 x) (r1 x) (fun z => by
        rw [List.takeWhile_cons_of_pos (r1 x), List.takeWhile_cons_of_pos (r1 x), List.takeWhile_cons_of_neg (hno a0 ha),
          List.takeWhile_cons_of_neg (hno b0 hb)])]
      simp

/-- Exactly the duplicates inside their groups are dropped, the rest stays in order. -/
theorem dedup_kept (eq1 eq2 : α → α → Bool) (r1 : ∀ a, eq1 a a = true) (s1 : ∀ a b, eq1 a b = true → eq1 b a = true)
    (t1 : ∀ a b c, eq1 a b = true → eq1 b c = true → eq1 a c = true) (t2 : ∀ a b c, eq2 a b = true → eq2 b c = true → eq2 a c = true)
    (l : List α) : dedup eq1 eq2 l = kept eq1 eq2 [] l := by
  cases l with
  | nil => rfl
  | cons x xs =>
    unfold dedup loop kept
    simp only [isDuplicate, Bool.false_eq_true, if_false, List.takeWhile_nil, List.any_nil]
    rw [loop_kept eq1 eq2 r1 s1 t1 t2 xs x x x [] [] (r1 x) (r1 x) (fun _ => rfl)]
    simp

example : dedup (fun (a b : Nat × Nat) => a.1 == b.1) (fun a b => a == b) [(1, 5), (1, 6), (1, 5), (2, 5), (2, 5), (1, 5)] =
    [(1, 5), (1, 6), (2, 5), (1, 5)] := by decide

end Verif.Ranges
