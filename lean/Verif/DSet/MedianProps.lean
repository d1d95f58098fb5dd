import Verif.DSet.WindowProps
/-!
# C147: the sliding median
-/
namespace Verif.DSet

theorem insert_perm (x : Rat) (l : List Rat) : (insert x l).Perm (x :: l) := by
  induction l with
  | nil => exact List.Perm.refl _
  | cons y ys ih =>
    unfold insert
    split
    · exact List.Perm.refl _
    · exact (List.Perm.cons y ih).trans (List.Perm.swap x y ys)

theorem sorted_perm (l : List Rat) : (sorted l).Perm l := by
  induction l with
  | nil => exact List.Perm.refl _
  | cons x xs ih => exact (insert_perm x _).trans (List.Perm.cons x ih)

theorem insert_pairwise (x : Rat) (l : List Rat) (h : l.Pairwise (· ≤ ·)) : (insert x l).Pairwise (· ≤ ·) := by
  induction l with
  | nil => exact List.pairwise_singleton _ _
  | cons y ys ih =>
    obtain ⟨h1, h2⟩ := List.pairwise_cons.1 h
    unfold insert
    split
    · next hxy =>
      refine List.pairwise_cons.2 ⟨fun z hz => ?_, h⟩
      rcases List.mem_cons.1 hz with rfl | hz
      · exact hxy
      · exact Rat.le_trans hxy (h1 z hz)
    · next hxy =>
      refine List.pairwise_cons.2 ⟨fun z hz => ?_, ih h2⟩
      rcases List.mem_cons.1 ((insert_perm x ys).mem_iff.1 hz) with rfl | hz
      · grind
      · exact h1 z hz

theorem sorted_pairwise (l : List Rat) : (sorted l).Pairwise (· ≤ ·) := by
  induction l with
  | nil => exact List.Pairwise.nil
  | cons x xs ih => exact insert_pairwise x _ ih

/-- How many values are at most, and at least, `m`. -/
def atMost (m : Rat) (l : List Rat) : Nat := l.countP fun x => decide (x ≤ m)
def atLeast (m : Rat) (l : List Rat) : Nat := l.countP fun x => decide (m ≤ x)

theorem rank (l : List Rat) (h : l.Pairwise (· ≤ ·)) (k : Nat) (v : Rat) (hv : l[k]? = some v) :
    (∀ m, v ≤ m → k + 1 ≤ atMost m l) ∧ (∀ m, m ≤ v → l.length - k ≤ atLeast m l) := by
  induction l generalizing k with
  | nil => simp at hv
  | cons x xs ih =>
    obtain ⟨h1, h2⟩ := List.pairwise_cons.1 h
    cases k with
    | zero =>
      simp only [List.getElem?_cons_zero, Option.some.injEq] at hv
      subst hv
      refine ⟨fun m hm => ?_, fun m hm => ?_⟩
      · unfold atMost
        rw [List.countP_cons_of_pos (by simpa using hm)]
        omega
      · unfold atLeast
        rw [List.countP_eq_length.2 (fun y hy => ?_)]
        · exact Nat.sub_le _ _
        · rcases List.mem_cons.1 hy with rfl | hy
          · simpa using hm
          · simpa using Rat.le_trans hm (h1 y hy)
    | succ k =>
      rw [List.getElem?_cons_succ] at hv
      obtain ⟨a, b⟩ := ih h2 k hv
      have hxv : x ≤ v := h1 v (List.mem_of_getElem? hv)
      refine ⟨fun m hm => ?_, fun m hm => ?_⟩
      · have := a m hm
        unfold atMost at this ⊢
        rw [List.countP_cons_of_pos (by simpa using Rat.le_trans hxv hm)]
        omega
      · have := b m hm
        unfold atLeast at this ⊢
        rw [List.countP_cons, List.length_cons]
        omega

theorem each_ok {α β : Type} (f : α → Res β) (l : List α) (g : α → β) (h : ∀ a ∈ l, f a = .ok (g a)) : each f l = .ok (l.map g) := by
  induction l with
  | nil => rfl
  | cons a rest ih =>
    unfold each
    rw [h a List.mem_cons_self, ih (fun b hb => h b (List.mem_cons_of_mem _ hb))]
    rfl

theorem each_undef {α β : Type} (f : α → Res β) (l : List α) (a : α) (ha : a ∈ l) (hu : f a = .undef) (hn : ∀ b ∈ l, f b ≠ .throws) :
    each f l = .undef := by
  induction l with
  | nil => cases ha
  | cons b rest ih =>
    unfold each
    rcases List.mem_cons.1 ha with rfl | ha
    · rw [hu]
    · rw [ih ha (fun c hc => hn c (List.mem_cons_of_mem _ hc))]
      have := hn b List.mem_cons_self
      cases h : f b with
      | ok v => rfl
      | throws => exact absurd h this
      | undef => rfl

/-- What it means to be a median: at least half of the values are at most as great, and at least half at least. -/
def IsMedian (m : Rat) (l : List Rat) : Prop := l.length ≤ 2 * atMost m l ∧ l.length ≤ 2 * atLeast m l

/-- The median of a list that is not empty. -/
theorem sorted_median (l : List Rat) (hl : 0 < l.length) :
    ∃ mid, (sorted l)[l.length / 2]? = some mid ∧
      (l.length % 2 = 1 → IsMedian mid l) ∧
      (l.length % 2 = 0 → ∃ prev, (sorted l)[l.length / 2 - 1]? = some prev ∧ IsMedian (1 / 2 * (prev + mid)) l) := by
  have hs := sorted_perm l
  have hlen : (sorted l).length = l.length := hs.length_eq
  obtain ⟨mid, hmid⟩ : ∃ mid, (sorted l)[l.length / 2]? = some mid :=
    ⟨_, List.getElem?_eq_getElem (show l.length / 2 < (sorted l).length by rw [hlen]; omega)⟩
  have hc : ∀ m, atMost m (sorted l) = atMost m l ∧ atLeast m (sorted l) = atLeast m l := fun m => ⟨hs.countP_eq _, hs.countP_eq _⟩
  obtain ⟨a, b⟩ := rank _ (sorted_pairwise l) _ _ hmid
  refine ⟨mid, hmid, fun h => ?_, fun h => ?_⟩
  · have a' := a mid Rat.le_refl
    have b' := b mid Rat.le_refl
    rw [(hc mid).1] at a'
    rw [(hc mid).2, hlen] at b'
    exact ⟨by omega, by omega⟩
  · obtain ⟨prev, hprev⟩ : ∃ prev, (sorted l)[l.length / 2 - 1]? = some prev :=
      ⟨_, List.getElem?_eq_getElem (show l.length / 2 - 1 < (sorted l).length by rw [hlen]; omega)⟩
    have hle : prev ≤ mid := by
      have hi : l.length / 2 - 1 < (sorted l).length := by rw [hlen]; omega
      have hj : l.length / 2 < (sorted l).length := by rw [hlen]; omega
      have := List.pairwise_iff_getElem.1 (sorted_pairwise l) (l.length / 2 - 1) (l.length / 2) hi hj (by omega)
      rw [List.getElem?_eq_getElem hi] at hprev
      rw [List.getElem?_eq_getElem hj] at hmid
      cases hprev; cases hmid
      exact this
    obtain ⟨a2, -⟩ := rank _ (sorted_pairwise l) _ _ hprev
    refine ⟨prev, hprev, ?_⟩
    have a' := a2 (1 / 2 * (prev + mid)) (by grind)
    have b' := b (1 / 2 * (prev + mid)) (by grind)
    rw [(hc _).1] at a'
    rw [(hc _).2, hlen] at b'
    exact ⟨by omega, by omega⟩

/-- **A sliding median of odd width is at each place a median of the values near it.** -/
theorem median_spec_partial (xs : List Rat) (w : Nat) (hw : w % 2 = 1) :
    ∃ ys, median xs w = .ok ys ∧ ys.length = xs.length ∧
      ∀ i, i < xs.length → ∃ m, ys[i]? = some m ∧ IsMedian m (near xs (w / 2) i) ∧
        ((near xs (w / 2) i).length % 2 = 1 → m ∈ near xs (w / 2) i) := by
  let val (i : Nat) : Rat :=
    let win := window xs (w / 2) i
    let mid := ((sorted win)[win.length / 2]?).getD 0
    if win.length % 2 = 0 then 1 / 2 * (((sorted win)[win.length / 2 - 1]?).getD 0 + mid) else mid
  refine ⟨(List.range xs.length).map val, ?_, by simp, fun i hi => ⟨val i, ?_, ?_, ?_⟩⟩
  · unfold median
    rw [if_neg (by omega)]
    apply each_ok
    intro i hi
    have hi : i < xs.length := List.mem_range.1 hi
    have hp := window_pos xs (w / 2) i hi
    have hle : ¬ w < (window xs (w / 2) i).length := by rw [window_length]; omega
    obtain ⟨mid, h1, -, h3⟩ := sorted_median _ hp
    dsimp only [val]
    rw [if_neg hle, h1]
    dsimp only [Option.getD_some]
    by_cases he : (window xs (w / 2) i).length % 2 = 0
    · obtain ⟨prev, h4, -⟩ := h3 he
      rw [if_pos he, if_pos he, h4]
      rfl
    · rw [if_neg he, if_neg he]
  · rw [List.getElem?_map, List.getElem?_range hi, Option.map_some]
  · rw [← window_near]
    obtain ⟨mid, h1, h2, h3⟩ := sorted_median _ (window_pos xs (w / 2) i hi)
    dsimp only [val]
    rw [h1]
    by_cases he : (window xs (w / 2) i).length % 2 = 0
    · obtain ⟨prev, h4, h5⟩ := h3 he
      rw [if_pos he, h4]
      exact h5
    · rw [if_neg he]
      exact h2 (by omega)
  · rw [← window_near]
    intro ho
    obtain ⟨mid, h1, -, -⟩ := sorted_median _ (window_pos xs (w / 2) i hi)
    dsimp only [val]
    rw [h1, if_neg (by omega)]
    exact (sorted_perm _).mem_iff.1 (List.mem_of_getElem? h1)

example : median [5, 1, 4, 2, 3] 3 = .ok [3, 4, 2, 3, 5 / 2] := by decide +kernel

/-- With an even width the window is one value longer than the buffer it is copied to: as soon as the signal is longer than the width,
the behaviour is not defined. -/
theorem median_even_undefined (xs : List Rat) (w : Nat) (hw : 0 < w) (he : w % 2 = 0) (hl : w < xs.length) : median xs w = .undef := by
  unfold median
  rw [if_neg (by omega)]
  apply each_undef _ _ (w / 2) (List.mem_range.2 (by omega))
  · dsimp only
    rw [if_pos (by rw [window_length]; omega)]
  · intro i hi
    dsimp only
    split
    · exact fun h => by cases h
    · split
      · exact fun h => by cases h
      · split
        · split <;> exact fun h => by cases h
        · exact fun h => by cases h

example : median [1, 2, 3] 2 = .undef := by decide +kernel

end Verif.DSet
