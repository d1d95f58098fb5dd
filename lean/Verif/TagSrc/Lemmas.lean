import Verif.TagSrc.Model

/-!
# Lemmas about the source of tags
-/

namespace Verif.TagSrc

/-- The tags are in order of their indices. -/
def Sorted (l : List Tg) : Prop := l.Pairwise fun a b => a.index ≤ b.index

theorem filter_takeWhile (l : List Tg) (r : Nat) (hs : Sorted l) (hr : ∀ t ∈ l, r ≤ t.index) :
    l.filter (fun t => t.index == r) = l.takeWhile (·.index == r) ∧
    (∀ t ∈ l.take (l.takeWhile (·.index == r)).length, t.index = r) ∧
    ∀ t ∈ l.drop (l.takeWhile (·.index == r)).length, r < t.index := by
  induction l with
  | nil => simp
  | cons a l ih =>
    unfold Sorted at hs
    rw [List.pairwise_cons] at hs
    obtain ⟨i1, i2, i3⟩ := ih hs.2 (fun t ht => hr t (by simp [ht]))
    by_cases h : a.index = r
    · have hb : (a.index == r) = true := by simpa using h
      rw [List.takeWhile_cons_of_pos (p := fun t : Tg => t.index == r) hb, List.filter_cons_of_pos (p := fun t : Tg => t.index == r) hb, i1]
      refine ⟨rfl, ?_, ?_⟩
      · intro t ht
        simp only [List.length_cons, List.take_succ_cons, List.mem_cons] at ht
        rcases ht with rfl | ht
        · exact h
        · exact i2 t ht
      · intro t ht
        simp only [List.length_cons, List.drop_succ_cons] at ht
        exact i3 t ht
    · have hb : ¬ (a.index == r) = true := by simpa using h
      have ha := hr a (by simp)
      have hgt : ∀ t ∈ a :: l, r < t.index := by
        intro t ht
        simp only [List.mem_cons] at ht
        rcases ht with rfl | ht
        · omega
        · have := hs.1 t ht
          omega
      rw [List.takeWhile_cons_of_neg (p := fun t : Tg => t.index == r) hb]
      refine ⟨?_, by simp, by simpa using hgt⟩
      rw [List.filter_eq_nil_iff]
      intro t ht
      have := hgt t ht
      simp only [beq_iff_eq]
      omega

/-- What holds between calls: the tags before the counter lie before the sample that comes next, the others do not. -/
structure Inv (l : List Tg) (k r : Nat) : Prop where
  before : ∀ t ∈ l.take k, t.index < r
  after : ∀ t ∈ l.drop k, r ≤ t.index

theorem published_eq (c : Cfg) (s : St) (h : Inv c.tags s.tagIndex (remainder c s)) (hs : Sorted c.tags) :
    published c s = (c.tags.drop s.tagIndex).takeWhile (·.index == remainder c s) := by
  unfold published
  have ha := h.after
  cases hd : c.tags.drop s.tagIndex with
  | nil => simp
  | cons t ts =>
    rw [hd] at ha
    have ht := ha t (by simp)
    dsimp only
    by_cases hlt : t.index > remainder c s
    · rw [if_pos hlt, List.takeWhile_cons_of_neg (p := fun x : Tg => x.index == remainder c s)]
      simp only [beq_iff_eq]
      omega
    · have he : t.index = remainder c s := by omega
      rw [if_neg hlt, List.takeWhile_cons_of_pos (p := fun x : Tg => x.index == remainder c s) (by simpa using he), he]

/-- The tags published are those of the sample that comes next, and the counter moves past them. -/
theorem gen_spec (c : Cfg) (s : St) (h : Inv c.tags s.tagIndex (remainder c s)) (hs : Sorted c.tags) :
    published c s = c.tags.filter (fun t => t.index == remainder c s) ∧
    Inv c.tags (s.tagIndex + (published c s).length) (remainder c s + 1) := by
  have hp := published_eq c s h hs
  have hsd : Sorted (c.tags.drop s.tagIndex) := List.Pairwise.sublist (List.drop_sublist _ _) hs
  obtain ⟨h1, h2, h3⟩ := filter_takeWhile (c.tags.drop s.tagIndex) (remainder c s) hsd h.after
  have hf : c.tags.filter (fun t => t.index == remainder c s) = (c.tags.drop s.tagIndex).filter (fun t => t.index == remainder c s) := by
    conv => lhs; rw [← List.take_append_drop s.tagIndex c.tags]
    rw [List.filter_append]
    have : (c.tags.take s.tagIndex).filter (fun t => t.index == remainder c s) = [] := by
      rw [List.filter_eq_nil_iff]
      intro t ht
      have := h.before t ht
      simp only [beq_iff_eq]
      omega
    rw [this, List.nil_append]
  refine ⟨by rw [hp, hf, h1], ⟨?_, ?_⟩⟩
  · intro t ht
    rw [List.take_add, List.mem_append] at ht
    rcases ht with ht | ht
    · have := h.before t ht
      omega
    · rw [hp] at ht
      have := h2 t ht
      omega
  · intro t ht
    rw [← List.drop_drop, hp] at ht
    have := h3 t ht
    omega

theorem last_is (c : Cfg) (hs : Sorted c.tags) : ∀ t ∈ c.tags, t.index ≤ lastIndex c := by
  intro t ht
  unfold lastIndex
  cases hl : c.tags.getLast? with
  | none => rw [List.getLast?_eq_none_iff] at hl; rw [hl] at ht; cases ht
  | some u =>
    dsimp only
    rw [List.getLast?_eq_some_iff] at hl
    obtain ⟨ys, hy⟩ := hl
    unfold Sorted at hs
    rw [hy, List.pairwise_append] at hs
    rw [hy, List.mem_append] at ht
    rcases ht with ht | ht
    · exact hs.2.2 t ht u (by simp)
    · simp at ht; rw [ht]; exact Nat.le_refl _

theorem last_mem (c : Cfg) (hne : c.tags ≠ []) : ∃ t ∈ c.tags, t.index = lastIndex c := by
  unfold lastIndex
  cases hl : c.tags.getLast? with
  | none => rw [List.getLast?_eq_none_iff] at hl; exact absurd hl hne
  | some u => exact ⟨u, List.mem_of_getLast? hl, rfl⟩

end Verif.TagSrc
