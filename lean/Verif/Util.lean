/-! List lemmas shared by several areas. -/
namespace Verif

theorem nodup_length_le {α : Type} [DecidableEq α] : ∀ (l d : List α), l.Nodup → (∀ x ∈ l, x ∈ d) → l.length ≤ d.length := by
  intro l
  induction l with
  | nil => intro d _ _; exact Nat.zero_le _
  | cons x l ih =>
    intro d hn hs
    rw [List.nodup_cons] at hn
    have hx := hs x (List.mem_cons_self ..)
    have := ih (d.erase x) hn.2 fun y hy => by
      rw [List.mem_erase_of_ne]
      · exact hs y (List.mem_cons_of_mem _ hy)
      · intro h; subst h; exact hn.1 hy
    rw [List.length_erase_of_mem hx] at this
    have := List.length_pos_of_mem hx
    rw [List.length_cons]; omega

theorem nodup_getElem?_inj {α : Type} {xs : List α} (h : xs.Nodup) {p q : Nat} {b : α} (hp : xs[p]? = some b) (hq : xs[q]? = some b) :
    p = q := by
  obtain ⟨h1, h2⟩ := List.getElem?_eq_some_iff.1 hp
  obtain ⟨h3, h4⟩ := List.getElem?_eq_some_iff.1 hq
  unfold List.Nodup at h
  rw [List.pairwise_iff_getElem] at h
  rcases Nat.lt_trichotomy p q with hlt | he | hlt
  · exact absurd (h2.trans h4.symm) (h p q h1 h3 hlt)
  · exact he
  · exact absurd (h4.trans h2.symm) (h q p h3 h1 hlt)

theorem nodup_count_one {α : Type} [BEq α] [LawfulBEq α] {xs : List α} (h : xs.Nodup) {b : α} (hb : b ∈ xs) : xs.count b = 1 := by
  have h1 := List.nodup_iff_count.1 h b
  have h2 := List.count_pos_iff.2 hb
  omega

end Verif
