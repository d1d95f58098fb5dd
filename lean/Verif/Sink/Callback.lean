import Verif.Sink.Stream
/-!
# Helper lemmas: callbacks
-/
namespace Verif.Sink

variable {α γ : Type}

/-- a sorted list of tags, cut at a position -/
theorem filter_split {tags : List (Tag γ)} (h : tags.Pairwise fun a b => a.index ≤ b.index) {lo hi : Nat} (hl : lo ≤ hi) :
    (tags.filter fun t => decide (lo ≤ t.index ∧ t.index < hi)) ++ (tags.filter fun t => decide (hi ≤ t.index)) =
      tags.filter fun t => decide (lo ≤ t.index) := by
  induction tags with
  | nil => rfl
  | cons t r ih =>
    obtain ⟨h1, h2⟩ := List.pairwise_cons.1 h
    have hr := ih h2
    by_cases ha : hi ≤ t.index
    · have hlo : lo ≤ t.index := by omega
      have h3 : (r.filter fun t => decide (lo ≤ t.index ∧ t.index < hi)) = [] :=
        List.filter_eq_nil_iff.2 fun u hu => by have := h1 u hu; simp only [decide_eq_true_eq]; omega
      rw [h3, List.nil_append] at hr
      rw [List.filter_cons_of_neg (by simp; omega), h3, List.nil_append, List.filter_cons_of_pos (by simpa using ha),
        List.filter_cons_of_pos (by simpa using hlo), hr]
    · by_cases hb : lo ≤ t.index
      · rw [List.filter_cons_of_pos (by simp; omega), List.filter_cons_of_neg (by simpa using ha), List.cons_append, hr,
          List.filter_cons_of_pos (by simpa using hb)]
      · rw [List.filter_cons_of_neg (by simp; omega), List.filter_cons_of_neg (by simpa using ha), hr,
          List.filter_cons_of_neg (by simpa using hb)]

theorem loop_got (tk : Bool) (chunk : Nat) (c : Chunk α γ) (hch : 0 < c.data.length → 0 < chunk) (fuel off : Nat) (p : Option (List γ))
    (hf : c.data.length - off ≤ fuel) :
    got (callLoop tk chunk c fuel off p).1 = c.data.drop off ∧
      ∀ k ∈ (callLoop tk chunk c fuel off p).1, 0 < k.data.length ∧ k.data.length ≤ chunk := by
  induction fuel generalizing off p with
  | zero =>
    rw [List.drop_eq_nil_of_le (by omega)]
    simp [callLoop, got]
  | succ fuel ih =>
    simp only [callLoop]
    by_cases ho : off < c.data.length
    · rw [if_pos ho]
      have hpos := hch (by omega)
      have hcut : ∀ r : List α, r = c.data.drop (off + min chunk (c.data.length - off)) →
          (c.data.drop off).take (min chunk (c.data.length - off)) ++ r = c.data.drop off := by
        rintro r rfl
        rw [← List.drop_drop, List.take_append_drop]
      have hl : ((c.data.drop off).take (min chunk (c.data.length - off))).length = min chunk (c.data.length - off) := by
        rw [List.length_take, List.length_drop]; omega
      cases tk with
      | true =>
        obtain ⟨h1, h2⟩ := ih (off + min chunk (c.data.length - off)) none (by omega)
        simp only [if_true]
        refine ⟨?_, ?_⟩
        · simp only [got, List.flatMap_cons] at h1 ⊢
          exact hcut _ h1
        · intro k hk
          rcases List.mem_cons.1 hk with rfl | hk
          · simp only [hl]; omega
          · exact h2 k hk
      | false =>
        obtain ⟨h1, h2⟩ := ih (off + min chunk (c.data.length - off)) p (by omega)
        simp only [Bool.false_eq_true, if_false]
        refine ⟨?_, ?_⟩
        · simp only [got, List.flatMap_cons] at h1 ⊢
          exact hcut _ h1
        · intro k hk
          rcases List.mem_cons.1 hk with rfl | hk
          · simp only [hl]; omega
          · exact h2 k hk
    · rw [if_neg ho, List.drop_eq_nil_of_le (by omega)]
      simp [got]

theorem loop_tags (chunk : Nat) (c : Chunk α γ) (hc : c.Ok) (hch : 0 < c.data.length → 0 < chunk) (fuel off b : Nat)
    (p : Option (List γ)) (hf : c.data.length - off ≤ fuel) :
    gotTags b (callLoop true chunk c fuel off p).1 = (if off < c.data.length then p.toList.map (fun m => (b, m)) else []) ++
        (c.tags.filter fun t => decide (off ≤ t.index)).map (fun t => (b + (t.index - off), t.map)) ∧
      (callLoop true chunk c fuel off p).2 = (if off < c.data.length then none else p) ∧
      Inside (callLoop true chunk c fuel off p).1 := by
  have hnone : ¬ off < c.data.length → (c.tags.filter fun t => decide (off ≤ t.index)) = [] := fun h =>
    List.filter_eq_nil_iff.2 fun t ht => by have := hc.2 t ht; simp only [decide_eq_true_eq]; omega
  induction fuel generalizing off b p with
  | zero =>
    have ho : ¬ off < c.data.length := by omega
    rw [if_neg ho, if_neg ho, hnone ho]
    exact ⟨rfl, rfl, fun _ h => by cases h⟩
  | succ fuel ih =>
    simp only [callLoop]
    by_cases ho : off < c.data.length
    · have hpos := hch (by omega)
      generalize hlen : min chunk (c.data.length - off) = len
      have hl0 : 0 < len := by omega
      have hle : off + len ≤ c.data.length := by omega
      have hl : ((c.data.drop off).take len).length = len := by
        rw [List.length_take, List.length_drop]; omega
      have hn' : ¬ off + len < c.data.length → (c.tags.filter fun t => decide (off + len ≤ t.index)) = [] := fun h =>
        List.filter_eq_nil_iff.2 fun t ht => by have := hc.2 t ht; simp only [decide_eq_true_eq]; omega
      obtain ⟨h1, h2, h3⟩ := ih (off + len) (b + len) none (by omega) hn'
      have hslice : (slice c.tags off (off + len)).map (fun t => (b + t.index, t.map)) =
          (c.tags.filter fun t => decide (off ≤ t.index ∧ t.index < off + len)).map (fun t => (b + (t.index - off), t.map)) := by
        simp [slice, List.map_map, Function.comp_def]
      have hrest : (c.tags.filter fun t => decide (off + len ≤ t.index)).map (fun t => (b + len + (t.index - (off + len)), t.map)) =
          (c.tags.filter fun t => decide (off + len ≤ t.index)).map (fun t => (b + (t.index - off), t.map)) := by
        refine List.map_congr_left fun t ht => ?_
        have : off + len ≤ t.index := by simpa using (List.mem_filter.1 ht).2
        rw [show b + len + (t.index - (off + len)) = b + (t.index - off) by omega]
      have hin : ∀ t ∈ slice c.tags off (off + len), t.index < len := by
        intro t ht
        obtain ⟨u, hu, rfl⟩ := List.mem_map.1 ht
        have : off ≤ u.index ∧ u.index < off + len := by simpa using (List.mem_filter.1 hu).2
        show u.index - off < len
        omega
      rw [if_pos ho, if_pos ho, if_pos ho]
      simp only [if_true]
      refine ⟨?_, ?_, ?_⟩
      · simp only [gotTags, hl, h1, hrest]
        rw [← filter_split hc.1 (Nat.le_add_right off len), List.map_append, ← hslice]
        cases p with
        | none => simp
        | some m => simp
      · rw [h2]; split <;> rfl
      · intro k hk
        rcases List.mem_cons.1 hk with rfl | hk
        · intro t ht
          simp only [hl]
          cases p with
          | none => exact hin t ht
          | some m =>
            rcases List.mem_cons.1 ht with rfl | ht
            · exact hl0
            · exact hin t ht
        · exact h3 k hk
    · rw [if_neg ho, if_neg ho, if_neg ho, hnone ho]
      exact ⟨rfl, rfl, fun _ h => by cases h⟩

end Verif.Sink
