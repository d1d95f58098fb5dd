import Verif.TagSrc.Lemmas

/-!
# One call of the source of tags keeps the tags at their samples
-/

namespace Verif.TagSrc

/-- The tags for the sample `q`: those with its number, counted from the start or, with repetition, from the sample after the last tag. -/
def slot (c : Cfg) (L q : Nat) : List (Nat × Tg) :=
  (c.tags.filter fun t => t.index == if c.rep then q % (L + 1) else q).map fun t => (q, t)

/-- The tags of the first `P` samples. -/
def expected (c : Cfg) (L P : Nat) : List (Nat × Tg) := (List.range P).flatMap (slot c L)

theorem expected_add (c : Cfg) (L p n : Nat) (h : ∀ j, 0 < j → j < n + 1 → slot c L (p + j) = []) :
    expected c L (p + (n + 1)) = expected c L p ++ slot c L p := by
  induction n with
  | zero => simp [expected, List.range_succ]
  | succ n ih =>
    have h1 := ih (fun j hj hj' => h j hj (by omega))
    have h2 := h (n + 1) (by omega) (by omega)
    have e : p + (n + 1 + 1) = p + (n + 1) + 1 := by omega
    rw [e]
    unfold expected at *
    rw [List.range_succ, List.flatMap_append, h1]
    simp [h2]

/-- What holds after every call. -/
structure Good (c : Cfg) (L : Nat) (a : Acc) : Prop where
  log : a.log = expected c L a.pos
  inv : Inv c.tags a.st.tagIndex (remainder c a.st)
  phase : c.tags ≠ [] → remainder c a.st = if c.rep then a.pos % (L + 1) else a.pos
  finite : c.max ≠ 0 → a.st.produced = a.pos
  turn : c.rep = true → c.tags ≠ [] → a.st.tagIndex < c.tags.length

theorem adv_started (c : Cfg) (s : St) (h : (advance c s).2 = true) :
    (advance c s).1 = 0 ∧ published c s ≠ [] ∧ c.rep = true ∧ s.tagIndex + (published c s).length = c.tags.length := by
  unfold advance at *
  dsimp only at *
  split at h
  · rename_i hc
    rw [if_pos hc]
    simp only [Bool.and_eq_true, decide_eq_true_eq, beq_iff_eq] at hc
    refine ⟨rfl, ?_, hc.1.2, hc.2⟩
    intro hn
    rw [hn] at hc
    simp at hc
  · cases h

theorem adv_not (c : Cfg) (s : St) (h : (advance c s).2 = false) :
    (advance c s).1 = s.tagIndex + (published c s).length ∧
    (published c s = [] ∨ c.rep = false ∨ s.tagIndex + (published c s).length ≠ c.tags.length) := by
  unfold advance at *
  dsimp only at *
  split at h
  · cases h
  · rename_i hc
    rw [if_neg hc]
    refine ⟨rfl, ?_⟩
    simp only [Bool.and_eq_true, decide_eq_true_eq, beq_iff_eq, not_and] at hc
    by_cases h1 : published c s = []
    · exact Or.inl h1
    · right
      cases hr : c.rep with
      | false => exact Or.inl rfl
      | true => exact Or.inr (hc ⟨List.length_pos_iff.mpr h1, hr⟩)

theorem started_all (c : Cfg) (s : St) (h : Inv c.tags s.tagIndex (remainder c s)) (hs : Sorted c.tags) (ha : (advance c s).2 = true) :
    (∀ t ∈ c.tags, t.index ≤ remainder c s) ∧ remainder c s = lastIndex c ∧ c.tags ≠ [] := by
  obtain ⟨h1, h2, h3, h4⟩ := adv_started c s ha
  obtain ⟨g1, g2⟩ := gen_spec c s h hs
  have hall : ∀ t ∈ c.tags, t.index ≤ remainder c s := by
    intro t ht
    have := g2.before t (by rw [h4, List.take_length]; exact ht)
    omega
  have hne : c.tags ≠ [] := by
    intro he
    apply h2
    rw [g1, he]; rfl
  refine ⟨hall, ?_, hne⟩
  obtain ⟨u, hu, hul⟩ := last_mem c hne
  have := hall u hu
  have hp : ∃ t, t ∈ published c s := List.exists_mem_of_ne_nil _ h2
  obtain ⟨t, ht⟩ := hp
  rw [g1, List.mem_filter] at ht
  have h5 := last_is c hs t ht.1
  have h6 : t.index = remainder c s := by simpa using ht.2
  omega

/-- A number of samples that goes no further than the next tag. -/
def Fits (c : Cfg) (s : St) (n : Nat) : Prop :=
  n = 1 ∨ (advance c s).2 = false ∧ 1 ≤ n ∧ ∀ t ∈ c.tags.drop (advance c s).1, remainder c s + n ≤ t.index

theorem published_le (c : Cfg) (s : St) (h : Inv c.tags s.tagIndex (remainder c s)) (hs : Sorted c.tags) (hk : s.tagIndex ≤ c.tags.length) :
    s.tagIndex + (published c s).length ≤ c.tags.length := by
  rw [published_eq c s h hs]
  have := (List.takeWhile_sublist (l := c.tags.drop s.tagIndex) (fun t : Tg => t.index == remainder c s)).length_le
  rw [List.length_drop] at this
  omega

theorem good_step (c : Cfg) (L : Nat) (a : Acc) (hs : Sorted c.tags) (hL : c.tags ≠ [] → lastIndex c = L) (g : Good c L a) (n v : Nat)
    (hn : Fits c a.st n) (b : Acc) (hb1 : b.st = ⟨(advance c a.st).1, v, if infinite c && (advance c a.st).2 then 0 else a.st.produced + n⟩)
    (hb2 : b.pos = a.pos + n) (hb3 : b.log = a.log ++ (published c a.st).map fun t => (a.pos, t)) : Good c L b := by
  obtain ⟨g1, g2⟩ := gen_spec c a.st g.inv hs
  have hslot : (published c a.st).map (fun t => (a.pos, t)) = slot c L a.pos := by
    unfold slot
    by_cases hne : c.tags = []
    · rw [g1, hne]; rfl
    · rw [g1, g.phase hne]
  cases hst : (advance c a.st).2 with
  | true =>
    obtain ⟨hk, hpne, hrep, hlen⟩ := adv_started c a.st hst
    obtain ⟨hall, hrl, hne⟩ := started_all c a.st g.inv hs hst
    have hn1 : n = 1 := by
      rcases hn with h | h
      · exact h
      · rw [hst] at h; exact absurd h.1 (by simp)
    subst hn1
    have hmod : a.pos % (L + 1) = L := by
      have := g.phase hne
      rw [if_pos hrep, hrl, hL hne] at this
      exact this.symm
    have hmod' : (a.pos + 1) % (L + 1) = 0 := by
      have hd := Nat.div_add_mod a.pos (L + 1)
      rw [hmod] at hd
      have : a.pos + 1 = (L + 1) * (a.pos / (L + 1) + 1) := by rw [Nat.mul_add]; omega
      rw [this]
      exact Nat.mul_mod_right _ _
    have hrem : remainder c b.st = 0 := by
      unfold remainder
      rw [hb1, hst]
      by_cases hi : infinite c = true
      · simp [hi]
      · have hi' : infinite c = false := by simpa using hi
        have hmax : c.max ≠ 0 := by simpa [infinite] using hi'
        have hemp : c.tags.isEmpty = false := by simpa using hne
        simp [hi', hrep, hemp, hL hne, g.finite hmax, hmod']
    refine ⟨?_, ?_, ?_, ?_, ?_⟩
    · rw [hb3, hb2, expected_add c L a.pos 0 (by omega), g.log, hslot]
    · rw [hrem, hb1]
      refine ⟨?_, fun t _ => Nat.zero_le _⟩
      intro t ht
      dsimp only at ht
      rw [hk] at ht
      simp at ht
    · intro _
      rw [hrem, if_pos hrep, hb2, hmod']
    · intro hmax
      have hi : infinite c = false := by simpa [infinite] using hmax
      rw [hb1, hb2]
      simp [hi, g.finite hmax]
    · intro _ _
      rw [hb1]
      dsimp only
      rw [hk]
      exact List.length_pos_iff.mpr hne
  | false =>
    obtain ⟨hk, hor⟩ := adv_not c a.st hst
    have hn1 : 1 ≤ n := by
      rcases hn with h | h
      · omega
      · exact h.2.1
    have hnew : Inv c.tags (advance c a.st).1 (remainder c a.st + n) := by
      rw [hk]
      refine ⟨fun t ht => ?_, fun t ht => ?_⟩
      · have := g2.before t ht
        omega
      · rcases hn with h | h
        · have := g2.after t ht
          omega
        · exact h.2.2 t (by rw [hk]; exact ht)
    have hturn : c.rep = true → c.tags ≠ [] → (advance c a.st).1 < c.tags.length := by
      intro hrep hne
      have h0 := g.turn hrep hne
      have hle := published_le c a.st g.inv hs (by omega)
      rw [hk]
      rcases hor with h | h | h
      · rw [h]; simpa using h0
      · rw [hrep] at h; cases h
      · omega
    have hroom : c.rep = true → c.tags ≠ [] → remainder c a.st + n ≤ L := by
      intro hrep hne
      have hlt := hturn hrep hne
      have hm : c.tags[(advance c a.st).1] ∈ c.tags.drop (advance c a.st).1 := by
        rw [List.drop_eq_getElem_cons hlt]; exact List.mem_cons_self
      have h1 := hnew.after _ hm
      have h2 := last_is c hs _ (List.mem_of_mem_drop hm)
      rw [hL hne] at h2
      omega
    have hph : c.tags ≠ [] → ∀ j ≤ n, (if c.rep then (a.pos + j) % (L + 1) else a.pos + j) = remainder c a.st + j := by
      intro hne j hj
      have hp := g.phase hne
      cases hrep : c.rep with
      | false => rw [hrep] at hp; simp at hp ⊢; omega
      | true =>
        rw [hrep, if_pos rfl] at hp
        have := hroom hrep hne
        rw [if_pos rfl, Nat.add_mod, ← hp, Nat.mod_eq_of_lt (show j < L + 1 by omega), Nat.mod_eq_of_lt (by omega)]
    have hrem : remainder c b.st = remainder c a.st + n ∨ c.tags = [] := by
      by_cases hne : c.tags = []
      · exact Or.inr hne
      left
      have hp := hph hne n (Nat.le_refl _)
      have hemp : c.tags.isEmpty = false := by simpa using hne
      have h0 : ∀ s : St, remainder c s = if c.rep && !infinite c then s.produced % (L + 1) else s.produced := by
        intro s; unfold remainder; rw [hemp, hL hne]; simp
      rw [h0 b.st, hb1, hst]
      dsimp only
      rw [Bool.and_false]
      by_cases hc : (c.rep && !infinite c) = true
      · rw [if_pos hc]
        simp only [Bool.and_eq_true, Bool.not_eq_true'] at hc
        have hmax : c.max ≠ 0 := by simpa [infinite] using hc.2
        simp only [Bool.false_eq_true, if_false]
        rw [g.finite hmax, ← hp, if_pos hc.1]
      · rw [if_neg hc]
        have := h0 a.st
        rw [if_neg hc] at this
        rw [this]
        simp
    refine ⟨?_, ?_, ?_, ?_, ?_⟩
    · obtain ⟨m, rfl⟩ : ∃ m, n = m + 1 := ⟨n - 1, by omega⟩
      rw [hb3, hb2, expected_add c L a.pos m ?_, g.log, hslot]
      intro j hj hj'
      unfold slot
      by_cases hne : c.tags = []
      · rw [hne]; rfl
      · rw [hph hne j (by omega)]
        have : c.tags.filter (fun t => t.index == remainder c a.st + j) = [] := by
          rw [List.filter_eq_nil_iff]
          intro t ht
          rw [← List.take_append_drop (advance c a.st).1 c.tags, List.mem_append] at ht
          simp only [beq_iff_eq]
          rcases ht with ht | ht
          · rw [hk] at ht
            have := g2.before t ht
            omega
          · have := hnew.after t ht
            omega
        rw [this]; rfl
    · rcases hrem with hrem | hne
      · rw [hrem, hb1]; exact hnew
      · rw [hne]; exact ⟨by simp, by simp⟩
    · intro hne
      rcases hrem with hrem | he
      · rw [hrem, hb2, hph hne n (Nat.le_refl _)]
      · exact absurd he hne
    · intro hmax
      rw [hb1, hb2, hst]
      simp [g.finite hmax]
    · intro hrep hne
      rw [hb1]
      exact hturn hrep hne

/-- The number of samples of a bulk call fits. -/
theorem nSamples_fits (c : Cfg) (s : St) (size : Nat) (hs : Sorted c.tags) (h : Inv c.tags s.tagIndex (remainder c s)) (hsz : 1 ≤ size)
    (hrun : infinite c = true ∨ s.produced < c.max) : Fits c s (nSamples c s size) := by
  have hc : (infinite c || decide (s.produced < c.max)) = true := by
    rcases hrun with h | h
    · simp [h]
    · simp [h]
  unfold Fits
  unfold nSamples
  rw [if_pos hc]
  by_cases h1 : nextTagIn c s size ≤ 1
  · left; omega
  · have hgt : 1 < nextTagIn c s size := by omega
    right
    unfold nextTagIn at hgt ⊢
    split at hgt
    · omega
    · rename_i hni
      rw [if_neg hni]
      split at hgt
      · rename_i t ht
        split at hgt
        · rename_i hlt
          have hns : (advance c s).2 = false := by
            cases hst : (advance c s).2 with
            | false => rfl
            | true =>
              have := (started_all c s h hs hst).1 t (List.mem_of_getElem? ht)
              omega
          refine ⟨hns, by omega, fun u hu => ?_⟩
          rw [if_pos hlt]
          have hlt' : (advance c s).1 < c.tags.length := (List.getElem?_eq_some_iff.mp ht).1
          have hge : t.index ≤ u.index := by
            rw [List.drop_eq_getElem_cons hlt'] at hu
            have het : c.tags[(advance c s).1] = t := (List.getElem?_eq_some_iff.mp ht).2
            have hsd : Sorted (c.tags.drop (advance c s).1) := List.Pairwise.sublist (List.drop_sublist _ _) hs
            rw [List.drop_eq_getElem_cons hlt', het] at hsd
            rw [het] at hu
            unfold Sorted at hsd
            rw [List.pairwise_cons] at hsd
            simp only [List.mem_cons] at hu
            rcases hu with rfl | hu
            · exact Nat.le_refl _
            · exact hsd.1 u hu
          omega
        · omega
      · rename_i hno
        rw [List.getElem?_eq_none_iff] at hno
        have hns : (advance c s).2 = false := by
          cases hst : (advance c s).2 with
          | false => rfl
          | true =>
            have h0 := (adv_started c s hst).1
            have hne := (started_all c s h hs hst).2.2
            rw [h0] at hno
            exact absurd (List.length_eq_zero_iff.mp (by omega)) hne
        refine ⟨hns, by omega, fun u hu => ?_⟩
        rw [List.drop_eq_nil_of_le hno] at hu
        cases hu

end Verif.TagSrc
