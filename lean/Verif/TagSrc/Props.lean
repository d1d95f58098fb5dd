import Verif.TagSrc.Steps

/-!
# Property C167: every tag of a test source is at its sample

`slot` and `expected` in Steps.lean say which tags belong to which sample.
-/

namespace Verif.TagSrc

/-- All calls of `processBulk`, with room for the given numbers of samples. -/
def runBulk (c : Cfg) (sizes : List Nat) : Acc := sizes.foldl (bulk c) {}

/-- `n` calls of `processOne`. -/
def runOne (c : Cfg) : Nat → Acc
  | 0 => {}
  | n + 1 => one c (runOne c n)

theorem good_start (c : Cfg) (L : Nat) : Good c L {} := by
  refine ⟨rfl, ⟨by simp, fun t _ => ?_⟩, fun _ => ?_, fun _ => rfl, fun _ hne => List.length_pos_iff.mpr hne⟩
  · have : remainder c ({} : Acc).st = 0 := by unfold remainder; split <;> simp
    rw [this]; exact Nat.zero_le _
  · have : remainder c ({} : Acc).st = 0 := by unfold remainder; split <;> simp
    rw [this]; simp

/-- What also holds: a finite source never exceeds its number of samples, and is done exactly when it has them. -/
structure Count (c : Cfg) (a : Acc) : Prop where
  active : a.done = false → infinite c = true ∨ a.st.produced < c.max
  total : c.max ≠ 0 → a.pos ≤ c.max ∧ (a.done = true ↔ a.pos = c.max)

theorem sub32_eq (a b : Nat) (h : b ≤ a) (ha : a < 4294967296) : sub32 a b = a - b := by
  unfold sub32
  omega

theorem nSamples_le (c : Cfg) (s : St) (size : Nat) (hm : c.max ≠ 0) (hm' : c.max < 4294967296) (hp : s.produced < c.max) :
    nSamples c s size ≤ c.max - s.produced := by
  have hi : infinite c = false := by simpa [infinite] using hm
  have h32 := sub32_eq c.max s.produced (by omega) hm'
  unfold nSamples nextTagIn
  rw [hi, h32]
  simp only [Bool.false_or, Bool.false_and, Bool.false_eq_true, if_false]
  rw [if_pos (by simpa using hp)]
  split
  · split <;> omega
  · omega

theorem bulk_good (c : Cfg) (L : Nat) (a : Acc) (size : Nat) (hs : Sorted c.tags) (hL : c.tags ≠ [] → lastIndex c = L) (hsz : 1 ≤ size)
    (hm' : c.max < 4294967296) (g : Good c L a) (k : Count c a) : Good c L (bulk c a size) ∧ Count c (bulk c a size) := by
  cases hd : a.done with
  | true =>
    have : bulk c a size = a := by unfold bulk; rw [if_pos hd]
    rw [this]; exact ⟨g, k⟩
  | false =>
    have hact := k.active hd
    refine ⟨?_, ?_⟩
    · have hfit := nSamples_fits c a.st size hs g.inv hsz hact
      exact good_step c L a hs hL g (nSamples c a.st size) _ hfit (bulk c a size) (by unfold bulk; rw [if_neg (by simp [hd])])
        (by unfold bulk; rw [if_neg (by simp [hd])]) (by unfold bulk; rw [if_neg (by simp [hd])])
    · unfold bulk
      rw [if_neg (by simp [hd])]
      refine ⟨?_, ?_⟩
      · intro h
        dsimp only at h ⊢
        cases hi : infinite c with
        | true => exact Or.inl rfl
        | false =>
          right
          simp only [hi, Bool.not_false, Bool.true_and, Bool.false_and, Bool.false_eq_true, if_false, decide_eq_false_iff_not] at h ⊢
          omega
      · intro hm
        have hi : infinite c = false := by simpa [infinite] using hm
        rw [hi] at hact
        have hp : a.st.produced < c.max := by
          rcases hact with h | h
          · cases h
          · exact h
        have hle := nSamples_le c a.st size hm hm' hp
        have hf := g.finite hm
        simp only [hi, Bool.not_false, Bool.true_and, Bool.false_and, Bool.false_eq_true, if_false, decide_eq_true_eq]
        omega

/-- Bulk processing: with tags in order, whatever room there is for each call, the tags of the samples produced so far are those that
belong to them, each at its sample; with repetition they begin again after the sample of the last tag. A finite source is done when it has
produced its number of samples, and never produces more. -/
theorem bulk_tags (c : Cfg) (L : Nat) (sizes : List Nat) (hs : Sorted c.tags) (hL : ∀ t, c.tags.getLast? = some t → t.index = L)
    (hsz : ∀ n ∈ sizes, 1 ≤ n) (hm : c.max < 4294967296) :
    (runBulk c sizes).log = expected c L (runBulk c sizes).pos ∧
    (c.max ≠ 0 → (runBulk c sizes).pos ≤ c.max ∧ ((runBulk c sizes).done = true ↔ (runBulk c sizes).pos = c.max)) := by
  have hL' : c.tags ≠ [] → lastIndex c = L := by
    intro hne
    unfold lastIndex
    cases hl : c.tags.getLast? with
    | none => rw [List.getLast?_eq_none_iff] at hl; exact absurd hl hne
    | some t => exact hL t hl
  have key : ∀ (sizes : List Nat) (a : Acc), (∀ n ∈ sizes, 1 ≤ n) → Good c L a → Count c a →
      Good c L (sizes.foldl (bulk c) a) ∧ Count c (sizes.foldl (bulk c) a) := by
    intro sizes
    induction sizes with
    | nil => intro a _ g k; exact ⟨g, k⟩
    | cons n ns ih =>
      intro a hsz g k
      obtain ⟨g', k'⟩ := bulk_good c L a n hs hL' (hsz n (by simp)) hm g k
      exact ih _ (fun x hx => hsz x (by simp [hx])) g' k'
  have k0 : Count c {} := by
    refine ⟨fun _ => ?_, fun hm0 => ?_⟩
    · by_cases h : c.max = 0
      · left; simp [infinite, h]
      · right; change 0 < c.max; omega
    · refine ⟨Nat.zero_le _, ?_⟩
      simp only [Bool.false_eq_true, false_iff]
      omega
  obtain ⟨g, k⟩ := key sizes {} hsz (good_start c L) k0
  exact ⟨g.log, k.total⟩

/-- A call makes progress until the source is done, so a finite source ends. -/
theorem bulk_progress (c : Cfg) (a : Acc) (size : Nat) (hsz : 1 ≤ size) (hd : a.done = false) (hr : infinite c = true ∨ a.st.produced < c.max) :
    a.pos < (bulk c a size).pos := by
  unfold bulk
  rw [if_neg (by simp [hd])]
  have : 1 ≤ nSamples c a.st size := by
    unfold nSamples
    rw [if_pos (by rcases hr with h | h <;> simp [h])]
    omega
  dsimp only
  omega

/-- Processing one sample at a time puts the tags at the same samples. -/
theorem one_tags (c : Cfg) (L n : Nat) (hs : Sorted c.tags) (hL : ∀ t, c.tags.getLast? = some t → t.index = L) :
    (runOne c n).log = expected c L (runOne c n).pos ∧ (c.max = 0 → (runOne c n).pos = n) ∧ (c.max ≠ 0 → (runOne c n).pos = min n c.max) := by
  have hL' : c.tags ≠ [] → lastIndex c = L := by
    intro hne
    unfold lastIndex
    cases hl : c.tags.getLast? with
    | none => rw [List.getLast?_eq_none_iff] at hl; exact absurd hl hne
    | some t => exact hL t hl
  have key : Good c L (runOne c n) ∧ (c.max = 0 → (runOne c n).pos = n ∧ (runOne c n).done = false) ∧
      (c.max ≠ 0 → (runOne c n).pos = min n c.max ∧ ((runOne c n).done = true ↔ (runOne c n).pos = c.max)) := by
    induction n with
    | zero =>
      refine ⟨good_start c L, fun _ => ⟨rfl, rfl⟩, fun hm => ⟨?_, ?_⟩⟩
      · simp [runOne]
      · simp [runOne]; omega
    | succ n ih =>
      obtain ⟨g, h0, h1⟩ := ih
      cases hd : (runOne c n).done with
      | true =>
        have e : runOne c (n + 1) = runOne c n := by
          change one c (runOne c n) = _
          unfold one
          rw [if_pos hd]
        rw [e]
        refine ⟨g, fun hm => ?_, fun hm => ?_⟩
        · have := (h0 hm).2; rw [hd] at this; cases this
        · have h2 := h1 hm
          have h3 := h2.2.mp hd
          exact ⟨by omega, h2.2⟩
      | false =>
        have e : runOne c (n + 1) = one c (runOne c n) := rfl
        refine ⟨?_, fun hm => ?_, fun hm => ?_⟩
        · rw [e]
          exact good_step c L (runOne c n) hs hL' g 1 _ (Or.inl rfl) _ (by unfold one; rw [if_neg (by simp [hd])])
            (by unfold one; rw [if_neg (by simp [hd])]) (by unfold one; rw [if_neg (by simp [hd])])
        · rw [e]
          unfold one
          rw [if_neg (by simp [hd])]
          have hi : infinite c = true := by simp [infinite, hm]
          dsimp only
          rw [(h0 hm).1, hi]
          exact ⟨rfl, rfl⟩
        · rw [e]
          unfold one
          rw [if_neg (by simp [hd])]
          have hi : infinite c = false := by simpa [infinite] using hm
          have h2 := h1 hm
          have h3 : ¬ (runOne c n).pos = c.max := fun h => by have := h2.2.mpr h; rw [hd] at this; cases this
          have hf := g.finite hm
          dsimp only
          rw [hi]
          simp only [Bool.not_false, Bool.true_and, decide_eq_true_eq]
          omega
  exact ⟨key.1.log, fun h => (key.2.1 h).1, fun h => (key.2.2 h).1⟩

/-- Reading the expectation: a tag without repetition is at the sample of its index, and there once for each time it is in the list. -/
theorem expected_spec (c : Cfg) (L P : Nat) (q : Nat) (t : Tg) :
    (q, t) ∈ expected c L P ↔ q < P ∧ t ∈ c.tags ∧ (c.rep = false → q = t.index) ∧ (c.rep = true → q % (L + 1) = t.index) := by
  unfold expected slot
  simp only [List.mem_flatMap, List.mem_range, List.mem_map, List.mem_filter, Prod.mk.injEq, beq_iff_eq]
  constructor
  · rintro ⟨q', hq, u, ⟨hu, hi⟩, rfl, rfl⟩
    refine ⟨hq, hu, fun h => ?_, fun h => ?_⟩
    · rw [h] at hi; simp at hi; exact hi.symm
    · rw [h] at hi; simp at hi; exact hi.symm
  · rintro ⟨hq, ht, h0, h1⟩
    refine ⟨q, hq, t, ⟨ht, ?_⟩, rfl, rfl⟩
    cases hr : c.rep with
    | false => simp [h0 hr]
    | true => simp [h1 hr]

/-- The findings. Tags 1, 3, 5 with repetition come at 1, 3, 5, 7, 9, 11, not at 1, 3, 5, 6, 8, 10 as the comment of the setting says. With
`mark_tag` a bulk call writes its first sample only, the other places keep what was in the buffer. Without it, bulk calls count from 0 and
single samples from 1. -/
theorem findings :
    ((runBulk ⟨[⟨1, 0⟩, ⟨3, 0⟩, ⟨5, 0⟩], true, 12, [], true⟩ [9, 9, 9, 9, 9, 9, 9, 9, 9, 9, 9, 9]).log.map (·.1)) = [1, 3, 5, 7, 9, 11] ∧
    ((runBulk ⟨[⟨1, 0⟩, ⟨3, 0⟩, ⟨5, 0⟩], true, 0, [], true⟩ [9, 9, 9, 9, 9, 9, 9, 9]).log.map (·.1)) = [1, 3, 5, 7, 9, 11] ∧
    (runBulk ⟨[⟨3, 0⟩], false, 6, [], true⟩ [9, 9, 9]).out = [some 0, none, none, some 1, none, none] ∧
    (runBulk ⟨[], false, 3, [], false⟩ [9, 9]).out = [some 0, some 1, some 2] ∧
    (runOne ⟨[], false, 3, [], false⟩ 3).out = [some 1, some 2, some 3] := by
  decide +kernel

theorem cycle_spec (vs : List Rat) (hv : vs ≠ []) (n k : Nat) (hk : k ≤ vs.length) :
    (cycle vs n k).1 = (List.range n).map (fun i => some (vs.getD ((k + i) % vs.length) 0)) ∧ (cycle vs n k).2 ≤ vs.length ∧
    (cycle vs n k).2 % vs.length = (k + n) % vs.length := by
  have hpos : 0 < vs.length := List.length_pos_iff.mpr hv
  induction n generalizing k with
  | zero => simp [cycle, hk]
  | succ n ih =>
    unfold cycle
    dsimp only
    have hk0 : (if (k == vs.length) = true then 0 else k) = k % vs.length := by
      by_cases h : k = vs.length
      · simp [h]
      · rw [if_neg (by simpa using h), Nat.mod_eq_of_lt (by omega)]
    rw [hk0]
    have hlt := Nat.mod_lt k hpos
    obtain ⟨h1, h2, h3⟩ := ih (k % vs.length + 1) (by omega)
    refine ⟨?_, h2, ?_⟩
    · rw [h1, List.range_succ_eq_map, List.map_cons, List.map_map]
      refine List.cons_eq_cons.mpr ⟨by simp, ?_⟩
      apply List.map_congr_left
      intro i _
      simp only [Function.comp]
      have : (k % vs.length + 1 + i) % vs.length = (k + (i + 1)) % vs.length := by
        have e : k % vs.length + 1 + i = k % vs.length + (1 + i) := by omega
        rw [e, Nat.mod_add_mod]
        congr 1
        omega
      rw [this]
    · rw [h3]
      have e : k % vs.length + 1 + n = k % vs.length + (1 + n) := by omega
      rw [e, Nat.mod_add_mod]
      congr 1
      omega

/-- With values the samples are the values over and over, whatever room there is for each call. -/
theorem bulk_values (c : Cfg) (sizes : List Nat) (hv : c.values ≠ []) :
    (runBulk c sizes).out = (List.range (runBulk c sizes).pos).map fun i => some (c.values.getD (i % c.values.length) 0) := by
  have hemp : c.values.isEmpty = false := by simpa using hv
  have key : ∀ (sizes : List Nat) (a : Acc),
      a.out = (List.range a.pos).map (fun i => some (c.values.getD (i % c.values.length) 0)) → a.st.valueIndex ≤ c.values.length →
      a.st.valueIndex % c.values.length = a.pos % c.values.length →
      (sizes.foldl (bulk c) a).out = (List.range (sizes.foldl (bulk c) a).pos).map fun i => some (c.values.getD (i % c.values.length) 0) := by
    intro sizes
    induction sizes with
    | nil => intro a h _ _; exact h
    | cons n ns ih =>
      intro a h1 h2 h3
      rw [List.foldl_cons]
      cases hd : a.done with
      | true =>
        have : bulk c a n = a := by unfold bulk; rw [if_pos hd]
        rw [this]; exact ih a h1 h2 h3
      | false =>
        obtain ⟨c1, c2, c3⟩ := cycle_spec c.values hv (nSamples c a.st n) a.st.valueIndex h2
        apply ih
        · unfold bulk
          rw [if_neg (by simp [hd])]
          dsimp only
          unfold samples
          rw [if_pos (by simp [hemp]), c1, h1, List.range_add, List.map_append, List.map_map]
          congr 1
          apply List.map_congr_left
          intro i _
          simp only [Function.comp]
          rw [Nat.add_mod, h3, ← Nat.add_mod]
        · unfold bulk
          rw [if_neg (by simp [hd])]
          simp only [hemp, Bool.false_eq_true, if_false]
          exact c2
        · unfold bulk
          rw [if_neg (by simp [hd])]
          simp only [hemp, Bool.false_eq_true, if_false]
          rw [c3, Nat.add_mod, h3, ← Nat.add_mod]
  exact key sizes {} rfl (Nat.zero_le _) rfl

/-- The values are repeated in order, over calls of any size. -/
example : (runBulk ⟨[⟨2, 7⟩, ⟨2, 8⟩, ⟨4, 9⟩], false, 7, [10, 20, 30], true⟩ [1, 9, 9, 2, 9]).out =
      [some 10, some 20, some 30, some 10, some 20, some 30, some 10] ∧
    (runBulk ⟨[⟨2, 7⟩, ⟨2, 8⟩, ⟨4, 9⟩], false, 7, [10, 20, 30], true⟩ [1, 9, 9, 2, 9]).log = [(2, ⟨2, 7⟩), (2, ⟨2, 8⟩), (4, ⟨4, 9⟩)] := by
  decide +kernel

end Verif.TagSrc
