import Verif.Selector.Plain

/-!
The numbers of samples of inputs that have to move together settle on the same number.
-/
namespace Verif.Selector

variable {α : Type}

theorem fits_ext {a b : Option Nat} (h : ∀ N, Fits N a ↔ Fits N b) : a = b := by
  cases a with
  | none =>
    cases b with
    | none => rfl
    | some b => have := (fits_some _ _).1 ((h (b + 1)).1 (fits_none _)); omega
  | some a =>
    cases b with
    | none => have := (fits_some _ _).1 ((h (a + 1)).2 (fits_none _)); omega
    | some b =>
      have h1 := (fits_some _ _).1 ((h a).1 ((fits_some _ _).2 (Nat.le_refl a)))
      have h2 := (fits_some _ _).1 ((h b).2 ((fits_some _ _).2 (Nat.le_refl b)))
      rw [Nat.le_antisymm h1 h2]

theorem fits_all {o : Option Nat} (h : ∀ N, Fits N o) : o = none := fits_ext fun N => ⟨fun _ => fits_none _, fun _ => h N⟩

theorem fits_mono {a b : Nat} (h : a ≤ b) {o : Option Nat} (hb : Fits b o) : Fits a o := fun m hm => Nat.le_trans h (hb m hm)

theorem Counts.ext {a b : Counts} (hl : a.length = b.length) (h : ∀ j, a.at j = b.at j) : a = b := by
  apply List.ext_getElem hl
  intro j h1 h2
  have := h j
  unfold Counts.at at this
  rw [List.getElem?_eq_getElem h1, List.getElem?_eq_getElem h2] at this
  exact this

/-- The number of samples the inputs of an output allow. -/
theorem fits_allowed (N : Nat) (sel : Option Nat) (ins : List (In α)) (rooms : List Nat) (mon o : Nat) (is : List Nat) :
    Fits N (allowed sel ins rooms mon o is) ↔ (∀ i ∈ is, ∀ x, ins[i]? = some x → N ≤ x.samples.length) ∧
      N ≤ (rooms[o]?).getD 0 / is.length ∧ ((∃ i ∈ is, sel = some i) → N ≤ mon) := by
  have h1 : Fits N (minAt (fun i => (ins[i]?).map (·.samples.length)) is) ↔ ∀ i ∈ is, ∀ x, ins[i]? = some x → N ≤ x.samples.length := by
    rw [fits_minAt]
    constructor
    · intro h i hi x hx
      have := h i hi
      rw [hx] at this
      exact (fits_some _ _).1 this
    · intro h i hi
      cases hx : ins[i]? with
      | none => exact fits_none _
      | some x => exact (fits_some _ _).2 (h i hi x hx)
  unfold allowed
  dsimp only
  split
  · rename_i hany
    have hany : ∃ i ∈ is, sel = some i := by simpa using hany
    rw [fits_minC, fits_minC, h1, fits_some, fits_some, and_assoc]
    exact ⟨fun ⟨a, b, d⟩ => ⟨a, b, fun _ => d⟩, fun ⟨a, b, d⟩ => ⟨a, b, d hany⟩⟩
  · rename_i hany
    have hany : ¬ ∃ i ∈ is, sel = some i := by
      rintro ⟨i, hi, hs⟩
      exact hany (List.any_eq_true.2 ⟨i, hi, by simpa using hs⟩)
    rw [fits_minC, h1, fits_some]
    exact ⟨fun ⟨a, b⟩ => ⟨a, b, fun h => absurd h hany⟩, fun ⟨a, b, _⟩ => ⟨a, b⟩⟩

theorem lower_spec (n : Option Nat) (is : List Nat) : ∀ (c : Counts), (∀ i ∈ is, i < c.length) →
    (lower n is c).length = c.length ∧ ∀ N j, Fits N (Counts.at (lower n is c) j) ↔ Fits N (c.at j) ∧ (j ∈ is → Fits N n) := by
  induction is with
  | nil => intro c _; exact ⟨rfl, fun N j => by simp [lower]⟩
  | cons i is ih =>
    intro c h
    have hi := h i (by simp)
    obtain ⟨h1, h2⟩ := ih (c.set i (minC (c.at i) n)) (by intro k hk; rw [List.length_set]; exact h k (by simp [hk]))
    have e : lower n (i :: is) c = lower n is (c.set i (minC (c.at i) n)) := rfl
    rw [e]
    refine ⟨by rw [h1, List.length_set], ?_⟩
    intro N j
    rw [h2, Counts.at_set _ _ _ _ hi]
    by_cases hij : i = j
    · subst hij
      rw [if_pos rfl, fits_minC]
      simp only [List.mem_cons, true_or, true_implies]
      exact ⟨fun ⟨⟨a, b⟩, _⟩ => ⟨a, b⟩, fun ⟨a, b⟩ => ⟨⟨a, b⟩, fun _ => b⟩⟩
    · rw [if_neg hij]
      have : j ∈ i :: is ↔ j ∈ is := by simp [Ne.symm hij]
      rw [this]

theorem firstCounts_spec (sel : Option Nat) (ins : List (In α)) (rooms : List Nat) (mon : Nat) (m : Map)
    (h : ∀ e ∈ m, ∀ i ∈ e.2, i < ins.length) :
    (firstCounts m sel ins rooms mon).length = ins.length ∧
    ∀ N j, Fits N (Counts.at (firstCounts m sel ins rooms mon) j) ↔ ∀ e ∈ m, j ∈ e.2 → Fits N (allowed sel ins rooms mon e.1 e.2) := by
  have key : ∀ (m : Map), (∀ e ∈ m, ∀ i ∈ e.2, i < ins.length) → ∀ c : Counts, c.length = ins.length →
      (m.foldl (fun c e => lower (allowed sel ins rooms mon e.1 e.2) e.2 c) c).length = ins.length ∧
      ∀ N j, Fits N (Counts.at (m.foldl (fun c e => lower (allowed sel ins rooms mon e.1 e.2) e.2 c) c) j) ↔
        Fits N (c.at j) ∧ ∀ e ∈ m, j ∈ e.2 → Fits N (allowed sel ins rooms mon e.1 e.2) := by
    intro m
    induction m with
    | nil => intro _ c hc; exact ⟨hc, fun N j => by simp⟩
    | cons e m ih =>
      intro h c hc
      obtain ⟨a, b⟩ := lower_spec (allowed sel ins rooms mon e.1 e.2) e.2 c (by intro i hi; rw [hc]; exact h e (by simp) i hi)
      obtain ⟨p, q⟩ := ih (fun e' he' => h e' (by simp [he'])) _ (a.trans hc)
      refine ⟨p, ?_⟩
      intro N j
      rw [List.foldl_cons, q, b]
      simp only [List.mem_cons, forall_eq_or_imp, and_assoc]
  obtain ⟨a, b⟩ := key m h (ins.map fun _ => none) (by simp)
  refine ⟨a, ?_⟩
  intro N j
  unfold firstCounts
  rw [b]
  have : Counts.at (ins.map fun _ => none) j = none := by
    unfold Counts.at
    rw [List.getElem?_map]
    cases ins[j]? <;> rfl
  rw [this]
  simp [fits_none]

theorem gtC_self (a : Option Nat) : gtC a a = false := by cases a <;> simp [gtC]

theorem passOne_aux (cur : Option Nat) (is : List Nat) : ∀ (c : Counts) (b : Bool), (∀ i ∈ is, i < c.length) →
    let r := is.foldl (fun s i => (s.1.set i cur, s.2 || gtC (s.1.at i) cur)) (c, b)
    r.1.length = c.length ∧ (∀ j, r.1.at j = if j ∈ is then cur else c.at j) ∧
    (r.2 = true ↔ b = true ∨ ∃ i ∈ is, gtC (c.at i) cur = true) := by
  induction is with
  | nil => intro c b _; simp
  | cons i is ih =>
    intro c b h
    have hi := h i (by simp)
    obtain ⟨h1, h2, h3⟩ := ih (c.set i cur) (b || gtC (c.at i) cur) (by intro k hk; rw [List.length_set]; exact h k (by simp [hk]))
    simp only [List.foldl_cons]
    refine ⟨by rw [h1, List.length_set], ?_, ?_⟩
    · intro j
      rw [h2, Counts.at_set _ _ _ _ hi]
      by_cases hj : j ∈ is
      · rw [if_pos hj, if_pos (by simp [hj])]
      · rw [if_neg hj]
        by_cases hij : i = j
        · rw [if_pos hij, if_pos (by simp [hij])]
        · rw [if_neg hij, if_neg (by simp [hj, Ne.symm hij])]
    · rw [h3, Bool.or_eq_true]
      constructor
      · rintro ((hb | hg) | ⟨j, hj, hg⟩)
        · exact Or.inl hb
        · exact Or.inr ⟨i, by simp, hg⟩
        · rw [Counts.at_set _ _ _ _ hi] at hg
          by_cases hij : i = j
          · rw [if_pos hij, gtC_self] at hg; cases hg
          · rw [if_neg hij] at hg; exact Or.inr ⟨j, by simp [hj], hg⟩
      · rintro (hb | ⟨j, hj, hg⟩)
        · exact Or.inl (Or.inl hb)
        · by_cases hij : i = j
          · subst hij; exact Or.inl (Or.inr hg)
          · rcases List.mem_cons.1 hj with rfl | hj
            · exact absurd rfl hij
            · refine Or.inr ⟨j, hj, ?_⟩
              rw [Counts.at_set _ _ _ _ hi, if_neg hij]
              exact hg

theorem passOne_spec (is : List Nat) (c : Counts) (h : ∀ i ∈ is, i < c.length) :
    (passOne is c).1.length = c.length ∧ (∀ j, (passOne is c).1.at j = if j ∈ is then minAt c.at is else c.at j) ∧
    ((passOne is c).2 = true ↔ ∃ i ∈ is, gtC (c.at i) (minAt c.at is) = true) := by
  have := passOne_aux (minAt c.at is) is c false h
  unfold passOne
  simpa using this

/-- The numbers add up to this. -/
def weight (c : Counts) : Nat := (c.map fun x => x.getD 0).sum

theorem weight_le : ∀ (a b : Counts), a.length = b.length → (∀ j, (a.at j).getD 0 ≤ (b.at j).getD 0) → weight a ≤ weight b
  | [], [], _, _ => Nat.le_refl _
  | x :: a, y :: b, hl, h => by
    have h0 := h 0
    have ih := weight_le a b (by simpa using hl) (fun j => h (j + 1))
    have e1 : weight (x :: a) = x.getD 0 + weight a := by simp [weight]
    have e2 : weight (y :: b) = y.getD 0 + weight b := by simp [weight]
    have h0 : x.getD 0 ≤ y.getD 0 := h0
    omega

theorem weight_lt : ∀ (a b : Counts), a.length = b.length → (∀ j, (a.at j).getD 0 ≤ (b.at j).getD 0) →
    (∃ j, (a.at j).getD 0 < (b.at j).getD 0) → weight a < weight b
  | [], [], _, _, ⟨j, hj⟩ => by simp [Counts.at] at hj
  | x :: a, y :: b, hl, h, ⟨j, hj⟩ => by
    have h0 : x.getD 0 ≤ y.getD 0 := h 0
    have e1 : weight (x :: a) = x.getD 0 + weight a := by simp [weight]
    have e2 : weight (y :: b) = y.getD 0 + weight b := by simp [weight]
    cases j with
    | zero =>
      have ih := weight_le a b (by simpa using hl) (fun j => h (j + 1))
      have hj : x.getD 0 < y.getD 0 := hj
      omega
    | succ j =>
      have ih := weight_lt a b (by simpa using hl) (fun j => h (j + 1)) ⟨j, hj⟩
      omega

/-- The entries are about inputs whose number is set. -/
def Set (m : Map) (c : Counts) : Prop := ∀ e ∈ m, ∀ i ∈ e.2, i < c.length ∧ ∃ n, c.at i = some n

/-- What a round may do to the numbers. -/
structure Round (m : Map) (c c' : Counts) : Prop where
  len : c'.length = c.length
  down : ∀ N j, Fits N (c'.at j) → Fits N (c.at j)
  set : ∀ j, (∃ n, c.at j = some n) → ∃ n, c'.at j = some n
  same : ∀ j, (∀ e ∈ m, j ∉ e.2) → c'.at j = c.at j
  keep : ∀ (K : Nat → Prop) (N : Nat), (∀ e ∈ m, ∀ i ∈ e.2, ∀ j ∈ e.2, K i → K j) → (∀ j, K j → Fits N (c.at j)) → ∀ j, K j → Fits N (c'.at j)

theorem Round.refl (m : Map) (c : Counts) : Round m c c := ⟨rfl, fun _ _ h => h, fun _ h => h, fun _ _ => rfl, fun _ _ _ h => h⟩

theorem Round.trans {m : Map} {a b c : Counts} (h : Round m a b) (g : Round m b c) : Round m a c :=
  ⟨g.len.trans h.len, fun N j x => h.down N j (g.down N j x), fun j x => g.set j (h.set j x), fun j x => (g.same j x).trans (h.same j x),
    fun K N x y => g.keep K N x (h.keep K N x y)⟩

theorem Round.isSet {m : Map} {c c' : Counts} (h : Round m c c') (hs : Set m c) : Set m c' := by
  intro e he i hi
  obtain ⟨a, b⟩ := hs e he i hi
  exact ⟨by rw [h.len]; exact a, h.set i b⟩

theorem Round.at_le {m : Map} {c c' : Counts} (h : Round m c c') (hs : Set m c) (j : Nat) : (c'.at j).getD 0 ≤ (c.at j).getD 0 := by
  by_cases hm : ∀ e ∈ m, j ∉ e.2
  · rw [h.same j hm]; exact Nat.le_refl _
  · have hm : ∃ e ∈ m, j ∈ e.2 := by
      apply Classical.byContradiction
      intro hn
      exact hm fun e he hj => hn ⟨e, he, hj⟩
    obtain ⟨e, he, hj⟩ := hm
    obtain ⟨-, n, hn⟩ := hs e he j hj
    obtain ⟨n', hn'⟩ := h.set j ⟨n, hn⟩
    have := h.down n' j (by rw [hn']; exact (fits_some _ _).2 (Nat.le_refl _))
    rw [hn] at this
    rw [hn, hn']
    simpa using (fits_some _ _).1 this

/-- The inputs of the output have the same number. -/
def Even (is : List Nat) (c : Counts) : Prop := ∀ i ∈ is, ∀ j ∈ is, c.at i = c.at j

theorem passOne_round {m : Map} {e : Nat × List Nat} (he : e ∈ m) {c : Counts} (hs : Set m c) :
    Round m c (passOne e.2 c).1 ∧ ((passOne e.2 c).2 = true → weight (passOne e.2 c).1 < weight c) ∧
    ((passOne e.2 c).2 = false → (passOne e.2 c).1 = c ∧ Even e.2 c) := by
  obtain ⟨h1, h2, h3⟩ := passOne_spec e.2 c (fun i hi => (hs e he i hi).1)
  have hmin : ∀ N, Fits N (minAt c.at e.2) ↔ ∀ i ∈ e.2, Fits N (c.at i) := fun N => fits_minAt N _ _
  have hround : Round m c (passOne e.2 c).1 := by
    refine ⟨h1, ?_, ?_, ?_, ?_⟩
    · intro N j h
      rw [h2] at h
      by_cases hj : j ∈ e.2
      · rw [if_pos hj] at h; exact (hmin N).1 h j hj
      · rw [if_neg hj] at h; exact h
    · intro j hn
      rw [h2]
      by_cases hj : j ∈ e.2
      · rw [if_pos hj]
        obtain ⟨n, hn⟩ := hn
        cases hm : minAt c.at e.2 with
        | some k => exact ⟨k, rfl⟩
        | none =>
          exfalso
          have := (hmin (n + 1)).1 (by rw [hm]; exact fits_none _) j hj
          rw [hn] at this
          have := (fits_some _ _).1 this
          omega
      · rw [if_neg hj]; exact hn
    · intro j hj
      rw [h2, if_neg (hj e he)]
    · intro K N hK hN j hj
      rw [h2]
      by_cases hje : j ∈ e.2
      · rw [if_pos hje, hmin]
        intro i hi
        exact hN i (hK e he j hje i hi hj)
      · rw [if_neg hje]; exact hN j hj
  refine ⟨hround, ?_, ?_⟩
  · intro ht
    obtain ⟨i, hi, hg⟩ := h3.1 ht
    refine weight_lt _ _ h1 (hround.at_le hs) ⟨i, ?_⟩
    rw [h2, if_pos hi]
    obtain ⟨-, n, hn⟩ := hs e he i hi
    rw [hn] at hg ⊢
    cases hm : minAt c.at e.2 with
    | none => rw [hm] at hg; simp [gtC] at hg
    | some k => rw [hm] at hg; simpa [gtC] using hg
  · intro hf
    have heq : ∀ i ∈ e.2, c.at i = minAt c.at e.2 := by
      intro i hi
      have hg : gtC (c.at i) (minAt c.at e.2) = false := by
        cases hg : gtC (c.at i) (minAt c.at e.2) with
        | false => rfl
        | true => rw [h3.2 ⟨i, hi, hg⟩] at hf; cases hf
      apply fits_ext
      intro N
      constructor
      · intro hN
        obtain ⟨-, n, hn⟩ := hs e he i hi
        rw [hn] at hg hN
        cases hm : minAt c.at e.2 with
        | none => exact fits_none _
        | some k =>
          rw [hm] at hg
          have : ¬ n > k := by simpa [gtC] using hg
          have := (fits_some _ _).1 hN
          rw [fits_some]
          omega
      · intro hN
        exact (hmin N).1 hN i hi
    refine ⟨Counts.ext h1 ?_, ?_⟩
    · intro j
      rw [h2]
      by_cases hj : j ∈ e.2
      · rw [if_pos hj, heq j hj]
      · rw [if_neg hj]
    · intro i hi j hj
      rw [heq i hi, heq j hj]

theorem pass_round {m : Map} {c : Counts} (hs : Set m c) :
    Round m c (pass m c).1 ∧ ((pass m c).2 = true → weight (pass m c).1 < weight c) ∧
    ((pass m c).2 = false → (pass m c).1 = c ∧ ∀ e ∈ m, Even e.2 c) := by
  have key : ∀ (l : Map), (∀ e ∈ l, e ∈ m) → ∀ (d : Counts) (b : Bool), Set m d →
      let r := l.foldl (fun s e => let r := passOne e.2 s.1; (r.1, s.2 || r.2)) (d, b)
      Round m d r.1 ∧ (r.2 = true → b = true ∨ weight r.1 < weight d) ∧ (r.2 = false → b = false ∧ r.1 = d ∧ ∀ e ∈ l, Even e.2 d) := by
    intro l
    induction l with
    | nil => intro _ d b _; exact ⟨Round.refl _ _, fun h => Or.inl h, fun h => ⟨h, rfl, by simp⟩⟩
    | cons e l ih =>
      intro hl d b hd
      obtain ⟨p1, p2, p3⟩ := passOne_round (hl e (by simp)) hd
      obtain ⟨q1, q2, q3⟩ := ih (fun e' h' => hl e' (by simp [h'])) (passOne e.2 d).1 (b || (passOne e.2 d).2) (p1.isSet hd)
      simp only [List.foldl_cons]
      dsimp only at q1 q2 q3
      have hw := weight_le _ _ q1.len (q1.at_le (p1.isSet hd))
      have hw' := weight_le _ _ p1.len (p1.at_le hd)
      refine ⟨p1.trans q1, ?_, ?_⟩
      · intro ht
        rcases q2 ht with h | h
        · rcases Bool.or_eq_true_iff.1 h with h | h
          · exact Or.inl h
          · have := p2 h; right; omega
        · right; omega
      · intro hf
        obtain ⟨a, b', d'⟩ := q3 hf
        have ⟨a1, a2⟩ := (Bool.or_eq_false_iff).1 a
        obtain ⟨g1, g2⟩ := p3 a2
        rw [g1] at b' d'
        refine ⟨a1, ?_, ?_⟩
        · rw [g1]; exact b'
        · intro e' he'
          rcases List.mem_cons.1 he' with rfl | he'
          · exact g2
          · exact d' e' he'
  obtain ⟨a, b, d⟩ := key m (fun _ h => h) c false hs
  refine ⟨a, ?_, ?_⟩
  · intro h
    rcases b h with h | h
    · cases h
    · exact h
  · intro h
    exact (d h).2

/-- The loop ends, with the same number for all inputs of an output. -/
theorem settle_spec {m : Map} : ∀ (fuel : Nat) (c : Counts), Set m c → weight c < fuel →
    ∃ c', settle m fuel c = some c' ∧ Round m c c' ∧ ∀ e ∈ m, Even e.2 c' := by
  intro fuel
  induction fuel with
  | zero => intro c _ h; omega
  | succ fuel ih =>
    intro c hs h
    obtain ⟨p1, p2, p3⟩ := pass_round hs
    simp only [settle]
    cases hb : (pass m c).2 with
    | true =>
      rw [if_pos rfl]
      have := p2 hb
      obtain ⟨c', q1, q2, q3⟩ := ih (pass m c).1 (p1.isSet hs) (by omega)
      exact ⟨c', q1, p1.trans q2, q3⟩
    | false =>
      obtain ⟨g1, g2⟩ := p3 hb
      refine ⟨(pass m c).1, by simp, p1, ?_⟩
      rw [g1]
      exact g2

end Verif.Selector
