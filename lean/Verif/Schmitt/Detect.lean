import Verif.Schmitt.Spec

/-! Lemmas about the detector. -/

namespace Verif.Schmitt

open Spec

theorem high_nil (lo up : Int) : high lo up [] = false := rfl

theorem high_snoc (lo up : Int) (xs : List Int) (x : Int) :
    high lo up (xs ++ [x]) =
      if up ≤ x then true else if x ≤ lo then false else high lo up xs := by
  unfold high
  rw [List.reverse_append]
  simp only [List.reverse_cons, List.reverse_nil, List.nil_append, List.cons_append,
    List.find?_cons]
  by_cases h1 : up ≤ x
  · simp [h1]
  · by_cases h2 : x ≤ lo
    · simp [h1, h2]
    · simp [h1, h2]

theorem edgeAt_eq (lo up : Int) (xs : List Int) (p : Nat) (x : Int) (h : xs[p]? = some x) :
    edgeAt lo up xs p =
      match high lo up (xs.take p), high lo up (xs.take p ++ [x]) with
      | false, true => some .rising
      | true, false => some .falling
      | _, _ => none := by
  have : xs.take (p + 1) = xs.take p ++ [x] := by
    rw [List.take_add_one, h]; rfl
  unfold edgeAt
  rw [this]
  cases high lo up (xs.take p) <;> cases high lo up (xs.take p ++ [x]) <;> rfl

theorem edgeAt_append (lo up : Int) (xs ys : List Int) (p : Nat) (h : p < xs.length) :
    edgeAt lo up (xs ++ ys) p = edgeAt lo up xs p := by
  unfold edgeAt
  rw [List.take_append_of_le_length (by omega), List.take_append_of_le_length (by omega)]

theorem edges_snoc (lo up : Int) (xs : List Int) (x : Int) :
    edges lo up (xs ++ [x]) = edges lo up xs ++ [edgeAt lo up (xs ++ [x]) xs.length] := by
  unfold edges
  rw [List.length_append, List.length_singleton, List.range_succ, List.map_append]
  congr 1
  apply List.map_congr_left
  intro p hp
  exact edgeAt_append lo up xs [x] p (List.mem_range.1 hp)

/-- The edge reported for `x` after `xs`, given the output before. -/
theorem edgeAt_last (lo up : Int) (hlu : lo < up) (xs : List Int) (x : Int) :
    edgeAt lo up (xs ++ [x]) xs.length =
      if high lo up xs = false ∧ up ≤ x then some .rising
      else if high lo up xs = true ∧ x ≤ lo then some .falling else none := by
  rw [edgeAt_eq lo up (xs ++ [x]) xs.length x (by simp)]
  rw [List.take_append_of_le_length (Nat.le_refl _), List.take_length, high_snoc]
  by_cases h1 : up ≤ x
  · have h2 : ¬ x ≤ lo := by omega
    cases hh : high lo up xs <;> simp [h1, h2]
  · by_cases h2 : x ≤ lo
    · cases hh : high lo up xs <;> simp [h1, h2]
    · cases hh : high lo up xs <;> simp [h1, h2]

/-- What a step does to the output bit when the method looks at every sample. -/
theorem step_plain_basic (m : Method) (hm : m = .plain ∨ m = .basic) (c : Cfg) (t : Trig) (x : Int)
    (e : Option Edge) (t' : Trig) (h : step m c t x = some (e, t')) :
    e = (if t.last = false ∧ c.upper ≤ x then some .rising
         else if t.last = true ∧ x ≤ c.lower then some .falling else none) ∧
    t'.last = (if t.last = false ∧ c.upper ≤ x then true
               else if t.last = true ∧ x ≤ c.lower then false else t.last) := by
  rcases hm with rfl | rfl
  · simp only [step, stepPlain] at h
    by_cases h1 : t.last = false ∧ c.upper ≤ x
    · rw [if_pos h1] at h ⊢
      rw [if_pos h1]
      cases h; exact ⟨rfl, rfl⟩
    · rw [if_neg h1] at h ⊢
      rw [if_neg h1]
      by_cases h2 : t.last = true ∧ x ≤ c.lower
      · rw [if_pos h2] at h ⊢
        rw [if_pos h2]
        cases h; exact ⟨rfl, rfl⟩
      · rw [if_neg h2] at h ⊢
        rw [if_neg h2]
        cases hn : nextIdx t.idx with
        | none => rw [hn] at h; cases h
        | some i => rw [hn] at h; cases h; exact ⟨rfl, rfl⟩
  · simp only [step, stepBasic] at h
    generalize basicPos c.offset (t.hist.headD 0) x = p at h
    by_cases h1 : t.last = false ∧ c.upper ≤ x
    · rw [if_pos h1] at h ⊢
      rw [if_pos h1]
      cases hn : toInt32 (roundDiv p.1 p.2) with
      | none => rw [hn] at h; cases h
      | some i => rw [hn] at h; cases h; exact ⟨rfl, rfl⟩
    · rw [if_neg h1] at h ⊢
      rw [if_neg h1]
      by_cases h2 : t.last = true ∧ x ≤ c.lower
      · rw [if_pos h2] at h ⊢
        rw [if_pos h2]
        cases hn : toInt32 (roundDiv p.1 p.2) with
        | none => rw [hn] at h; cases h
        | some i => rw [hn] at h; cases h; exact ⟨rfl, rfl⟩
      · rw [if_neg h2] at h ⊢
        rw [if_neg h2]
        cases hn : nextIdx t.idx with
        | none => rw [hn] at h; cases h
        | some i => rw [hn] at h; cases h; exact ⟨rfl, rfl⟩

theorem step_high (m : Method) (hm : m = .plain ∨ m = .basic) (c : Cfg) (hc : c.lower < c.upper)
    (t : Trig) (pre : List Int) (ht : t.last = high c.lower c.upper pre) (x : Int)
    (e : Option Edge) (t' : Trig) (h : step m c t x = some (e, t')) :
    e = edgeAt c.lower c.upper (pre ++ [x]) pre.length ∧
    t'.last = high c.lower c.upper (pre ++ [x]) := by
  obtain ⟨h1, h2⟩ := step_plain_basic m hm c t x e t' h
  refine ⟨?_, ?_⟩
  · rw [h1, edgeAt_last _ _ hc, ht]
  · rw [h2, high_snoc, ht]
    by_cases h1 : c.upper ≤ x
    · have h2 : ¬ x ≤ c.lower := by omega
      cases hh : high c.lower c.upper pre <;> simp [h1, h2]
    · by_cases h2 : x ≤ c.lower
      · cases hh : high c.lower c.upper pre <;> simp [h1, h2]
      · cases hh : high c.lower c.upper pre <;> simp [h1, h2]

theorem run_edges (m : Method) (hm : m = .plain ∨ m = .basic) (c : Cfg) (hc : c.lower < c.upper) :
    ∀ (xs pre : List Int) (t : Trig) (es : List (Option Edge)) (t' : Trig),
      t.last = high c.lower c.upper pre →
      runTrig m c t xs = some (es, t') →
      edges c.lower c.upper (pre ++ xs) = edges c.lower c.upper pre ++ es ∧
      t'.last = high c.lower c.upper (pre ++ xs) := by
  intro xs
  induction xs with
  | nil =>
    intro pre t es t' ht h
    simp only [runTrig] at h
    cases h
    rw [List.append_nil, List.append_nil]
    exact ⟨rfl, ht⟩
  | cons x xs ih =>
    intro pre t es t' ht h
    simp only [runTrig] at h
    cases hs : step m c t x with
    | none => rw [hs] at h; cases h
    | some r =>
      obtain ⟨e, t1⟩ := r
      rw [hs] at h
      dsimp only at h
      cases hr : runTrig m c t1 xs with
      | none => rw [hr] at h; cases h
      | some q =>
        obtain ⟨es1, t2⟩ := q
        rw [hr] at h
        cases h
        obtain ⟨h1, h2⟩ := step_high m hm c hc t pre ht x e t1 hs
        obtain ⟨h3, h4⟩ := ih (pre ++ [x]) t1 es1 t2 h2 hr
        rw [List.append_assoc, List.singleton_append] at h3 h4
        refine ⟨?_, h4⟩
        rw [h3, edges_snoc, ← h1, List.append_assoc, List.singleton_append]

theorem runTrig_append (m : Method) (c : Cfg) : ∀ (xs ys : List Int) (t : Trig),
    runTrig m c t (xs ++ ys) =
      (runTrig m c t xs).bind fun r => (runTrig m c r.2 ys).map fun q => (r.1 ++ q.1, q.2) := by
  intro xs
  induction xs with
  | nil =>
    intro ys t
    simp only [List.nil_append, runTrig, Option.bind_some]
    cases runTrig m c t ys <;> rfl
  | cons x xs ih =>
    intro ys t
    simp only [List.cons_append, runTrig]
    cases step m c t x with
    | none => rfl
    | some r =>
      obtain ⟨e, t1⟩ := r
      dsimp only
      rw [ih]
      cases runTrig m c t1 xs with
      | none => rfl
      | some q =>
        simp only [Option.bind_some, Option.map_some]
        cases runTrig m c q.2 ys <;> rfl

theorem runTrig_length (m : Method) (c : Cfg) : ∀ (xs : List Int) (t : Trig) (es) (t'),
    runTrig m c t xs = some (es, t') → es.length = xs.length := by
  intro xs
  induction xs with
  | nil => intro t es t' h; simp only [runTrig] at h; cases h; rfl
  | cons x xs ih =>
    intro t es t' h
    simp only [runTrig] at h
    cases hs : step m c t x with
    | none => rw [hs] at h; cases h
    | some r =>
      rw [hs] at h
      dsimp only at h
      cases hr : runTrig m c r.2 xs with
      | none => rw [hr] at h; cases h
      | some q => rw [hr] at h; cases h; simp [ih _ _ _ hr]

/-! ### the index of the last edge -/

/-- Without interpolation the index never leaves `[-n, 1]` after `n` samples. -/
theorem plain_idx_range (c : Cfg) (t : Trig) (x : Int) (k : Int) (h0 : -k ≤ t.idx) (h1 : t.idx ≤ 1)
    (hk : 0 ≤ k) (hk2 : k < 2147483648) :
    ∃ e t', step .plain c t x = some (e, t') ∧ -(k + 1) ≤ t'.idx ∧ t'.idx ≤ 1 := by
  simp only [step, stepPlain]
  by_cases a1 : t.last = false ∧ c.upper ≤ x
  · rw [if_pos a1]; exact ⟨_, _, rfl, by show -(k+1) ≤ (0 : Int); omega, by show (0 : Int) ≤ 1; omega⟩
  · rw [if_neg a1]
    by_cases a2 : t.last = true ∧ x ≤ c.lower
    · rw [if_pos a2]; exact ⟨_, _, rfl, by show -(k+1) ≤ (0 : Int); omega, by show (0 : Int) ≤ 1; omega⟩
    · rw [if_neg a2]
      unfold nextIdx toInt32
      by_cases a3 : 0 < t.idx
      · rw [if_pos a3]; exact ⟨_, _, rfl, by show -(k+1) ≤ (1 : Int); omega, by show (1 : Int) ≤ 1; omega⟩
      · rw [if_neg a3, if_pos (by omega)]
        exact ⟨_, _, rfl, by show -(k+1) ≤ t.idx - 1; omega, by show t.idx - 1 ≤ 1; omega⟩

theorem plain_defined (c : Cfg) : ∀ (xs : List Int) (t : Trig) (k : Int),
    -k ≤ t.idx → t.idx ≤ 1 → 0 ≤ k → k + xs.length ≤ 2147483648 →
    ∃ es t', runTrig .plain c t xs = some (es, t') := by
  intro xs
  induction xs with
  | nil => intro t k _ _ _ _; exact ⟨_, _, rfl⟩
  | cons x xs ih =>
    intro t k h0 h1 hk hl
    rw [List.length_cons] at hl
    obtain ⟨e, t', hs, h2, h3⟩ := plain_idx_range c t x k h0 h1 hk (by omega)
    obtain ⟨es, t2, hr⟩ := ih t' (k + 1) h2 h3 (by omega) (by omega)
    refine ⟨e :: es, t2, ?_⟩
    simp only [runTrig, hs, hr, Option.map_some]

/-- `k` quiet samples after an edge count the index down to `-k`. -/
theorem quiet_idx (c : Cfg) (x : Int) (hx : c.lower < x) (hx2 : x < c.upper) :
    ∀ (k : Nat) (t : Trig), t.idx ≤ 0 → -2147483648 ≤ t.idx - k →
      runTrig .plain c t (List.replicate k x) =
        some (List.replicate k none, { t with idx := t.idx - k }) := by
  intro k
  induction k with
  | zero => intro t _ _; simp [runTrig]
  | succ k ih =>
    intro t h0 h1
    rw [List.replicate_succ]
    have hs : step .plain c t x = some (none, { t with idx := t.idx - 1 }) := by
      simp only [step, stepPlain]
      rw [if_neg (by omega), if_neg (by omega)]
      unfold nextIdx toInt32
      rw [if_neg (by omega), if_pos (by omega)]
      rfl
    simp only [runTrig, hs]
    rw [ih _ (by show t.idx - 1 ≤ 0; omega) (by show -2147483648 ≤ t.idx - 1 - k; omega)]
    simp only [Option.map_some, List.replicate_succ]
    congr 3
    show t.idx - 1 - (k : Int) = t.idx - ((k + 1 : Nat) : Int)
    omega

/-! ### alternation -/

theorem alternate_steps (m : Method) (c : Cfg) (t : Trig) (x : Int)
    (e : Option Edge) (t' : Trig) (h : step m c t x = some (e, t')) :
    (e = none ∧ t'.last = t.last) ∨ (e = some .rising ∧ t.last = false ∧ t'.last = true) ∨
      (e = some .falling ∧ t.last = true ∧ t'.last = false) := by
  have pb : ∀ m, (m = .plain ∨ m = .basic) → step m c t x = some (e, t') →
    (e = none ∧ t'.last = t.last) ∨ (e = some .rising ∧ t.last = false ∧ t'.last = true) ∨
      (e = some .falling ∧ t.last = true ∧ t'.last = false) := by
    intro m hm h
    obtain ⟨h1, h2⟩ := step_plain_basic m hm c t x e t' h
    by_cases a1 : t.last = false ∧ c.upper ≤ x
    · rw [if_pos a1] at h1 h2; exact Or.inr (Or.inl ⟨h1, a1.1, h2⟩)
    · rw [if_neg a1] at h1 h2
      by_cases a2 : t.last = true ∧ x ≤ c.lower
      · rw [if_pos a2] at h1 h2; exact Or.inr (Or.inr ⟨h1, a2.1, h2⟩)
      · rw [if_neg a2] at h1 h2; exact Or.inl ⟨h1, h2⟩
  cases m with
  | plain => exact pb _ (Or.inl rfl) h
  | basic => exact pb _ (Or.inr rfl) h
  | zone l =>
    simp only [step, stepZone] at h
    generalize zoneAcc c t x = acc at h
    by_cases a0 : acc = 0
    · rw [if_pos a0] at h; cases h; exact Or.inl ⟨rfl, rfl⟩
    · rw [if_neg a0] at h
      by_cases a1 : (t.last = false ∧ c.upper ≤ x) ∨ (t.last = true ∧ x ≤ c.lower)
      · rw [if_pos a1] at h
        cases hl : l ((x :: t.hist).take nHistory) acc with
        | none => rw [hl] at h; cases h
        | some p =>
          rw [hl] at h
          dsimp only at h
          cases hn : toInt32 (roundDiv p.1 p.2) with
          | none => rw [hn] at h; cases h
          | some i =>
            rw [hn] at h
            cases h
            rcases a1 with a1 | a1
            · refine Or.inr (Or.inl ⟨by rw [if_pos a1], a1.1, by show (!t.last) = true; rw [a1.1]; rfl⟩)
            · refine Or.inr (Or.inr ⟨?_, a1.1, by show (!t.last) = false; rw [a1.1]; rfl⟩)
              rw [if_neg]
              intro hh; rw [a1.1] at hh; cases hh.1
      · rw [if_neg a1] at h
        by_cases a2 : (t.last = false ∧ x < c.lower) ∨ (t.last = true ∧ c.upper < x)
        · rw [if_pos a2] at h; cases h; exact Or.inl ⟨rfl, rfl⟩
        · rw [if_neg a2] at h; cases h; exact Or.inl ⟨rfl, rfl⟩

theorem run_alternate (m : Method) (c : Cfg) : ∀ (xs : List Int) (t : Trig) (es) (t'),
    runTrig m c t xs = some (es, t') → Alternate (!t.last) (es.filterMap id) := by
  intro xs
  induction xs with
  | nil => intro t es t' h; simp only [runTrig] at h; cases h; cases t.last <;> trivial
  | cons x xs ih =>
    intro t es t' h
    simp only [runTrig] at h
    cases hs : step m c t x with
    | none => rw [hs] at h; cases h
    | some r =>
      obtain ⟨e, t1⟩ := r
      rw [hs] at h
      dsimp only at h
      cases hr : runTrig m c t1 xs with
      | none => rw [hr] at h; cases h
      | some q =>
        rw [hr] at h
        cases h
        have := ih t1 q.1 q.2 hr
        rcases alternate_steps m c t x e t1 hs with ⟨a, b⟩ | ⟨a, b, d⟩ | ⟨a, b, d⟩
        · subst a; rw [b] at this; simpa using this
        · subst a
          rw [d] at this; rw [b]
          exact ⟨rfl, this⟩
        · subst a
          rw [d] at this; rw [b]
          exact ⟨rfl, this⟩

/-! ### the distance to the last edge -/

theorem plain_idx (c : Cfg) (t : Trig) (x : Int) (e : Option Edge) (t' : Trig)
    (h : step .plain c t x = some (e, t')) :
    (e ≠ none → t'.idx = 0) ∧ (e = none → t'.idx = if 0 < t.idx then 1 else t.idx - 1) := by
  simp only [step, stepPlain] at h
  by_cases h1 : t.last = false ∧ c.upper ≤ x
  · rw [if_pos h1] at h; cases h; exact ⟨fun _ => rfl, fun h => by cases h⟩
  · rw [if_neg h1] at h
    by_cases h2 : t.last = true ∧ x ≤ c.lower
    · rw [if_pos h2] at h; cases h; exact ⟨fun _ => rfl, fun h => by cases h⟩
    · rw [if_neg h2] at h
      unfold nextIdx toInt32 at h
      by_cases h3 : 0 < t.idx
      · rw [if_pos h3] at h; cases h
        exact ⟨fun h => absurd rfl h, fun _ => by rw [if_pos h3]⟩
      · rw [if_neg h3] at h
        by_cases h4 : -2147483648 ≤ t.idx - 1 ∧ t.idx - 1 ≤ 2147483647
        · rw [if_pos h4] at h; cases h
          exact ⟨fun h => absurd rfl h, fun _ => by rw [if_neg h3]⟩
        · rw [if_neg h4] at h; cases h

theorem plain_quiet (c : Cfg) : ∀ (xs : List Int) (t : Trig) (k : Nat) (t' : Trig),
    runTrig .plain c t xs = some (List.replicate k none, t') →
    t'.idx = if 0 < t.idx then (if k = 0 then t.idx else 1) else t.idx - k := by
  intro xs
  induction xs with
  | nil =>
    intro t k t' h
    simp only [runTrig] at h
    cases k with
    | zero => cases h; simp
    | succ k => rw [List.replicate_succ] at h; cases h
  | cons x xs ih =>
    intro t k t' h
    simp only [runTrig] at h
    cases hs : step .plain c t x with
    | none => rw [hs] at h; cases h
    | some r =>
      obtain ⟨e, t1⟩ := r
      rw [hs] at h
      dsimp only at h
      cases hr : runTrig .plain c t1 xs with
      | none => rw [hr] at h; cases h
      | some q =>
        obtain ⟨es, t2⟩ := q
        rw [hr] at h
        cases k with
        | zero => cases h
        | succ k =>
          rw [List.replicate_succ, Option.map_some] at h
          dsimp only at h
          injection h with h
          injection h with h5 h6
          injection h5 with h7 h8
          subst h7 h6 h8
          have i1 := (plain_idx c t x none t1 hs).2 rfl
          have i2 := ih t1 k t2 hr
          rw [i2]
          by_cases a : 0 < t.idx
          · rw [if_pos a] at i1 ⊢
            rw [i1]; simp
          · rw [if_neg a] at i1 ⊢
            rw [i1, if_neg (by omega)]
            omega

/-! ### the methods that wait for the zone to be entered -/

structure Armed (c : Cfg) (t : Trig) (pre : List Int) : Prop where
  last : t.last = high c.lower c.upper pre
  lowOk : t.acc = 0 → t.last = false → t.hist.headD 0 ≤ c.lower
  highOk : t.acc = 0 → t.last = true → c.upper ≤ t.hist.headD 0

theorem headD_hist (x : Int) (l : List Int) : ((x :: l).take nHistory).headD 0 = x := rfl

theorem zone_step (l : Locator) (c : Cfg) (hc : c.lower < c.upper) (t : Trig) (pre : List Int)
    (ha : Armed c t pre) (x : Int) (e : Option Edge) (t' : Trig)
    (h : step (.zone l) c t x = some (e, t')) :
    e = edgeAt c.lower c.upper (pre ++ [x]) pre.length ∧ Armed c t' (pre ++ [x]) := by
  have hl := ha.last
  have hlow := ha.lowOk
  have hhigh := ha.highOk
  have key : ∀ (hd : Bool), t.last = hd → hd = high c.lower c.upper pre := fun hd h => h ▸ hl
  rw [edgeAt_last _ _ hc, ← hl]
  simp only [step, stepZone] at h
  unfold zoneAcc at h
  generalize hp : t.hist.headD 0 = prev at h hlow hhigh
  have hs := high_snoc c.lower c.upper pre x
  rw [← hl] at hs
  cases hb : t.last with
  | false =>
    rw [hb] at h hlow hhigh hs
    simp only [true_and, Bool.false_eq_true, false_and, or_false, if_false, false_or, reduceCtorEq,
      forall_const] at h hlow hhigh hs ⊢
    by_cases hup : c.upper ≤ x
    · have e1 : ¬ x ≤ c.lower := by omega
      have hacc : ∃ a, (if 0 < t.acc then t.acc + 1 else if prev ≤ c.lower ∧ c.lower < x then 1 else 0)
          = a + 1 := by
        by_cases h0 : 0 < t.acc
        · exact ⟨t.acc, by rw [if_pos h0]⟩
        · exact ⟨0, by rw [if_neg h0, if_pos ⟨hlow (by omega), by omega⟩]⟩
      obtain ⟨a, hacc⟩ := hacc
      rw [hacc, if_neg (by omega), if_pos hup] at h
      simp only [if_pos hup] at h hs ⊢
      cases hq : l ((x :: t.hist).take nHistory) (a + 1) with
      | none => rw [hq] at h; cases h
      | some p =>
        rw [hq] at h
        dsimp only at h
        cases hn : toInt32 (roundDiv p.1 p.2) with
        | none => rw [hn] at h; cases h
        | some i =>
          rw [hn] at h
          cases h
          exact ⟨rfl, ⟨hs.symm, fun _ h => (by cases h), fun _ _ => hup⟩⟩
    · simp only [if_neg hup] at h hs ⊢
      generalize hA : (if 0 < t.acc then t.acc + 1 else if prev ≤ c.lower ∧ c.lower < x then 1 else 0)
          = A at h
      have hs' : high c.lower c.upper (pre ++ [x]) = false := by rw [hs]; by_cases q : x ≤ c.lower <;> simp [q]
      by_cases hA0 : A = 0
      · rw [if_pos hA0] at h
        cases h
        refine ⟨rfl, ⟨hs'.symm, fun _ _ => ?_, fun _ h => ?_⟩⟩
        · show x ≤ c.lower
          rw [← hA] at hA0
          by_cases h0 : 0 < t.acc
          · rw [if_pos h0] at hA0; omega
          · rw [if_neg h0] at hA0
            have := hlow (by omega)
            by_cases hx : x ≤ c.lower
            · exact hx
            · rw [if_pos ⟨this, by omega⟩] at hA0; omega
        · cases h
      · rw [if_neg hA0] at h
        by_cases hx : x < c.lower
        · rw [if_pos hx] at h
          cases h
          refine ⟨rfl, ⟨hs'.symm, fun _ _ => ?_, fun _ h => ?_⟩⟩
          · show x ≤ c.lower; omega
          · cases h
        · rw [if_neg hx] at h
          cases h
          exact ⟨rfl, ⟨hs'.symm, fun h => absurd h hA0, fun h => absurd h hA0⟩⟩
  | true =>
    rw [hb] at h hlow hhigh hs
    simp only [true_and, Bool.true_eq_false, false_and, or_false, if_false, false_or, reduceCtorEq,
      forall_const] at h hlow hhigh hs ⊢
    by_cases hup : x ≤ c.lower
    · have e1 : ¬ c.upper ≤ x := by omega
      have hacc : ∃ a, (if 0 < t.acc then t.acc + 1 else if c.upper ≤ prev ∧ x < c.upper then 1 else 0)
          = a + 1 := by
        by_cases h0 : 0 < t.acc
        · exact ⟨t.acc, by rw [if_pos h0]⟩
        · exact ⟨0, by rw [if_neg h0, if_pos ⟨hhigh (by omega), by omega⟩]⟩
      obtain ⟨a, hacc⟩ := hacc
      rw [hacc, if_neg (by omega), if_pos hup] at h
      simp only [if_pos hup, if_neg e1] at h hs ⊢
      cases hq : l ((x :: t.hist).take nHistory) (a + 1) with
      | none => rw [hq] at h; cases h
      | some p =>
        rw [hq] at h
        dsimp only at h
        cases hn : toInt32 (roundDiv p.1 p.2) with
        | none => rw [hn] at h; cases h
        | some i =>
          rw [hn] at h
          cases h
          exact ⟨rfl, ⟨hs.symm, fun _ _ => hup, fun _ h => (by cases h)⟩⟩
    · simp only [if_neg hup] at h hs ⊢
      generalize hA : (if 0 < t.acc then t.acc + 1 else if c.upper ≤ prev ∧ x < c.upper then 1 else 0)
          = A at h
      have hs' : high c.lower c.upper (pre ++ [x]) = true := by rw [hs]; by_cases q : c.upper ≤ x <;> simp [q]
      by_cases hA0 : A = 0
      · rw [if_pos hA0] at h
        cases h
        refine ⟨rfl, ⟨hs'.symm, fun _ h => ?_, fun _ _ => ?_⟩⟩
        · cases h
        · show c.upper ≤ x
          rw [← hA] at hA0
          by_cases h0 : 0 < t.acc
          · rw [if_pos h0] at hA0; omega
          · rw [if_neg h0] at hA0
            have := hhigh (by omega)
            by_cases hx : c.upper ≤ x
            · exact hx
            · rw [if_pos ⟨this, by omega⟩] at hA0; omega
      · rw [if_neg hA0] at h
        by_cases hx : c.upper < x
        · rw [if_pos hx] at h
          cases h
          refine ⟨rfl, ⟨hs'.symm, fun _ h => ?_, fun _ _ => ?_⟩⟩
          · cases h
          · show c.upper ≤ x; omega
        · rw [if_neg hx] at h
          cases h
          exact ⟨rfl, ⟨hs'.symm, fun h => absurd h hA0, fun h => absurd h hA0⟩⟩

theorem zone_run (l : Locator) (c : Cfg) (hc : c.lower < c.upper) :
    ∀ (xs pre : List Int) (t : Trig) (es : List (Option Edge)) (t' : Trig),
      Armed c t pre → runTrig (.zone l) c t xs = some (es, t') →
      edges c.lower c.upper (pre ++ xs) = edges c.lower c.upper pre ++ es := by
  intro xs
  induction xs with
  | nil =>
    intro pre t es t' _ h
    simp only [runTrig] at h
    cases h
    rw [List.append_nil, List.append_nil]
  | cons x xs ih =>
    intro pre t es t' ht h
    simp only [runTrig] at h
    cases hs : step (.zone l) c t x with
    | none => rw [hs] at h; cases h
    | some r =>
      obtain ⟨e, t1⟩ := r
      rw [hs] at h
      dsimp only at h
      cases hr : runTrig (.zone l) c t1 xs with
      | none => rw [hr] at h; cases h
      | some q =>
        obtain ⟨es1, t2⟩ := q
        rw [hr] at h
        cases h
        obtain ⟨h1, h2⟩ := zone_step l c hc t pre ht x e t1 hs
        have h3 := ih (pre ++ [x]) t1 es1 t2 h2 hr
        rw [List.append_assoc, List.singleton_append] at h3
        rw [h3, edges_snoc, ← h1, List.append_assoc, List.singleton_append]

/-- Until the first sample at or below the lower threshold the zone methods see nothing. -/
theorem zone_unarmed (l : Locator) (c : Cfg) (hc : c.lower < c.upper) :
    ∀ (xs : List Int) (t : Trig) (es : List (Option Edge)) (t' : Trig),
      t.last = false → t.acc = 0 → c.lower < t.hist.headD 0 →
      runTrig (.zone l) c t xs = some (es, t') →
      es = (xs.takeWhile (fun x => decide (c.lower < x))).map (fun _ => none) ++
        edges c.lower c.upper (xs.dropWhile (fun x => decide (c.lower < x))) := by
  intro xs
  induction xs with
  | nil =>
    intro t es t' _ _ _ h
    simp only [runTrig] at h
    cases h
    rfl
  | cons x xs ih =>
    intro t es t' hl hacc hh h
    simp only [runTrig] at h
    have hs : step (.zone l) c t x =
        some (none, { t with hist := (x :: t.hist).take nHistory, acc := 0 }) := by
      simp only [step, stepZone]
      have : zoneAcc c t x = 0 := by
        unfold zoneAcc
        rw [if_neg (by omega), if_neg (by omega), if_neg (by rw [hl]; simp)]
      rw [if_pos this]
    rw [hs] at h
    dsimp only at h
    cases hr : runTrig (.zone l) c { t with hist := (x :: t.hist).take nHistory, acc := 0 } xs with
    | none => rw [hr] at h; cases h
    | some q =>
      obtain ⟨es1, t2⟩ := q
      rw [hr] at h
      cases h
      by_cases hx : c.lower < x
      · rw [List.takeWhile_cons_of_pos (by simpa using hx), List.dropWhile_cons_of_pos (by simpa using hx)]
        rw [List.map_cons, List.cons_append, ← ih _ es1 t2 ?_ ?_ ?_ hr]
        · exact hl
        · rfl
        · exact hx
      · rw [List.takeWhile_cons_of_neg (by simpa using hx), List.dropWhile_cons_of_neg (by simpa using hx)]
        have ha : Armed c { t with hist := (x :: t.hist).take nHistory, acc := 0 } [x] := by
          refine ⟨?_, fun _ _ => (by show x ≤ c.lower; omega), fun _ h => ?_⟩
          · have := high_snoc c.lower c.upper [] x
            rw [List.nil_append, if_neg (by omega), if_pos (by omega)] at this
            rw [this]; exact hl
          · rw [show t.last = true from h] at hl; cases hl
        have := zone_run l c hc xs [x] _ es1 t2 ha hr
        rw [List.singleton_append] at this
        rw [this]
        have e1 : edges c.lower c.upper [x] = [none] := by
          have := edges_snoc c.lower c.upper [] x
          rw [List.nil_append] at this
          rw [this]
          have q := edgeAt_last c.lower c.upper hc [] x
          rw [List.nil_append] at q
          rw [show edges c.lower c.upper [] = [] from rfl, q, high_nil]
          rw [if_neg (by omega), if_neg (by simp)]
          rfl
        rw [e1]; rfl

theorem roundDiv_near (n d : Int) (hd : 0 < d) : -d ≤ 2 * (roundDiv n d * d - n) ∧ 2 * (roundDiv n d * d - n) ≤ d := by
  have h2 : 0 < 2 * d := by omega
  unfold roundDiv
  split
  · have a := Int.mul_ediv_add_emod (2 * n + d) (2 * d)
    have b := Int.emod_nonneg (2 * n + d) (Int.ne_of_gt h2)
    have c := Int.emod_lt_of_pos (2 * n + d) h2
    generalize (2 * n + d) / (2 * d) = q at a ⊢
    have e : 2 * d * q = 2 * (q * d) := by grind
    omega
  · have a := Int.mul_ediv_add_emod (2 * (-n) + d) (2 * d)
    have b := Int.emod_nonneg (2 * (-n) + d) (Int.ne_of_gt h2)
    have c := Int.emod_lt_of_pos (2 * (-n) + d) h2
    generalize (2 * (-n) + d) / (2 * d) = q at a ⊢
    have e : 2 * d * q = 2 * (q * d) := by grind
    have e' : -q * d = -(q * d) := by grind
    omega

theorem toInt32_eq {n i : Int} (h : toInt32 n = some i) : i = n := by
  unfold toInt32 at h; split at h
  · injection h with h; exact h.symm
  · cases h

end Verif.Schmitt
