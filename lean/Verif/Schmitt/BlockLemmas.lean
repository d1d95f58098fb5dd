import Verif.Schmitt.Detect

/-! Lemmas about the block. -/

namespace Verif.Schmitt

open Spec

variable {τ : Type}

theorem hit_lt (b : Block) (n i : Nat) (e : Option Edge) (t : Trig) (name : String) (p : Nat)
    (h : hit b n i e t = some (name, p)) : p < n := by
  unfold hit at h
  cases e with
  | none => cases h
  | some k =>
    dsimp only at h
    by_cases h1 : 0 ≤ (i : Int) + t.idx ∧ (i : Int) + t.idx < n
    · rw [if_pos h1] at h
      split at h
      all_goals
        split at h
        · cases h
        · injection h with h; injection h with h3 h4
          omega
    · rw [if_neg h1] at h; cases h

theorem scan_lt (b : Block) (n : Nat) : ∀ (ys : List Int) (i : Nat) (t : Trig) (now : Nat)
    (t' : Trig) (now' : Nat) (name : String) (p : Nat),
    scan b n i ys t now = some (t', now', some (name, p)) → p < n := by
  intro ys
  induction ys with
  | nil => intro i t now t' now' name p h; simp only [scan] at h; cases h
  | cons y ys ih =>
    intro i t now t' now' name p h
    simp only [scan] at h
    cases hs : step b.method b.cfg t y with
    | none => rw [hs] at h; cases h
    | some r =>
      obtain ⟨e, t1⟩ := r
      rw [hs] at h
      dsimp only at h
      cases hh : hit b n i e t1 with
      | none => rw [hh] at h; exact ih _ _ _ _ _ _ _ h
      | some q =>
        rw [hh] at h
        cases h
        exact hit_lt b n i e _ _ _ hh

theorem nProcess_le (left : Nat) (c : Call) : nProcess left c ≤ left := by
  unfold nProcess
  by_cases h : min c.avail left < nHistory ∧ c.eos = false
  · simp only [if_pos h]; omega
  · simp only [if_neg h]
    cases c.eos
    · simp only [Bool.false_eq_true, if_false]; omega
    · simp only [if_true]; omega

/-- A call moves a number of samples and leaves everything else to the tags. -/
theorem call_cases (b : Block) (xs : List Int) (tagsAt : Nat → List τ) (s : St τ) (c : Call)
    (s' : St τ) (h : call b xs tagsAt s c = some s') :
    (s' = s ∧ nProcess (xs.length - s.pos) c = 0) ∨
    (∃ k, 0 < k ∧ k ≤ nProcess (xs.length - s.pos) c ∧ s'.pos = s.pos + k ∧
      s'.out = s.out ++ (xs.drop s.pos).take k ∧
      forwarded s'.tags = forwarded s.tags ++ forwarded (forwardTags b tagsAt s.pos (k - 1))) := by
  unfold call at h
  generalize hn : nProcess (xs.length - s.pos) c = n at h ⊢
  by_cases h0 : n = 0
  · simp only [if_pos h0] at h; cases h; exact Or.inl ⟨rfl, h0⟩
  · simp only [if_neg h0] at h
    refine Or.inr ?_
    cases hsc : scan b n 0 ((xs.drop s.pos).take n) s.trig s.now with
    | none => rw [hsc] at h; cases h
    | some r =>
      obtain ⟨t, now, o⟩ := r
      rw [hsc] at h
      cases o with
      | none =>
        dsimp only at h
        cases h
        refine ⟨n, by omega, Nat.le_refl _, rfl, rfl, ?_⟩
        simp only [forwarded, List.filterMap_append]
      | some q =>
        obtain ⟨name, p⟩ := q
        have hp := scan_lt b n _ _ _ _ _ _ _ _ hsc
        dsimp only at h
        cases he : edgeTime now b.period t.loc with
        | none => rw [he] at h; cases h
        | some time =>
          rw [he] at h
          cases h
          refine ⟨p + 1, by omega, by omega, rfl, rfl, ?_⟩
          simp only [forwarded, List.filterMap_append, Nat.add_sub_cancel]
          simp

theorem forwarded_range (b : Block) (tagsAt : Nat → List τ) (pos k : Nat) (hk : 0 < k) :
    forwarded (forwardTags b tagsAt pos (k - 1)) =
      if b.forward then (List.range k).flatMap fun r => (tagsAt (pos + r)).map fun t => (pos + r, t)
      else [] := by
  unfold forwardTags
  rw [Nat.sub_add_cancel hk]
  cases b.forward with
  | false => rfl
  | true =>
    simp only [if_true]
    unfold forwarded
    rw [List.filterMap_flatMap]
    congr 1
    funext r
    rw [List.filterMap_map]
    induction tagsAt (pos + r) with
    | nil => rfl
    | cons a l ih => rw [List.filterMap_cons, List.map_cons, ← ih]; rfl

structure Moved (b : Block) (xs : List Int) (tagsAt : Nat → List τ) (s : St τ) : Prop where
  le : s.pos ≤ xs.length
  out : s.out = xs.take s.pos
  fwd : forwarded s.tags =
    if b.forward then (List.range s.pos).flatMap fun p => (tagsAt p).map fun t => (p, t) else []

theorem take_drop_take (xs : List Int) (p k : Nat) :
    xs.take p ++ (xs.drop p).take k = xs.take (p + k) := by
  rw [List.take_add]

theorem call_moved (b : Block) (xs : List Int) (tagsAt : Nat → List τ) (s : St τ) (c : Call)
    (s' : St τ) (hm : Moved b xs tagsAt s) (h : call b xs tagsAt s c = some s') :
    Moved b xs tagsAt s' := by
  rcases call_cases b xs tagsAt s c s' h with ⟨h1, _⟩ | ⟨k, h0, h1, h2, h3, h4⟩
  · rw [h1]; exact hm
  · have := nProcess_le (xs.length - s.pos) c
    have hle := hm.le
    refine ⟨by omega, ?_, ?_⟩
    · rw [h3, hm.out, h2, take_drop_take]
    · rw [h4, hm.fwd, forwarded_range _ _ _ _ h0, h2]
      cases b.forward with
      | false => rfl
      | true =>
        simp only [if_true]
        rw [List.range_add, List.flatMap_append]
        congr 1
        rw [List.flatMap_map]

theorem run_moved (b : Block) (xs : List Int) (tagsAt : Nat → List τ) : ∀ (cs : List Call)
    (s s' : St τ), Moved b xs tagsAt s → run b xs tagsAt s cs = some s' → Moved b xs tagsAt s' := by
  intro cs
  induction cs with
  | nil => intro s s' hm h; simp only [run] at h; cases h; exact hm
  | cons c cs ih =>
    intro s s' hm h
    simp only [run] at h
    cases hc : call b xs tagsAt s c with
    | none => rw [hc] at h; cases h
    | some s1 => rw [hc] at h; exact ih s1 s' (call_moved b xs tagsAt s c s1 hm hc) h

theorem start_moved (b : Block) (xs : List Int) (tagsAt : Nat → List τ) (now : Nat) :
    Moved b xs tagsAt (St.start now) := by
  refine ⟨Nat.zero_le _, rfl, ?_⟩
  cases b.forward <;> rfl

/-! ### without interpolation -/

/-- The name under which an edge is published. -/
def nameOf (b : Block) : Option Edge → Option String
  | none => none
  | some .rising => if b.nameR = "" then none else some b.nameR
  | some .falling => if b.nameF = "" then none else some b.nameF

theorem hit_plain (b : Block) (n i : Nat) (e : Option Edge) (t : Trig) (hi : i < n)
    (h : e ≠ none → t.idx = 0) : hit b n i e t = (nameOf b e).map fun nm => (nm, i) := by
  cases e with
  | none => rfl
  | some k =>
    unfold hit
    rw [h (by simp)]
    simp only [Int.add_zero]
    rw [if_pos ⟨by omega, by omega⟩]
    cases k
    · simp only [nameOf]
      by_cases q : b.nameR = ""
      · simp [q]
      · simp [q]
    · simp only [nameOf]
      by_cases q : b.nameF = ""
      · simp [q]
      · simp [q]

theorem plain_loc (c : Cfg) (t : Trig) (x : Int) (e : Option Edge) (t' : Trig)
    (h : step .plain c t x = some (e, t')) (he : e ≠ none) : t'.loc = (0, 1) := by
  simp only [step, stepPlain] at h
  by_cases h1 : t.last = false ∧ c.upper ≤ x
  · rw [if_pos h1] at h; cases h; rfl
  · rw [if_neg h1] at h
    by_cases h2 : t.last = true ∧ x ≤ c.lower
    · rw [if_pos h2] at h; cases h; rfl
    · rw [if_neg h2] at h
      cases hn : nextIdx t.idx with
      | none => rw [hn] at h; cases h
      | some i => rw [hn] at h; cases h; exact absurd rfl he

theorem scan_plain (b : Block) (hb : b.method = .plain) (hc : b.cfg.lower < b.cfg.upper) (n : Nat)
    (xs : List Int) : ∀ (ys : List Int) (pre rest : List Int) (i : Nat) (t : Trig) (now : Nat)
    (t' : Trig) (now' : Nat) (r : Option (String × Nat)),
    xs = pre ++ (ys ++ rest) → i + ys.length ≤ n → t.last = high b.cfg.lower b.cfg.upper pre →
    now < two64 →
    scan b n i ys t now = some (t', now', r) →
    now' < two64 ∧
    ((r = none ∧ (∀ k < ys.length, nameOf b (edgeAt b.cfg.lower b.cfg.upper xs (pre.length + k)) = none) ∧
        t'.last = high b.cfg.lower b.cfg.upper (pre ++ ys) ∧
        now' = (now + ys.length * b.period) % two64) ∨
     (∃ name k, r = some (name, i + k) ∧ k < ys.length ∧
        (∀ j < k, nameOf b (edgeAt b.cfg.lower b.cfg.upper xs (pre.length + j)) = none) ∧
        nameOf b (edgeAt b.cfg.lower b.cfg.upper xs (pre.length + k)) = some name ∧
        t'.last = high b.cfg.lower b.cfg.upper (pre ++ ys.take (k + 1)) ∧ t'.loc = (0, 1) ∧
        now' = (now + (k + 1) * b.period) % two64)) := by
  intro ys
  induction ys with
  | nil =>
    intro pre rest i t now t' now' r hx hi ht hnow h
    simp only [scan] at h
    cases h
    refine ⟨hnow, Or.inl ⟨rfl, fun k hk => absurd hk (Nat.not_lt_zero _), ?_, ?_⟩⟩
    · rw [List.append_nil]; exact ht
    · simp [Nat.mod_eq_of_lt hnow]
  | cons y ys ih =>
    intro pre rest i t now t' now' r hx hi ht hnow h
    simp only [scan] at h
    rw [hb] at h
    rw [List.length_cons] at hi
    cases hs : step .plain b.cfg t y with
    | none => rw [hs] at h; cases h
    | some q =>
      obtain ⟨e, t1⟩ := q
      rw [hs] at h
      dsimp only at h
      obtain ⟨he, ht1⟩ := step_high .plain (Or.inl rfl) b.cfg hc t pre ht y e t1 hs
      have hedge : edgeAt b.cfg.lower b.cfg.upper xs pre.length = e := by
        rw [he, hx]
        rw [show pre ++ (y :: ys ++ rest) = (pre ++ [y]) ++ (ys ++ rest) by simp]
        rw [edgeAt_append _ _ _ _ _ (by simp)]
      rw [hit_plain b n i e t1 (by omega) (plain_idx b.cfg t y e t1 hs).1] at h
      have hm : (now + b.period) % two64 < two64 := Nat.mod_lt _ (by decide)
      cases hn : nameOf b e with
      | some name =>
        rw [hn] at h
        simp only [Option.map_some] at h
        cases h
        refine ⟨hm, Or.inr ⟨name, 0, rfl, by simp, fun j hj => absurd hj (Nat.not_lt_zero _), ?_, ?_, ?_, ?_⟩⟩
        · rw [Nat.add_zero, hedge, hn]
        · rw [show (y :: ys).take (0 + 1) = [y] from rfl]; exact ht1
        · apply plain_loc _ _ _ _ _ hs
          intro h0; rw [h0] at hn; cases hn
        · simp
      | none =>
        rw [hn] at h
        simp only [Option.map_none] at h
        have hx' : xs = (pre ++ [y]) ++ (ys ++ rest) := by rw [hx]; simp
        obtain ⟨h0, h1⟩ := ih (pre ++ [y]) rest (i + 1) t1 _ t' now' r hx' (by omega) ht1 hm h
        refine ⟨h0, ?_⟩
        rcases h1 with ⟨h1, h2, h3, h4⟩ | ⟨name, k, h1, h2, h3, h4, h5, h6, h7⟩
        · refine Or.inl ⟨h1, ?_, ?_, ?_⟩
          · intro k hk
            cases k with
            | zero => rw [Nat.add_zero, hedge, hn]
            | succ k =>
              have := h2 k (by simpa using hk)
              rw [List.length_append, List.length_singleton] at this
              rw [show pre.length + (k + 1) = pre.length + 1 + k by omega]
              exact this
          · rw [h3]; simp
          · rw [h4, List.length_cons]
            rw [Nat.mod_add_mod, Nat.add_mul, Nat.one_mul]
            congr 1; omega
        · refine Or.inr ⟨name, k + 1, ?_, ?_, ?_, ?_, ?_, h6, ?_⟩
          · rw [h1]; congr 2; omega
          · rw [List.length_cons]; omega
          · intro j hj
            cases j with
            | zero => rw [Nat.add_zero, hedge, hn]
            | succ j =>
              have := h3 j (by omega)
              rw [List.length_append, List.length_singleton] at this
              rw [show pre.length + (j + 1) = pre.length + 1 + j by omega]
              exact this
          · rw [List.length_append, List.length_singleton] at h4
            rw [show pre.length + (k + 1) = pre.length + 1 + k by omega]
            exact h4
          · rw [h5, List.take_succ_cons]; simp
          · rw [h7, Nat.mod_add_mod]
            congr 1
            rw [Nat.add_mul (k + 1) 1, Nat.one_mul]
            omega

theorem edgeTime_zero (now period : Nat) (h : now < two64) : edgeTime now period (0, 1) = some now := by
  unfold edgeTime
  simp only [Int.zero_mul]
  rw [if_neg (by simp [two64])]
  simp only [Int.zero_ediv, Int.toNat_zero, Nat.sub_zero, Nat.add_mod_right]
  rw [Nat.mod_eq_of_lt h]

/-- The expected tags at a position, in terms of the block. -/
abbrev specTags (b : Block) (start : Nat) (tagsAt : Nat → List τ) (xs : List Int) (p : Nat) :=
  tagsAtPos b.cfg.lower b.cfg.upper b.forward b.nameR b.nameF start b.period tagsAt xs p

theorem specTags_none (b : Block) (start : Nat) (tagsAt : Nat → List τ) (xs : List Int) (p : Nat)
    (h : nameOf b (edgeAt b.cfg.lower b.cfg.upper xs p) = none) :
    specTags b start tagsAt xs p = if b.forward then (tagsAt p).map (fun t => (p, .fwd t)) else [] := by
  unfold specTags tagsAtPos
  cases he : edgeAt b.cfg.lower b.cfg.upper xs p with
  | none => simp
  | some k =>
    rw [he] at h
    cases k
    · simp only [nameOf] at h
      by_cases q : b.nameR = ""
      · simp [q]
      · simp [q] at h
    · simp only [nameOf] at h
      by_cases q : b.nameF = ""
      · simp [q]
      · simp [q] at h

theorem specTags_some (b : Block) (start : Nat) (tagsAt : Nat → List τ) (xs : List Int) (p : Nat)
    (name : String) (h : nameOf b (edgeAt b.cfg.lower b.cfg.upper xs p) = some name) :
    specTags b start tagsAt xs p =
      (if b.forward then (tagsAt p).map (fun t => (p, .fwd t)) else []) ++
        [(p, .edge name ((start + (p + 1) * b.period) % 2 ^ 64) (0, 1))] := by
  unfold specTags tagsAtPos
  cases he : edgeAt b.cfg.lower b.cfg.upper xs p with
  | none => rw [he] at h; cases h
  | some k =>
    rw [he] at h
    cases k
    · simp only [nameOf] at h
      by_cases q : b.nameR = ""
      · simp [q] at h
      · rw [if_neg q] at h; cases h; simp [q]
    · simp only [nameOf] at h
      by_cases q : b.nameF = ""
      · simp [q] at h
      · rw [if_neg q] at h; cases h; simp [q]

theorem forwardTags_none (b : Block) (start : Nat) (tagsAt : Nat → List τ) (xs : List Int) (pos : Nat) :
    ∀ (k : Nat), (∀ j < k, nameOf b (edgeAt b.cfg.lower b.cfg.upper xs (pos + j)) = none) →
    (List.range k).flatMap (fun r => specTags b start tagsAt xs (pos + r)) =
      if b.forward then (List.range k).flatMap fun r => (tagsAt (pos + r)).map fun t => (pos + r, .fwd t)
      else [] := by
  intro k
  induction k with
  | zero => intro _; cases b.forward <;> rfl
  | succ k ih =>
    intro h
    rw [List.range_succ, List.flatMap_append, ih (fun j hj => h j (by omega)), List.flatMap_append]
    rw [show List.flatMap (fun r => specTags b start tagsAt xs (pos + r)) [k] =
      specTags b start tagsAt xs (pos + k) by simp]
    rw [specTags_none _ _ _ _ _ (h k (by omega))]
    cases b.forward
    · rfl
    · simp

structure Plain (b : Block) (xs : List Int) (tagsAt : Nat → List τ) (start : Nat) (s : St τ) : Prop where
  le : s.pos ≤ xs.length
  last : s.trig.last = high b.cfg.lower b.cfg.upper (xs.take s.pos)
  lt : s.now < two64
  now : s.now = (start + s.pos * b.period) % two64
  tags : s.tags = (List.range s.pos).flatMap (specTags b start tagsAt xs)

theorem call_plain (b : Block) (hb : b.method = .plain) (hc : b.cfg.lower < b.cfg.upper)
    (xs : List Int) (tagsAt : Nat → List τ) (start : Nat) (s : St τ) (c : Call) (s' : St τ)
    (hp : Plain b xs tagsAt start s) (h : call b xs tagsAt s c = some s') :
    Plain b xs tagsAt start s' := by
  unfold call at h
  have hle := nProcess_le (xs.length - s.pos) c
  generalize nProcess (xs.length - s.pos) c = n at h hle
  have hpl := hp.le
  by_cases h0 : n = 0
  · simp only [if_pos h0] at h; cases h; exact hp
  · simp only [if_neg h0] at h
    cases hsc : scan b n 0 ((xs.drop s.pos).take n) s.trig s.now with
    | none => rw [hsc] at h; cases h
    | some r =>
      obtain ⟨t, now, o⟩ := r
      rw [hsc] at h
      have hlen : ((xs.drop s.pos).take n).length = n := by
        rw [List.length_take, List.length_drop]; omega
      have hx : xs = xs.take s.pos ++ ((xs.drop s.pos).take n ++ (xs.drop s.pos).drop n) := by
        rw [List.take_append_drop, List.take_append_drop]
      have hpre : (xs.take s.pos).length = s.pos := by rw [List.length_take]; omega
      obtain ⟨hlt, hcase⟩ := scan_plain b hb hc n xs _ _ _ 0 _ _ _ _ _ hx (by omega) hp.last hp.lt hsc
      rw [hpre, hlen] at hcase
      rcases hcase with ⟨h1, h2, h3, h4⟩ | ⟨name, k, h1, h2, h3, h4, h5, h6, h7⟩
      · subst h1
        dsimp only at h
        cases h
        refine ⟨by show s.pos + n ≤ _; omega, ?_, hlt, ?_, ?_⟩
        · show t.last = high _ _ (xs.take (s.pos + n))
          rw [h3, take_drop_take]
        · show now = (start + (s.pos + n) * b.period) % two64
          rw [h4, hp.now, Nat.mod_add_mod, Nat.add_mul]
          congr 1; omega
        · show s.tags ++ forwardTags b tagsAt s.pos (n - 1) = (List.range (s.pos + n)).flatMap _
          rw [List.range_add, List.flatMap_append, hp.tags, List.flatMap_map]
          congr 1
          rw [forwardTags_none b start tagsAt xs s.pos n h2]
          unfold forwardTags
          rw [Nat.sub_add_cancel (by omega)]
      · subst h1
        dsimp only at h
        rw [h6, edgeTime_zero _ _ hlt] at h
        dsimp only at h
        rw [Nat.zero_add] at h
        cases h
        have hnow : now = (start + (s.pos + k + 1) * b.period) % two64 := by
          rw [h7, hp.now, Nat.mod_add_mod]
          congr 1
          rw [show s.pos + k + 1 = s.pos + (k + 1) by omega, Nat.add_mul s.pos]
          omega
        refine ⟨by show s.pos + (k + 1) ≤ _; omega, ?_, hlt, hnow, ?_⟩
        · show t.last = high _ _ (xs.take (s.pos + (k + 1)))
          rw [h5, List.take_take, Nat.min_eq_left (by omega), take_drop_take]
        · show s.tags ++ (forwardTags b tagsAt s.pos k ++
            [(s.pos + k, OutTag.edge name now ((0 : Int) * (b.period : Int), (1 : Int)))]) =
            (List.range (s.pos + (k + 1))).flatMap _
          rw [List.range_add, List.flatMap_append, hp.tags, List.flatMap_map]
          congr 1
          rw [List.range_succ, List.flatMap_append, forwardTags_none b start tagsAt xs s.pos k h3]
          rw [show List.flatMap (fun r => specTags b start tagsAt xs (s.pos + r)) [k] =
            specTags b start tagsAt xs (s.pos + k) by simp]
          rw [specTags_some _ _ _ _ _ name h4]
          rw [hnow, Int.zero_mul]
          unfold forwardTags
          rw [show two64 = 2 ^ 64 by decide]
          cases b.forward
          · rfl
          · simp only [if_true]
            rw [List.range_succ, List.flatMap_append]
            simp

theorem run_plain (b : Block) (hb : b.method = .plain) (hc : b.cfg.lower < b.cfg.upper)
    (xs : List Int) (tagsAt : Nat → List τ) (start : Nat) : ∀ (cs : List Call)
    (s s' : St τ), Plain b xs tagsAt start s → run b xs tagsAt s cs = some s' →
    Plain b xs tagsAt start s' := by
  intro cs
  induction cs with
  | nil => intro s s' hm h; simp only [run] at h; cases h; exact hm
  | cons c cs ih =>
    intro s s' hm h
    simp only [run] at h
    cases hcl : call b xs tagsAt s c with
    | none => rw [hcl] at h; cases h
    | some s1 => rw [hcl] at h; exact ih s1 s' (call_plain b hb hc xs tagsAt start s c s1 hm hcl) h

end Verif.Schmitt
