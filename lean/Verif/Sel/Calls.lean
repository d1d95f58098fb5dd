import Verif.Sel.Data
/-!
# Data sets: one call
-/
namespace Verif.Sel

variable {α τ σ : Type}

/-- two lists of the same length, related element by element -/
inductive All2 {β γ : Type} (P : β → γ → Prop) : List β → List γ → Prop
  | nil : All2 P [] []
  | cons {a b l m} (h : P a b) (t : All2 P l m) : All2 P (a :: l) (b :: m)

namespace All2
variable {β γ δ : Type} {P Q : β → γ → Prop}

theorem length {l : List β} {m : List γ} (h : All2 P l m) : l.length = m.length := by
  induction h with
  | nil => rfl
  | cons _ _ ih => rw [List.length_cons, List.length_cons, ih]

theorem append {l l' : List β} {m m' : List γ} (h : All2 P l m) (h' : All2 P l' m') : All2 P (l ++ l') (m ++ m') := by
  induction h with
  | nil => exact h'
  | cons h _ ih => exact .cons h ih

theorem imp {l : List β} {m : List γ} (h : All2 P l m) (f : ∀ a b, a ∈ l → b ∈ m → P a b → Q a b) : All2 Q l m := by
  induction h with
  | nil => exact .nil
  | cons h _ ih =>
    exact .cons (f _ _ List.mem_cons_self List.mem_cons_self h)
      (ih (fun a b ha hb => f a b (List.mem_cons_of_mem _ ha) (List.mem_cons_of_mem _ hb)))

theorem map {P : β → γ → Prop} {Q : β → δ → Prop} {l : List β} {m : List γ} (g : γ → δ) (h : All2 P l m) (f : ∀ a b, b ∈ m → P a b → Q a (g b)) :
    All2 Q l (m.map g) := by
  induction h with
  | nil => exact .nil
  | cons h _ ih => exact .cons (f _ _ List.mem_cons_self h) (ih (fun a b hb => f a b (List.mem_cons_of_mem _ hb)))

theorem take {l : List β} {m : List γ} (h : All2 P l m) (k : Nat) : All2 P (l.take k) (m.take k) := by
  induction h generalizing k with
  | nil => rw [List.take_nil, List.take_nil]; exact .nil
  | cons h _ ih =>
    cases k with
    | zero => exact .nil
    | succ k => exact .cons h (ih k)

theorem drop {l : List β} {m : List γ} (h : All2 P l m) (k : Nat) : All2 P (l.drop k) (m.drop k) := by
  induction h generalizing k with
  | nil => rw [List.drop_nil, List.drop_nil]; exact .nil
  | cons h t ih =>
    cases k with
    | zero => exact .cons h t
    | succ k => exact ih k

theorem get {l : List β} {m : List γ} (h : All2 P l m) (k : Nat) (b : γ) (hb : m[k]? = some b) : ∃ a, l[k]? = some a ∧ P a b := by
  induction h generalizing k with
  | nil => rw [List.getElem?_nil] at hb; cases hb
  | cons h _ ih =>
    cases k with
    | zero => rw [List.getElem?_cons_zero] at hb; cases hb; exact ⟨_, rfl, h⟩
    | succ k => exact ih k hb

end All2

/-! ## histories -/

/-- the history after `P` samples -/
structure HistOk (c : Cfg τ σ) (xs : Strm α τ) (P : Nat) (hist : List α) (histTags : List (Nat × τ)) : Prop where
  samples : 0 < c.nPre → hist = (((xs.take P).map (·.1)).reverse).take c.cap
  tags : histTags = ((tagsOf (xs.take P)).filter (fun t => P - t.1 ≤ c.nPre)).map (fun t => (P - t.1, t.2))

theorem take_window (xs : Strm α τ) (lo hi : Nat) (h : lo ≤ hi) : xs.take hi = xs.take lo ++ window lo hi xs := by
  unfold window
  conv => lhs; rw [← List.take_append_drop lo (xs.take hi)]
  rw [List.take_take, Nat.min_eq_left h]

theorem take_cap (c : Cfg τ σ) (h ys : List α) : (ys ++ h.take c.cap).take c.cap = (ys ++ h).take c.cap := by
  rw [List.take_append, List.take_append, List.take_take, Nat.min_eq_left (by omega)]

theorem tags_age (c : Cfg τ σ) (xs : Strm α τ) (P n : Nat) (hP : P + n ≤ xs.length) (hn : 0 < n) (T : List (Nat × τ))
    (hT : T = ((tagsOf (xs.take P)).filter (fun t => P - t.1 ≤ c.nPre)).map (fun t => (P - t.1, t.2))) :
    (ageTags T (tagsOf (window P (P + n) xs)) n).filter (fun t => t.1 ≤ c.nPre) =
      ((tagsOf (xs.take (P + n))).filter (fun t => P + n - t.1 ≤ c.nPre)).map (fun t => (P + n - t.1, t.2)) ∨
    ∃ t ∈ tagsOf (window P (P + n) xs), t.1 ≠ 0 := by
  by_cases hex : ∃ t ∈ tagsOf (window P (P + n) xs), t.1 ≠ 0
  · exact Or.inr hex
  · refine Or.inl ?_
    have hz : ∀ t ∈ tagsOf (window P (P + n) xs), t.1 = 0 := by
      intro t ht
      apply Classical.byContradiction
      intro h
      exact hex ⟨t, ht, h⟩
    rw [hT, take_window xs P (P + n) (by omega), tagsOf_append, List.length_take, Nat.min_eq_left (by omega)]
    unfold ageTags
    rw [List.map_append, List.filter_append, List.filter_append, List.map_append]
    congr 1
    · rw [List.map_map, List.filter_map, List.filter_filter]
      have : ∀ t ∈ tagsOf (xs.take P), t.1 < P := by
        intro t ht
        have := tagsOf_lt _ t ht
        rw [List.length_take] at this
        omega
      have hf : (tagsOf (xs.take P)).filter (fun a => ((fun t : Nat × τ => decide (t.1 ≤ c.nPre)) ∘
          (fun t : Nat × τ => (t.1 + n, t.2)) ∘ fun t : Nat × τ => (P - t.1, t.2)) a && decide (P - a.1 ≤ c.nPre)) =
          (tagsOf (xs.take P)).filter (fun t => P + n - t.1 ≤ c.nPre) := by
        apply List.filter_congr
        intro t ht
        have := this t ht
        simp only [Function.comp]
        by_cases h1 : P + n - t.1 ≤ c.nPre
        · simp [h1]; omega
        · simp [h1]; omega
      rw [hf]
      apply List.map_congr_left
      intro t ht
      have := this t ((List.mem_filter.mp ht).1)
      simp only [Function.comp]
      congr 1
      omega
    · rw [List.filter_map, List.filter_map, List.map_map]
      have hf : (tagsOf (window P (P + n) xs)).filter ((fun t : Nat × τ => decide (t.1 ≤ c.nPre)) ∘ fun t : Nat × τ => (t.1 + n, t.2)) =
          (tagsOf (window P (P + n) xs)).filter ((fun t : Nat × τ => decide (P + n - t.1 ≤ c.nPre)) ∘ fun t : Nat × τ => (P + t.1, t.2)) := by
        apply List.filter_congr
        intro t ht
        have := hz t ht
        simp only [Function.comp, this]
        congr 2
        omega
      rw [hf]
      apply List.map_congr_left
      intro t ht
      have := hz t ((List.mem_filter.mp ht).1)
      simp only [Function.comp, this]
      congr 1
      omega

theorem chunk_tags_zero {xs : Strm α τ} {P n : Nat} (h : Chunk xs P n) : ∀ t ∈ tagsOf (window P (P + n) xs), t.1 = 0 := by
  obtain ⟨x, hx, _⟩ := chunk_cons h
  rw [tagsOf_chunk h hx]
  intro t ht
  obtain ⟨u, _, rfl⟩ := List.mem_map.mp ht
  rfl

theorem hist_push (c : Cfg τ σ) (xs : Strm α τ) (P n : Nat) (hist : List α)
    (h : hist = (((xs.take P).map (·.1)).reverse).take c.cap) :
    pushHist c hist ((window P (P + n) xs).map (·.1)) = (((xs.take (P + n)).map (·.1)).reverse).take c.cap := by
  unfold pushHist
  rw [h, take_cap, take_window xs P (P + n) (by omega), List.map_append, List.reverse_append]

theorem histD_ok (c : Cfg τ σ) (xs : Strm α τ) {P n : Nat} (hc : Chunk xs P n) (s : DSt α τ σ) (h : HistOk c xs P s.hist s.histTags) :
    HistOk c xs (P + n) (historyD c s ((window P (P + n) xs).map (·.1)) (tagsOf (window P (P + n) xs))).hist
      (historyD c s ((window P (P + n) xs).map (·.1)) (tagsOf (window P (P + n) xs))).histTags := by
  have hl : ((window P (P + n) xs).map (·.1)).length = n := by rw [List.length_map, chunk_length hc]
  have hn := hc.pos
  unfold historyD
  rw [hl, if_neg (by omega)]
  have ht := (tags_age c xs P n hc.le hn s.histTags h.tags).resolve_right
    (fun ⟨t, ht, h0⟩ => h0 (chunk_tags_zero hc t ht))
  split
  · next h0 =>
    refine ⟨fun h' => by omega, ?_⟩
    dsimp only
    rw [h.tags, h0]
    have key : ∀ Q, Q ≤ xs.length → (tagsOf (xs.take Q)).filter (fun t => Q - t.1 ≤ 0) = [] := by
      intro Q hQ
      rw [List.filter_eq_nil_iff]
      intro t ht
      have := tagsOf_lt _ t ht
      rw [List.length_take] at this
      simp; omega
    have := hc.le
    rw [key P (by omega), key (P + n) (by omega)]
    rfl
  · next h0 => exact ⟨fun _ => hist_push c xs P n s.hist (h.samples (by omega)), ht⟩

theorem historyD_items (c : Cfg τ σ) (s : DSt α τ σ) (ins : List α) (tags : List (Nat × τ)) : (historyD c s ins tags).items = s.items := by
  unfold historyD
  split
  · rfl
  · split <;> rfl

/-! ## the samples before the trigger -/

theorem preD_fields (c : Cfg τ σ) (hist : List α) (T : List (Nat × τ)) (i : Item α τ σ) :
    (preD c hist T i).acc.active = i.acc.active ∧ (preD c hist T i).acc.post = i.acc.post ∧ (preD c hist T i).st = i.st := by
  unfold preD
  split <;> exact ⟨rfl, rfl, rfl⟩

theorem preD_st (c : Cfg τ σ) (hist : List α) (T : List (Nat × τ)) (i : Item α τ σ) (s : σ) :
    preD c hist T { i with st := s } = { preD c hist T i with st := s } := by
  unfold preD
  dsimp only
  split <;> rfl

theorem preD_id (c : Cfg τ σ) (hist : List α) (T : List (Nat × τ)) (i : Item α τ σ) (h : i.acc.pre = false) : preD c hist T i = i := by
  unfold preD
  rw [h]
  rfl

/-- the history gives the samples and tags before the trigger -/
theorem pre_new (c : Cfg τ σ) (xs : Strm α τ) (P : Nat) (hP : P ≤ xs.length) (hist : List α) (T : List (Nat × τ)) (h : HistOk c xs P hist T)
    (i : Item α τ σ) (hds : i.ds = {}) (hn : i.acc.n = 0) (hnp : i.acc.nPre = 0) (hpre : i.acc.pre = decide (0 < c.nPre)) :
    (preD c hist T i).ds = DS.ofSamples c.isEmpty (min c.nPre P) ((xs.drop (P - c.nPre)).take (min c.nPre P)) ∧
      (preD c hist T i).acc = { i.acc with pre := false, nPre := min c.nPre P, n := min c.nPre P } := by
  by_cases h0 : c.nPre = 0
  · have hpf : i.acc.pre = false := by rw [hpre, h0]; rfl
    rw [preD_id _ _ _ _ hpf, h0, hds]
    refine ⟨?_, ?_⟩
    · rw [Nat.zero_min, List.take_zero]; rfl
    · rw [Nat.zero_min]; cases i with | mk d a s => cases a; simp_all
  · have hcap : c.nPre ≤ c.cap := by unfold Cfg.cap; omega
    have hpt : i.acc.pre = true := by rw [hpre]; simp; omega
    have hl : min c.nPre hist.length = min c.nPre P := by
      rw [h.samples (by omega), List.length_take, List.length_reverse, List.length_map, List.length_take]
      omega
    obtain ⟨lo, hlo⟩ : ∃ lo, lo = P - c.nPre := ⟨_, rfl⟩
    have hk : min c.nPre P = P - lo := by omega
    have hw : (xs.drop lo).take (P - lo) = window lo P xs := by rw [window_eq]
    unfold preD
    rw [hpt]
    dsimp only [Bool.not_true]
    rw [if_neg (by simp), hl, hds, hk, ← hlo, hw]
    refine ⟨?_, by rw [hn, Nat.zero_add]⟩
    have hsamp : (hist.take (P - lo)).reverse = (window lo P xs).map (·.1) := by
      rw [h.samples (by omega), List.take_take, Nat.min_eq_left (by omega), List.take_reverse, List.reverse_reverse, List.length_map,
        List.length_take, Nat.min_eq_left hP, ← List.map_drop]
      unfold window
      congr 2
      omega
    have hev : (if P - lo = 0 then [] else (T.filter (fun t => t.1 ≤ P - lo && !c.isEmpty t.2)).map (fun t => (P - lo - t.1, t.2))) =
        (tagsOf (window lo P xs)).filter (fun t => !c.isEmpty t.2) := by
      split
      · next hz =>
        have : window lo P xs = [] := by rw [window_eq, hz]; rfl
        rw [this]; rfl
      · rw [h.tags, List.filter_map, List.filter_filter, List.map_map]
        have hsplit : xs.take P = xs.take lo ++ window lo P xs := take_window xs lo P (by omega)
        rw [hsplit, tagsOf_append, List.filter_append, List.map_append, List.length_take, Nat.min_eq_left (by omega)]
        have h1 : (tagsOf (xs.take lo)).filter (fun a => ((fun t : Nat × τ => decide (t.1 ≤ P - lo) && !c.isEmpty t.2) ∘
            fun t : Nat × τ => (P - t.1, t.2)) a && decide (P - a.1 ≤ c.nPre)) = [] := by
          rw [List.filter_eq_nil_iff]
          intro t ht
          have := tagsOf_lt _ t ht
          rw [List.length_take] at this
          simp; omega
        rw [h1, List.map_nil, List.nil_append, List.filter_map, List.map_map]
        have h2 : (tagsOf (window lo P xs)).filter ((fun a => ((fun t : Nat × τ => decide (t.1 ≤ P - lo) && !c.isEmpty t.2) ∘
            fun t : Nat × τ => (P - t.1, t.2)) a && decide (P - a.1 ≤ c.nPre)) ∘ fun t : Nat × τ => (lo + t.1, t.2)) =
            (tagsOf (window lo P xs)).filter (fun t => !c.isEmpty t.2) := by
          apply List.filter_congr
          intro t ht
          simp only [Function.comp]
          have e1 : decide (P - (lo + t.1) ≤ P - lo) = true := by simp; omega
          have e2 : decide (P - (lo + t.1) ≤ c.nPre) = true := by simp; omega
          rw [e1, e2]; simp
        rw [h2]
        conv => rhs; rw [← List.map_id ((tagsOf (window lo P xs)).filter _)]
        apply List.map_congr_left
        intro t ht
        have := tagsOf_lt _ t ((List.mem_filter.mp ht).1)
        rw [window_length _ _ _ hP] at this
        simp only [Function.comp, id]
        refine Prod.ext ?_ rfl
        dsimp only; omega
    unfold DS.ofSamples
    rw [hsamp, hev, window_length _ _ _ hP]
    simp only [List.nil_append, DS.mk.injEq, true_and, and_true, fillAxis]
    apply List.map_congr_left
    intro a _
    omega

/-! ## opening and closing -/

variable {c : Cfg τ σ} {R : Rule τ} {On Off : σ → Prop}

theorem det_opens (F : Follows c R On Off) {t : τ} {s : σ} (hs : Off s) (h : R.opens t) :
    (detect c t s).2 = ⟨true, false, R.single⟩ ∧ (if R.single then Off (detect c t s).1 else On (detect c t s).1) := by
  have := F.opens t s hs h
  unfold detect
  revert this
  rcases c.m t s with ⟨s', r, g⟩
  rintro ⟨he, hst⟩
  cases he
  exact ⟨rfl, hst⟩

theorem det_waits (F : Follows c R On Off) {t : τ} {s : σ} (hs : Off s) (h : ¬ R.opens t) :
    (detect c t s).2 = ⟨false, false, false⟩ ∧ Off (detect c t s).1 := by
  have := F.waits t s hs h
  unfold detect
  revert this
  rcases c.m t s with ⟨s', r, g⟩
  rintro ⟨he, hst⟩
  cases he
  exact ⟨rfl, hst⟩

theorem det_closes (F : Follows c R On Off) {t : τ} {s : σ} (hs : On s) (h : R.closes t) :
    (∃ g, (detect c t s).2 = ⟨false, true, g⟩) ∧ Off (detect c t s).1 := by
  have := F.closes t s hs h
  unfold detect
  revert this
  rcases c.m t s with ⟨s', r, g⟩
  rintro ⟨he, hst⟩
  cases he
  exact ⟨⟨g, rfl⟩, hst⟩

theorem det_stays (F : Follows c R On Off) {t : τ} {s : σ} (hs : On s) (h : ¬ R.closes t) :
    (detect c t s).2 = ⟨false, false, false⟩ ∧ On (detect c t s).1 := by
  have := F.stays t s hs h
  unfold detect
  revert this
  rcases c.m t s with ⟨s', r, g⟩
  rintro ⟨he, hst⟩
  cases he
  exact ⟨rfl, hst⟩

/-- an entry before its samples before the trigger are filled in -/
def Mid (c : Cfg τ σ) (On Off : σ → Prop) (xs : Strm α τ) (P : Nat) (hist : List α) (T : List (Nat × τ)) (r : Range) (i : Item α τ σ) : Prop :=
  At c On Off xs P r (preD c hist T i) ∧ (i.acc.active = false → i.acc.pre = false)

theorem at_mid {xs : Strm α τ} {P : Nat} (hist : List α) (T : List (Nat × τ)) {r : Range} {i : Item α τ σ} (h : At c On Off xs P r i) :
    Mid c On Off xs P hist T r i := by
  unfold Mid; rw [preD_id _ _ _ _ h.pre]; exact ⟨h, fun _ => h.pre⟩

/-- open or not, seen at an entry -/
theorem mid_open {xs : Strm α τ} {P : Nat} {hist : List α} {T : List (Nat × τ)} {r : Range} {i : Item α τ σ}
    (h : Mid c On Off xs P hist T r i) : (!i.acc.active || i.acc.post) = (r.stop != none) ∧ (r.stop = none → On i.st) ∧ (r.stop ≠ none → Off i.st) := by
  obtain ⟨ha, hp, hst⟩ := preD_fields c hist T i
  replace h := h.1
  cases hs : r.stop with
  | none =>
    obtain ⟨h1, h2, h3, _⟩ := h.opened hs
    rw [ha] at h1; rw [hp] at h2; rw [hst] at h3
    exact ⟨by rw [h1, h2]; rfl, fun _ => h3, fun h => absurd rfl h⟩
  | some e =>
    obtain ⟨_, _, h3, _, h5, _⟩ := h.closed e hs
    rw [ha, hp] at h5; rw [hst] at h3
    refine ⟨?_, nofun, fun _ => h3⟩
    cases hA : i.acc.active with
    | true => rw [(h5 hA).1]; rfl
    | false => rfl

/-- a tag that does not close leaves the ranges as they are -/
theorem close_stay (F : Follows c R On Off) {xs : Strm α τ} {P : Nat} {hist : List α} {T : List (Nat × τ)} {t : τ} (ht : ¬ R.closes t)
    {rs : List Range} {items : List (Item α τ σ)} (h : All2 (Mid c On Off xs P hist T) rs items) :
    All2 (Mid c On Off xs P hist T) rs (closeD c t items) := by
  induction h with
  | nil => exact .nil
  | @cons r i rs' items' h t' ih =>
    unfold closeD
    obtain ⟨ho, hon, _⟩ := mid_open h
    rw [ho]
    split
    · exact .cons h ih
    · next hs =>
      have hs' : r.stop = none := by simpa using hs
      obtain ⟨hd, hst⟩ := det_stays F (hon hs') ht
      refine .cons ?_ t'
      rw [hd]
      simp only [Bool.false_eq_true, if_false]
      obtain ⟨h, hpre⟩ := h
      refine ⟨?_, hpre⟩
      have : ({ ds := i.ds, acc := i.acc, st := (detect c t i.st).1 } : Item α τ σ) = { i with st := (detect c t i.st).1 } := rfl
      rw [this, preD_st]
      exact ⟨h.startLe, h.ds, h.pre, h.npre, fun hn => ⟨(h.opened hn).1, (h.opened hn).2.1, hst, (h.opened hn).2.2.2⟩,
        fun e he => by rw [hs'] at he; cases he⟩

/-- a tag that closes closes the first open range -/
theorem close_first (F : Follows c R On Off) {xs : Strm α τ} {P : Nat} {t : τ} (ht : R.closes t)
    {rs : List Range} {items : List (Item α τ σ)} (h : All2 (At c On Off xs P) rs items) :
    All2 (At c On Off xs P) (closeFirst P rs) (closeD c t items) := by
  induction h with
  | nil => exact .nil
  | @cons r i rs' items' h t' ih =>
    unfold closeD closeFirst
    obtain ⟨ho, hon, _⟩ := mid_open (at_mid [] [] h)
    rw [ho]
    by_cases hs : r.stop = none
    · rw [if_pos hs, if_neg (by rw [hs]; simp)]
      obtain ⟨⟨g, hd⟩, hst⟩ := det_closes F (hon hs) ht
      obtain ⟨h1, h2, h3, h4⟩ := h.opened hs
      refine .cons ?_ t'
      rw [hd]
      simp only [if_true]
      have hu : i.acc.update ⟨false, true, g⟩ c.nPre c.nPost = { i.acc with single := g, post := true, remain := c.nPost } := by
        unfold Acc.update Acc.open
        simp only [h1, h2, Bool.not_true, Bool.false_and, Bool.false_eq_true, if_false, Bool.not_false, Bool.and_self, if_true]
      rw [hu]
      refine ⟨h.startLe, h.ds, h.pre, h.npre, nofun, ?_⟩
      intro e he
      cases he
      refine ⟨Nat.le_refl _, h.startLe, hst, ?_, fun _ => ⟨rfl, ?_, fun hlt => absurd hlt (by omega)⟩, ?_⟩
      · dsimp only; rw [h4, Nat.min_eq_left (by omega)]
      · dsimp only; rw [h4]; omega
      · intro ha; dsimp only at ha; rw [h1] at ha; cases ha
    · rw [if_neg hs, if_pos (by simpa using hs)]
      exact .cons h ih

theorem closeFirst_none (p : Nat) (rs : List Range) (h : rs.any (fun r => r.stop = none) = false) : closeFirst p rs = rs := by
  induction rs with
  | nil => rfl
  | cons r rs ih =>
    rw [List.any_cons, Bool.or_eq_false_iff] at h
    unfold closeFirst
    rw [if_neg (by simpa using h.1), ih h.2]

/-- the entry of a new range -/
theorem mid_new (F : Follows c R On Off) {xs : Strm α τ} {P : Nat} (hP : P ≤ xs.length) (hmax : c.nMax = 0 ∨ c.nPre + c.nPost ≤ c.nMax)
    {hist : List α} {T : List (Nat × τ)} (hh : HistOk c xs P hist T) {t : τ} (ht : R.opens t) :
    Mid c On Off xs P hist T ⟨P, if R.single then some P else none⟩
      ⟨{}, ({} : Acc).update (detect c t c.fresh).2 c.nPre c.nPost, (detect c t c.fresh).1⟩ := by
  obtain ⟨hd, hst⟩ := det_opens F F.fresh ht
  have hu : ({} : Acc).update (detect c t c.fresh).2 c.nPre c.nPost =
      { active := true, pre := decide (0 < c.nPre), post := R.single, single := R.single, remain := if R.single then c.nPost else 0,
        nPre := 0, n := 0 } := by
    rw [hd]
    unfold Acc.update Acc.open
    cases R.single <;> simp
  rw [hu]
  refine ⟨?_, nofun⟩
  have key := pre_new c xs P hP hist T hh
    (⟨{}, { active := true, pre := decide (0 < c.nPre), post := R.single, single := R.single,
            remain := if R.single then c.nPost else 0, nPre := 0, n := 0 }, (detect c t c.fresh).1⟩ : Item α τ σ) rfl rfl rfl rfl
  have hst' := (preD_fields c hist T
    (⟨{}, { active := true, pre := decide (0 < c.nPre), post := R.single, single := R.single,
            remain := if R.single then c.nPost else 0, nPre := 0, n := 0 }, (detect c t c.fresh).1⟩ : Item α τ σ)).2.2
  have hlim : min c.nPre P = lim c (P - (P - c.nPre)) := by
    unfold lim; split <;> omega
  refine ⟨Nat.le_refl _, ?_, ?_, ?_, ?_, ?_⟩
  · rw [key.2]; exact key.1
  · rw [key.2]
  · rw [key.2]
  · intro hs
    have hsg : R.single = false := by
      cases h : R.single with
      | false => rfl
      | true => rw [h] at hs; cases hs
    rw [hst', key.2]
    rw [hsg] at hst
    exact ⟨rfl, hsg, by simpa using hst, hlim⟩
  · intro e he
    have hsg : R.single = true := by
      cases h : R.single with
      | true => rfl
      | false => rw [h] at he; cases he
    rw [hsg] at he hst
    have he' : P = e := by simpa using he
    subst he'
    rw [hst', key.2]
    refine ⟨Nat.le_refl _, Nat.le_refl _, by simpa using hst, ?_, fun _ => ⟨hsg, ?_, fun h => absurd h (by omega)⟩, nofun⟩
    · dsimp only; rw [Nat.min_eq_left (show P ≤ P + c.nPost by omega)]; exact hlim
    · dsimp only; rw [hsg, if_pos rfl, hlim]; omega

/-- **the tags of a call** -/
theorem open_close (F : Follows c R On Off) {xs : Strm α τ} {P : Nat} (hP : P ≤ xs.length)
    (hmax : c.nMax = 0 ∨ c.nPre + c.nPost ≤ c.nMax) {hist : List α} {T : List (Nat × τ)} (hh : HistOk c xs P hist T)
    (ts : List τ) (hdis : ∀ t ∈ ts, R.opens t → ¬ R.closes t) {rs : List Range} {items : List (Item α τ σ)} (h : All2 (At c On Off xs P) rs items) :
    All2 (Mid c On Off xs P hist T) (judge R rs P ts)
      (closeD c (findD c items (ts.map (fun t => (0, t)))) (openD c (findD c items (ts.map (fun t => (0, t)))) items)) := by
  -- the test for the tag that counts
  have hf : (fun t : τ => (detect c t c.fresh).2.any || items.any (fun i => (detect c t i.st).2.any)) =
      (fun t => R.opens t || (R.closes t && rs.any (fun r => r.stop = none))) := by
    funext t
    by_cases ho : R.opens t
    · rw [(det_opens F F.fresh ho).1, ho]; rfl
    · rw [(det_waits F F.fresh ho).1, show R.opens t = false by simpa using ho]
      unfold Det.any
      simp only [Bool.or_false, Bool.false_or]
      clear hh
      induction h with
      | nil => simp
      | @cons r i rs' items' h t' ih =>
        rw [List.any_cons, List.any_cons, ih]
        obtain ⟨_, hon, hoff⟩ := mid_open (at_mid [] [] h)
        by_cases hs : r.stop = none
        · by_cases hcl : R.closes t
          · obtain ⟨⟨g, hd⟩, _⟩ := det_closes F (hon hs) hcl
            simp [hd, hs, hcl]
          · simp [(det_stays F (hon hs) hcl).1, hcl]
        · simp [(det_waits F (hoff hs) ho).1, hs]
  have hpick : findD c items (ts.map (fun t => (0, t))) =
      (ts.find? (fun t => R.opens t || (R.closes t && rs.any (fun r => r.stop = none)))).getD (ts.head?.getD c.empty) := by
    unfold findD pick
    rw [hf]
    have h1 : (ts.map (fun t => (0, t))).filter (fun t : Nat × τ => t.1 = 0) = ts.map (fun t => (0, t)) := by
      rw [List.filter_eq_self]
      intro t ht
      obtain ⟨u, _, rfl⟩ := List.mem_map.mp ht
      rfl
    dsimp only
    rw [h1, List.find?_map, List.head?_map]
    simp only [Function.comp_def]
    cases List.find? (fun t => R.opens t || (R.closes t && rs.any (fun r => r.stop = none))) ts with
    | none => cases ts.head? <;> rfl
    | some u => rfl
  have hopenD : ∀ t, ¬ R.opens t → openD c t items = items := by
    intro t ht
    unfold openD
    dsimp only
    rw [(det_waits F F.fresh ht).1]
    rfl
  rw [hpick]
  unfold judge control
  cases hfind : ts.find? (fun t => R.opens t || (R.closes t && rs.any (fun r => r.stop = none))) with
  | some t =>
    dsimp only [Option.getD]
    by_cases ho : R.opens t
    · have hc := hdis t (List.mem_of_find?_eq_some hfind) ho
      rw [if_pos ho, if_neg hc]
      apply close_stay F hc
      have hst : (detect c t c.fresh).2.start = true := by rw [(det_opens F F.fresh ho).1]
      unfold openD
      dsimp only
      rw [hst]
      simp only [if_true]
      exact (h.imp (fun _ _ _ _ => at_mid hist T)).append (.cons (mid_new F hP hmax hh ho) .nil)
    · have hc : R.closes t := by
        have := List.find?_some hfind
        simp only [show R.opens t = false by simpa using ho, Bool.false_or, Bool.and_eq_true] at this
        exact this.1
      rw [if_neg ho, if_pos hc, hopenD t ho]
      exact (close_first F hc h).imp (fun _ _ _ _ => at_mid hist T)
  | none =>
    dsimp only [Option.getD_none]
    have hno : ∀ t ∈ ts, R.opens t = false ∧ (R.closes t && rs.any (fun r => r.stop = none)) = false := by
      intro t ht
      have := List.find?_eq_none.mp hfind t ht
      simpa using this
    have key : ¬ R.opens (ts.head?.getD c.empty) ∧ (R.closes (ts.head?.getD c.empty) && rs.any (fun r => r.stop = none)) = false := by
      cases ts with
      | nil =>
        simp only [List.head?_nil, Option.getD_none]
        exact ⟨F.empty.1, by rw [show R.closes c.empty = false by simpa using F.empty.2]; rfl⟩
      | cons u r =>
        have := hno u List.mem_cons_self
        simp only [List.head?_cons, Option.getD_some]
        exact ⟨by simp [this.1], this.2⟩
    rw [hopenD _ key.1]
    by_cases hc : R.closes (ts.head?.getD c.empty)
    · have hany : rs.any (fun r => r.stop = none) = false := by
        have := key.2
        rw [hc, Bool.true_and] at this
        exact this
      have := close_first (P := P) F hc h
      rw [closeFirst_none _ _ hany] at this
      exact this.imp (fun _ _ _ _ => at_mid hist T)
    · exact close_stay F hc (h.imp (fun _ _ _ _ => at_mid hist T))

/-! ## accumulation -/

/-- a complete entry stays as it is -/
theorem at_idle {xs : Strm α τ} {P : Nat} (n : Nat) {r : Range} {i : Item α τ σ} (hin : i.acc.active = false) (h : At c On Off xs P r i) :
    At c On Off xs (P + n) r i := by
  refine ⟨by have := h.startLe; omega, h.ds, h.pre, h.npre, ?_, ?_⟩
  · intro hs
    have := (h.opened hs).1
    rw [hin] at this; cases this
  · intro e he
    obtain ⟨h1, h2, h3, h4, h5, h6⟩ := h.closed e he
    obtain ⟨h7, h8⟩ := h6 hin
    refine ⟨by omega, h2, h3, ?_, fun ha => (by rw [hin] at ha; cases ha), fun _ => ⟨by omega, ?_⟩⟩
    · rw [h4]
      rcases h8 with h8 | ⟨h8, h9⟩
      · rw [Nat.min_eq_right h8, Nat.min_eq_right (by omega)]
      · rw [h4] at h9
        unfold lim at h9 ⊢
        simp only [if_neg h8] at h9 ⊢
        omega
    · rcases h8 with h8 | h8
      · exact Or.inl (by omega)
      · exact Or.inr h8

theorem at_accumulate {xs : Strm α τ} (hm : c.nMax < 2 ^ 64) {P n : Nat} (hP : P + n ≤ xs.length) (h0 : 0 < n) {hist : List α}
    {T : List (Nat × τ)} {r : Range} {i : Item α τ σ} (h : Mid c On Off xs P hist T r i) :
    At c On Off xs (P + n) r
      (accumulate c hist T ((window P (P + n) xs).map (·.1)) (tagsOf (window P (P + n) xs)) i) := by
  unfold accumulate
  obtain ⟨ha, _, _⟩ := preD_fields c hist T i
  by_cases hact : i.acc.active = true
  · rw [hact]
    exact at_copy c On Off xs hm P n hP h0 r _ (by rw [ha]; exact hact) h.1
  · have hin : i.acc.active = false := by simpa using hact
    rw [hin]
    have hi : At c On Off xs (P + n) r (preD c hist T i) := at_idle n (by rw [ha]; exact hin) h.1
    rw [preD_id _ _ _ _ (h.2 hin)] at hi
    exact hi

end Verif.Sel
