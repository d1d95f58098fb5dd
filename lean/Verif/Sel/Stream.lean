import Verif.Sel.Run
/-!
# StreamFilter: one call
-/
namespace Verif.Sel

variable {α τ σ : Type} {c : Cfg τ σ} {R : Rule τ} {On Off : σ → Prop}

/-! ## the selected samples -/

/-- end of the last range -/
def lastEnd (nPost P : Nat) : Nat → List Range → Nat
  | last, [] => last
  | _, r :: rs => lastEnd nPost P (r.upTo nPost P) rs

/-- what one range adds -/
def piece (nPre nPost : Nat) (xs : Strm α τ) (P last : Nat) (r : Range) : Strm α τ :=
  bare (window (r.start - nPre) (min last (r.upTo nPost P)) xs) ++ window (max last (r.start - nPre)) (r.upTo nPost P) xs

theorem selected_append (nPre nPost : Nat) (xs : Strm α τ) (P : Nat) (rs : List Range) (r : Range) (last : Nat) :
    selected nPre nPost xs P last (rs ++ [r]) = selected nPre nPost xs P last rs ++ piece nPre nPost xs P (lastEnd nPost P last rs) r := by
  induction rs generalizing last with
  | nil => simp [selected, piece, lastEnd]
  | cons a l ih =>
    rw [List.cons_append, selected, selected, lastEnd, ih, List.append_assoc, List.append_assoc, List.append_assoc]

/-- all ranges are over by `Q` -/
def Over (nPost Q : Nat) (rs : List Range) : Prop := ∀ r ∈ rs, ∃ e, r.stop = some e ∧ e + nPost ≤ Q

theorem over_upTo {nPost Q P : Nat} {r : Range} (h : ∃ e, r.stop = some e ∧ e + nPost ≤ Q) (hQ : Q ≤ P) :
    r.upTo nPost P = r.upTo nPost Q ∧ r.upTo nPost P ≤ Q := by
  obtain ⟨e, h1, h2⟩ := h
  unfold Range.upTo
  rw [h1]
  dsimp only
  omega

theorem over_selected (nPre nPost : Nat) (xs : Strm α τ) {P Q : Nat} (hQ : Q ≤ P) (rs : List Range) (h : Over nPost Q rs) (last : Nat) :
    selected nPre nPost xs P last rs = selected nPre nPost xs Q last rs ∧ lastEnd nPost P last rs = lastEnd nPost Q last rs := by
  induction rs generalizing last with
  | nil => exact ⟨rfl, rfl⟩
  | cons r l ih =>
    have h1 := over_upTo (h r List.mem_cons_self) hQ
    have h2 := ih (fun r' hr' => h r' (List.mem_cons_of_mem _ hr')) (r.upTo nPost Q)
    unfold selected lastEnd
    rw [h1.1, h2.1, h2.2]
    exact ⟨rfl, rfl⟩

theorem lastEnd_le {nPost Q P : Nat} (hQ : Q ≤ P) (rs : List Range) (h : Over nPost Q rs) (last : Nat) (hl : last ≤ Q) :
    lastEnd nPost P last rs ≤ Q := by
  induction rs generalizing last with
  | nil => exact hl
  | cons r l ih =>
    unfold lastEnd
    exact ih (fun r' hr' => h r' (List.mem_cons_of_mem _ hr')) _ (over_upTo (h r List.mem_cons_self) hQ).2

theorem window_split (xs : Strm α τ) (lo mid hi : Nat) (h1 : lo ≤ mid) (h2 : mid ≤ hi) :
    window lo hi xs = window lo mid xs ++ window mid hi xs := by
  rw [window_eq, window_eq, window_eq, show hi - lo = (mid - lo) + (hi - mid) by omega, List.take_add, List.drop_drop,
    show lo + (mid - lo) = mid by omega]

theorem bare_map (w : Strm α τ) : (bare w).map (·.1) = w.map (·.1) := by unfold bare; rw [List.map_map]; rfl

theorem bare_length (w : Strm α τ) : (bare w).length = w.length := by unfold bare; rw [List.length_map]

theorem tagsOf_bare (w : Strm α τ) : tagsOf (bare w) = [] := by
  apply tagsOf_untagged
  intro x hx
  obtain ⟨y, _, rfl⟩ := List.mem_map.mp hx
  rfl

/-! ## the history -/

/-- tags of the samples from `first` on, at most `nPre` back -/
def recentTags (nPre : Nat) (xs : Strm α τ) (first P : Nat) : List (Nat × τ) :=
  (tagsOf (window (max first (P - nPre)) P xs)).map (fun t => (P - (max first (P - nPre) + t.1), t.2))

def histOf (c : Cfg τ σ) (xs : Strm α τ) (P : Nat) : List α := (((xs.take P).map (·.1)).reverse).take c.cap

/-! ## configurations between the calls -/

/-- status of the range a call works on; `ts` are the tags of the next sample, `seen` says that they have been looked at -/
structure Busy (c : Cfg τ σ) (R : Rule τ) (On Off : σ → Prop) (xs : Strm α τ) (ts : List τ) (rs0 : List Range) (r : Range) (P : Nat)
    (seen : Bool) (s : SSt α τ σ) (out : Strm α τ) : Prop where
  over : Over c.nPost r.start rs0
  active : s.acc.active = true
  le : r.start ≤ P
  opened : r.stop = none → s.acc.post = false ∧ On s.st ∧ (seen = false → r.start < P) ∧ (seen = true → ∀ t ∈ ts, ¬ R.closes t)
  closed : ∀ e, r.stop = some e → e ≤ P ∧ s.acc.post = true ∧ Off s.st ∧ s.acc.remain = e + c.nPost - P ∧ P ≤ e + c.nPost ∧
    (seen = false → P < e + c.nPost) ∧ (e = r.start → R.single = true) ∧ r.start ≤ e ∧ (seen = true → R.single = true ∨ ∀ t ∈ ts, ¬ R.opens t)
  pre : s.acc.pre = true → seen = true ∧ r.start = P ∧ 0 < c.nPre ∧ out = selected c.nPre c.nPost xs P 0 rs0 ∧
    s.histTags = recentTags c.nPre xs (lastEnd c.nPost P 0 rs0) P
  done : s.acc.pre = false → out = selected c.nPre c.nPost xs P 0 (rs0 ++ [r]) ∧ s.histTags = []

/-- no range is being worked on -/
structure Idle (c : Cfg τ σ) (Off : σ → Prop) (xs : Strm α τ) (rs : List Range) (P : Nat) (s : SSt α τ σ) (out : Strm α τ) : Prop where
  over : Over c.nPost P rs
  inactive : s.acc.active = false
  post : s.acc.post = false
  off : Off s.st
  out : out = selected c.nPre c.nPost xs P 0 rs
  tags : s.histTags = recentTags c.nPre xs (lastEnd c.nPost P 0 rs) P

def Body (c : Cfg τ σ) (R : Rule τ) (On Off : σ → Prop) (xs : Strm α τ) (ts : List τ) (rs : List Range) (P : Nat) (seen : Bool)
    (s : SSt α τ σ) (out : Strm α τ) : Prop :=
  Idle c Off xs rs P s out ∨ ∃ rs0 r, rs = rs0 ++ [r] ∧ Busy c R On Off xs ts rs0 r P seen s out

/-! ## tags -/

/-- `update` of a state that is not active -/
theorem update_idle (a : Acc) (h : a.active = false) (p q : Nat) (d : Det) (hs : d.start = false) :
    (a.update d p q) = { a with single := d.single } := by
  unfold Acc.update Acc.open
  simp [h, hs]

theorem update_start (a : Acc) (h : a.active = false) (hp : a.post = false) (p q : Nat) (g : Bool) :
    (a.update ⟨true, false, g⟩ p q).active = true ∧ (a.update ⟨true, false, g⟩ p q).pre = decide (0 < p) ∧
      (a.update ⟨true, false, g⟩ p q).post = g ∧ (g = true → (a.update ⟨true, false, g⟩ p q).remain = q) := by
  unfold Acc.update Acc.open
  cases g <;> simp [h, hp]

/-- `update` of an active state without a stop changes nothing that matters -/
theorem update_busy (a : Acc) (h : a.active = true) (p q : Nat) (d : Det) (hs : d.stop = false) :
    (a.update d p q) = { a with single := d.single } := by
  unfold Acc.update Acc.open
  simp [h, hs]

theorem update_stop (a : Acc) (h : a.active = true) (hp : a.post = false) (p q : Nat) (g : Bool) :
    (a.update ⟨false, true, g⟩ p q) = { a with single := g, post := true, remain := q } := by
  unfold Acc.update Acc.open
  simp [h, hp]

theorem pick_map (c : Cfg τ σ) (ts : List τ) (f : τ → Bool) :
    pick c (ts.map (fun t => (0, t))) f = (ts.find? f).getD (ts.head?.getD c.empty) := by
  unfold pick
  have h1 : (ts.map (fun t => (0, t))).filter (fun t : Nat × τ => t.1 = 0) = ts.map (fun t => (0, t)) := by
    rw [List.filter_eq_self]
    intro t ht
    obtain ⟨u, _, rfl⟩ := List.mem_map.mp ht
    rfl
  dsimp only
  rw [h1, List.find?_map, List.head?_map]
  simp only [Function.comp_def]
  cases List.find? f ts with
  | none => cases ts.head? <;> rfl
  | some u => rfl

/-- the tag that is looked at when waiting for an opening one -/
theorem find_off (F : Follows c R On Off) {st : σ} (h : Off st) (ts : List τ) :
    (∃ t, ts.find? R.opens = some t ∧ findS c st (ts.map (fun t => (0, t))) = t ∧ R.opens t) ∨
    (ts.find? R.opens = none ∧ ¬ R.opens (findS c st (ts.map (fun t => (0, t))))) := by
  have hf : (fun t => (detect c t st).2.any) = R.opens := by
    funext t
    by_cases ho : R.opens t
    · rw [(det_opens F h ho).1, ho]; rfl
    · rw [(det_waits F h ho).1, show R.opens t = false by simpa using ho]; rfl
  unfold findS
  rw [hf, pick_map]
  cases hx : ts.find? R.opens with
  | some t => exact Or.inl ⟨t, rfl, rfl, List.find?_some hx⟩
  | none =>
    refine Or.inr ⟨rfl, ?_⟩
    cases ts with
    | nil => exact F.empty.1
    | cons u r => exact List.find?_eq_none.mp hx u List.mem_cons_self

/-- the tag that is looked at when waiting for a closing one -/
theorem find_on (F : Follows c R On Off) {st : σ} (h : On st) (ts : List τ) :
    (∃ t, ts.find? R.closes = some t ∧ findS c st (ts.map (fun t => (0, t))) = t ∧ R.closes t) ∨
    (ts.find? R.closes = none ∧ ¬ R.closes (findS c st (ts.map (fun t => (0, t))))) := by
  have hf : (fun t => (detect c t st).2.any) = R.closes := by
    funext t
    by_cases ho : R.closes t
    · obtain ⟨⟨g, hd⟩, _⟩ := det_closes F h ho
      rw [hd, ho]; rfl
    · rw [(det_stays F h ho).1, show R.closes t = false by simpa using ho]; rfl
  unfold findS
  rw [hf, pick_map]
  cases hx : ts.find? R.closes with
  | some t => exact Or.inl ⟨t, rfl, rfl, List.find?_some hx⟩
  | none =>
    refine Or.inr ⟨rfl, ?_⟩
    cases ts with
    | nil => exact F.empty.2
    | cons u r => exact List.find?_eq_none.mp hx u List.mem_cons_self

/-! ## the ranges and the tags of one sample -/

theorem judge_none (rs : List Range) (P : Nat) (ts : List τ) (h : control R rs ts = none) : judge R rs P ts = rs := by
  unfold judge
  rw [h]

theorem judge_opens (rs : List Range) (P : Nat) (ts : List τ) {t : τ} (h : control R rs ts = some t) (ho : R.opens t) (hc : ¬ R.closes t) :
    judge R rs P ts = rs ++ [⟨P, if R.single then some P else none⟩] := by
  unfold judge
  rw [h]
  dsimp only
  rw [if_neg hc, if_pos ho]

theorem judge_closes (rs : List Range) (P : Nat) (ts : List τ) {t : τ} (h : control R rs ts = some t) (ho : ¬ R.opens t) (hc : R.closes t) :
    judge R rs P ts = closeFirst P rs := by
  unfold judge
  rw [h]
  dsimp only
  rw [if_pos hc, if_neg ho]

theorem over_closed {nPost Q : Nat} {rs : List Range} (h : Over nPost Q rs) : rs.any (fun r => r.stop = none) = false := by
  rw [List.any_eq_false]
  intro r hr
  obtain ⟨e, he, _⟩ := h r hr
  simp [he]

theorem control_closed (rs : List Range) (ts : List τ) (h : rs.any (fun r => r.stop = none) = false) : control R rs ts = ts.find? R.opens := by
  unfold control
  rw [h]
  simp

theorem apart_last {nPost : Nat} {rs0 : List Range} {r r' : Range} (h : Apart nPost ((rs0 ++ [r]) ++ [r'])) :
    ∃ e, r.stop = some e ∧ e + nPost ≤ r'.start := by
  apply h rs0.length r r'
  · rw [List.append_assoc, List.getElem?_append_right (by omega), Nat.sub_self]; rfl
  · rw [List.getElem?_append_right (by simp)]; simp

theorem selected_last (nPre nPost : Nat) (xs : Strm α τ) (P last : Nat) (rs0 : List Range) (r r' : Range) (h1 : r.start = r'.start)
    (h2 : r.upTo nPost P = r'.upTo nPost P) :
    selected nPre nPost xs P last (rs0 ++ [r]) = selected nPre nPost xs P last (rs0 ++ [r']) := by
  rw [selected_append, selected_append]
  unfold piece
  rw [h1, h2]

theorem upTo_new {nPost P : Nat} (b : Bool) : Range.upTo nPost P ⟨P, if b then some P else none⟩ = P := by
  unfold Range.upTo
  cases b
  · rfl
  · dsimp only [if_true]; rw [if_pos rfl]; dsimp only; omega

theorem recentTags_zero (xs : Strm α τ) (first P : Nat) : recentTags 0 xs first P = [] := by
  unfold recentTags window
  rw [List.drop_of_length_le (by rw [List.length_take]; omega)]
  rfl

theorem find?_same {f g : τ → Bool} {l : List τ} (h : ∀ u ∈ l, f u = g u) : l.find? f = l.find? g := by
  induction l with
  | nil => rfl
  | cons a r ih =>
    rw [List.find?_cons, List.find?_cons, h a List.mem_cons_self, ih (fun u hu => h u (List.mem_cons_of_mem _ hu))]

/-- the tags of the next sample, looked at for the first time -/
theorem tags_first (F : Follows c R On Off) {xs : Strm α τ} {P : Nat} {ts : List τ} {rs : List Range} {s : SSt α τ σ} {out : Strm α τ}
    (hone : ∀ t ∈ ts, ∀ t' ∈ ts, R.opens t → ¬ R.closes t') (hap : Apart c.nPost (judge R rs P ts))
    (h : Body c R On Off xs ts rs P false s out) :
    Body c R On Off xs ts (judge R rs P ts) P true
      { s with st := (detect c (findS c s.st (ts.map (fun t => (0, t)))) s.st).1
               acc := s.acc.update (detect c (findS c s.st (ts.map (fun t => (0, t)))) s.st).2 c.nPre c.nPost } out := by
  rcases h with h | ⟨rs0, r, rfl, h⟩
  · have hctl := control_closed (R := R) rs ts (over_closed h.over)
    rcases find_off F h.off ts with ⟨t, ht, hf, ho⟩ | ⟨ht, ho⟩
    · have hmem : t ∈ ts := List.mem_of_find?_eq_some ht
      rw [judge_opens rs P ts (hctl.trans ht) ho (hone t hmem t hmem ho), hf]
      obtain ⟨hd, hst⟩ := det_opens F h.off ho
      rw [hd]
      obtain ⟨u1, u2, u3, u4⟩ := update_start s.acc h.inactive h.post c.nPre c.nPost R.single
      right
      refine ⟨rs, _, rfl, ?_⟩
      constructor
      · exact h.over
      · exact u1
      · exact Nat.le_refl _
      · dsimp only
        intro hn
        have hs : R.single = false := by
          cases hs : R.single
          · rfl
          · rw [hs] at hn; cases hn
        rw [hs] at hst u3
        rw [hs]
        exact ⟨u3, hst, nofun, fun _ t' ht' => hone t hmem t' ht' ho⟩
      · dsimp only
        intro e he
        have hs : R.single = true := by
          cases hs : R.single
          · rw [hs] at he; cases he
          · rfl
        rw [hs] at he
        cases he
        rw [hs] at hst u3 u4
        rw [hs]
        exact ⟨Nat.le_refl _, u3, hst, by rw [u4 rfl]; omega, by omega, nofun, fun _ => rfl, Nat.le_refl _, fun _ => Or.inl rfl⟩
      · dsimp only
        rw [u2]
        intro hp
        exact ⟨rfl, rfl, by simpa using hp, h.out, h.tags⟩
      · dsimp only
        rw [u2]
        intro hp
        have h0 : c.nPre = 0 := by have := of_decide_eq_false hp; omega
        have hl := lastEnd_le (Nat.le_refl P) rs h.over 0 (Nat.zero_le _)
        rw [h.out, h.tags, h0, recentTags_zero, selected_append]
        refine ⟨?_, rfl⟩
        unfold piece
        rw [upTo_new]
        dsimp only
        have e1 : window (P - 0) (min (lastEnd c.nPost P 0 rs) P) xs = [] := by
          unfold window; exact List.drop_of_length_le (by rw [List.length_take]; omega)
        have e2 : window (max (lastEnd c.nPost P 0 rs) (P - 0)) P xs = [] := by
          unfold window; exact List.drop_of_length_le (by rw [List.length_take]; omega)
        rw [e1, e2]
        simp [bare]
    · rw [judge_none rs P ts (hctl.trans ht)]
      obtain ⟨hd, hst⟩ := det_waits F h.off ho
      rw [hd, update_idle _ h.inactive _ _ _ rfl]
      left
      exact ⟨h.over, h.inactive, h.post, hst, h.out, h.tags⟩
  · have hpre : s.acc.pre = false := by
      cases hp : s.acc.pre
      · rfl
      · exact absurd (h.pre hp).1 (by simp)
    obtain ⟨hout, htg⟩ := h.done hpre
    have hclosed0 := over_closed h.over
    have hnew : ∀ t, control R (rs0 ++ [r]) ts = some t → R.opens t → ∃ e, r.stop = some e ∧ e + c.nPost ≤ P := by
      intro t hc ho
      have hmem : t ∈ ts := List.mem_of_find?_eq_some hc
      rw [judge_opens _ P ts hc ho (hone t hmem t hmem ho)] at hap
      exact apart_last hap
    cases hst : r.stop with
    | none =>
      obtain ⟨o1, o2, o3, _⟩ := h.opened hst
      have hany : (rs0 ++ [r]).any (fun r => r.stop = none) = true := by rw [List.any_append]; simp [hst]
      rcases find_on F o2 ts with ⟨t, ht, hf, hcl⟩ | ⟨ht, hcl⟩
      · have hmem : t ∈ ts := List.mem_of_find?_eq_some ht
        have hctl : control R (rs0 ++ [r]) ts = some t := by
          unfold control
          rw [hany, ← ht]
          apply find?_same
          intro u hu
          have : R.opens u = false := by
            cases ho : R.opens u
            · rfl
            · exact absurd hcl (hone u hu t hmem ho)
          simp [this]
        have hno : ¬ R.opens t := fun ho => hone t hmem t hmem ho hcl
        rw [judge_closes _ P ts hctl hno hcl, closeFirst_append P rs0 [r] hclosed0, closeFirst, if_pos hst, hf]
        obtain ⟨⟨g, hd⟩, hoff⟩ := det_closes F o2 hcl
        rw [hd, update_stop s.acc h.active o1]
        right
        refine ⟨rs0, _, rfl, ?_⟩
        constructor
        · exact h.over
        · exact h.active
        · exact h.le
        · dsimp only; nofun
        · dsimp only
          intro e he
          cases he
          have := o3 rfl
          exact ⟨Nat.le_refl _, rfl, hoff, by omega, by omega, nofun, fun he => by omega, by omega,
            fun _ => Or.inr (fun u hu ho => hone u hu t hmem ho hcl)⟩
        · dsimp only; intro hp; rw [hpre] at hp; cases hp
        · intro _
          refine ⟨?_, htg⟩
          rw [hout]
          apply selected_last
          · rfl
          · unfold Range.upTo; rw [hst]; dsimp only; omega
      · have hno : control R (rs0 ++ [r]) ts = none := by
          cases hc : control R (rs0 ++ [r]) ts with
          | none => rfl
          | some t =>
            have hmem : t ∈ ts := List.mem_of_find?_eq_some hc
            have hp : R.opens t ∨ R.closes t := by
              have := List.find?_some hc
              rw [hany] at this
              simpa using this
            rcases hp with hp | hp
            · obtain ⟨e, he, _⟩ := hnew t hc hp
              rw [hst] at he; cases he
            · exact absurd hp (List.find?_eq_none.mp ht t hmem)
        rw [judge_none _ P ts hno]
        obtain ⟨hd, hon⟩ := det_stays F o2 hcl
        rw [hd, update_busy _ h.active _ _ _ rfl]
        right
        refine ⟨rs0, r, rfl, ?_⟩
        constructor
        · exact h.over
        · exact h.active
        · exact h.le
        · intro _
          exact ⟨o1, hon, nofun, fun _ => fun u hu => by simpa using List.find?_eq_none.mp ht u hu⟩
        · intro e he; rw [hst] at he; cases he
        · dsimp only; intro hp; rw [hpre] at hp; cases hp
        · intro _; exact ⟨hout, htg⟩
    | some e =>
      obtain ⟨o1, o2, o3, o4, o5, o6, o7, o8, _⟩ := h.closed e hst
      have hall : (rs0 ++ [r]).any (fun r => r.stop = none) = false := by rw [List.any_append, hclosed0]; simp [hst]
      have hctl := control_closed (R := R) (rs0 ++ [r]) ts hall
      rcases find_off F o3 ts with ⟨t, ht, hf, ho⟩ | ⟨ht, ho⟩
      · obtain ⟨e', he', hle⟩ := hnew t (hctl.trans ht) ho
        rw [hst] at he'
        cases he'
        have := o6 rfl
        omega
      · rw [judge_none _ P ts (hctl.trans ht)]
        obtain ⟨hd, hoff⟩ := det_waits F o3 ho
        rw [hd, update_busy _ h.active _ _ _ rfl]
        right
        refine ⟨rs0, r, rfl, ?_⟩
        constructor
        · exact h.over
        · exact h.active
        · exact h.le
        · intro hn; rw [hst] at hn; cases hn
        · intro e' he'
          rw [hst] at he'
          cases he'
          exact ⟨o1, o2, hoff, o4, o5, nofun, o7, o8, fun _ => Or.inr (fun u hu => by simpa using List.find?_eq_none.mp ht u hu)⟩
        · dsimp only; intro hp; rw [hpre] at hp; cases hp
        · intro _; exact ⟨hout, htg⟩

/-- the same tags, looked at again because nothing was consumed -/
theorem tags_again (F : Follows c R On Off) {xs : Strm α τ} {P : Nat} {ts : List τ} {rs0 : List Range} {r : Range} {s : SSt α τ σ}
    {out : Strm α τ} (h : Busy c R On Off xs ts rs0 r P true s out) :
    Busy c R On Off xs ts rs0 r P true
      { s with st := (detect c (findS c s.st (ts.map (fun t => (0, t)))) s.st).1
               acc := s.acc.update (detect c (findS c s.st (ts.map (fun t => (0, t)))) s.st).2 c.nPre c.nPost } out := by
  have key : (detect c (findS c s.st (ts.map (fun t => (0, t)))) s.st).2.stop = false ∧
      (r.stop = none → On (detect c (findS c s.st (ts.map (fun t => (0, t)))) s.st).1) ∧
      (r.stop ≠ none → Off (detect c (findS c s.st (ts.map (fun t => (0, t)))) s.st).1) := by
    cases hst : r.stop with
    | none =>
      obtain ⟨_, o2, _, o4⟩ := h.opened hst
      rcases find_on F o2 ts with ⟨t, ht, hf, hcl⟩ | ⟨ht, hcl⟩
      · exact absurd hcl (o4 rfl t (List.mem_of_find?_eq_some ht))
      · obtain ⟨hd, hon⟩ := det_stays F o2 hcl
        exact ⟨by rw [hd], fun _ => hon, fun hh => absurd rfl hh⟩
    | some e =>
      obtain ⟨_, _, o3, _, _, _, _, _, o9⟩ := h.closed e hst
      rcases find_off F o3 ts with ⟨t, ht, hf, ho⟩ | ⟨ht, ho⟩
      · rcases o9 rfl with hs | hno
        · obtain ⟨hd, hoff⟩ := det_opens F o3 ho
          rw [hs] at hoff
          rw [hf]
          exact ⟨by rw [hd], nofun, fun _ => hoff⟩
        · exact absurd ho (hno t (List.mem_of_find?_eq_some ht))
      · obtain ⟨hd, hoff⟩ := det_waits F o3 ho
        exact ⟨by rw [hd], nofun, fun _ => hoff⟩
  obtain ⟨k1, k2, k3⟩ := key
  rw [update_busy _ h.active _ _ _ k1]
  constructor
  · exact h.over
  · exact h.active
  · exact h.le
  · intro hn
    obtain ⟨o1, _, o3, o4⟩ := h.opened hn
    exact ⟨o1, k2 hn, o3, o4⟩
  · intro e he
    obtain ⟨o1, o2, _, o4⟩ := h.closed e he
    exact ⟨o1, o2, k3 (by rw [he]; nofun), o4⟩
  · exact h.pre
  · exact h.done

end Verif.Sel
