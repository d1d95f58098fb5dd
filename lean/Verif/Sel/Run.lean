import Verif.Sel.Calls
/-!
# Data sets: any sequence of calls
-/
namespace Verif.Sel

variable {α τ σ : Type} {c : Cfg τ σ} {R : Rule τ} {On Off : σ → Prop}

/-- a published data set belongs to a range -/
def Pub (c : Cfg τ σ) (xs : Strm α τ) (P : Nat) (r : Range) (d : DS α τ) : Prop :=
  ∃ e, r.stop = some e ∧ e < P ∧ (e + c.nPost ≤ P ∨ c.nMax ≠ 0 ∧ d.values.length = c.nMax) ∧ d = datasetOf c xs r.start e

/-- between calls -/
structure InvD (c : Cfg τ σ) (R : Rule τ) (On Off : σ → Prop) (xs : Strm α τ) (s : DSt α τ σ) (P : Nat) (pub : List (DS α τ)) : Prop where
  le : P ≤ xs.length
  hist : HistOk c xs P s.hist s.histTags
  split : ∃ rs1 rs2, ranges R (xs.take P) = rs1 ++ rs2 ∧ All2 (Pub c xs P) rs1 pub ∧ All2 (At c On Off xs P) rs2 s.items

theorem closeFirst_append (p : Nat) (rs1 rs2 : List Range) (h : rs1.any (fun r => r.stop = none) = false) :
    closeFirst p (rs1 ++ rs2) = rs1 ++ closeFirst p rs2 := by
  induction rs1 with
  | nil => rfl
  | cons r rs ih =>
    rw [List.any_cons, Bool.or_eq_false_iff] at h
    rw [List.cons_append, closeFirst, if_neg (by simpa using h.1), ih h.2]
    rfl

theorem judge_append (R : Rule τ) (p : Nat) (ts : List τ) (rs1 rs2 : List Range) (h : rs1.any (fun r => r.stop = none) = false) :
    judge R (rs1 ++ rs2) p ts = rs1 ++ judge R rs2 p ts := by
  have hc : control R (rs1 ++ rs2) ts = control R rs2 ts := by
    unfold control
    rw [List.any_append, h, Bool.false_or]
  unfold judge
  rw [hc]
  cases control R rs2 ts with
  | none => rfl
  | some t =>
    dsimp only
    rw [closeFirst_append p rs1 rs2 h]
    split <;> split <;> simp

theorem all_closed {xs : Strm α τ} {P : Nat} {rs : List Range} {pub : List (DS α τ)} (h : All2 (Pub c xs P) rs pub) :
    rs.any (fun r => r.stop = none) = false := by
  induction h with
  | nil => rfl
  | cons h _ ih =>
    obtain ⟨e, he, _⟩ := h
    rw [List.any_cons, ih, he]
    rfl

theorem pub_mono {xs : Strm α τ} {P : Nat} (n : Nat) {rs : List Range} {pub : List (DS α τ)} (h : All2 (Pub c xs P) rs pub) :
    All2 (Pub c xs (P + n)) rs pub := by
  refine h.imp (fun r d _ _ ⟨e, h1, h2, h3, h4⟩ => ⟨e, h1, by omega, ?_, h4⟩)
  rcases h3 with h3 | h3
  · exact Or.inl (by omega)
  · exact Or.inr h3

/-- a complete entry is the data set of its range -/
theorem at_pub {xs : Strm α τ} {P : Nat} (hP : P ≤ xs.length) {r : Range} {i : Item α τ σ} (hin : i.acc.active = false)
    (h : At c On Off xs P r i) : Pub c xs P r i.ds := by
  cases hs : r.stop with
  | none => have := (h.opened hs).1; rw [hin] at this; cases this
  | some e =>
    obtain ⟨h1, h2, _, h4, _, h6⟩ := h.closed e hs
    obtain ⟨h7, h8⟩ := h6 hin
    have hnle : (r.start - c.nPre) + i.acc.n ≤ P := by
      have := lim_le c (min P (e + c.nPost) - (r.start - c.nPre)); have := h.startLe; omega
    have hvl : i.ds.values.length = i.acc.n := by
      rw [h.ds]
      unfold DS.ofSamples
      rw [List.length_map, List.length_take, List.length_drop]
      omega
    refine ⟨e, hs, h7, ?_, ?_⟩
    · rw [hvl]; exact h8
    · unfold datasetOf
      rw [h.ds, window_eq]
      congr 1
      have hn : i.acc.n = lim c (e + c.nPost - (r.start - c.nPre)) := by
        rw [h4]
        rcases h8 with h8 | ⟨h8, h9⟩
        · rw [Nat.min_eq_right h8]
        · rw [h4] at h9
          unfold lim at h9 ⊢
          simp only [if_neg h8] at h9 ⊢
          omega
      rw [hn]
      unfold cut lim
      split
      · rfl
      · rw [List.take_take]

/-- what a call of `stepD` does, by cases -/
theorem stepD_cases (c : Cfg τ σ) (xs : Strm α τ) (s : DSt α τ σ) {P n : Nat} (hc : Chunk xs P n) (room : Nat) :
    (stepD c xs s P n room = (s, 0, []) ∧ room = 0 ∧ ∃ i r, s.items = i :: r ∧ i.acc.active = false) ∨
    (∃ items : List (Item α τ σ),
      items = ((closeD c (findD c s.items (tagsOf (window P (P + n) xs)))
        (openD c (findD c s.items (tagsOf (window P (P + n) xs))) s.items)).map
          (accumulate c s.hist s.histTags ((window P (P + n) xs).map (·.1)) (tagsOf (window P (P + n) xs)))) ∧
      (stepD c xs s P n room).1 = { historyD c s ((window P (P + n) xs).map (·.1)) (tagsOf (window P (P + n) xs)) with
        items := items.drop (doneD items room) } ∧
      (stepD c xs s P n room).2 = (n, (items.take (doneD items room)).map (·.ds)) ∧
      (room = 0 → ∀ i r, s.items = i :: r → i.acc.active = true)) := by
  have hl : ((window P (P + n) xs).map (·.1)).length = n := by rw [List.length_map, chunk_length hc]
  have hhist : ∀ it : List (Item α τ σ), historyD c { s with items := it } ((window P (P + n) xs).map (·.1)) (tagsOf (window P (P + n) xs)) =
      { historyD c s ((window P (P + n) xs).map (·.1)) (tagsOf (window P (P + n) xs)) with items := it } := by
    intro it
    unfold historyD
    split
    · rfl
    · split <;> rfl
  unfold stepD callD
  split
  · next h =>
    left
    rw [Bool.and_eq_true] at h
    refine ⟨rfl, by simpa using h.2, ?_⟩
    cases hi : s.items with
    | nil => rw [hi] at h; simp at h
    | cons i r => rw [hi] at h; exact ⟨i, r, rfl, by simpa using h.1⟩
  · next h =>
    right
    have hroom : room = 0 → ∀ i r, s.items = i :: r → i.acc.active = true := by
      intro h0 i r hi
      rw [h0, hi] at h
      simpa using h
    dsimp only
    split
    · next he =>
      have hnil := List.isEmpty_iff.mp he
      refine ⟨[], by rw [hnil]; rfl, ?_, ?_, hroom⟩
      · rw [hnil, hhist, List.drop_nil]
      · rw [hl, List.take_nil]; rfl
    · refine ⟨_, rfl, ?_, ?_, hroom⟩
      · rw [hhist]
      · rw [hl]

theorem takeWhile_inactive (items : List (Item α τ σ)) (k : Nat) :
    ∀ i ∈ items.take (min k (items.takeWhile (fun i => !i.acc.active)).length), i.acc.active = false := by
  induction items generalizing k with
  | nil => intro i hi; simp at hi
  | cons x r ih =>
    intro i hi
    rw [List.takeWhile_cons] at hi
    split at hi
    · next hx =>
      cases k with
      | zero => simp at hi
      | succ k =>
        rw [List.length_cons, Nat.add_min_add_right, List.take_succ_cons] at hi
        rcases List.mem_cons.mp hi with rfl | hi
        · simpa using hx
        · exact ih k i hi
    · rw [List.length_nil, Nat.min_zero, List.take_zero] at hi; cases hi

theorem doneD_inactive (items : List (Item α τ σ)) (k : Nat) : ∀ i ∈ items.take (doneD items k), i.acc.active = false :=
  takeWhile_inactive items k

theorem all2_split {β γ : Type} {P : β → γ → Prop} {l : List β} {m : List γ} (h : All2 P l m) (k : Nat) :
    ∃ l1 l2, l = l1 ++ l2 ∧ All2 P l1 (m.take k) ∧ All2 P l2 (m.drop k) :=
  ⟨l.take k, l.drop k, (List.take_append_drop k l).symm, h.take k, h.drop k⟩

/-- the entries after the samples of a call, before publishing -/
theorem call_items (F : Follows c R On Off) (hm : c.nMax < 2 ^ 64)
    (hmax : c.nMax = 0 ∨ c.nPre + c.nPost ≤ c.nMax) {xs : Strm α τ} {s : DSt α τ σ} {P n : Nat} (hc : Chunk xs P n)
    (hh : HistOk c xs P s.hist s.histTags) {rs : List Range} (h : All2 (At c On Off xs P) rs s.items)
    {x : α × List τ} (hx : xs[P]? = some x) (hdis : ∀ t ∈ x.2, R.opens t → ¬ R.closes t) :
    All2 (At c On Off xs (P + n)) (judge R rs P x.2)
      ((closeD c (findD c s.items (tagsOf (window P (P + n) xs)))
        (openD c (findD c s.items (tagsOf (window P (P + n) xs))) s.items)).map
          (accumulate c s.hist s.histTags ((window P (P + n) xs).map (·.1)) (tagsOf (window P (P + n) xs)))) := by
  have hP : P ≤ xs.length := by have := hc.le; omega
  have h1 := open_close F hP hmax hh x.2 hdis h
  rw [← tagsOf_chunk hc hx] at h1
  exact h1.map _ (fun r i _ hi => at_accumulate hm hc.le hc.pos hi)

theorem inv_step (F : Follows c R On Off) (hm : c.nMax < 2 ^ 64)
    (hmax : c.nMax = 0 ∨ c.nPre + c.nPost ≤ c.nMax) {xs : Strm α τ} (hdis : ∀ x ∈ xs, ∀ t ∈ x.2, R.opens t → ¬ R.closes t) {s : DSt α τ σ} {P n : Nat} {pub : List (DS α τ)} (hc : Chunk xs P n)
    (room : Nat) (h : InvD c R On Off xs s P pub) :
    InvD c R On Off xs (stepD c xs s P n room).1 (P + (stepD c xs s P n room).2.1) (pub ++ (stepD c xs s P n room).2.2) := by
  rcases stepD_cases c xs s hc room with ⟨he, _⟩ | ⟨items, hi, h1, h2, _⟩
  · rw [he]; simpa using h
  · obtain ⟨rs1, rs2, hr, hp, ha⟩ := h.split
    obtain ⟨x, hx, _⟩ := chunk_cons hc
    have hall := call_items F hm hmax hc h.hist ha hx (hdis x (List.mem_of_getElem? hx))
    rw [← hi] at hall
    obtain ⟨l1, l2, hl, hd1, hd2⟩ := all2_split hall (doneD items room)
    rw [h1, h2]
    refine ⟨hc.le, histD_ok c xs hc s h.hist, rs1 ++ l1, l2, ?_, ?_, hd2⟩
    · rw [ranges_chunk R hc hx, hr, judge_append R P x.2 rs1 rs2 (all_closed hp), hl, List.append_assoc]
    · refine (pub_mono n hp).append (hd1.map (Q := Pub c xs (P + n)) (·.ds) ?_)
      intro r i hi' h'
      exact at_pub hc.le (doneD_inactive items room i hi') h'

theorem reach_inv (F : Follows c R On Off) (hm : c.nMax < 2 ^ 64)
    (hmax : c.nMax = 0 ∨ c.nPre + c.nPost ≤ c.nMax) {xs : Strm α τ} (hdis : ∀ x ∈ xs, ∀ t ∈ x.2, R.opens t → ¬ R.closes t) {s : DSt α τ σ} {P : Nat} {pub : List (DS α τ)}
    (h : ReachD c xs s P pub) : InvD c R On Off xs s P pub := by
  induction h with
  | init =>
    refine ⟨Nat.zero_le _, ⟨fun _ => ?_, ?_⟩, [], [], ?_, .nil, .nil⟩
    · simp
    · simp [tagsOf_nil]
    · rfl
  | call h n room hc ih => exact inv_step F hm hmax hdis hc room ih

/-! ## progress -/

/-- a range whose samples have all come is complete after a call -/
theorem at_done (hm : c.nMax < 2 ^ 64) {xs : Strm α τ} {P n : Nat} (hP : P + n ≤ xs.length) (h0 : 0 < n) {hist : List α} {T : List (Nat × τ)}
    {r : Range} {i : Item α τ σ} (h : Mid c On Off xs P hist T r i) {e : Nat} (he : r.stop = some e)
    (hd : c.nMax = 0 ∧ e + c.nPost ≤ P + n ∨ e + c.nPost ≤ P) :
    (accumulate c hist T ((window P (P + n) xs).map (·.1)) (tagsOf (window P (P + n) xs)) i).acc.active = false := by
  have hA := at_accumulate hm hP h0 h
  by_cases hz : c.nMax = 0
  · have hd' : e + c.nPost ≤ P + n := by rcases hd with h | h <;> omega
    obtain ⟨h1, h2, _, h4, h5, _⟩ := hA.closed e he
    have hp := (h.1.closed e he).1
    apply Classical.byContradiction
    intro hact
    obtain ⟨_, h6, h7⟩ := h5 (by simpa using hact)
    have := h7 (by omega)
    rw [h6, h4] at this
    unfold lim at this
    simp only [hz, if_true] at this
    omega
  · have hd' : e + c.nPost ≤ P := by rcases hd with h | h <;> omega
    obtain ⟨ha, hp, _⟩ := preD_fields c hist T i
    obtain ⟨h1, h2, _, h4, h5, _⟩ := h.1.closed e he
    unfold accumulate
    by_cases hact : i.acc.active = true
    · rw [hact]
      obtain ⟨h6, h7, _⟩ := h5 (by rw [ha]; exact hact)
      have hnle : (r.start - c.nPre) + (preD c hist T i).acc.n ≤ P := by
        have := lim_le c (min P (e + c.nPost) - (r.start - c.nPre)); have := h.1.startLe; omega
      have hvl : (preD c hist T i).ds.values.length = (preD c hist T i).acc.n := by
        rw [h.1.ds]
        unfold DS.ofSamples
        rw [List.length_map, List.length_take, List.length_drop]
        omega
      have hl : ((window P (P + n) xs).map (·.1)).length = n := by rw [List.length_map, window_length _ _ _ hP]; omega
      have hk : countD c (preD c hist T i) n = 0 := by
        unfold countD
        dsimp only
        unfold lim at h4 h7
        simp only [if_neg hz] at h4 h7 ⊢
        rw [hvl, freeD_eq c hm _ (by omega), h6]
        simp only [if_true]
        have hms := h.1.startLe
        rw [Nat.min_eq_right hd'] at h4
        generalize (preD c hist T i).acc.n = m at *
        generalize (preD c hist T i).acc.remain = rem at *
        omega
      simp only [Bool.not_true, Bool.false_eq_true, if_false]
      unfold copyD
      dsimp only
      rw [hl, hk, if_pos rfl, h6]
      rfl
    · have hin : i.acc.active = false := by simpa using hact
      rw [hin]; exact hin

theorem takeWhile_ge (items : List (Item α τ σ)) (K : Nat) (h : ∀ k i, k < K → items[k]? = some i → i.acc.active = false)
    (hK : K ≤ items.length) : K ≤ (items.takeWhile (fun i => !i.acc.active)).length := by
  induction items generalizing K with
  | nil => simp at hK; omega
  | cons x r ih =>
    cases K with
    | zero => omega
    | succ K =>
      have hx := h 0 x (by omega) rfl
      rw [List.takeWhile_cons, hx]
      simp only [Bool.not_false, if_true, List.length_cons]
      have := ih K (fun k i hk hi => h (k + 1) i (by omega) hi) (by simpa using hK)
      omega

end Verif.Sel
