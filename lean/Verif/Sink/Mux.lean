import Verif.Sink.Trig
/-!
# Helper lemmas: sections between tags
-/
namespace Verif.Sink

variable {α γ σ : Type}

/-- the next border ends a section that has no end -/
def close (w : Verdict γ) (x : Verdict γ × Option (Verdict γ)) : Verdict γ × Option (Verdict γ) := (x.1, some (x.2.getD w))

theorem sections_append (vs : List (Verdict γ)) (w : Verdict γ) :
    sections (vs ++ [w]) = (sections vs).map (close w) ++ if w.says = .matching then [(w, none)] else [] := by
  induction vs with
  | nil => simp only [List.nil_append, sections, List.map_nil, List.head?_nil]
  | cons v r ih =>
    simp only [List.cons_append, sections, ih]
    split
    · cases r <;> rfl
    · rfl

/-- nothing more can happen to a section -/
def Fixed (limit n : Nat) : Verdict γ × Option (Verdict γ) → Prop
  | (v, some e) => v.pos ≤ e.pos ∧ e.pos ≤ n
  | (v, none) => v.pos + limit ≤ n

theorem Fixed.closed {limit : Nat} {s : List α} {x : Verdict γ × Option (Verdict γ)} (h : Fixed limit s.length x) : Closed limit s x := by
  rcases x with ⟨v, _ | e⟩
  · right
    have h : v.pos + limit ≤ s.length := h
    simp only [inside, List.length_take, List.length_drop]
    omega
  · left; simp

theorem Fixed.mono {limit n n' : Nat} {x : Verdict γ × Option (Verdict γ)} (h : Fixed limit n x) (hn : n ≤ n') : Fixed limit n' x := by
  rcases x with ⟨v, _ | e⟩
  · exact Nat.le_trans (m := n) h hn
  · exact ⟨h.1, Nat.le_trans h.2 hn⟩

theorem Fixed.stable {limit : Nat} {s : List α} {x : Verdict γ × Option (Verdict γ)} (h : Fixed limit s.length x) (d : List α) :
    sectionSet limit (s ++ d) x = sectionSet limit s x := by
  have hi : inside limit (s ++ d) x = inside limit s x := by
    rcases x with ⟨v, _ | e⟩
    · have h : v.pos + limit ≤ s.length := h
      simp only [inside]
      rw [List.drop_append_of_le_length (by omega), List.take_append_of_le_length (by rw [List.length_drop]; omega)]
    · have h : v.pos ≤ e.pos ∧ e.pos ≤ s.length := h
      simp only [inside]
      rw [List.take_append_of_le_length h.2]
  simp only [sectionSet, hi]

theorem Fixed.close {limit : Nat} {s : List α} {x : Verdict γ × Option (Verdict γ)} (h : Fixed limit s.length x) {w : Verdict γ}
    (hw : w.pos = s.length) : sectionSet limit s (close w x) = sectionSet limit s x ∧ Fixed limit s.length (Verif.Sink.close w x) := by
  rcases x with ⟨v, _ | e⟩
  · have h : v.pos + limit ≤ s.length := h
    have hi : inside limit s (v, some w) = inside limit s (v, none) := by
      simp only [inside]; rw [hw, List.take_length]
    have hl : (inside limit s (v, none)).length = limit := by
      simp only [inside, List.length_take, List.length_drop]; omega
    refine ⟨?_, ?_⟩
    · show sectionSet limit s (v, some w) = _
      simp only [sectionSet, hi, hl, Nat.lt_irrefl, if_false]
    · show v.pos ≤ w.pos ∧ w.pos ≤ s.length
      omega
  · exact ⟨rfl, h⟩

/-- a section that goes on -/
def openSet (s : List α) (v : Verdict γ) : DS α γ := dataset v.info (s.drop v.pos) [(0, v.map)]

/-- where the listener is: `a` is published, `b` is being filled -/
structure MuxInv (limit : Nat) (s : List α) (vs : List (Verdict γ)) (a : List (Verdict γ × Option (Verdict γ)))
    (cur : Option (DS α γ)) : Prop where
  fixed : ∀ x ∈ a, Fixed limit s.length x
  at' : (cur = none ∧ sections vs = a) ∨
    ∃ v, v.pos ≤ s.length ∧ s.length < v.pos + limit ∧ cur = some (openSet s v) ∧ sections vs = a ++ [(v, none)]

theorem openSet_eq {limit : Nat} {s : List α} {v : Verdict γ} (h1 : v.pos ≤ s.length) (h2 : s.length < v.pos + limit) :
    sectionSet limit s (v, none) = openSet s v := by
  simp only [sectionSet, inside, openSet]
  rw [List.take_of_length_le (by rw [List.length_drop]; omega)]

theorem mux_limit_pos (n : Nat) : 0 < (if n = 0 then sizeMax else n) := by
  split
  · decide
  · omega

theorem map_close {limit : Nat} {s : List α} {a : List (Verdict γ × Option (Verdict γ))} (h : ∀ x ∈ a, Fixed limit s.length x)
    {w : Verdict γ} (hw : w.pos = s.length) :
    (a.map (close w)).map (sectionSet limit s) = a.map (sectionSet limit s) ∧ ∀ x ∈ a.map (close w), Fixed limit s.length x := by
  refine ⟨?_, fun x hx => ?_⟩
  · rw [List.map_map]
    exact List.map_congr_left fun x hx => ((h x hx).close hw).1
  · obtain ⟨y, hy, rfl⟩ := List.mem_map.1 hx
    exact ((h y hy).close hw).2

theorem mux_tag {limit : Nat} (hl : 0 < limit) (m : Matcher γ σ) {s : List α} {vs : List (Verdict γ)}
    {a : List (Verdict γ × Option (Verdict γ))} {x : Mux α γ σ} (hi : MuxInv limit s vs a x.cur) (t : Tag γ) (h0 : t.index = 0) :
    ∃ a', (x.onTag m t).2.maxSize = x.maxSize ∧ (x.onTag m t).2.info = x.info ∧ (x.onTag m t).2.state = (m t x.state).2 ∧
      a.map (sectionSet limit s) ++ (x.onTag m t).1 = a'.map (sectionSet limit s) ∧
      MuxInv limit s (vs ++ borders [⟨s.length + t.index, (m t x.state).1, t.map, x.info⟩]) a' (x.onTag m t).2.cur := by
  rw [h0, Nat.add_zero]
  generalize hr : m t x.state = r
  obtain ⟨res, st⟩ := r
  by_cases hig : res = .ignore
  · subst hig
    refine ⟨a, by simp [Mux.onTag], by simp [Mux.onTag], by simp [Mux.onTag, hr], by simp [Mux.onTag, hr], ?_⟩
    simpa [Mux.onTag, hr, borders] using hi
  · have hb : borders [(⟨s.length, res, t.map, x.info⟩ : Verdict γ)] = [⟨s.length, res, t.map, x.info⟩] := by
      simp [borders, hig]
    have hcur : (x.onTag m t).2.cur = if res = .matching then some (openSet s ⟨s.length, res, t.map, x.info⟩) else none := by
      simp only [Mux.onTag, hr]
      cases res with
      | matching => simp [openSet, DS.new, DS.event, dataset]
      | notMatching => simp
      | ignore => exact absurd rfl hig
    have hpub : (x.onTag m t).1 = match x.cur with | some d => [d.event d.values.length t.map] | none => [] := by
      simp only [Mux.onTag, hr]
      cases res with
      | matching => cases x.cur <;> rfl
      | notMatching => cases x.cur <;> rfl
      | ignore => exact absurd rfl hig
    rw [hb]
    obtain ⟨hf, hat⟩ := hi
    rcases hat with ⟨hc, hs⟩ | ⟨v, h1, h2, hc, hs⟩
    · obtain ⟨m1, m2⟩ := map_close hf (w := ⟨s.length, res, t.map, x.info⟩) rfl
      refine ⟨a.map (close ⟨s.length, res, t.map, x.info⟩), by simp [Mux.onTag], by simp [Mux.onTag], by simp [Mux.onTag, hr], ?_, m2, ?_⟩
      · rw [hpub, hc, m1, List.append_nil]
      · rw [sections_append, hs, hcur]
        by_cases hm : res = .matching
        · right
          exact ⟨⟨s.length, res, t.map, x.info⟩, Nat.le_refl _, by show s.length < s.length + limit; omega, by rw [if_pos hm], by simp [hm]⟩
        · left
          simp [hm]
    · obtain ⟨m1, m2⟩ := map_close hf (w := ⟨s.length, res, t.map, x.info⟩) rfl
      refine ⟨(a ++ [(v, none)]).map (close ⟨s.length, res, t.map, x.info⟩), by simp [Mux.onTag], by simp [Mux.onTag],
        by simp [Mux.onTag, hr], ?_, ?_, ?_⟩
      · rw [hpub, hc, List.map_append, List.map_append, m1]
        congr 1
        simp only [List.map_cons, List.map_nil, close, Option.getD_none, List.cons.injEq, and_true]
        have hin : inside limit s (v, some ⟨s.length, res, t.map, x.info⟩) = s.drop v.pos := by
          simp only [inside]
          rw [List.take_length, List.take_of_length_le (by rw [List.length_drop]; omega)]
        simp only [sectionSet, hin, openSet, DS.event, dataset, List.length_drop]
        rw [if_pos (by omega)]
        rfl
      · intro y hy
        rw [List.map_append] at hy
        rcases List.mem_append.1 hy with hy | hy
        · exact m2 y hy
        · simp only [List.map_cons, List.map_nil, List.mem_singleton] at hy
          subst hy
          exact ⟨h1, Nat.le_refl _⟩
      · rw [sections_append, hs, hcur]
        by_cases hm : res = .matching
        · right
          exact ⟨⟨s.length, res, t.map, x.info⟩, Nat.le_refl _, by show s.length < s.length + limit; omega, by rw [if_pos hm], by simp [hm]⟩
        · left
          simp [hm]

theorem borders_append (a b : List (Verdict γ)) : borders (a ++ b) = borders a ++ borders b := by simp [borders]

theorem mux_tags {limit : Nat} (hl : 0 < limit) (m : Matcher γ σ) {s : List α} (ts : List (Tag γ)) (h0 : ∀ t ∈ ts, t.index = 0)
    {vs : List (Verdict γ)} {a : List (Verdict γ × Option (Verdict γ))} {x : Mux α γ σ} (hi : MuxInv limit s vs a x.cur) :
    ∃ a', (x.onTags m ts).2.maxSize = x.maxSize ∧ (x.onTags m ts).2.info = x.info ∧
      (x.onTags m ts).2.state = (judge m false s.length x.info x.state ts).2 ∧
      a.map (sectionSet limit s) ++ (x.onTags m ts).1 = a'.map (sectionSet limit s) ∧
      MuxInv limit s (vs ++ borders (judge m false s.length x.info x.state ts).1) a' (x.onTags m ts).2.cur := by
  induction ts generalizing vs a x with
  | nil => exact ⟨a, rfl, rfl, rfl, by simp [Mux.onTags], by simpa [Mux.onTags, judge, borders] using hi⟩
  | cons t r ih =>
    obtain ⟨a1, e1, e2, e3, e4, e5⟩ := mux_tag hl m hi t (h0 t List.mem_cons_self)
    obtain ⟨a2, f1, f2, f3, f4, f5⟩ := ih (fun u hu => h0 u (List.mem_cons_of_mem _ hu)) e5
    rw [e2, e3] at f3 f5
    have hj : judge m false s.length x.info x.state (t :: r) =
        (⟨s.length + t.index, (m t x.state).1, t.map, x.info⟩ :: (judge m false s.length x.info (m t x.state).2 r).1,
          (judge m false s.length x.info (m t x.state).2 r).2) := by
      simp [judge]
    refine ⟨a2, f1.trans e1, f2.trans e2, by rw [hj]; exact f3, ?_, ?_⟩
    · simp only [Mux.onTags]
      rw [← List.append_assoc, e4, f4]
    · rw [hj]
      rw [List.append_assoc, ← borders_append, List.singleton_append] at f5
      exact f5

theorem mux_data {limit : Nat} {s : List α} {vs : List (Verdict γ)} {a : List (Verdict γ × Option (Verdict γ))} {x : Mux α γ σ}
    (hlim : limit = if x.maxSize = 0 then sizeMax else x.maxSize) (hi : MuxInv limit s vs a x.cur) (d : List α) :
    ∃ a', (x.onData d).2.maxSize = x.maxSize ∧ (x.onData d).2.info = x.info ∧ (x.onData d).2.state = x.state ∧
      a.map (sectionSet limit s) ++ (x.onData d).1 = a'.map (sectionSet limit (s ++ d)) ∧
      MuxInv limit (s ++ d) vs a' (x.onData d).2.cur := by
  obtain ⟨hf, hat⟩ := hi
  have hlen : (s ++ d).length = s.length + d.length := List.length_append
  have hf' : ∀ y ∈ a, Fixed limit (s ++ d).length y := fun y hy => (hf y hy).mono (by omega)
  have hst : a.map (sectionSet limit s) = a.map (sectionSet limit (s ++ d)) :=
    List.map_congr_left fun y hy => ((hf y hy).stable d).symm
  rcases hat with ⟨hc, hs⟩ | ⟨v, h1, h2, hc, hs⟩
  · refine ⟨a, ?_⟩
    simp only [Mux.onData, hc, List.append_nil, true_and]
    exact ⟨hst, hf', .inl ⟨rfl, hs⟩⟩
  · have hadd : (if 0 < min d.length (limit - (openSet s v).values.length) then
        (openSet s v).add (d.take (min d.length (limit - (openSet s v).values.length))) else openSet s v) =
        sectionSet limit (s ++ d) (v, none) := by
      have hv : (openSet s v).values.length = s.length - v.pos := by simp [openSet, dataset]
      rw [hv]
      have e1 : (openSet s v).add (d.take (min d.length (limit - (s.length - v.pos)))) = sectionSet limit (s ++ d) (v, none) := by
        simp only [openSet, dataset_add, sectionSet, inside]
        congr 1
        rw [List.drop_append_of_le_length h1, List.take_append, List.length_drop,
          List.take_of_length_le (l := s.drop v.pos) (by rw [List.length_drop]; omega)]
        congr 1
        by_cases hcc : d.length ≤ limit - (s.length - v.pos)
        · rw [Nat.min_eq_left hcc, List.take_length, List.take_of_length_le hcc]
        · rw [Nat.min_eq_right (by omega)]
      split
      · exact e1
      · rename_i hz
        rw [← e1, show min d.length (limit - (s.length - v.pos)) = 0 by omega]
        simp [openSet, dataset_add]
    have hv : (openSet s v).values.length = s.length - v.pos := by simp [openSet, dataset]
    simp only [Mux.onData, hc, ← hlim, hadd]
    rw [hv]
    by_cases hfull : s.length - v.pos + min d.length (limit - (s.length - v.pos)) = limit
    · rw [if_pos hfull]
      refine ⟨a ++ [(v, none)], rfl, rfl, rfl, ?_, ?_, .inl ⟨rfl, hs⟩⟩
      · rw [List.map_append, hst]; rfl
      · intro y hy
        rcases List.mem_append.1 hy with hy | hy
        · exact hf' y hy
        · simp only [List.mem_singleton] at hy
          subst hy
          show v.pos + limit ≤ (s ++ d).length
          omega
    · rw [if_neg hfull]
      refine ⟨a, rfl, rfl, rfl, ?_, hf', .inr ⟨v, by omega, by omega, ?_, hs⟩⟩
      · rw [List.append_nil, hst]
      · rw [openSet_eq (by omega) (by omega)]

theorem mux_run (m : Matcher γ σ) (ins : List (In α γ)) (hat : AtStart ins) (h : Option (Hist α)) (s : List α) (limit : Nat)
    (x : Mux α γ σ) (hlim : limit = if x.maxSize = 0 then sizeMax else x.maxSize) (vs : List (Verdict γ))
    (a : List (Verdict γ × Option (Verdict γ))) (hi : MuxInv limit s vs a x.cur) (out : List (DS α γ)) :
    ∃ x' a', Lis.run h ins (.mux m x (out ++ a.map (sectionSet limit s))) =
        .mux m x' (out ++ a'.map (sectionSet limit (s ++ samples ins))) ∧
      MuxInv limit (s ++ samples ins) (vs ++ borders (verdicts m false x.info s.length x.state ins)) a' x'.cur := by
  induction ins generalizing h s x vs a with
  | nil => exact ⟨x, a, by simp [Lis.run, samples], by simpa [verdicts, samples, borders] using hi⟩
  | cons i r ih =>
    have hr' : AtStart r := fun c hc => hat c (List.mem_cons_of_mem _ hc)
    cases i with
    | meta' info' => exact ih hr' h s { x with info := info' } hlim vs a hi
    | chunk c =>
      have hl : 0 < limit := by rw [hlim]; exact mux_limit_pos _
      obtain ⟨a1, e1, e2, e3, e4, e5⟩ := mux_tags hl m c.tags (hat c List.mem_cons_self) hi
      obtain ⟨a2, f1, f2, f3, f4, f5⟩ := mux_data (by rw [e1]; exact hlim) e5 c.data
      obtain ⟨x', a', g1, g2⟩ := ih hr' (h.map (·.push c.data)) (s ++ c.data) (x.process m c).2
        (by rw [show (x.process m c).2.maxSize = x.maxSize from f1.trans e1]; exact hlim) _ a2 f5
      have hs : s ++ samples (In.chunk c :: r) = s ++ c.data ++ samples r := by simp [samples]
      refine ⟨x', a', ?_, ?_⟩
      · rw [hs, ← g1]
        simp only [Lis.run, Lis.process]
        congr 2
        rw [List.append_assoc]
        congr 1
        simp only [Mux.process]
        rw [← List.append_assoc, e4, f4]
      · rw [hs]
        have e6 : (x.process m c).2.info = x.info := f2.trans e2
        have e7 : (x.process m c).2.state = (judge m false s.length x.info x.state c.tags).2 := f3.trans e3
        rw [e6, e7, List.append_assoc vs, ← borders_append, List.length_append] at g2
        exact g2

end Verif.Sink
