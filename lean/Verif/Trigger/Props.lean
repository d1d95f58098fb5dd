import Verif.Trigger.Lemmas
/-! # C29: trigger expressions -/
namespace Verif.Trigger

/-- a tag with a trigger name and a context, as sources write it -/
def mkTag (n c : String) : Tag := [("gr:trigger_name".toList, some n.toList), ("gr:context".toList, some c.toList)]

/-- **C29** (two sides) For every expression with two different sides, whatever the white space in it, whatever the state was used for
before (an empty one or one of another expression) and for every sequence of tags, the answers are those of the documented rule: start
and stop at the first tag meeting the side, or, with `^`, at the first tag after it that no longer does. -/
theorem two_sided (a b : Part) (ha : a.Ok) (hb : b.Ok) (hab : ¬ (a.name = b.name ∧ a.ctx = b.ctx)) (text : Str)
    (ht : IsText (.two a b) text) (s : St) (hs : s.filter ≠ some text) (tags : List Tag) :
    run text s tags = (answersTwo a b .off tags).map some := by
  obtain ⟨s1, hv, h1, h2, h3, _, h5⟩ := verify_two a b ha hb text ht s hs
  obtain ⟨g1, g2, g3, g4, g5⟩ := h5 hab
  exact run_rel text a b .off s s1 hv ⟨h1, h3, g1, h2, g2, by rw [g3, g4, g5], nofun, nofun⟩ tags

private theorem word_of (w : Str) (h1 : '/' ∉ w) (h2 : ',' ∉ w) (h3 : w.head?.all (fun c => !spaces.contains c && c != '^') = true)
    (h4 : w.getLast?.all (fun c => !spaces.contains c) = true) : Word w := by
  refine ⟨h1, h2, fun c hc => ?_, fun c hc => ?_⟩
  · rw [hc] at h3; simpa using h3
  · rw [hc] at h4; simpa using h4

/-- `[alarm/^room1, alarm/^room3]` of the unit tests, with odd white space -/
example : IsText (.two ⟨"alarm".toList, false, "room1".toList, true⟩ ⟨"alarm".toList, false, "room3".toList, true⟩)
    "[ alarm/^room1,\talarm/^room3  ]".toList :=
  .two _ _ " ".toList [] "\t".toList "  ".toList (by decide +kernel) (by decide +kernel) (by decide +kernel) (by decide +kernel)

example : (⟨"alarm".toList, false, "room1".toList, true⟩ : Part).Ok :=
  ⟨word_of _ (by decide +kernel) (by decide +kernel) (by decide +kernel) (by decide +kernel),
    word_of _ (by decide +kernel) (by decide +kernel) (by decide +kernel) (by decide +kernel), by decide +kernel, by decide +kernel⟩

example : run "[ alarm/^room1,\talarm/^room3  ]".toList St.fresh
    [mkTag "alarm" "room1", mkTag "info" "room2", mkTag "alarm" "room3", mkTag "alarm" "room4"] =
    [some .ignore, some .matching, some .ignore, some .notMatching] := by decide +kernel

/-- starts and stops alternate, beginning with `first` -/
def Alternate : Bool → List Result → Prop
  | _, [] => True
  | b, .ignore :: r => Alternate b r
  | true, .matching :: r => Alternate false r
  | true, .notMatching :: _ => False
  | false, .notMatching :: r => Alternate true r
  | false, .matching :: _ => False

/-- **C29** (two sides) Starts and stops strictly alternate, beginning with a start: no range is opened twice or closed without having
been opened. -/
theorem two_sided_alternates (a b : Part) (ha : a.Ok) (hb : b.Ok) (hab : ¬ (a.name = b.name ∧ a.ctx = b.ctx)) (text : Str)
    (ht : IsText (.two a b) text) (tags : List Tag) :
    ∃ rs, run text St.fresh tags = rs.map some ∧ Alternate true rs := by
  refine ⟨_, two_sided a b ha hb hab text ht St.fresh nofun tags, ?_⟩
  have key : ∀ (tags : List Tag) (ph : Phase), Alternate (decide (ph = .off ∨ ph = .opening)) (answersTwo a b ph tags) := by
    intro tags
    induction tags with
    | nil => intro ph; unfold answersTwo Alternate; trivial
    | cons t r ih =>
      intro ph
      unfold answersTwo
      by_cases he : t = []
      · rw [if_pos he]
        unfold Alternate
        exact ih ph
      · rw [if_neg he]
        cases ph <;> simp only [ruleTwo]
        · by_cases hm : Meets a t
          · rw [if_pos hm]
            by_cases hx : a.ends = true
            · rw [if_pos hx]; exact ih .opening
            · rw [if_neg hx]; exact ih .on
          · rw [if_neg hm]; exact ih .off
        · by_cases hm : Meets a t
          · rw [if_pos hm]; exact ih .opening
          · rw [if_neg hm]; exact ih .on
        · by_cases hm : Meets b t
          · rw [if_pos hm]
            by_cases hx : b.ends = true
            · rw [if_pos hx]; exact ih .closing
            · rw [if_neg hx]; exact ih .off
          · rw [if_neg hm]; exact ih .on
        · by_cases hm : Meets b t
          · rw [if_pos hm]; exact ih .closing
          · rw [if_neg hm]; exact ih .off
  exact key tags .off

/-- **C29** (one side) For every expression with one side (also written `[, p]`) every tag is judged alone, by the documented rule as
long as the tag's context is not just a part of the expression's one. Missing: the code tests containment the wrong way round, see
`one_sided_actual` and `one_sided_wrong_way`. -/
theorem one_sided_partial (p : Part) (hp : p.Ok) (text : Str) (ht : IsText (.one p) text) (s : St) (hs : s.filter ≠ some text) (tags : List Tag)
    (hc : ∀ t ∈ tags, p.ctx = [] ∨ (tagCtx t <:+: p.ctx ↔ p.ctx <:+: tagCtx t)) :
    run text s tags = tags.map (fun t => some (answerOne p t)) := by
  obtain ⟨s1, hv, h1, h2, h3, h4⟩ := verify_one p hp text ht s hs
  rw [run_single text p s s1 hv h1 h2 h3 h4 tags]
  apply List.map_congr_left
  intro t htm
  unfold answerOne Meets
  have : (p.ctx = [] ∨ tagCtx t <:+: p.ctx) ↔ (p.ctx = [] ∨ p.ctx <:+: tagCtx t) := by
    rcases hc t htm with h | h
    · exact ⟨fun _ => Or.inl h, fun _ => Or.inl h⟩
    · rw [h]
  congr 1
  by_cases hh : t ≠ [] ∧ (p.name = [] ∨ tagName t = p.name) ∧ (p.ctx = [] ∨ tagCtx t <:+: p.ctx)
  · rw [if_pos hh, if_pos ⟨hh.1, hh.2.1, this.1 hh.2.2⟩]
  · rw [if_neg hh, if_neg (fun g => hh ⟨g.1, g.2.1, this.2 g.2.2⟩)]

example : IsText (.one ⟨"alarm".toList, false, "room1".toList, false⟩) "[, alarm/room1]".toList :=
  .comma _ [] " ".toList [] (by decide +kernel) (by decide +kernel) (by decide +kernel)

example : run "[, alarm/room1]".toList St.fresh [mkTag "alarm" "room1", mkTag "other" "room1", mkTag "alarm" "room2"] =
    [some .matching, some .ignore, some .ignore] := by decide +kernel

/-- what the code does for one side: the *tag's* context has to occur in the *expression's* -/
theorem one_sided_actual (p : Part) (hp : p.Ok) (text : Str) (ht : IsText (.one p) text) (s : St) (hs : s.filter ≠ some text) (tags : List Tag) :
    run text s tags = tags.map (fun t => some (if t ≠ [] ∧ (p.name = [] ∨ tagName t = p.name) ∧ (p.ctx = [] ∨ tagCtx t <:+: p.ctx) then
      Result.matching else .ignore)) := by
  obtain ⟨s1, hv, h1, h2, h3, h4⟩ := verify_one p hp text ht s hs
  exact run_single text p s s1 hv h1 h2 h3 h4 tags

/-- finding: a one-sided expression rejects a context containing the given one, which a two-sided one accepts, and accepts a part of it
or none at all — any other tag passing by matches `/room1` -/
theorem one_sided_wrong_way :
    run "[alarm/room]".toList St.fresh [mkTag "alarm" "room1"] = [some .ignore] ∧
    run "[alarm/room, x]".toList St.fresh [mkTag "alarm" "room1"] = [some .matching] ∧
    run "[alarm/room12]".toList St.fresh [mkTag "alarm" "room1"] = [some .matching] ∧
    run "[/room1]".toList St.fresh [[("gr:sample_rate".toList, none)]] = [some .matching] := by decide +kernel

/-- finding: a `^` is ignored in a one-sided expression, and two sides that differ only in a `^` are taken for one -/
theorem caret_ignored :
    run "[^alarm/room1]".toList St.fresh [mkTag "alarm" "room1", mkTag "x" "y"] = [some .matching, some .ignore] ∧
    run "[alarm/room1, alarm/^room1]".toList St.fresh [mkTag "alarm" "room1", mkTag "alarm" "room1", mkTag "x" "y"] =
      [some .matching, some .matching, some .ignore] := by decide +kernel

/-- finding: brackets around nothing match every tag, the empty expression none -/
theorem empty_brackets_match_all :
    run "[]".toList St.fresh [mkTag "alarm" "room1", mkTag "x" "y"] = [some .matching, some .matching] ∧
    run "".toList St.fresh [mkTag "alarm" "room1", mkTag "x" "y"] = [some .ignore, some .ignore] := by decide +kernel

/-- the two sides of an expression as written, when the brackets match -/
def sidesOf (text : Str) : Option (Str × Str) := (strip text).map sides

/-- **C29** (rejection) An expression seen for the first time is rejected exactly when it has an opening bracket at the begin but no
closing one at the end or vice versa, or one of its sides has more than one `/`. -/
theorem rejects_iff (text : Str) (s : St) (hs : s.filter ≠ some text) (t : Tag) :
    (filter text t s).2 = none ↔ text ≠ [] ∧
      ((text.head? = some '[') ≠ (text.getLast? = some ']') ∨
        ∃ p, sidesOf text = some p ∧ (2 ≤ p.1.count '/' ∨ 2 ≤ p.2.count '/')) := by
  have hcount : ∀ (x : Str) (old : Part), parse x old = none ↔ 2 ≤ x.count '/' := by
    intro x old
    unfold parse
    by_cases hm : '/' ∈ x
    · obtain ⟨a, b, rfl, ha⟩ := List.eq_append_cons_of_mem hm
      rw [splitAt_some _ _ _ ha]
      dsimp only
      rw [List.count_append, List.count_cons_self, List.count_eq_zero_of_not_mem ha]
      by_cases hb : b.contains '/' = true
      · rw [if_pos hb]
        have := List.count_pos_iff.2 (List.contains_iff_mem.1 hb)
        exact ⟨fun _ => by omega, fun _ => rfl⟩
      · rw [if_neg hb]
        have hb' : '/' ∉ b := fun hh => hb (List.contains_iff_mem.2 hh)
        rw [List.count_eq_zero_of_not_mem hb']
        exact ⟨nofun, fun hh => by omega⟩
    · rw [splitAt_none _ _ hm, List.count_eq_zero_of_not_mem hm]
      exact ⟨nofun, fun hh => by omega⟩
  have hstart : ∀ (d : St) (x : Str), setStart d x = none ↔ 2 ≤ x.count '/' := by
    intro d x
    unfold setStart
    by_cases hx : x ≠ []
    · rw [if_pos hx, Option.map_eq_none_iff, hcount]
    · rw [if_neg hx]
      have : x = [] := by simpa using hx
      subst this
      exact ⟨nofun, fun hh => by simp at hh⟩
  have hstop : ∀ (d : St) (x : Str), setStop d x = none ↔ 2 ≤ x.count '/' := by
    intro d x
    unfold setStop
    by_cases hx : x ≠ []
    · rw [if_pos hx, Option.map_eq_none_iff, hcount]
    · rw [if_neg hx]
      have : x = [] := by simpa using hx
      subst this
      exact ⟨nofun, fun hh => by simp at hh⟩
  have hv : (filter text t s).2 = none ↔ (verify text s).2 = true := by
    unfold filter
    dsimp only
    by_cases h : (verify text s).2 = true
    · rw [if_pos h]; simp [h]
    · rw [if_neg h]; simp [h]
  rw [hv]
  unfold verify
  rw [if_neg hs]
  dsimp only
  by_cases he : text = []
  · rw [if_pos he]; simp [he]
  · rw [if_neg he]
    have hstrip : strip text = none ↔ (text.head? = some '[') ≠ (text.getLast? = some ']') := by
      unfold strip
      by_cases h1 : text.head? = some '[' <;> by_cases h2 : text.getLast? = some ']' <;> simp [h1, h2]
    cases hst : strip text with
    | none =>
      dsimp only
      exact ⟨fun _ => ⟨he, Or.inl (hstrip.1 hst)⟩, fun _ => rfl⟩
    | some c =>
      dsimp only
      have hso : sidesOf text = some (sides c) := by unfold sidesOf; rw [hst]; rfl
      have hnb : ¬ ((text.head? = some '[') ≠ (text.getLast? = some ']')) := fun hh => by
        rw [hstrip.2 hh] at hst; cases hst
      have hR : (text ≠ [] ∧ ((text.head? = some '[') ≠ (text.getLast? = some ']') ∨
          ∃ p, sidesOf text = some p ∧ (2 ≤ p.1.count '/' ∨ 2 ≤ p.2.count '/'))) ↔
          (2 ≤ (sides c).1.count '/' ∨ 2 ≤ (sides c).2.count '/') := by
        constructor
        · rintro ⟨_, h | ⟨p, hp, h⟩⟩
          · exact absurd h hnb
          · rw [hso] at hp; cases hp; exact h
        · exact fun h => ⟨he, Or.inr ⟨_, hso, h⟩⟩
      rw [hR]
      cases h1 : setStart (s.defaults text) (sides c).1 with
      | none =>
        dsimp only
        exact ⟨fun _ => Or.inl ((hstart _ _).1 h1), fun _ => rfl⟩
      | some s1 =>
        dsimp only
        have hn1 : ¬ 2 ≤ (sides c).1.count '/' := fun hh => by rw [(hstart _ _).2 hh] at h1; cases h1
        cases h2 : setStop s1 (sides c).2 with
        | none =>
          dsimp only
          exact ⟨fun _ => Or.inr ((hstop _ _).1 h2), fun _ => rfl⟩
        | some s2 =>
          dsimp only
          have hn2 : ¬ 2 ≤ (sides c).2.count '/' := fun hh => by rw [(hstop _ _).2 hh] at h2; cases h2
          exact ⟨nofun, fun hh => by rcases hh with hh | hh; exact absurd hh hn1; exact absurd hh hn2⟩

example : (filter "[alarm/kitchen/cabinet]".toList (mkTag "x" "y") St.fresh).2 = none := by decide +kernel

/-- finding: the same invalid expression is rejected only once — the next call takes the half-written state for valid -/
theorem rejected_once (text : Str) (s : St) (t t' : Tag) (h : (filter text t s).2 = none) :
    (filter text t' (filter text t s).1).2 ≠ none := by
  have hf : (filter text t s).1.filter = some text := by
    unfold filter at h ⊢
    dsimp only at h ⊢
    by_cases hv : (verify text s).2 = true
    · rw [if_pos hv]
      show (verify text s).1.filter = some text
      unfold verify at hv ⊢
      by_cases hs : s.filter = some text
      · rw [if_pos hs] at hv; cases hv
      · rw [if_neg hs] at hv ⊢
        dsimp only at hv ⊢
        by_cases he : text = []
        · rw [if_pos he] at hv; cases hv
        · rw [if_neg he] at hv ⊢
          cases hst : strip text with
          | none => rfl
          | some c =>
            rw [hst] at hv
            dsimp only at hv ⊢
            cases h1 : setStart (s.defaults text) (sides c).1 with
            | none => rfl
            | some s1 =>
              rw [h1] at hv
              dsimp only at hv ⊢
              cases h2 : setStop s1 (sides c).2 with
              | none =>
                dsimp only
                unfold setStart at h1
                split at h1
                · rw [Option.map_eq_some_iff] at h1
                  obtain ⟨p, _, rfl⟩ := h1
                  rfl
                · cases h1; rfl
              | some s2 => rw [h2] at hv; cases hv
    · rw [if_neg hv] at h; cases h
  rw [filter_of _ _ _ _ (verify_same _ _ hf)]
  simp

/-- ... and may act as another expression: `[a, b/c/d]` as `[a]` -/
theorem rejected_acts_as_single :
    run "[a, b/c/d]".toList St.fresh [mkTag "a" "", mkTag "a" "", mkTag "b" "c"] = [none, some .matching, some .ignore] := by decide +kernel

/-- **C29** (change of expression) A new expression starts from scratch: the answers do not depend on what the state was used for. -/
theorem new_expression_resets (text : Str) (s s' : St) (hs : s.filter ≠ some text) (hs' : s'.filter ≠ some text) (hsg : s.single = s'.single)
    (tags : List Tag) : run text s tags = run text s' tags := by
  have : verify text s = verify text s' := by
    unfold verify
    rw [if_neg hs, if_neg hs']
    unfold St.defaults
    rw [hsg]
  cases tags with
  | nil => rfl
  | cons t r =>
    unfold run filter
    rw [this]

end Verif.Trigger
