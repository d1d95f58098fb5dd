import Verif.Trigger.Spec
/-! # Trigger expressions: lemmas -/
namespace Verif.Trigger

theorem occurs_iff (n h : Str) : occurs n h = true ↔ n <:+: h := by
  induction h with
  | nil =>
    unfold occurs
    rw [List.isEmpty_iff]
    constructor
    · rintro rfl; exact List.infix_rfl
    · exact fun hh => List.infix_nil.1 hh
  | cons c r ih =>
    unfold occurs
    rw [Bool.or_eq_true, ih, List.infix_cons_iff, List.isPrefixOf_iff_prefix]

/-- no white space at the ends -/
theorem isWs_iff (c : Char) : isWs c = true ↔ c ∈ spaces := by
  unfold isWs spaces
  simp [or_assoc]

theorem not_ws {c : Char} (h : c ∉ spaces) : isWs c = false := by
  cases hb : isWs c with
  | false => rfl
  | true => exact absurd ((isWs_iff c).1 hb) h

theorem readTag_eq (t : Tag) (k : Str) (long short : String) (h1 : long.toList = "gr:".toList ++ k) (h2 : short.toList = k) :
    readTag t k = tagField t long short := by
  have hl : ∀ x : Str, t.lookup x = (t.find? (fun e => e.1 = x)).map (·.2) := by
    intro x
    induction t with
    | nil => rfl
    | cons e r ih =>
      obtain ⟨a, b⟩ := e
      rw [List.lookup_cons, List.find?_cons]
      by_cases h : a = x
      · subst h; simp
      · have h' : ¬ x = a := fun hh => h hh.symm
        have hb : (x == a) = false := beq_eq_false_iff_ne.2 h'
        simp [h, hb, ih]
  unfold readTag tagField
  rw [h1, h2, hl, hl]
  cases t.find? (fun e => e.1 = "gr:".toList ++ k) with
  | some e => rfl
  | none =>
    cases t.find? (fun e => e.1 = k) with
    | some e => rfl
    | none => rfl

theorem tagName_eq (t : Tag) : tagName t = readTag t "trigger_name".toList := (readTag_eq t _ _ _ (by decide +kernel) rfl).symm
theorem tagCtx_eq (t : Tag) : tagCtx t = readTag t "context".toList := (readTag_eq t _ _ _ (by decide +kernel) rfl).symm

def Tidy (s : Str) : Prop := (∀ c, s.head? = some c → isWs c = false) ∧ ∀ c, s.getLast? = some c → isWs c = false

theorem dropWhile_blank (w s : Str) (h : Blank w) (ht : ∀ c, s.head? = some c → isWs c = false) : (w ++ s).dropWhile isWs = s := by
  induction w with
  | nil =>
    cases s with
    | nil => rfl
    | cons a r => rw [List.nil_append, List.dropWhile_cons_of_neg]; rw [ht a rfl]; decide
  | cons a r ih =>
    rw [List.cons_append, List.dropWhile_cons_of_pos ((isWs_iff a).2 (h a (List.mem_cons_self ..)))]
    exact ih (fun c hc => h c (List.mem_cons_of_mem _ hc))

theorem Blank.nil : Blank [] := fun _ h => by simp at h

theorem Blank.reverse {w : Str} (h : Blank w) : Blank w.reverse := fun c hc => h c (List.mem_reverse.1 hc)

theorem Blank.append {a b : Str} (ha : Blank a) (hb : Blank b) : Blank (a ++ b) := fun c hc => by
  rcases List.mem_append.1 hc with h | h
  · exact ha c h
  · exact hb c h

theorem trim_blank (w : Str) (h : Blank w) : trim w = [] := by
  unfold trim
  have : w.dropWhile isWs = [] := by
    have := dropWhile_blank w [] h (by simp)
    simpa using this
  rw [this]
  rfl

theorem trim_pad (s w1 w2 : Str) (h : Tidy s) (h1 : Blank w1) (h2 : Blank w2) : trim (w1 ++ s ++ w2) = s := by
  by_cases hs : s = []
  · subst hs
    rw [List.append_nil]
    exact trim_blank _ (h1.append h2)
  · unfold trim
    have hh : ∀ c, (s ++ w2).head? = some c → isWs c = false := by
      intro c hc
      cases s with
      | nil => exact absurd rfl hs
      | cons a r => exact h.1 c hc
    rw [List.append_assoc, dropWhile_blank _ _ h1 hh, List.reverse_append, dropWhile_blank _ _ h2.reverse, List.reverse_reverse]
    intro c hc
    rw [List.head?_reverse] at hc
    exact h.2 c hc

theorem trim_tidy (s : Str) (h : Tidy s) : trim s = s := by
  have := trim_pad s [] [] h Blank.nil Blank.nil
  simpa using this

theorem Word.tidy {w : Str} (h : Word w) : Tidy w := ⟨fun c hc => not_ws (h.head c hc).1, fun c hc => not_ws (h.last c hc)⟩

theorem getLast?_append_ne (a b : Str) (h : b ≠ []) : (a ++ b).getLast? = b.getLast? := by
  rw [List.getLast?_append]
  cases hb : b.getLast? with
  | none => exact absurd (List.getLast?_eq_none_iff.1 hb) h
  | some x => rfl

theorem mark_tidy (b : Bool) (w : Str) (h : Word w) : Tidy (mark b ++ w) := by
  cases b with
  | false => exact h.tidy
  | true =>
    refine ⟨fun c hc => ?_, fun c hc => ?_⟩
    · simp only [mark, if_true, List.cons_append, List.head?_cons, Option.some.injEq] at hc
      subst hc; decide
    · cases w with
      | nil => simp only [mark, if_true, List.append_nil, List.getLast?_singleton, Option.some.injEq] at hc; subst hc; decide
      | cons a r =>
        rw [getLast?_append_ne _ _ (by simp)] at hc
        exact not_ws (h.last c hc)

theorem caret_mark (b : Bool) (w : Str) (h : Word w) : caret (mark b ++ w) = (b, w) := by
  cases b with
  | true =>
    show (true, trim w) = _
    rw [trim_tidy _ h.tidy]
  | false =>
    show caret w = _
    cases w with
    | nil => rfl
    | cons a r =>
      have := (h.head a rfl).2
      unfold caret
      split
      · rename_i heq
        injection heq with h1 h2
        exact absurd h1 this
      · rfl

theorem splitAt_none (c : Char) (s : Str) (h : c ∉ s) : splitAt c s = (s, none) := by
  unfold splitAt
  have : s.dropWhile (fun x => x != c) = [] := by
    induction s with
    | nil => rfl
    | cons a r ih =>
      have ha : a ≠ c := fun e => h (e ▸ List.mem_cons_self ..)
      rw [List.dropWhile_cons_of_pos (by simp [ha])]
      exact ih (fun hm => h (List.mem_cons_of_mem _ hm))
  rw [this]

theorem splitAt_some (c : Char) (a b : Str) (h : c ∉ a) : splitAt c (a ++ c :: b) = (a, some b) := by
  have h1 : (a ++ c :: b).dropWhile (fun x => x != c) = c :: b := by
    induction a with
    | nil => rw [List.nil_append, List.dropWhile_cons_of_neg (by simp)]
    | cons x r ih =>
      have hx : x ≠ c := fun e => h (e ▸ List.mem_cons_self ..)
      rw [List.cons_append, List.dropWhile_cons_of_pos (by simp [hx])]
      exact ih (fun hm => h (List.mem_cons_of_mem _ hm))
  have h2 : (a ++ c :: b).takeWhile (fun x => x != c) = a := by
    rw [List.takeWhile_append_of_pos]
    · rw [List.takeWhile_cons_of_neg (by simp), List.append_nil]
    · intro x hx
      have : x ≠ c := fun e => h (e ▸ hx)
      simp [this]
  unfold splitAt
  rw [h1, h2]

theorem Blank.not_mem {w : Str} (h : Blank w) (c : Char) (hc : isWs c = false) : c ∉ w := fun hm => by
  rw [(isWs_iff c).2 (h c hm)] at hc; cases hc

theorem mark_not_mem (b : Bool) (c : Char) (h : c ≠ '^') : c ∉ mark b := by
  cases b <;> simp [mark, h]

theorem text_ne_nil (p : Part) (h : p.Ok) : p.text ≠ [] := by
  unfold Part.text
  rcases h.some with hn | hc
  · intro he
    have := List.append_eq_nil_iff.1 he
    have := List.append_eq_nil_iff.1 this.1
    exact hn this.2
  · rw [if_neg hc]; simp

theorem text_no_comma (p : Part) (h : p.Ok) : ',' ∉ p.text := by
  unfold Part.text
  intro hm
  rcases List.mem_append.1 hm with hm | hm
  · rcases List.mem_append.1 hm with hm | hm
    · exact mark_not_mem _ _ (by decide) hm
    · exact h.name.noComma hm
  · split at hm
    · simp at hm
    · rcases List.mem_cons.1 hm with hm | hm
      · exact absurd hm (by decide)
      · rcases List.mem_append.1 hm with hm | hm
        · exact mark_not_mem _ _ (by decide) hm
        · exact h.ctx.noComma hm

theorem text_tidy (p : Part) (h : p.Ok) : Tidy p.text := by
  unfold Part.text
  by_cases hc : p.ctx = []
  · rw [if_pos hc, List.append_nil]; exact mark_tidy _ _ h.name
  · rw [if_neg hc]
    refine ⟨fun c hh => ?_, fun c hh => ?_⟩
    · cases hm : mark p.nameEnds ++ p.name with
      | nil => rw [hm] at hh; simp at hh; subst hh; decide
      | cons a r =>
        rw [hm] at hh
        exact (mark_tidy p.nameEnds _ h.name).1 c (by rw [hm]; exact hh)
    · rw [getLast?_append_ne _ _ (by simp)] at hh
      rw [List.getLast?_cons_of_ne_nil (by simp [hc])] at hh
      exact (mark_tidy p.ctxEnds _ h.ctx).2 c hh

/-- what `parse` makes of the text of a side -/
theorem parse_text (p : Part) (h : p.Ok) (w1 w2 : Str) (h1 : Blank w1) (h2 : Blank w2) (old : Part) (ho : old.ctxEnds = false) :
    parse (w1 ++ p.text ++ w2) old = some p := by
  have hname : '/' ∉ w1 ++ (mark p.nameEnds ++ p.name) := by
    intro hm
    rcases List.mem_append.1 hm with hm | hm
    · exact h1.not_mem '/' (by decide) hm
    · rcases List.mem_append.1 hm with hm | hm
      · exact mark_not_mem _ _ (by decide) hm
      · exact h.name.noSlash hm
  unfold parse Part.text
  by_cases hc : p.ctx = []
  · rw [if_pos hc, List.append_nil]
    have hns : '/' ∉ w1 ++ (mark p.nameEnds ++ p.name) ++ w2 := by
      intro hm
      rcases List.mem_append.1 hm with hm | hm
      · exact hname hm
      · exact h2.not_mem '/' (by decide) hm
    rw [splitAt_none _ _ hns]
    dsimp only
    rw [trim_pad _ _ _ (mark_tidy _ _ h.name) h1 h2, caret_mark _ _ h.name, ho, ← h.ctxFlag hc, ← hc]
  · rw [if_neg hc]
    have hre : w1 ++ (mark p.nameEnds ++ p.name ++ '/' :: (mark p.ctxEnds ++ p.ctx)) ++ w2 =
        (w1 ++ (mark p.nameEnds ++ p.name)) ++ '/' :: ((mark p.ctxEnds ++ p.ctx) ++ w2) := by simp
    rw [hre, splitAt_some _ _ _ hname]
    dsimp only
    have hb : ((mark p.ctxEnds ++ p.ctx) ++ w2).contains '/' = false := by
      rw [← Bool.not_eq_true, List.contains_iff_mem]
      intro hm
      rcases List.mem_append.1 hm with hm | hm
      · rcases List.mem_append.1 hm with hm | hm
        · exact mark_not_mem _ _ (by decide) hm
        · exact h.ctx.noSlash hm
      · exact h2.not_mem '/' (by decide) hm
    rw [hb]
    simp only [Bool.false_eq_true, if_false]
    have e1 := trim_pad _ w1 [] (mark_tidy p.nameEnds _ h.name) h1 Blank.nil
    have e2 := trim_pad _ [] w2 (mark_tidy p.ctxEnds _ h.ctx) Blank.nil h2
    rw [List.append_nil] at e1
    rw [List.nil_append] at e2
    rw [e1, e2, caret_mark _ _ h.name, caret_mark _ _ h.ctx]

theorem strip_brackets (x : Str) : strip ('[' :: (x ++ [']'])) = some x := by
  unfold strip
  have h1 : ('[' :: (x ++ [']'])).getLast? = some ']' := by
    rw [← List.cons_append, getLast?_append_ne _ _ (by simp)]
    rfl
  rw [h1]
  simp

/-- the state after the first call for an expression with one side -/
theorem verify_one (p : Part) (h : p.Ok) (text : Str) (ht : IsText (.one p) text) (s : St) (hs : s.filter ≠ some text) :
    ∃ s', verify text s = (s', false) ∧ s'.filter = some text ∧ (s'.startDef = true ∧ s'.stopDef = false ∨ s'.startDef = false ∧ s'.stopDef = true) ∧
      s'.start.name = p.name ∧ s'.start.ctx = p.ctx := by
  have hne : ¬ (p.name = [] ∧ p.ctx = []) := fun hh => by
    rcases h.some with h1 | h1
    · exact h1 hh.1
    · exact h1 hh.2
  cases ht with
  | one _ w1 w2 h1 h2 =>
    refine ⟨record (collapse (swapSingle ⟨some ('[' :: (w1 ++ p.text ++ w2 ++ [']'])), true, false, p, .none, false, false, false, s.single⟩)), ?_, ?_⟩
    · unfold verify
      rw [if_neg hs]
      dsimp only
      rw [if_neg (by simp), strip_brackets]
      dsimp only
      have hnc : ',' ∉ w1 ++ p.text ++ w2 := by
        intro hm
        rcases List.mem_append.1 hm with hm | hm
        · rcases List.mem_append.1 hm with hm | hm
          · exact h1.not_mem _ (by decide) hm
          · exact text_no_comma p h hm
        · exact h2.not_mem _ (by decide) hm
      have hsd : sides (w1 ++ p.text ++ w2) = (w1 ++ p.text ++ w2, []) := by unfold sides; rw [splitAt_none _ _ hnc]
      rw [hsd]
      dsimp only
      unfold setStart
      rw [if_pos (by simp [text_ne_nil p h]), parse_text p h w1 w2 h1 h2 _ rfl]
      rfl
    · simp only [collapse, swapSingle, St.isSingle, record]
      simp only [Bool.and_false, Bool.false_eq_true, if_false]
      rw [if_neg (fun hh => hne (by rw [Bool.and_eq_true, decide_eq_true_iff, decide_eq_true_iff] at hh; exact hh))]
      exact ⟨rfl, Or.inl ⟨rfl, rfl⟩, rfl, rfl⟩
  | comma _ w1 w2 w3 h1 h2 h3 =>
    refine ⟨record (collapse (swapSingle ⟨some ('[' :: (w1 ++ [','] ++ w2 ++ p.text ++ w3 ++ [']'])), false, true, .none, p, false, false, false, s.single⟩)), ?_, ?_⟩
    · unfold verify
      rw [if_neg hs]
      dsimp only
      rw [if_neg (by simp), strip_brackets]
      dsimp only
      have hsd : sides (w1 ++ [','] ++ w2 ++ p.text ++ w3) = ([], p.text) := by
        unfold sides
        have : w1 ++ [','] ++ w2 ++ p.text ++ w3 = w1 ++ ',' :: (w2 ++ p.text ++ w3) := by simp
        rw [this, splitAt_some _ _ _ (h1.not_mem _ (by decide))]
        dsimp only
        rw [trim_blank _ h1, trim_pad _ _ _ (text_tidy p h) h2 h3]
      rw [hsd]
      dsimp only
      unfold setStart
      rw [if_neg (by simp)]
      dsimp only
      unfold setStop
      have hp := parse_text p h [] [] Blank.nil Blank.nil Part.none rfl
      rw [List.nil_append, List.append_nil] at hp
      rw [if_pos (text_ne_nil p h)]
      have hp' : parse p.text ⟨[], false, [], false⟩ = some p := hp
      dsimp only [St.defaults, Part.none]
      rw [hp']
      rfl
    · simp only [collapse, swapSingle, St.isSingle, record]
      have : (false != true && true) = true := rfl
      simp only [this, if_true]
      rw [if_neg (fun hh => hne (by rw [Bool.and_eq_true, decide_eq_true_iff, decide_eq_true_iff] at hh; exact hh))]
      exact ⟨rfl, Or.inr ⟨rfl, rfl⟩, rfl, rfl⟩

/-- the state after the first call for an expression with two sides -/
theorem verify_two (a b : Part) (ha : a.Ok) (hb : b.Ok) (text : Str) (ht : IsText (.two a b) text) (s : St) (hs : s.filter ≠ some text) :
    ∃ s', verify text s = (s', false) ∧ s'.filter = some text ∧ s'.start = a ∧ s'.startDef = true ∧
      (a.name = b.name ∧ a.ctx = b.ctx → s'.stopDef = false) ∧
      (¬ (a.name = b.name ∧ a.ctx = b.ctx) → s'.stopDef = true ∧ s'.stop = b ∧ s'.active = false ∧ s'.waitStart = false ∧ s'.waitStop = false) := by
  cases ht with
  | two _ _ w1 w2 w3 w4 h1 h2 h3 h4 =>
    refine ⟨record (collapse (swapSingle ⟨some ('[' :: (w1 ++ a.text ++ w2 ++ [','] ++ w3 ++ b.text ++ w4 ++ [']'])), true, true, a, b, false, false, false, s.single⟩)), ?_, ?_⟩
    · unfold verify
      rw [if_neg hs]
      dsimp only
      rw [if_neg (by simp), strip_brackets]
      dsimp only
      have hnc : ',' ∉ w1 ++ a.text ++ w2 := by
        intro hm
        rcases List.mem_append.1 hm with hm | hm
        · rcases List.mem_append.1 hm with hm | hm
          · exact h1.not_mem _ (by decide) hm
          · exact text_no_comma a ha hm
        · exact h2.not_mem _ (by decide) hm
      have hsd : sides (w1 ++ a.text ++ w2 ++ [','] ++ w3 ++ b.text ++ w4) = (a.text, b.text) := by
        unfold sides
        have : w1 ++ a.text ++ w2 ++ [','] ++ w3 ++ b.text ++ w4 = (w1 ++ a.text ++ w2) ++ ',' :: (w3 ++ b.text ++ w4) := by simp
        rw [this, splitAt_some _ _ _ hnc]
        dsimp only
        rw [trim_pad _ _ _ (text_tidy a ha) h1 h2, trim_pad _ _ _ (text_tidy b hb) h3 h4]
      rw [hsd]
      dsimp only
      have hp := parse_text a ha [] [] Blank.nil Blank.nil Part.none rfl
      have hq := parse_text b hb [] [] Blank.nil Blank.nil Part.none rfl
      rw [List.nil_append, List.append_nil] at hp hq
      have e1 : setStart (s.defaults ('[' :: (w1 ++ a.text ++ w2 ++ [','] ++ w3 ++ b.text ++ w4 ++ [']']))) a.text =
          some { s.defaults ('[' :: (w1 ++ a.text ++ w2 ++ [','] ++ w3 ++ b.text ++ w4 ++ [']'])) with start := a, startDef := true } := by
        unfold setStart
        rw [if_pos (text_ne_nil a ha)]
        show (parse a.text Part.none).map _ = _
        rw [hp]
        rfl
      rw [e1]
      dsimp only
      unfold setStop
      rw [if_pos (text_ne_nil b hb)]
      dsimp only [St.defaults]
      rw [hq]
      rfl
    · simp only [collapse, swapSingle, St.isSingle, record]
      have : (true != true && true) = false := rfl
      simp only [this, Bool.false_eq_true, if_false]
      by_cases he : a.name = b.name ∧ a.ctx = b.ctx
      · rw [if_pos (by rw [Bool.and_eq_true, decide_eq_true_iff, decide_eq_true_iff]; exact he)]
        exact ⟨rfl, rfl, rfl, fun _ => rfl, fun hh => absurd he hh⟩
      · rw [if_neg (fun hh => he (by rw [Bool.and_eq_true, decide_eq_true_iff, decide_eq_true_iff] at hh; exact hh))]
        exact ⟨rfl, rfl, rfl, fun hh => absurd hh he, fun _ => ⟨rfl, rfl, rfl, rfl, rfl⟩⟩

theorem nameMatch_iff (p : Part) (t : Tag) : nameMatch p t = true ↔ (p.name = [] ∨ tagName t = p.name) := by
  unfold nameMatch
  rw [tagName_eq]
  rw [Bool.or_eq_true, List.isEmpty_iff, decide_eq_true_iff]

theorem meets_iff (p : Part) (t : Tag) : (nameMatch p t && ctxMatch p t) = true ↔ Meets p t := by
  unfold Meets
  rw [Bool.and_eq_true, nameMatch_iff]
  unfold ctxMatch
  rw [tagCtx_eq]
  rw [Bool.or_eq_true, List.isEmpty_iff, occurs_iff]

theorem meets_single_iff (p : Part) (t : Tag) : (nameMatch p t && ctxMatchSingle p t) = true ↔
    (p.name = [] ∨ tagName t = p.name) ∧ (p.ctx = [] ∨ tagCtx t <:+: p.ctx) := by
  rw [Bool.and_eq_true, nameMatch_iff]
  unfold ctxMatchSingle
  rw [tagCtx_eq]
  rw [Bool.or_eq_true, List.isEmpty_iff, occurs_iff]

/-- state and phase of a two-sided expression -/
structure Rel (text : Str) (a b : Part) (ph : Phase) (s : St) : Prop where
  filter : s.filter = some text
  sd : s.startDef = true
  pd : s.stopDef = true
  start : s.start = a
  stop : s.stop = b
  flags : (s.active, s.waitStart, s.waitStop) = match ph with
    | .off => (false, false, false)
    | .opening => (true, true, false)
    | .on => (true, false, false)
    | .closing => (true, false, true)
  opening : ph = .opening → a.ends = true
  closing : ph = .closing → b.ends = true

theorem rel_step (text : Str) (a b : Part) (ph : Phase) (s : St) (h : Rel text a b ph s) (t : Tag) (ht : t ≠ []) :
    (filterBody s t).2 = (ruleTwo a b ph t).2 ∧ Rel text a b (ruleTwo a b ph t).1 (filterBody s t).1 := by
  obtain ⟨f1, sd, pd, rfl, rfl, fl, op, cl⟩ := h
  have hb : filterBody s t = filterRange s t := by
    unfold filterBody St.isSingle
    rw [sd, pd]
    have : t.isEmpty = false := by simpa using ht
    simp [this]
  rw [hb]
  unfold filterRange
  have hm1 := meets_iff s.start t
  have hm2 := meets_iff s.stop t
  cases ph with
  | off =>
    simp only [Prod.mk.injEq] at fl
    obtain ⟨g1, g2, g3⟩ := fl
    simp only [g1, g2, Bool.not_false, Bool.or_false, if_true, ruleTwo]
    by_cases hm : Meets s.start t
    · rw [if_pos (hm1.2 hm), if_pos hm]
      by_cases he : s.start.ends = true
      · have he' : (s.start.nameEnds || s.start.ctxEnds) = true := he
        rw [if_pos he, he']
        exact ⟨rfl, f1, sd, pd, rfl, rfl, by simp [g3], fun _ => he, nofun⟩
      · have he' : (s.start.nameEnds || s.start.ctxEnds) = false := by simpa [Part.ends] using he
        rw [if_neg he, he']
        exact ⟨rfl, f1, sd, pd, rfl, rfl, by simp [g3], nofun, nofun⟩
    · rw [if_neg (fun hh => hm (hm1.1 hh)), if_neg hm]
      simp only [Bool.false_eq_true, if_false]
      exact ⟨trivial, f1, sd, pd, rfl, rfl, by simp [g1, g2, g3], nofun, nofun⟩
  | opening =>
    simp only [Prod.mk.injEq] at fl
    obtain ⟨g1, g2, g3⟩ := fl
    have he := op rfl
    have he' : (s.start.nameEnds || s.start.ctxEnds) = true := he
    simp only [g1, g2, Bool.or_true, if_true, ruleTwo]
    by_cases hm : Meets s.start t
    · rw [if_pos (hm1.2 hm), if_pos hm, he']
      exact ⟨rfl, f1, sd, pd, rfl, rfl, by simp [g3], fun _ => he, nofun⟩
    · rw [if_neg (fun hh => hm (hm1.1 hh)), if_neg hm]
      exact ⟨rfl, f1, sd, pd, rfl, rfl, by simp [g1, g3], nofun, nofun⟩
  | on =>
    simp only [Prod.mk.injEq] at fl
    obtain ⟨g1, g2, g3⟩ := fl
    simp only [g1, g2, g3, Bool.not_true, Bool.or_false, Bool.false_eq_true, if_false, ruleTwo]
    by_cases hm : Meets s.stop t
    · rw [if_pos (hm2.2 hm), if_pos hm, hm2.2 hm]
      by_cases he : s.stop.ends = true
      · have he' : (s.stop.nameEnds || s.stop.ctxEnds) = true := he
        rw [if_pos he, he']
        exact ⟨rfl, f1, sd, pd, rfl, rfl, by simp [g1, g2], nofun, fun _ => he⟩
      · have he' : (s.stop.nameEnds || s.stop.ctxEnds) = false := by simpa [Part.ends] using he
        rw [if_neg he, he']
        exact ⟨rfl, f1, sd, pd, rfl, rfl, rfl, nofun, nofun⟩
    · rw [if_neg (fun hh => hm (hm2.1 hh)), if_neg hm]
      exact ⟨rfl, f1, sd, pd, rfl, rfl, by simp [g1, g2, g3], nofun, nofun⟩
  | closing =>
    simp only [Prod.mk.injEq] at fl
    obtain ⟨g1, g2, g3⟩ := fl
    have he := cl rfl
    have he' : (s.stop.nameEnds || s.stop.ctxEnds) = true := he
    simp only [g1, g2, g3, Bool.not_true, Bool.or_false, Bool.or_true, Bool.false_eq_true, if_false, if_true, ruleTwo, he']
    by_cases hm : Meets s.stop t
    · rw [if_pos hm, hm2.2 hm]
      exact ⟨rfl, f1, sd, pd, rfl, rfl, by simp [g1, g2], nofun, fun _ => he⟩
    · rw [if_neg hm]
      have hm3 : (nameMatch s.stop t && ctxMatch s.stop t) = false := by
        rw [← Bool.not_eq_true]; exact fun hh => hm (hm2.1 hh)
      rw [hm3]
      exact ⟨rfl, f1, sd, pd, rfl, rfl, rfl, nofun, nofun⟩

theorem verify_same (text : Str) (s : St) (h : s.filter = some text) : verify text s = (s, false) := by
  unfold verify; rw [if_pos h]

theorem filterBody_nil (s : St) : filterBody s [] = (s, .ignore) := by
  unfold filterBody; simp

theorem filter_of (text : Str) (t : Tag) (s s1 : St) (h : verify text s = (s1, false)) :
    filter text t s = ((filterBody s1 t).1, some (filterBody s1 t).2) := by
  unfold filter
  rw [h]
  rfl

theorem run_rel (text : Str) (a b : Part) (ph : Phase) (s s1 : St) (hv : verify text s = (s1, false)) (h : Rel text a b ph s1) (ts : List Tag) :
    run text s ts = (answersTwo a b ph ts).map some := by
  induction ts generalizing ph s s1 with
  | nil => rfl
  | cons t r ih =>
    unfold run
    rw [filter_of _ _ _ _ hv]
    unfold answersTwo
    by_cases ht : t = []
    · subst ht
      rw [filterBody_nil, if_pos rfl, List.map_cons]
      rw [ih ph s1 s1 (verify_same _ _ h.filter) h]
    · obtain ⟨h1, h2⟩ := rel_step text a b ph s1 h t ht
      rw [if_neg ht, List.map_cons, h1]
      rw [ih _ _ _ (verify_same _ _ h2.filter) h2]

theorem filterBody_single (s : St) (t : Tag) (h : s.startDef = true ∧ s.stopDef = false ∨ s.startDef = false ∧ s.stopDef = true) :
    (filterBody s t).2 = (if t ≠ [] ∧ (s.start.name = [] ∨ tagName t = s.start.name) ∧ (s.start.ctx = [] ∨ tagCtx t <:+: s.start.ctx) then
      Result.matching else .ignore) ∧
    (filterBody s t).1.filter = s.filter ∧ (filterBody s t).1.start = s.start ∧
    (filterBody s t).1.startDef = s.startDef ∧ (filterBody s t).1.stopDef = s.stopDef := by
  have hs : s.isSingle = true := by
    unfold St.isSingle
    rcases h with ⟨h1, h2⟩ | ⟨h1, h2⟩ <;> rw [h1, h2] <;> rfl
  have hd : (!s.startDef && !s.stopDef) = false := by
    rcases h with ⟨h1, h2⟩ | ⟨h1, h2⟩ <;> rw [h1, h2] <;> rfl
  have hb : (s.startDef && s.stopDef) = false := by
    rcases h with ⟨h1, h2⟩ | ⟨h1, h2⟩ <;> rw [h1, h2] <;> rfl
  unfold filterBody
  rw [hs, hd, hb]
  simp only [Bool.false_or, Bool.true_and, Bool.false_eq_true, if_false]
  by_cases ht : t = []
  · subst ht
    simp
  · have : t.isEmpty = false := by simpa using ht
    rw [this]
    simp only [Bool.false_eq_true, if_false]
    have hm := meets_single_iff s.start t
    by_cases hh : (nameMatch s.start t && ctxMatchSingle s.start t) = true
    · rw [if_pos hh, if_pos ⟨ht, hm.1 hh⟩]
      exact ⟨rfl, rfl, rfl, rfl, rfl⟩
    · rw [if_neg hh, if_neg (fun g => hh (hm.2 g.2))]
      exact ⟨rfl, rfl, rfl, rfl, rfl⟩

theorem run_single (text : Str) (p : Part) (s s1 : St) (hv : verify text s = (s1, false)) (hf : s1.filter = some text)
    (h : s1.startDef = true ∧ s1.stopDef = false ∨ s1.startDef = false ∧ s1.stopDef = true)
    (hn : s1.start.name = p.name) (hc : s1.start.ctx = p.ctx) (ts : List Tag) :
    run text s ts = ts.map (fun t => some (if t ≠ [] ∧ (p.name = [] ∨ tagName t = p.name) ∧ (p.ctx = [] ∨ tagCtx t <:+: p.ctx) then
      Result.matching else .ignore)) := by
  induction ts generalizing s s1 with
  | nil => rfl
  | cons t r ih =>
    unfold run
    rw [filter_of _ _ _ _ hv, List.map_cons]
    obtain ⟨g1, g2, g3, g4, g5⟩ := filterBody_single s1 t h
    rw [g1, hn, hc]
    rw [ih (filterBody s1 t).1 (filterBody s1 t).1 (verify_same _ _ (g2.trans hf)) (g2.trans hf) (by rw [g4, g5]; exact h) (by rw [g3]; exact hn) (by rw [g3]; exact hc)]

end Verif.Trigger
