import Verif.Yaml.RoundStr
/-!
# Saved text loads again — single lines

`At pre r tl` is a position in a line: `pre` has been read, `r` has not, and the lines `tl` follow.
-/
namespace Verif.Yaml

variable {F : Type}

/-- see the head of the file -/
def At (pre r : Line) (tl : List Line) : Ctx := ⟨(pre ++ r) :: tl, pre.length⟩

theorem at_ok (pre r : Line) (tl : List Line) : (At pre r tl).Ok := by
  show pre.length ≤ (pre ++ r).length
  rw [List.length_append]
  omega

theorem at_rem (pre r : Line) (tl : List Line) : (At pre r tl).rem = r := by
  rw [rem_eq (at_ok pre r tl)]
  show (pre ++ r).drop pre.length = r
  simp

theorem at_ne (pre r : Line) (tl : List Line) : (At pre r tl).lines ≠ [] := by simp [At]

theorem at_eod (pre r : Line) (tl : List Line) : (At pre r tl).eod = false := rfl

theorem at_cur (pre r : Line) (tl : List Line) : (At pre r tl).cur = pre ++ r := rfl

theorem at_size (pre r : Line) (tl : List Line) : (At pre r tl).size = r.length + 1 + textSize tl := by
  show (pre ++ r).length + 1 + textSize tl - pre.length = _
  rw [List.length_append]
  omega

theorem at_move (pre a b : Line) (tl : List Line) : (Ctx.mk (At pre (a ++ b) tl).lines ((At pre (a ++ b) tl).col + a.length)) = At (pre ++ a) b tl := by
  unfold At
  simp

theorem at_consume (dbg : Bool) (pre a b : Line) (tl : List Line) : consume dbg a.length (At pre (a ++ b) tl) = .ok () (At (pre ++ a) b tl) := by
  rw [consume_eq (fun _ => at_ne _ _ _) (at_ok _ _ _) (by rw [at_rem]; simp), at_move]

theorem at_eol (pre r : Line) (tl : List Line) : (At pre r tl).eol = r.isEmpty := by
  cases h : (At pre r tl).eol with
  | true => have := (eol_iff (at_ok pre r tl)).mp h; rw [at_rem] at this; rw [this]; rfl
  | false =>
    cases r with
    | nil => rw [(eol_iff (at_ok pre [] tl)).mpr (at_rem _ _ _)] at h; cases h
    | cons c r => rfl

theorem at_startsWith (pre r : Line) (tl : List Line) (p : List Char) (hp : p ≠ []) : (At pre r tl).startsWith p = p.isPrefixOf r := by
  unfold Ctx.startsWith
  rw [at_eol, at_cur]
  have : (pre ++ r).drop (At pre r tl).col = r := by show (pre ++ r).drop pre.length = r; simp
  rw [this]
  cases r with
  | nil => cases p with
    | nil => exact absurd rfl hp
    | cons a b => rfl
  | cons c r => simp

theorem at_consumeIf_true (dbg : Bool) (pre p b : Line) (tl : List Line) (hp : p ≠ []) : consumeIf dbg p (At pre (p ++ b) tl) = .ok true (At (pre ++ p) b tl) := by
  unfold consumeIf
  rw [at_startsWith _ _ _ _ hp, if_pos (List.isPrefixOf_iff_prefix.mpr (List.prefix_append _ _)), at_consume]
  rfl

theorem at_consumeIf_false (dbg : Bool) (pre r : Line) (tl : List Line) (p : List Char) (hp : p ≠ []) (h : p.isPrefixOf r = false) :
    consumeIf dbg p (At pre r tl) = .ok false (At pre r tl) := by
  unfold consumeIf
  rw [at_startsWith _ _ _ _ hp, h, if_neg (by decide)]

theorem lead_spaces' (j : Nat) (r : Line) (h : r.head? ≠ some ' ') : lead (spaces j ++ r) = j := by
  cases r with
  | nil =>
    unfold lead spaces
    rw [List.append_nil, List.takeWhile_replicate]
    simp
  | cons c r => exact lead_spaces j c r (by simpa using h)

theorem at_spaces (pre : Line) (j : Nat) (r : Line) (tl : List Line) (h : r.head? ≠ some ' ') : (At pre (spaces j ++ r) tl).spaces = At (pre ++ spaces j) r tl := by
  unfold Ctx.spaces
  rw [at_eol, at_cur]
  have hd : (pre ++ (spaces j ++ r)).drop (At pre (spaces j ++ r) tl).col = spaces j ++ r := by
    show (pre ++ (spaces j ++ r)).drop pre.length = _
    simp
  rw [hd, lead_spaces' j r h]
  have hl : (spaces j).length = j := List.length_replicate ..
  split
  · rename_i he
    rw [List.isEmpty_iff, List.append_eq_nil_iff] at he
    have hj : j = 0 := by rw [← hl, he.1]; rfl
    subst hj
    rw [he.2]
    unfold At spaces
    simp
  · unfold At
    simp [hl]

theorem at_spaces0 (pre : Line) (r : Line) (tl : List Line) (h : r.head? ≠ some ' ') : (At pre r tl).spaces = At pre r tl := by
  have := at_spaces pre 0 r tl h
  unfold spaces at this
  simpa using this

theorem at_ws_stay (pre : Line) (j : Nat) (ch : Char) (r : Line) (tl : List Line) (h1 : ch ≠ ' ') (h2 : ch ≠ '#') :
    (At pre (spaces j ++ ch :: r) tl).ws = At (pre ++ spaces j) (ch :: r) tl := by
  show skipWs ((pre ++ (spaces j ++ ch :: r)) :: tl) pre.length = _
  rw [skipWs]
  have hd : (pre ++ (spaces j ++ ch :: r)).drop pre.length = spaces j ++ ch :: r := by simp
  have hl : (spaces j).length = j := List.length_replicate ..
  have hd2 : (pre ++ (spaces j ++ ch :: r)).drop (pre.length + j) = ch :: r := by
    rw [← List.drop_drop, hd, drop_spaces]
  simp only [hd, lead_spaces j ch r h1, hd2]
  rw [if_neg h2]
  unfold At
  simp [hl]

theorem at_ws0 (pre : Line) (ch : Char) (r : Line) (tl : List Line) (h1 : ch ≠ ' ') (h2 : ch ≠ '#') : (At pre (ch :: r) tl).ws = At pre (ch :: r) tl := by
  have := at_ws_stay pre 0 ch r tl h1 h2
  unfold spaces at this
  simpa using this

theorem at_ws_eol (pre : Line) (tl : List Line) : (At pre [] tl).ws = (Ctx.mk tl 0).ws := by
  show skipWs ((pre ++ []) :: tl) pre.length = skipWs tl 0
  rw [skipWs]
  have hd : (pre ++ []).drop pre.length = [] := by simp
  have : lead ([] : Line) = 0 := rfl
  simp only [hd, this, Nat.add_zero]

/-- at the start of a line or in its indentation -/
theorem start_ws (i j : Nat) (ch : Char) (r : Line) (ls : List Line) (hj : j ≤ i) (h1 : ch ≠ ' ') (h2 : ch ≠ '#') :
    (Ctx.mk ((spaces i ++ ch :: r) :: ls) j).ws = At (spaces i) (ch :: r) ls := by
  have hs : spaces i = spaces j ++ spaces (i - j) := by
    unfold spaces
    rw [List.replicate_append_replicate]
    congr 1
    omega
  have hl : (spaces j).length = j := List.length_replicate ..
  have := at_ws_stay (spaces j) (i - j) ch r ls h1 h2
  rw [← hs] at this
  rw [← this]
  unfold At
  rw [hs, hl, List.append_assoc]

/-- a text that cannot be taken for a key, a tag, a quoted string, a list or a flow style value -/
def PlainText (r : Line) : Prop := r ≠ [] ∧ r ≠ ['-'] ∧ ∀ c ∈ r, c ∉ [' ', '#', ':', '"', '\'', '[', '{', '!']

theorem PlainText.head {ch : Char} {r : Line} (h : PlainText (ch :: r)) : ch ≠ ' ' ∧ ch ≠ '#' ∧ ch ≠ '"' ∧ ch ≠ '\'' ∧ ch ≠ '[' ∧ ch ≠ '{' ∧ ch ≠ '!' := by
  have := h.2.2 ch List.mem_cons_self
  simp only [List.mem_cons, List.not_mem_nil, or_false, not_or] at this
  exact ⟨this.1, this.2.1, this.2.2.2.1, this.2.2.2.2.1, this.2.2.2.2.2.1, this.2.2.2.2.2.2.1, this.2.2.2.2.2.2.2⟩

theorem PlainText.not {r : Line} (h : PlainText r) {c : Char} (hc : c ∈ [' ', '#', ':', '"', '\'', '[', '{', '!']) : c ∉ r := fun hm => h.2.2 c hm hc

theorem findString_plain {r : Line} (h : PlainText r) : findString [] r = some (0, r.length) := by
  cases r with
  | nil => exact absurd rfl h.1
  | cons ch r =>
    have hh := h.head
    unfold findString
    dsimp only
    rw [if_neg (by simp [hh.2.2.1, hh.2.2.2.1]), findIdx_none (by simp), findIdx_none]
    intro c hc
    have := h.not (c := '#') (by decide)
    simp only [beq_eq_false_iff_ne]
    rintro rfl
    exact this hc

theorem colonPos_none : ∀ (s : List Char) (i : Nat), ':' ∉ s → colonPos i s = none := by
  intro s
  induction s with
  | nil => intro i _; rfl
  | cons c s ih =>
    intro i h
    rw [List.mem_cons, not_or] at h
    rw [colonPos, if_neg (by simp [show c ≠ ':' from fun e => h.1 e.symm]), ih _ h.2]

theorem parseKey_plain_err (dbg : Bool) (pre : Line) {r : Line} (tl : List Line) (h : PlainText r) :
    ∃ e c n, parseKey dbg [] (At pre r tl) = .err e c n := by
  unfold parseKey
  dsimp only
  rw [at_spaces0 _ _ _ (by cases r with
    | nil => simp
    | cons ch r => simpa using h.head.1)]
  split
  · exact ⟨_, _, _, rfl⟩
  · rw [at_rem, findString_plain h]
    dsimp only
    rw [if_neg (by omega), colonPos_none _ _ (h.not (by decide))]
    exact ⟨_, _, _, rfl⟩

theorem not_prefix_head {p ch : Char} {ps r : Line} (h : ch ≠ p) : (p :: ps).isPrefixOf (ch :: r) = false := by
  rw [List.isPrefixOf_cons₂]
  have : (p == ch) = false := by simpa using fun e => h e.symm
  rw [this]
  rfl

theorem peek_stay (dbg : Bool) (level : Nat) (pre : Line) (ch : Char) (r : Line) (tl : List Line) (h1 : ch ≠ ' ') (h2 : ch ≠ '#') :
    peek dbg level (At pre (ch :: r) tl) =
      (if (At pre (ch :: r) tl).startsWith ['['] || (At pre (ch :: r) tl).startsWith ['-', ' '] || (At pre (ch :: r) tl).rem = ['-'] then .ok .list (At pre (ch :: r) tl)
      else if (At pre (ch :: r) tl).startsWith ['{'] then .ok .map (At pre (ch :: r) tl)
      else match parseKey dbg [] (At pre (ch :: r) tl) with
        | .ok _ _ => .ok .map (At pre (ch :: r) tl)
        | .err _ _ _ => .ok .scalar (At pre (ch :: r) tl)
        | .ub => .ub
        | .fuel => .fuel) := by
  unfold peek
  dsimp only
  rw [at_ws0 _ _ _ _ h1 h2, at_eod, if_neg (by decide), currentIndent_bind (at_ne _ _ _), decide_eq_false (by omega)]
  rfl

theorem peek_plain (dbg : Bool) (level : Nat) (pre : Line) {r : Line} (tl : List Line) (h : PlainText r) :
    peek dbg level (At pre r tl) = .ok .scalar (At pre r tl) := by
  cases r with
  | nil => exact absurd rfl h.1
  | cons ch r =>
    have hh := h.head
    rw [peek_stay _ _ _ _ _ _ hh.1 hh.2.1]
    have h1 : (At pre (ch :: r) tl).startsWith ['['] = false := by
      rw [at_startsWith _ _ _ _ (by simp)]; exact not_prefix_head hh.2.2.2.2.1
    have h2 : (At pre (ch :: r) tl).startsWith ['-', ' '] = false := by
      rw [at_startsWith _ _ _ _ (by simp)]
      cases hp : ['-', ' '].isPrefixOf (ch :: r) with
      | false => rfl
      | true =>
        rw [List.isPrefixOf_iff_prefix] at hp
        exact absurd (hp.subset (by simp)) (h.not (c := ' ') (by decide))
    have h3 : (At pre (ch :: r) tl).startsWith ['{'] = false := by
      rw [at_startsWith _ _ _ _ (by simp)]; exact not_prefix_head hh.2.2.2.2.2.1
    rw [h1, h2, h3, at_rem, decide_eq_false h.2.1]
    obtain ⟨e, c, n, he⟩ := parseKey_plain_err dbg pre tl h
    rw [he]
    rfl

theorem parsePlain_plain (fl : Floats F) (dbg : Bool) (tag : Option Tag) (pre : Line) {r : Line} (tl : List Line) (h : PlainText r) {v : Val F}
    (hv : scalarOf fl tag false r = .ok v) : parsePlain fl dbg tag [] (At pre r tl) = .ok v (At (pre ++ r) [] tl) := by
  unfold parsePlain
  rw [at_rem, findString_plain h]
  dsimp only
  have h0 := at_consume dbg pre [] r tl
  have h1 := at_consume dbg pre r [] tl
  simp only [List.length_nil, List.nil_append, List.append_nil] at h0 h1
  rw [h0]
  simp only [Res.bind]
  rw [at_rem, List.take_length]
  show (match scalarOf fl tag false r with
    | .error (e, i) => Res.err e (At pre r tl) ((At pre r tl).col + i)
    | .ok v => _) = _
  rw [hv]
  simp only [Nat.zero_add]
  rw [h1]

theorem parseScalar_stay (fl : Floats F) (dbg : Bool) (tag : Option Tag) (level : Nat) (pre : Line) (ch : Char) (r : Line) (tl : List Line)
    (h1 : ch ≠ ' ') (h2 : ch ≠ '#') (h3 : (tag ≠ some .str ∧ tag ≠ none) ∨ (ch ≠ '|' ∧ ch ≠ '>')) {v : Val F} {pre' : Line}
    (hv : parsePlain fl dbg tag [] (At pre (ch :: r) tl) = .ok v (At pre' [] tl)) :
    parseScalar fl dbg tag level (At pre (ch :: r) tl) = .ok v ⟨tl, 0⟩ := by
  unfold parseScalar
  dsimp only
  rw [at_ws0 _ _ _ _ h1 h2, at_eod, if_neg (by decide), currentIndent_bind (at_ne _ _ _), decide_eq_false (by omega)]
  rw [if_neg (by simp), if_neg, hv]
  · simp only [Res.bind]
    rw [at_spaces0 _ _ _ (by simp), at_eol]
    rfl
  · rcases h3 with h3 | h3
    · simp [h3.1, h3.2]
    · rw [at_startsWith _ _ _ _ (by simp), at_startsWith _ _ _ _ (by simp), not_prefix_head h3.1, not_prefix_head h3.2]
      simp

/-! ## quoted strings -/

theorem parsePlain_quoted (fl : Floats F) (dbg : Bool) (pre : Line) (s : List Char) (tl : List Line) :
    parsePlain fl dbg none [] (At pre ('"' :: (escape s ++ ['"'])) tl) = .ok (.str s) (At (pre ++ '"' :: (escape s ++ ['"'])) [] tl) := by
  unfold parsePlain
  rw [at_rem, findString_quoted]
  dsimp only
  have h0 := at_consume dbg pre ['"'] (escape s ++ ['"']) tl
  have h1 := at_consume dbg (pre ++ ['"']) (escape s ++ ['"']) [] tl
  simp only [List.length_cons, List.length_nil, List.length_append, List.append_nil, List.cons_append, List.nil_append, Nat.zero_add] at h0 h1
  rw [h0]
  simp only [Res.bind]
  rw [at_rem, List.take_left]
  have hv : scalarOf fl none true (escape s) = .ok (.str s) := by
    show strValue (escape s) = _
    unfold strValue
    rw [resolve_escape]
  rw [show ((1 : Nat) != 0) = true from rfl, hv]
  simp only
  rw [show 1 + (escape s).length = (escape s).length + 1 by omega, h1]
  simp

theorem parseKey_quoted_err (dbg : Bool) (pre : Line) (s : List Char) (tl : List Line) :
    ∃ e c n, parseKey dbg [] (At pre ('"' :: (escape s ++ ['"'])) tl) = .err e c n := by
  unfold parseKey
  dsimp only
  rw [at_spaces0 _ _ _ (by simp), at_startsWith _ _ _ _ (by simp), not_prefix_head (by decide), if_neg (by decide), at_rem, findString_quoted]
  dsimp only
  rw [if_pos (by omega), List.drop_one, List.tail_cons, List.take_left, resolve_escape]
  dsimp only
  have h1 := at_consume dbg pre ('"' :: (escape s ++ ['"'])) [] tl
  simp only [List.length_cons, List.length_nil, List.length_append, List.append_nil, Nat.zero_add] at h1
  rw [show 2 * 1 + (escape s).length = (escape s).length + 1 + 1 by omega, h1]
  simp only [Res.bind]
  rw [at_spaces0 _ _ _ (by simp), if_neg]
  · exact ⟨_, _, _, rfl⟩
  · unfold Ctx.startsWithToken
    rw [at_eol]
    simp

theorem peek_quoted (dbg : Bool) (level : Nat) (pre : Line) (s : List Char) (tl : List Line) :
    peek dbg level (At pre ('"' :: (escape s ++ ['"'])) tl) = .ok .scalar (At pre ('"' :: (escape s ++ ['"'])) tl) := by
  rw [peek_stay _ _ _ _ _ _ (by decide) (by decide)]
  obtain ⟨e, c, n, he⟩ := parseKey_quoted_err dbg pre s tl
  rw [he, at_startsWith _ _ _ _ (by simp), at_startsWith _ _ _ _ (by simp), at_startsWith _ _ _ _ (by simp), not_prefix_head (by decide),
    not_prefix_head (by decide), not_prefix_head (by decide), at_rem, decide_eq_false (by simp)]
  rfl

/-! ## strings over several lines -/

theorem stops_spaces {p : Nat} {rest : List Line} (h : Stops p rest) : (Ctx.mk rest 0).spaces = ⟨rest, lead (rest.headD [])⟩ := by
  rcases h with h | ⟨i, ch, r, ls, h1, h2, h3⟩
  · subst h; rfl
  · subst h1
    have := at_spaces [] i (ch :: r) ls (by simpa using h3.1)
    unfold At at this
    simp only [List.nil_append, List.length_nil] at this
    rw [this]
    show Ctx.mk _ (spaces i).length = Ctx.mk _ (lead (spaces i ++ ch :: r))
    rw [lead_spaces _ _ _ h3.1]
    congr 1
    exact List.length_replicate ..

theorem parseScalar_multi (fl : Floats F) (dbg : Bool) (level : Nat) (pre : Line) {s : List Char} (rest : List Line) (hm : isMulti s = true) (hs : StrClean s)
    (hr : Stops level rest) :
    parseScalar fl dbg none level (At pre ('|' :: if s.getLast? = some '\n' then [] else ['-'])
      ((splitLines s).map (spaces (level + 2) ++ ·) ++ rest)) = .ok (.str s) ⟨rest, lead (rest.headD [])⟩ := by
  have hne : s ≠ [] := by
    rintro rfl
    exact absurd (isMulti_iff.mp hm).1 (by simp)
  unfold parseScalar
  dsimp only
  rw [at_ws0 _ _ _ _ (by decide) (by decide), at_eod, if_neg (by decide), currentIndent_bind (at_ne _ _ _), decide_eq_false (by omega)]
  rw [if_neg (by simp), if_pos (by rw [at_startsWith _ _ _ _ (by simp)]; rfl)]
  have hfold : ∀ r, (At pre ('|' :: r) ((splitLines s).map (spaces (level + 2) ++ ·) ++ rest)).startsWith ['>'] = false := by
    intro r
    rw [at_startsWith _ _ _ _ (by simp), not_prefix_head (by decide)]
  rw [hfold]
  have hcons := at_consume dbg pre ['|'] (if s.getLast? = some '\n' then [] else ['-']) ((splitLines s).map (spaces (level + 2) ++ ·) ++ rest)
  simp only [List.length_cons, List.length_nil, Nat.zero_add, List.cons_append, List.nil_append] at hcons
  rw [hcons]
  simp only [Res.bind]
  have hdash : consumeIf dbg ['-'] (At (pre ++ ['|']) (if s.getLast? = some '\n' then [] else ['-']) ((splitLines s).map (spaces (level + 2) ++ ·) ++ rest)) =
      .ok (!decide (s.getLast? = some '\n')) (At (pre ++ ['|'] ++ if s.getLast? = some '\n' then [] else ['-']) []
        ((splitLines s).map (spaces (level + 2) ++ ·) ++ rest)) := by
    by_cases h : s.getLast? = some '\n'
    · rw [if_pos h, decide_eq_true h, at_consumeIf_false _ _ _ _ _ (by simp) rfl]
      simp
    · rw [if_neg h, decide_eq_false h]
      have := at_consumeIf_true dbg (pre ++ ['|']) ['-'] [] ((splitLines s).map (spaces (level + 2) ++ ·) ++ rest) (by simp)
      rw [List.append_nil] at this
      rw [this]
      rfl
  rw [hdash]
  simp only [Res.bind]
  rw [at_spaces0 _ _ _ (by simp), at_rem]
  rw [show findString [] [] = some (0, 0) from rfl]
  dsimp only
  rw [if_neg (by omega)]
  rw [show (At (pre ++ ['|'] ++ if s.getLast? = some '\n' then [] else ['-']) [] ((splitLines s).map (spaces (level + 2) ++ ·) ++ rest)).next.lines =
    (splitLines s).map (spaces (level + 2) ++ ·) ++ rest from rfl]
  rw [multiLoop_lines (level + 2) rest ⟨level, by omega, hr⟩ _ _ _ (lineOk_of_clean hm hs)]
  simp only [Res.bind, List.nil_append, Bool.not_not]
  rw [chomp_unl hne, stops_spaces hr]

/-! ## keys -/

/-- the text of a key up to the colon -/
def keyPre (key : List Char) : List Char :=
  if key.contains ':' || !key.all isPrint then '"' :: (escape key ++ ['"', ':']) else key ++ [':']

theorem keyText_eq (key : List Char) : keyText key = keyPre key ++ [' '] := by
  unfold keyText keyPre
  split <;> simp

theorem isSpace_printable {c : Char} (h : Printable c) (hs : c ≠ ' ') : isSpace c = false := by
  unfold Printable at h
  unfold isSpace
  have h1 : c ≠ '\t' := by rintro rfl; exact absurd h.1 (by decide)
  have h2 : c ≠ '\n' := by rintro rfl; exact absurd h.1 (by decide)
  have h3 : c ≠ '\r' := by rintro rfl; exact absurd h.1 (by decide)
  have h4 : (c.toNat == 11) = false := by rw [beq_eq_false_iff_ne]; omega
  have h5 : (c.toNat == 12) = false := by rw [beq_eq_false_iff_ne]; omega
  simp [hs, h1, h2, h3, h4, h5]

theorem isCntrl_printable {c : Char} (h : Printable c) : isCntrl c = false := by
  unfold Printable at h
  unfold isCntrl
  rw [decide_eq_false (by omega)]
  have : (c.toNat == 127) = false := by rw [beq_eq_false_iff_ne]; omega
  rw [this]
  rfl

theorem keyPlain_iff {key : List Char} : ¬ (key.contains ':' || !key.all isPrint) = true ↔ ':' ∉ key ∧ ∀ c ∈ key, Printable c := by
  rw [Bool.or_eq_true, not_or, List.contains_iff_mem, Bool.not_eq_true', Bool.not_eq_false, List.all_eq_true]
  refine and_congr_right fun _ => forall_congr' fun c => imp_congr_right fun _ => isPrint_iff

theorem key_head {key : List Char} (hk : KeyClean key) : ∃ ch r, keyPre key = ch :: r ∧ Good ch ∧ ch ≠ '-' ∧ ch ≠ '{' ∧ ch ≠ '[' := by
  unfold keyPre
  by_cases h : (key.contains ':' || !key.all isPrint) = true
  · rw [if_pos h]
    exact ⟨'"', _, rfl, ⟨by decide, by decide, by decide, by decide⟩, by decide, by decide, by decide⟩
  · rw [if_neg h]
    obtain ⟨h1, h2⟩ := keyPlain_iff.mp h
    cases key with
    | nil => exact ⟨':', [], rfl, ⟨by decide, by decide, by decide, by decide⟩, by decide, by decide, by decide⟩
    | cons c key =>
      obtain ⟨h3, h4, -⟩ := hk h1 h2
      have h4 := h4 c rfl
      simp only [List.mem_cons, List.not_mem_nil, or_false, not_or] at h4
      have hp := h2 c List.mem_cons_self
      refine ⟨c, key ++ [':'], rfl, ⟨h4.1, ?_, isSpace_printable hp h4.1, isCntrl_printable hp⟩, h4.2.1, h4.2.2.2.2.1, h4.2.2.2.2.2⟩
      rintro rfl
      exact h3 List.mem_cons_self

theorem colonPos_key : ∀ (key : List Char) (i : Nat) (f : List Char), ':' ∉ key → colonPos i (key ++ ':' :: ' ' :: f) = some (i + key.length) := by
  intro key
  induction key with
  | nil => intro i f _; rfl
  | cons c key ih =>
    intro i f h
    rw [List.mem_cons, not_or] at h
    rw [List.cons_append, colonPos, if_neg (by simp [show c ≠ ':' from fun e => h.1 e.symm]), ih _ _ h.2, List.length_cons]
    congr 1
    omega

theorem hashBefore_key {key : List Char} (f : List Char) (h : '#' ∉ key) : hashBefore (key ++ f) key.length = false := by
  unfold hashBefore
  split
  · rename_i i hi
    rw [List.findIdx?_append, findIdx_none (fun c hc => by
      simp only [beq_eq_false_iff_ne]; rintro rfl; exact h hc)] at hi
    simp only [Option.none_or, Option.map_eq_some_iff] at hi
    obtain ⟨a, -, ha⟩ := hi
    exact decide_eq_false (by omega)
  · rfl

theorem trim_key {key : List Char} (h2 : ∀ c ∈ key, Printable c) (hh : key.head? ≠ some ' ') (hl : key.getLast? ≠ some ' ') : trim key = key := by
  have hd : ∀ l : List Char, (∀ c ∈ l, Printable c) → l.head? ≠ some ' ' → l.dropWhile isSpace = l := by
    intro l hl hh
    cases l with
    | nil => rfl
    | cons c l =>
      rw [List.dropWhile_cons, isSpace_printable (hl c List.mem_cons_self) (by simpa using hh)]
      rfl
  unfold trim
  rw [hd key h2 hh, hd key.reverse (fun c hc => h2 c (List.mem_reverse.mp hc)) (by rw [List.head?_reverse]; exact hl), List.reverse_reverse]

theorem findString_zero {s : List Char} (h1 : s.head? ≠ some '"') (h2 : s.head? ≠ some '\'') : ∃ len, findString [] s = some (0, len) := by
  unfold findString
  split
  · exact ⟨_, rfl⟩
  · rename_i q r
    have h1 : q ≠ '"' := by simpa using h1
    have h2 : q ≠ '\'' := by simpa using h2
    rw [if_neg (by simp [h1, h2]), findIdx_none (by simp)]
    dsimp only
    split
    · exact ⟨_, rfl⟩
    · exact ⟨_, rfl⟩

theorem parseKey_key (dbg : Bool) {key : List Char} (hk : KeyClean key) (pre f : Line) (tl : List Line) :
    parseKey dbg [] (At pre (keyPre key ++ ' ' :: f) tl) = .ok key (At (pre ++ keyPre key) (' ' :: f) tl) := by
  obtain ⟨ch, r0, hch, hg, hdash, -, -⟩ := key_head hk
  unfold parseKey
  dsimp only
  rw [at_spaces0 _ _ _ (by rw [hch]; simpa using hg.1), at_startsWith _ _ _ _ (by simp), at_rem]
  rw [show (['-'].isPrefixOf (keyPre key ++ ' ' :: f)) = false by rw [hch]; exact not_prefix_head hdash]
  rw [if_neg (by decide)]
  clear hch hg hdash ch r0
  unfold keyPre
  by_cases h : (key.contains ':' || !key.all isPrint) = true
  · rw [if_pos h]
    have he : '"' :: (escape key ++ ['"', ':']) ++ ' ' :: f = '"' :: (escape key ++ '"' :: ':' :: ' ' :: f) := by simp
    rw [he, findString_quoted]
    dsimp only
    rw [if_pos (by omega), List.drop_one, List.tail_cons, List.take_left, resolve_escape]
    dsimp only
    have h1 := at_consume dbg pre ('"' :: (escape key ++ ['"'])) (':' :: ' ' :: f) tl
    simp only [List.length_cons, List.length_nil, List.length_append, List.append_assoc, List.cons_append, List.nil_append, Nat.zero_add] at h1
    rw [show 2 * 1 + (escape key).length = (escape key).length + 1 + 1 by omega, h1]
    simp only [Res.bind]
    rw [at_spaces0 _ _ _ (by simp)]
    have htok : (At (pre ++ '"' :: (escape key ++ ['"'])) (':' :: ' ' :: f) tl).startsWithToken ':' = true := by
      unfold Ctx.startsWithToken
      rw [at_eol, at_cur]
      show (true && (match (pre ++ '"' :: (escape key ++ ['"']) ++ ':' :: ' ' :: f)[(pre ++ '"' :: (escape key ++ ['"'])).length + 1]? with
        | some d => isSpace d
        | none => true) && [':'].isPrefixOf ((pre ++ '"' :: (escape key ++ ['"']) ++ ':' :: ' ' :: f).drop (pre ++ '"' :: (escape key ++ ['"'])).length)) = true
      rw [List.getElem?_append_right (by omega), Nat.add_sub_cancel_left, List.drop_left]
      rfl
    rw [htok, if_pos rfl]
    have h2 := at_consume dbg (pre ++ '"' :: (escape key ++ ['"'])) [':'] (' ' :: f) tl
    simp only [List.length_cons, List.length_nil, Nat.zero_add, List.cons_append, List.nil_append] at h2
    rw [h2]
    simp
  · rw [if_neg h]
    obtain ⟨h1, h2⟩ := keyPlain_iff.mp h
    obtain ⟨h3, h4, h5⟩ := hk h1 h2
    have he : key ++ [':'] ++ ' ' :: f = key ++ ':' :: ' ' :: f := by simp
    have hq : (key ++ ':' :: ' ' :: f).head? ≠ some '"' ∧ (key ++ ':' :: ' ' :: f).head? ≠ some '\'' ∧ key.head? ≠ some ' ' := by
      cases key with
      | nil => simp
      | cons c key =>
        have h4 := h4 c rfl
        simp only [List.mem_cons, List.not_mem_nil, or_false, not_or] at h4
        simp [h4]
    obtain ⟨len, hlen⟩ := findString_zero hq.1 hq.2.1
    rw [he, hlen]
    dsimp only
    rw [if_neg (by omega), colonPos_key _ _ _ h1]
    dsimp only
    rw [Nat.zero_add, hashBefore_key _ h3, if_neg (by decide), List.take_left, trim_key h2 hq.2.2 h5]
    have h6 := at_consume dbg pre (key ++ [':']) (' ' :: f) tl
    simp only [List.length_append, List.length_cons, List.length_nil, Nat.zero_add, List.append_assoc, List.cons_append, List.nil_append] at h6
    rw [h6]
    rfl

end Verif.Yaml
