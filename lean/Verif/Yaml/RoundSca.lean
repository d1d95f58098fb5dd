import Verif.Yaml.RoundAt
/-!
# Saved text loads again — numbers and tags
-/
namespace Verif.Yaml

variable {F : Type}

theorem ofNat_eq {c : Char} {n : Nat} (h : c.toNat = n) : c = Char.ofNat n := by
  rw [← h, ofNat_toNat]

theorem numChar_space {c : Char} (h : NumChar c) : isSpace c = false := by
  have hno : ∀ d ∈ [' ', '\t', '\n', '\r', Char.ofNat 11, Char.ofNat 12], ¬ NumChar d := by
    intro d hd
    simp only [List.mem_cons, List.not_mem_nil, or_false] at hd
    unfold NumChar
    rcases hd with rfl | rfl | rfl | rfl | rfl | rfl <;> decide
  cases hs : isSpace c with
  | false => rfl
  | true =>
    refine (hno c ?_ h).elim
    unfold isSpace at hs
    simp only [Bool.or_eq_true, beq_iff_eq] at hs
    simp only [List.mem_cons, List.not_mem_nil, or_false]
    rcases hs with ((((h | h) | h) | h) | h) | h
    · exact Or.inl h
    · exact Or.inr (Or.inl h)
    · exact Or.inr (Or.inr (Or.inl h))
    · exact Or.inr (Or.inr (Or.inr (Or.inl h)))
    · exact Or.inr (Or.inr (Or.inr (Or.inr (Or.inl (ofNat_eq h)))))
    · exact Or.inr (Or.inr (Or.inr (Or.inr (Or.inr (ofNat_eq h)))))

theorem numChar_not {c : Char} (h : NumChar c) : c ∉ [' ', '#', ':', '"', '\'', '[', '{', '!'] ∧ c ≠ ',' ∧ c ≠ '(' ∧ c ≠ ')' ∧ c ≠ '\n' := by
  have hno : ∀ d ∈ [' ', '#', ':', '"', '\'', '[', '{', '!', ',', '(', ')', '\n'], ¬ NumChar d := by
    intro d hd
    simp only [List.mem_cons, List.not_mem_nil, or_false] at hd
    unfold NumChar
    rcases hd with rfl | rfl | rfl | rfl | rfl | rfl | rfl | rfl | rfl | rfl | rfl | rfl <;> decide
  refine ⟨fun hc => hno c ?_ h, ?_, ?_, ?_, ?_⟩
  · simp only [List.mem_cons, List.not_mem_nil, or_false] at hc ⊢
    grind
  all_goals (rintro rfl; exact hno _ (by simp) h)

theorem numText_plain {s : List Char} (h : NumText s) : PlainText s := ⟨h.1, h.2.1, fun c hc => (numChar_not (h.2.2.1 c hc)).1⟩

theorem intText_plain (v : Int) : PlainText (intText v) := by
  have hd : ∀ d : Nat, d < 10 → digitChar d ∉ [' ', '#', ':', '"', '\'', '[', '{', '!'] := by decide +kernel
  refine ⟨?_, ?_, ?_⟩
  · cases v with
    | ofNat n => exact natDigits_ne n
    | negSucc n => simp [intText]
  · cases v with
    | ofNat n =>
      intro he
      have he : natDigits n = ['-'] := he
      obtain ⟨d, hd, h⟩ := natDigits_mem n '-' (by rw [he]; simp)
      exact (digit_not d hd).2.2.2.2 h.symm
    | negSucc n =>
      intro he
      have he : '-' :: natDigits (n + 1) = ['-'] := he
      exact natDigits_ne (n + 1) (List.cons.inj he).2
  · intro c hc
    rcases intText_mem v c hc with rfl | ⟨d, hlt, rfl⟩
    · decide
    · exact hd d hlt

/-- the part between the parentheses and the comma -/
theorem splitGo_comma {a b : List Char} (ha : ',' ∉ a) (hb : ',' ∉ b) (hne : b ≠ []) : splitGo ',' [] (a ++ ',' :: b) = [a, b] := by
  rw [splitGo_line ',' a [] b ha, splitGo_end ',' b [] hb (by simpa using hne)]
  rfl

theorem parseFloat_num (fl : Floats F) (w : Bool) {x : F} (h : Exact fl w x) : parseFloat fl w (fl.print w x) = some x := by
  obtain ⟨hn, hr⟩ := h
  generalize fl.print w x = s at hn hr
  unfold parseFloat
  rw [strip_id ((numText_plain hn).not (by decide)), trim_id (fun c hc => numChar_space (hn.2.2.1 c hc))]
  dsimp only
  have h1 : ∀ a c b, c.isDigit = false → c ≠ 'e' → s ≠ a ++ '.' :: c :: b := by
    intro a c b h1 h2 he
    rcases hn.2.2.2 a c b he with h | h
    · rw [h1] at h; cases h
    · exact h2 h
  rw [if_neg, if_neg, if_neg, hr]
  · simp only [Bool.or_eq_true, decide_eq_true_eq, not_or]
    exact ⟨⟨h1 [] 'n' ['a', 'n'] (by decide) (by decide), h1 [] 'N' ['a', 'N'] (by decide) (by decide)⟩, h1 [] 'N' ['A', 'N'] (by decide) (by decide)⟩
  · simp only [Bool.or_eq_true, decide_eq_true_eq, not_or]
    exact ⟨⟨h1 ['-'] 'i' ['n', 'f'] (by decide) (by decide), h1 ['-'] 'I' ['n', 'f'] (by decide) (by decide)⟩, h1 ['-'] 'I' ['N', 'F'] (by decide) (by decide)⟩
  · simp only [Bool.or_eq_true, decide_eq_true_eq, not_or]
    exact ⟨⟨h1 [] 'i' ['n', 'f'] (by decide) (by decide), h1 [] 'I' ['n', 'f'] (by decide) (by decide)⟩, h1 [] 'I' ['N', 'F'] (by decide) (by decide)⟩

theorem cplx_mem {fl : Floats F} {w : Bool} {re im : F} (h1 : Exact fl w re) (h2 : Exact fl w im) :
    ∀ c ∈ (Sca.cplx w re im).text fl, NumChar c ∨ c = '(' ∨ c = ',' ∨ c = ')' := by
  intro c hc
  unfold Sca.text at hc
  simp only [List.mem_append] at hc
  rcases hc with (((h | h) | h) | h) | h
  · exact Or.inr (Or.inl (by simpa using h))
  · exact Or.inl (h1.1.2.2.1 c h)
  · exact Or.inr (Or.inr (Or.inl (by simpa using h)))
  · exact Or.inl (h2.1.2.2.1 c h)
  · exact Or.inr (Or.inr (Or.inr (by simpa using h)))

theorem text_flt (fl : Floats F) (w : Bool) (x : F) : (Sca.flt w x).text fl =
    if fl.isNan x then ".nan".toList else if fl.isInf x then (if fl.neg x then "-.inf".toList else ".inf".toList) else fl.print w x := rfl

theorem text_bool (fl : Floats F) (b : Bool) : (Sca.bool b).text fl = if b then "true".toList else "false".toList := rfl

theorem sca_plain {fl : Floats F} {s : Sca F} (h : s.Clean fl) : PlainText (s.text fl) := by
  cases s with
  | bool b =>
    rw [text_bool]
    clear h
    cases b <;> exact ⟨by decide, by decide, by decide⟩
  | int t v => exact intText_plain v
  | flt w x =>
    rw [text_flt]
    rcases h with ⟨h, -⟩ | ⟨h, h', -⟩ | ⟨h, h', h''⟩
    · rw [if_pos h]; exact ⟨by decide, by decide, by decide⟩
    · rw [if_neg (by rw [h]; decide), if_pos h']
      split
      · exact ⟨by decide, by decide, by decide⟩
      · exact ⟨by decide, by decide, by decide⟩
    · rw [if_neg (by rw [h]; decide), if_neg (by rw [h']; decide)]
      exact numText_plain h''.1
  | cplx w re im =>
    refine ⟨by simp [Sca.text], ?_, fun c hc => ?_⟩
    · intro he
      have : '(' ∈ (Sca.cplx w re im).text fl := by simp [Sca.text]
      rw [he] at this
      exact absurd this (by decide)
    · rcases cplx_mem h.1 h.2 c hc with h | rfl | rfl | rfl
      · exact (numChar_not h).1
      · decide
      · decide
      · decide

theorem sca_newline {fl : Floats F} {s : Sca F} (h : s.Clean fl) : '\n' ∉ s.text fl := by
  cases s with
  | bool b =>
    rw [text_bool]
    clear h
    cases b <;> decide
  | int t v =>
    intro hm
    rcases intText_mem v _ hm with h | ⟨d, hd, h⟩
    · exact absurd h (by decide)
    · exact (digit_facts d (by omega)).2.2.2 h.symm
  | flt w x =>
    rw [text_flt]
    rcases h with ⟨h, -⟩ | ⟨h, h', -⟩ | ⟨h, h', h''⟩
    · rw [if_pos h]; decide
    · rw [if_neg (by rw [h]; decide), if_pos h']
      split <;> decide
    · rw [if_neg (by rw [h]; decide), if_neg (by rw [h']; decide)]
      exact fun hm => (numChar_not (h''.1.2.2.1 _ hm)).2.2.2.2 rfl
  | cplx w re im =>
    intro hm
    rcases cplx_mem h.1 h.2 _ hm with h | h | h | h
    · exact (numChar_not h).2.2.2.2 rfl
    · exact absurd h (by decide)
    · exact absurd h (by decide)
    · exact absurd h (by decide)

theorem sca_parse {fl : Floats F} {s : Sca F} (h : s.Clean fl) : parseSca fl s.ty (s.text fl) = .ok s := by
  cases s with
  | bool b => cases b <;> rfl
  | int t v =>
    show (match parseInt t (intText v) with
      | some v => Except.ok (Sca.int t v)
      | none => .error Err.invalidInt) = _
    rw [parseInt_text h.2]
  | flt w x =>
    have key : parseFloat fl w ((Sca.flt w x).text fl) = some x := by
      rw [text_flt]
      rcases h with ⟨h, hx⟩ | ⟨h, h', hx⟩ | ⟨h, h', h''⟩
      · rw [if_pos h]
        rw [show parseFloat fl w ".nan".toList = some fl.nan from rfl, ← hx]
      · rw [if_neg (by rw [h]; decide), if_pos h']
        split
        · rename_i hneg
          rw [show parseFloat fl w "-.inf".toList = some (fl.inf true) from rfl, ← hneg, ← hx]
        · rename_i hneg
          rw [Bool.not_eq_true] at hneg
          rw [show parseFloat fl w ".inf".toList = some (fl.inf false) from rfl, ← hneg, ← hx]
      · rw [if_neg (by rw [h]; decide), if_neg (by rw [h']; decide)]
        exact parseFloat_num fl w h''
    show (match parseFloat fl w ((Sca.flt w x).text fl) with
      | some x => Except.ok (Sca.flt w x)
      | none => .error Err.invalidFloat) = _
    rw [key]
  | cplx w re im =>
    have hplain := sca_plain (s := .cplx w re im) h
    show (parseComplex fl w ((Sca.cplx w re im).text fl)).map _ = _
    unfold parseComplex
    rw [strip_id (hplain.not (by decide)), trim_id (fun c hc => by
      rcases cplx_mem h.1 h.2 c hc with h | rfl | rfl | rfl
      · exact numChar_space h
      · decide
      · decide
      · decide)]
    have he : (Sca.cplx w re im).text fl = '(' :: ((fl.print w re ++ ',' :: fl.print w im) ++ [')']) := by
      unfold Sca.text
      simp
    rw [he]
    dsimp only
    rw [if_pos (by simp [List.getLast?_cons]), List.drop_one, List.tail_cons, List.dropLast_concat]
    have hc : ∀ x, Exact fl w x → ',' ∉ fl.print w x := fun x hx hm => (numChar_not (hx.1.2.2.1 _ hm)).2.1 rfl
    have ht : ∀ x, Exact fl w x → parseFloat fl w (trim (fl.print w x)) = some x := by
      intro x hx
      rw [trim_id (fun c hc => numChar_space (hx.1.2.2.1 c hc)), parseFloat_num fl w hx]
    rw [splitGo_comma (hc re h.1) (hc im h.2) h.2.1.1]
    dsimp only
    rw [ht re h.1]
    dsimp only
    rw [ht im h.2]
    rfl

/-! ## tags -/

theorem tag_facts {t : Ty} (h : ∀ i, t = .int i → Known i) :
    tagOf t.tag = some (.sca t) ∧ ' ' ∉ t.tag ∧ '\n' ∉ t.tag ∧ ['!', '!'].isPrefixOf t.tag = true := by
  have hint : ∀ i ∈ intTys, tagOf (Ty.int i).tag = some (.sca (.int i)) ∧ ' ' ∉ (Ty.int i).tag ∧ '\n' ∉ (Ty.int i).tag ∧
      ['!', '!'].isPrefixOf (Ty.int i).tag = true := by decide +kernel
  cases t with
  | bool => decide +kernel
  | int i =>
    refine hint i ?_
    obtain ⟨b, s⟩ := i
    rcases h _ rfl with h | h | h | h <;> (dsimp only at h; subst h; cases s <;> decide)
  | flt w => cases w <;> decide +kernel
  | cplx w => cases w <;> decide +kernel

theorem parseTag_none (dbg : Bool) (pre : Line) {r : Line} (tl : List Line) (h : r.head? ≠ some '!') : parseTag dbg (At pre r tl) = .ok none (At pre r tl) := by
  unfold parseTag
  rw [at_startsWith _ _ _ _ (by simp), if_neg]
  cases r with
  | nil => decide
  | cons ch r =>
    rw [not_prefix_head (by simpa using h)]
    decide

theorem findIdx_space {T : List Char} (h : ' ' ∉ T) (x : List Char) : (T ++ ' ' :: x).findIdx? (· == ' ') = some T.length := by
  rw [List.findIdx?_append, findIdx_none (fun c hc => by
    simp only [beq_eq_false_iff_ne]; rintro rfl; exact h hc)]
  rw [List.findIdx?_cons]
  simp

theorem parseTag_tag (dbg : Bool) (pre : Line) {T : List Char} {t : Tag} (x : Line) (tl : List Line) (h1 : tagOf T = some t) (h2 : ' ' ∉ T)
    (h3 : ['!', '!'].isPrefixOf T = true) : parseTag dbg (At pre (T ++ ' ' :: x) tl) = .ok (some t) (At (pre ++ (T ++ [' '])) x tl) := by
  unfold parseTag
  have hp : ['!', '!'].isPrefixOf (T ++ ' ' :: x) = true := by
    rw [List.isPrefixOf_iff_prefix] at h3 ⊢
    exact h3.trans (List.prefix_append _ _)
  rw [at_startsWith _ _ _ _ (by simp), hp, if_pos rfl, at_rem, findIdx_space h2]
  dsimp only
  rw [List.take_left, h1]
  dsimp only
  have := at_consume dbg pre (T ++ [' ']) x tl
  simp only [List.length_append, List.length_cons, List.length_nil, Nat.zero_add, List.append_assoc, List.cons_append, List.nil_append] at this
  rw [this]
  rfl

theorem parseTag_end (dbg : Bool) (pre : Line) {T : List Char} {t : Tag} (tl : List Line) (h1 : tagOf T = some t) (h2 : ' ' ∉ T)
    (h3 : ['!', '!'].isPrefixOf T = true) : parseTag dbg (At pre T tl) = .ok (some t) (At (pre ++ T) [] tl) := by
  unfold parseTag
  rw [at_startsWith _ _ _ _ (by simp), h3, if_pos rfl, at_rem, findIdx_none (fun c hc => by
    simp only [beq_eq_false_iff_ne]; rintro rfl; exact h2 hc)]
  dsimp only
  rw [h1]
  dsimp only
  have := at_consume dbg pre T [] tl
  rw [List.append_nil] at this
  rw [this]
  rfl

end Verif.Yaml
