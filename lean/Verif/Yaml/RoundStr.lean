import Verif.Yaml.SafeLoops
/-!
# Strings and numbers come back — lemmas
-/
namespace Verif.Yaml

variable {F : Type}

/-! ## characters -/

theorem digit_facts : ∀ n : Nat, n < 16 → digitOf (digitChar n) = some n ∧ digitChar n ≠ '"' ∧ digitChar n ≠ '\\' ∧ digitChar n ≠ '\n' := by
  decide +kernel

theorem decimal_facts : ∀ n : Nat, n < 10 → (digitChar n).isAlphanum = true ∧ (digitChar n).isDigit = true := by decide +kernel

theorem ofNat_toNat (c : Char) : Char.ofNat c.toNat = c := by
  rw [Char.ofNat_toNat]

theorem hexByte_cntrl {c : Char} (h : c.toNat < 128) : hexByte (digitChar (c.toNat / 16)) (digitChar (c.toNat % 16)) = some c := by
  unfold hexByte
  rw [(digit_facts _ (by omega)).1, (digit_facts _ (by omega)).1]
  dsimp only
  rw [show 16 * (c.toNat / 16) + c.toNat % 16 = c.toNat by omega, ofNat_toNat]

theorem cntrl_lt {c : Char} (h : isCntrl c = true) : c.toNat < 128 := by
  unfold isCntrl at h
  simp only [Bool.or_eq_true, decide_eq_true_eq, beq_iff_eq] at h
  omega

/-! ## escapes -/

theorem resolve_plain (i : Nat) (c : Char) (s : List Char) (h : c ≠ '\\') : resolve i (c :: s) = (resolve (i + 1) s).map (c :: ·) := by
  rw [resolve]
  intro ch t h1
  exact absurd h1 h

theorem resolve_escChar (c : Char) (i : Nat) (s : List Char) : resolve i (escChar c ++ s) = (resolve (i + (escChar c).length) s).map (c :: ·) := by
  unfold escChar
  split
  · rename_i h; subst h; rfl
  · split
    · rename_i h; subst h; rfl
    · split
      · rename_i h; subst h; rfl
      · split
        · rename_i h; subst h; rfl
        · split
          · rename_i h; subst h; rfl
          · split
            · rename_i h
              have : c = Char.ofNat 8 := by rw [← h, ofNat_toNat]
              subst this; rfl
            · split
              · rename_i h
                have hx := hexByte_cntrl (cntrl_lt h)
                show resolve i ('\\' :: 'x' :: digitChar (c.toNat / 16) :: digitChar (c.toNat % 16) :: s) = _
                rw [resolve, hx]
                rfl
              · rename_i h2 _ _ _ _
                exact resolve_plain i c s h2

theorem resolve_escape (s : List Char) : ∀ i, resolve i (escape s) = .ok s := by
  induction s with
  | nil => intro i; rfl
  | cons c s ih =>
    intro i
    show resolve i (escChar c ++ escape s) = _
    rw [resolve_escChar, ih]
    rfl

theorem closing_plain (i : Nat) (c : Char) (s : List Char) (h1 : c ≠ '\\') (h2 : c ≠ '"') :
    closing '"' false i (c :: s) = closing '"' false (i + 1) s := by
  rw [closing, if_neg h1, if_neg h2]

theorem closing_escChar (c : Char) (i : Nat) (s : List Char) : closing '"' false i (escChar c ++ s) = closing '"' false (i + (escChar c).length) s := by
  unfold escChar
  split
  · rfl
  · rename_i hq
    split
    · rfl
    · split
      · rfl
      · split
        · rfl
        · split
          · rfl
          · split
            · rfl
            · split
              · rename_i h
                have hlt := cntrl_lt h
                have h1 := digit_facts (c.toNat / 16) (by omega)
                have h2 := digit_facts (c.toNat % 16) (by omega)
                show closing '"' false (i + 2) (digitChar (c.toNat / 16) :: digitChar (c.toNat % 16) :: s) = _
                rw [closing_plain _ _ _ h1.2.2.1 h1.2.1, closing_plain _ _ _ h2.2.2.1 h2.2.1]
                rfl
              · rename_i h2 _ _ _ _
                exact closing_plain _ _ _ h2 hq

theorem closing_escape (s t : List Char) : ∀ i, closing '"' false i (escape s ++ '"' :: t) = some (i + (escape s).length) := by
  induction s with
  | nil => intro i; rfl
  | cons c s ih =>
    intro i
    show closing '"' false i ((escChar c ++ escape s) ++ '"' :: t) = _
    rw [List.append_assoc, closing_escChar, ih]
    show _ = some (i + (escChar c ++ escape s).length)
    rw [List.length_append, Nat.add_assoc]

theorem findString_quoted (delims s t : List Char) : findString delims ('"' :: (escape s ++ '"' :: t)) = some (1, (escape s).length) := by
  unfold findString
  dsimp only
  rw [if_pos (by decide), closing_escape]
  simp

theorem escChar_newline (c : Char) : '\n' ∉ escChar c := by
  unfold escChar
  split
  · decide
  · split
    · decide
    · rename_i hn
      split
      · decide
      · split
        · decide
        · split
          · decide
          · split
            · decide
            · split
              · rename_i h
                have hlt := cntrl_lt h
                have h1 := (digit_facts (c.toNat / 16) (by omega)).2.2.2
                have h2 := (digit_facts (c.toNat % 16) (by omega)).2.2.2
                simp only [List.mem_cons, List.not_mem_nil, or_false, not_or]
                exact ⟨by decide, by decide, fun h => h1 h.symm, fun h => h2 h.symm⟩
              · simp only [List.mem_singleton]
                exact fun h => hn h.symm

theorem escape_newline (s : List Char) : '\n' ∉ escape s := by
  unfold escape
  rw [List.mem_flatMap]
  rintro ⟨c, _, h⟩
  exact escChar_newline c h

/-! ## lines -/

/-- lines put together to a text -/
def unl (ls : List Line) : List Char := ls.flatMap (fun l => l ++ ['\n'])

theorem unl_cons (l : Line) (ls : List Line) : unl (l :: ls) = l ++ '\n' :: unl ls := by
  unfold unl
  rw [List.flatMap_cons]
  simp

theorem unl_append (a b : List Line) : unl (a ++ b) = unl a ++ unl b := by
  unfold unl
  rw [List.flatMap_append]

theorem splitGo_line (sep : Char) : ∀ (l cur s : List Char), sep ∉ l → splitGo sep cur (l ++ sep :: s) = (cur ++ l) :: splitGo sep [] s := by
  intro l
  induction l with
  | nil => intro cur s _; rw [List.nil_append, splitGo_cons, if_pos rfl, List.append_nil]
  | cons c l ih =>
    intro cur s h
    rw [List.mem_cons, not_or] at h
    rw [List.cons_append, splitGo_cons, if_neg (fun e => h.1 e.symm), ih _ _ h.2]
    simp

theorem splitGo_end (sep : Char) : ∀ (l cur : List Char), sep ∉ l → cur ++ l ≠ [] → splitGo sep cur l = [cur ++ l] := by
  intro l
  induction l with
  | nil =>
    intro cur _ h
    rw [List.append_nil] at h ⊢
    cases cur with
    | nil => exact absurd rfl h
    | cons a b => rfl
  | cons c l ih =>
    intro cur h hne
    rw [List.mem_cons, not_or] at h
    rw [splitGo_cons, if_neg (fun e => h.1 e.symm), ih _ h.2 (by simp)]
    simp

theorem split_unl : ∀ ls : List Line, (∀ l ∈ ls, '\n' ∉ l) → splitLines (unl ls) = ls := by
  intro ls
  induction ls with
  | nil => intro _; rfl
  | cons l ls ih =>
    intro h
    rw [unl_cons]
    show splitGo '\n' [] _ = _
    rw [splitGo_line _ _ _ _ (h l List.mem_cons_self)]
    rw [show splitGo '\n' [] (unl ls) = ls from ih fun l hl => h l (List.mem_cons_of_mem _ hl)]
    rfl

/-- lines of a text, put together again -/
theorem lines_unl {s : List Char} {ls : List Line} (h : Lines s ls) :
    unl ls = if s.getLast? = some '\n' ∨ s = [] then s else s ++ ['\n'] := by
  induction h with
  | nil => rfl
  | @last l h1 h2 =>
    have : ¬ (l.getLast? = some '\n' ∨ l = []) := by
      rintro (h | h)
      · exact h2 (List.mem_of_getLast? h)
      · exact h1 h
    rw [if_neg this]
    simp [unl]
  | @cons l s ls h1 h2 ih =>
    rw [unl_cons, ih]
    have hlast : (l ++ '\n' :: s).getLast? = some '\n' ∨ l ++ '\n' :: s = [] ↔ (s.getLast? = some '\n' ∨ s = []) := by
      rw [List.getLast?_append, List.getLast?_cons]
      cases hs : s.getLast? with
      | none =>
        rw [List.getLast?_eq_none_iff] at hs
        simp [hs]
      | some c =>
        have : s ≠ [] := by rintro rfl; simp at hs
        simp [this]
    by_cases hc : s.getLast? = some '\n' ∨ s = []
    · rw [if_pos hc, if_pos (hlast.mpr hc)]
    · rw [if_neg hc, if_neg (fun h => hc (hlast.mp h))]
      simp

theorem lines_mem {s : List Char} {ls : List Line} (h : Lines s ls) : ∀ l ∈ ls, '\n' ∉ l ∧ ∃ a b, s = a ++ l ++ b ∧
    (a = [] ∨ a.getLast? = some '\n') ∧ (b = [] ∨ b.head? = some '\n') := by
  induction h with
  | nil => intro l hl; cases hl
  | @last l h1 h2 =>
    intro m hm
    rw [List.mem_singleton] at hm
    subst hm
    exact ⟨h2, [], [], by simp, Or.inl rfl, Or.inl rfl⟩
  | @cons l s ls h1 h2 ih =>
    intro m hm
    rcases List.mem_cons.mp hm with hm | hm
    · subst hm
      exact ⟨h1, [], '\n' :: s, by simp, Or.inl rfl, Or.inr rfl⟩
    · obtain ⟨hn, a, b, hs, ha, hb⟩ := ih m hm
      refine ⟨hn, l ++ '\n' :: a, b, by rw [hs]; simp, Or.inr ?_, hb⟩
      rcases ha with ha | ha
      · subst ha; simp
      · rw [List.getLast?_append, List.getLast?_cons, ha]; simp

/-! ## strings over several lines -/

theorem resolveMulti_plain (i : Nat) (c : Char) (s : List Char) (h : c ≠ '\\') : resolveMulti i (c :: s) = (resolveMulti (i + 1) s).map (c :: ·) := by
  rw [resolveMulti]
  intro ch t h1
  exact absurd h1 h

/-- a line without special escapes is taken as it is -/
theorem resolveMulti_id : ∀ (n : Nat) (s : List Char) (i : Nat), s.length ≤ n → (∀ a c b, s = a ++ '\\' :: c :: b → c ∉ ['0', 'x', 'u']) →
    resolveMulti i s = .ok s := by
  intro n
  induction n with
  | zero =>
    intro s i hn _
    have : s = [] := List.length_eq_zero_iff.mp (by omega)
    subst this
    rfl
  | succ n ih =>
    intro s i hn h
    cases s with
    | nil => rfl
    | cons c s =>
      rw [List.length_cons] at hn
      by_cases hc : c = '\\'
      · subst hc
        cases s with
        | nil => rfl
        | cons d s =>
          rw [List.length_cons] at hn
          have hd := h [] d s rfl
          simp only [List.mem_cons, List.not_mem_nil, or_false, not_or] at hd
          have htail := ih s (i + 2) (by omega) (fun a c b e => h ('\\' :: d :: a) c b (by rw [e]; rfl))
          rw [resolveMulti]
          · rw [htail]; rfl
          · exact hd.1
          · exact hd.2.1
          · exact hd.2.2
      · rw [resolveMulti_plain _ _ _ hc, ih s _ (by omega) (fun a c' b e => h (c :: a) c' b (by rw [e]; rfl))]
        rfl

theorem findIdx_replicate (p : Char → Bool) (n : Nat) (x : Char) (s : List Char) (hx : p x = false) :
    (List.replicate n x ++ s).findIdx? p = (s.findIdx? p).map (· + n) := by
  induction n with
  | zero => simp
  | succ n ih =>
    rw [List.replicate_succ, List.cons_append, List.findIdx?_cons, hx]
    simp only [Bool.false_eq_true, if_false, ih, Option.map_map]
    congr 1

theorem findIdx_none {p : Char → Bool} {s : List Char} (h : ∀ c ∈ s, p c = false) : s.findIdx? p = none := by
  rw [List.findIdx?_eq_none_iff]; exact h

theorem findIdx_some {p : Char → Bool} {s : List Char} {c : Char} (hc : c ∈ s) (h : p c = true) : ∃ i, s.findIdx? p = some i := by
  cases hf : s.findIdx? p with
  | some i => exact ⟨i, rfl⟩
  | none => rw [List.findIdx?_eq_none_iff] at hf; rw [hf c hc] at h; cases h

/-- what follows a value in the text: nothing, or a line that is not indented deeper than `ind` -/
def Good (ch : Char) : Prop := ch ≠ ' ' ∧ ch ≠ '#' ∧ isSpace ch = false ∧ isCntrl ch = false

/-- see `Good` -/
def Stops (ind : Nat) (rest : List Line) : Prop :=
  rest = [] ∨ ∃ i ch r ls, rest = (spaces i ++ ch :: r) :: ls ∧ i ≤ ind ∧ Good ch

theorem Stops.mono {a b : Nat} {rest : List Line} (h : Stops a rest) (hab : a ≤ b) : Stops b rest := by
  rcases h with h | ⟨i, ch, r, ls, h1, h2, h3⟩
  · exact Or.inl h
  · exact Or.inr ⟨i, ch, r, ls, h1, by omega, h3⟩

theorem indentOf_spaces (i : Nat) (ch : Char) (r : Line) (h : ch ≠ ' ') : indentOf [' '] (spaces i ++ ch :: r) = some i := by
  unfold indentOf spaces
  rw [findIdx_replicate _ _ _ _ (by decide), List.findIdx?_cons]
  have : (![' '].contains ch) = true := by simp [h]
  rw [this]
  simp

theorem lead_spaces (i : Nat) (ch : Char) (r : Line) (h : ch ≠ ' ') : lead (spaces i ++ ch :: r) = i := by
  unfold lead spaces
  induction i with
  | zero => simp [h]
  | succ i ih => rw [List.replicate_succ, List.cons_append, List.takeWhile_cons]; simpa using ih

theorem drop_spaces (n : Nat) (l : Line) : (spaces n ++ l).drop n = l := by
  have : (spaces n).length = n := List.length_replicate ..
  rw [List.drop_append, this, Nat.sub_self, List.drop_zero, List.drop_eq_nil_of_le (by omega)]
  rfl

/-- a line that can be written: empty, or with something but spaces, and without special escapes -/
def LineOk (l : Line) : Prop := (l ≠ [] → ∃ c ∈ l, c ≠ ' ') ∧ ∀ a c b, l = a ++ '\\' :: c :: b → c ∉ ['0', 'x', 'u']

theorem multiLoop_lines (ind : Nat) (rest : List Line) (hrest : ∃ p, p < ind ∧ Stops p rest) : ∀ (ls : List Line) (first : Bool) (acc : List Char),
    (∀ l ∈ ls, LineOk l) → multiLoop false ind (ls.map (spaces ind ++ ·) ++ rest) first acc = .ok (acc ++ unl ls) ⟨rest, 0⟩ := by
  intro ls
  induction ls with
  | nil =>
    intro first acc _
    obtain ⟨p, hp, h | ⟨i, ch, r, ls, h1, h2, h3⟩⟩ := hrest
    · subst h; simp [multiLoop, unl]
    · subst h1
      show multiLoop false ind ((spaces i ++ ch :: r) :: ls) first acc = _
      rw [multiLoop, indentOf_spaces _ _ _ h3.1]
      dsimp only
      rw [if_pos (by omega)]
      simp [unl]
  | cons l ls ih =>
    intro first acc hok
    have hl := hok l List.mem_cons_self
    have ih' := fun first acc => ih first acc fun m hm => hok m (List.mem_cons_of_mem _ hm)
    rw [List.map_cons, List.cons_append, multiLoop]
    by_cases he : l = []
    · subst he
      have : indentOf [' '] (spaces ind ++ []) = none := by
        unfold indentOf
        refine findIdx_none fun c hc => ?_
        rw [List.append_nil] at hc
        rw [List.eq_of_mem_replicate hc]
        decide
      rw [this]
      dsimp only
      rw [ih', unl_cons]
      simp
    · obtain ⟨c, hc, hcs⟩ := hl.1 he
      have : ∃ k, indentOf [' '] (spaces ind ++ l) = some (k + ind) := by
        obtain ⟨k, hk⟩ := findIdx_some (p := fun ch => ![' '].contains ch) hc (by simp [hcs])
        refine ⟨k, ?_⟩
        unfold indentOf spaces
        rw [findIdx_replicate _ _ _ _ (by decide), hk]
        rfl
      obtain ⟨k, hk⟩ := this
      rw [hk]
      dsimp only
      rw [if_neg (by omega), drop_spaces, resolveMulti_id _ l 0 (Nat.le_refl _) hl.2]
      simp only [Bool.false_and, Bool.false_eq_true, if_false]
      rw [ih', unl_cons]
      simp

theorem dropEnd_newline (s : List Char) (h : s.getLast? ≠ some '\n') : dropEnd (· == '\n') (s ++ ['\n']) = s := by
  unfold dropEnd
  rw [List.reverse_append]
  show ((s.reverse.dropWhile _)).reverse = s
  have : s.reverse.dropWhile (· == '\n') = s.reverse := by
    cases hr : s.reverse with
    | nil => rfl
    | cons c r =>
      rw [← List.head?_reverse, hr] at h
      rw [List.dropWhile_cons]
      have hc : (c == '\n') = false := by simpa using h
      rw [hc]
      rfl
  rw [this, List.reverse_reverse]

/-- the lines of a string come back as the string -/
theorem chomp_unl {s : List Char} (hne : s ≠ []) : chomp false (decide (s.getLast? = some '\n')) (unl (splitLines s)) = s := by
  rw [lines_unl (lines_split s)]
  unfold chomp
  rw [if_neg (by decide)]
  by_cases h : s.getLast? = some '\n'
  · rw [if_pos (Or.inl h), decide_eq_true h, if_pos rfl]
  · rw [decide_eq_false h, if_neg (by decide), if_neg (fun h' : s.getLast? = some '\n' ∨ s = [] => h'.elim h hne)]
    exact dropEnd_newline s h

theorem isPrint_iff {c : Char} : isPrint c = true ↔ Printable c := by
  unfold isPrint Printable
  rw [Bool.and_eq_true, decide_eq_true_eq, decide_eq_true_eq]

theorem isMulti_iff {s : List Char} : isMulti s = true ↔ '\n' ∈ s ∧ ∀ c ∈ s, Printable c ∨ c = '\n' := by
  unfold isMulti
  rw [Bool.and_eq_true, List.contains_iff_mem, List.all_eq_true]
  refine and_congr_right fun _ => forall_congr' fun c => imp_congr_right fun _ => ?_
  rw [Bool.or_eq_true, isPrint_iff, beq_iff_eq]

theorem lineOk_of_clean {s : List Char} (hm : isMulti s = true) (hc : StrClean s) : ∀ l ∈ splitLines s, LineOk l := by
  intro l hl
  obtain ⟨h1, h2⟩ := isMulti_iff.mp hm
  obtain ⟨h3, h4⟩ := hc h1 h2
  obtain ⟨hn, a, b, hs, ha, hb⟩ := lines_mem (lines_split s) l hl
  refine ⟨fun hne => h3 a l b hs ha hb hn hne, ?_⟩
  intro a' c b' he
  refine h4 (a ++ a') c (b' ++ b) ?_
  rw [hs, he]
  simp

theorem escPlain_id {c : Char} (h : Printable c) : escPlain c = [c] := by
  unfold escPlain Printable at *
  rw [if_neg (by omega), if_neg]
  unfold isCntrl
  rw [decide_eq_false (by omega)]
  have : (c.toNat == 127) = false := by rw [beq_eq_false_iff_ne]; omega
  rw [this]
  simp

theorem escPlain_line {s : List Char} (hm : isMulti s = true) : ∀ l ∈ splitLines s, l.flatMap escPlain = l := by
  intro l hl
  obtain ⟨-, h2⟩ := isMulti_iff.mp hm
  obtain ⟨hn, a, b, hs, -, -⟩ := lines_mem (lines_split s) l hl
  have : ∀ c ∈ l, Printable c := by
    intro c hc
    rcases h2 c (by rw [hs]; simp [hc]) with h | h
    · exact h
    · subst h; exact absurd hc hn
  clear hs hn hl
  induction l with
  | nil => rfl
  | cons c l ih =>
    rw [List.flatMap_cons, escPlain_id (this c List.mem_cons_self), ih fun d hd => this d (List.mem_cons_of_mem _ hd)]
    rfl

/-! ## numbers -/

theorem readDigits_append (b : Nat) : ∀ (s t : List Char) (n : Nat) (any : Bool), s ≠ [] →
    readDigits b n any (s ++ t) = (readDigits b n any s).bind fun m => readDigits b m true t := by
  intro s
  induction s with
  | nil => intro t n any h; exact absurd rfl h
  | cons c s ih =>
    intro t n any _
    rw [List.cons_append, readDigits, readDigits]
    cases hd : digitOf c with
    | none => rfl
    | some d =>
      dsimp only
      split
      · cases s with
        | nil => rfl
        | cons e s => exact ih t _ true (by simp)
      · rfl

theorem natDigits_ne (n : Nat) : natDigits n ≠ [] := by
  rw [natDigits]
  split <;> simp

theorem natDigits_mem (n : Nat) : ∀ c ∈ natDigits n, ∃ d, d < 10 ∧ c = digitChar d := by
  induction n using Nat.strongRecOn with
  | ind n ih =>
    intro c hc
    rw [natDigits] at hc
    split at hc
    · rw [List.mem_singleton] at hc; exact ⟨n, by omega, hc⟩
    · rw [List.mem_append, List.mem_singleton] at hc
      rcases hc with hc | hc
      · exact ih (n / 10) (by omega) c hc
      · exact ⟨n % 10, by omega, hc⟩

theorem readDigits_nat (n : Nat) : readDigits 10 0 false (natDigits n) = some n := by
  induction n using Nat.strongRecOn with
  | ind n ih =>
    rw [natDigits]
    split
    · rename_i h
      rw [readDigits, (digit_facts n (by omega)).1]
      dsimp only
      rw [if_pos h, readDigits, if_pos rfl]
      congr 1
      omega
    · rw [readDigits_append _ _ _ _ _ (natDigits_ne _), ih (n / 10) (by omega)]
      dsimp only [Option.bind_some]
      rw [readDigits, (digit_facts _ (by omega)).1]
      dsimp only
      rw [if_pos (by omega), readDigits, if_pos rfl]
      congr 1
      omega

theorem inRange_holds {t : IntTy} {v : Int} (h : InRange t v) : t.holds v = true := by
  unfold IntTy.holds
  cases hs : t.signed with
  | true => rw [if_pos rfl, Bool.and_eq_true, decide_eq_true_eq, decide_eq_true_eq]; exact h.1 hs
  | false => rw [if_neg (by decide), Bool.and_eq_true, decide_eq_true_eq, decide_eq_true_eq]; exact h.2 hs

theorem intText_mem (v : Int) : ∀ c ∈ intText v, c = '-' ∨ ∃ d, d < 10 ∧ c = digitChar d := by
  intro c hc
  cases v with
  | ofNat n => exact Or.inr (natDigits_mem n c hc)
  | negSucc n =>
    rcases List.mem_cons.mp hc with h | h
    · exact Or.inl h
    · exact Or.inr (natDigits_mem _ c h)

theorem digit_not : ∀ d : Nat, d < 10 → isSpace (digitChar d) = false ∧ digitChar d ≠ 'x' ∧ digitChar d ≠ 'o' ∧ digitChar d ≠ 'b' ∧ digitChar d ≠ '-' := by
  decide +kernel

theorem trim_id {s : List Char} (h : ∀ c ∈ s, isSpace c = false) : trim s = s := by
  have hd : ∀ l : List Char, (∀ c ∈ l, isSpace c = false) → l.dropWhile isSpace = l := by
    intro l hl
    cases l with
    | nil => rfl
    | cons c l => rw [List.dropWhile_cons, hl c List.mem_cons_self]; rfl
  unfold trim
  rw [hd s h, hd _ (fun c hc => h c (List.mem_reverse.mp hc)), List.reverse_reverse]

theorem strip_id {s : List Char} (h : '#' ∉ s) : stripComment s = s := by
  unfold stripComment
  induction s with
  | nil => rfl
  | cons c s ih =>
    rw [List.mem_cons, not_or] at h
    rw [List.takeWhile_cons, ih h.2]
    have : (c != '#') = true := by simpa using fun e => h.1 e.symm
    rw [this]
    rfl

theorem readInt_text {t : IntTy} {v : Int} (h : InRange t v) : readInt t 10 (intText v) = some v := by
  unfold readInt
  cases v with
  | ofNat n =>
    have hm : ∀ s, natDigits n = '-' :: s → False := by
      intro s hs
      obtain ⟨d, hd, he⟩ := natDigits_mem n '-' (by rw [hs]; exact List.mem_cons_self)
      exact (digit_not d hd).2.2.2.2 he.symm
    show Option.filter _ (match natDigits n with
      | '-' :: s' => if t.signed then (readDigits 10 0 false s').map (fun n => -(n : Int)) else none
      | s => (readDigits 10 0 false s).map (fun n => (n : Int))) = _
    split
    · rename_i s hs; exact (hm s hs).elim
    · rw [readDigits_nat]
      show Option.filter _ (some (n : Int)) = _
      rw [Option.filter_some, if_pos (show t.holds (n : Int) = true from inRange_holds h)]
      rfl
  | negSucc n =>
    have hs : t.signed = true := by
      cases ht : t.signed with
      | true => rfl
      | false => have := (h.2 ht).1; omega
    show Option.filter _ (if t.signed then (readDigits 10 0 false (natDigits (n + 1))).map (fun n => -(n : Int)) else none) = _
    rw [hs, if_pos rfl, readDigits_nat]
    show Option.filter _ (some (-((n + 1 : Nat) : Int))) = _
    have : -((n + 1 : Nat) : Int) = Int.negSucc n := by omega
    rw [this, Option.filter_some, if_pos (inRange_holds h)]

theorem parseInt_text {t : IntTy} {v : Int} (h : InRange t v) : parseInt t (intText v) = some v := by
  have hsp : ∀ c ∈ intText v, isSpace c = false := by
    intro c hc
    rcases intText_mem v c hc with h | ⟨d, hd, h⟩
    · subst h; decide
    · rw [h]; exact (digit_not d hd).1
  have hno : ∀ x ∈ ['x', 'o', 'b'], x ∉ intText v := by
    intro x hx hm
    rcases intText_mem v x hm with h | ⟨d, hd, h⟩
    · subst h; revert hx; decide
    · have := digit_not d hd
      simp only [List.mem_cons, List.not_mem_nil, or_false] at hx
      rcases hx with rfl | rfl | rfl
      · exact this.2.1 h.symm
      · exact this.2.2.1 h.symm
      · exact this.2.2.2.1 h.symm
  unfold parseInt
  rw [trim_id hsp]
  dsimp only
  split
  · rename_i s' hs; exact (hno 'x' (by decide) (by rw [hs]; simp)).elim
  · rename_i s' hs; exact (hno 'o' (by decide) (by rw [hs]; simp)).elim
  · rename_i s' hs; exact (hno 'b' (by decide) (by rw [hs]; simp)).elim
  · exact readInt_text h

end Verif.Yaml
