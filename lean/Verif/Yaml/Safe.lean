import Verif.Yaml.Spec
/-!
# Loading never reads outside the text — lemmas

`Safe c d P r` says of an outcome `r` reached from position `c`: it is a value with `P` at least `d` characters further, or an error in the text.
-/
namespace Verif.Yaml

variable {F : Type} {α β : Type}

/-- the column is in the line, or directly behind it -/
def Ctx.Ok (c : Ctx) : Prop := c.col ≤ c.cur.length

/-- characters and line ends that remain -/
def Ctx.size (c : Ctx) : Nat := textSize c.lines - c.col

/-- see the head of the file -/
def Safe (c : Ctx) (d : Nat) (P : α → Prop) (r : Res α) : Prop :=
  match r with
  | .ok a c' => P a ∧ c'.Ok ∧ c'.lines <:+ c.lines ∧ c'.size + d ≤ c.size
  | .err _ c' n => c'.lines <:+ c.lines ∧ n ≤ c'.cur.length
  | .ub => False
  | .fuel => False

/-- the text does not make an assertion read outside the lines: assertions are off, or there is no flow style value -/
def NoFlow (dbg : Bool) (lines : List Line) : Prop := dbg = true → ∀ l ∈ lines, '[' ∉ l ∧ '{' ∉ l

theorem NoFlow.mono {dbg : Bool} {a b : List Line} (h : NoFlow dbg a) (hs : b <:+ a) : NoFlow dbg b :=
  fun hd l hl => h hd l (hs.subset hl)

theorem safe_bind_eq {c : Ctx} {d e : Nat} {P : α → Prop} {Q : β → Prop} {r : Res α} {f : α → Ctx → Res β} (hr : Safe c d P r)
    (hf : ∀ a c', r = .ok a c' → P a → c'.Ok → c'.lines <:+ c.lines → c'.size + d ≤ c.size → Safe c' e Q (f a c')) : Safe c (d + e) Q (r.bind f) := by
  cases r with
  | ok a c' =>
    obtain ⟨hp, ho, hs, hz⟩ := hr
    have := hf a c' rfl hp ho hs hz
    simp only [Res.bind]
    generalize f a c' = r2 at this
    cases r2 with
    | ok b c2 => obtain ⟨h1, h2, h3, h4⟩ := this; exact ⟨h1, h2, h3.trans hs, by omega⟩
    | err x c2 n => exact ⟨this.1.trans hs, this.2⟩
    | ub => exact this
    | fuel => exact this
  | err x c2 n => exact hr
  | ub => exact hr
  | fuel => exact hr

theorem safe_bind {c : Ctx} {d e : Nat} {P : α → Prop} {Q : β → Prop} {r : Res α} {f : α → Ctx → Res β} (hr : Safe c d P r)
    (hf : ∀ a c', P a → c'.Ok → c'.lines <:+ c.lines → c'.size + d ≤ c.size → Safe c' e Q (f a c')) : Safe c (d + e) Q (r.bind f) :=
  safe_bind_eq hr fun a c' _ => hf a c'

theorem Safe.weak {c c1 : Ctx} {d d' : Nat} {P Q : α → Prop} {r : Res α} (h : Safe c1 d P r) (hs : c1.lines <:+ c.lines)
    (hz : c1.size + d' ≤ c.size + d) (hp : ∀ a, P a → Q a) : Safe c d' Q r := by
  cases r with
  | ok a c' => obtain ⟨h1, h2, h3, h4⟩ := h; exact ⟨hp a h1, h2, h3.trans hs, by omega⟩
  | err x c2 n => exact ⟨h.1.trans hs, h.2⟩
  | ub => exact h
  | fuel => exact h

theorem safe_fail {c c1 : Ctx} {d : Nat} {P : α → Prop} {e : Err} (ho : c1.Ok) (hs : c1.lines <:+ c.lines) : Safe c d P (fail e c1) :=
  ⟨hs, ho⟩

/-! ## positions -/

theorem size_cons (l : Line) (ls : List Line) (n : Nat) : (Ctx.mk (l :: ls) n).size = l.length + 1 + textSize ls - n := rfl

theorem eod_iff {c : Ctx} : c.eod = true ↔ c.lines = [] := by simp [Ctx.eod]

theorem rem_eq {c : Ctx} (ho : c.Ok) : c.rem = c.cur.drop c.col := by
  unfold Ctx.rem
  by_cases h : c.eol = true
  · rw [if_pos h]
    unfold Ctx.eol at h
    simp only [Bool.or_eq_true, beq_iff_eq] at h
    rcases h with h | h
    · rw [eod_iff] at h
      simp [Ctx.cur, h]
    · rw [h]; simp
  · rw [if_neg h]

theorem rem_length {c : Ctx} (ho : c.Ok) : c.rem.length = c.cur.length - c.col := by rw [rem_eq ho, List.length_drop]

theorem eol_iff {c : Ctx} (ho : c.Ok) : c.eol = true ↔ c.rem = [] := by
  rw [rem_eq ho]
  unfold Ctx.eol
  simp only [Bool.or_eq_true, beq_iff_eq]
  constructor
  · rintro (h | h)
    · rw [eod_iff] at h; simp [Ctx.cur, h]
    · rw [h]; simp
  · intro h
    rw [List.drop_eq_nil_iff] at h
    exact Or.inr (Nat.le_antisymm ho h)

theorem rem_nil_of_eod {c : Ctx} (h : c.lines = []) : c.rem = [] := by
  unfold Ctx.rem Ctx.eol
  simp [Ctx.eod, h]

theorem next_ok (c : Ctx) : c.Ok → c.next.Ok := by
  intro h
  unfold Ctx.next
  cases hl : c.lines with
  | nil => exact h
  | cons l ls => exact Nat.zero_le _

theorem next_suffix (c : Ctx) : c.next.lines <:+ c.lines := by
  unfold Ctx.next
  cases hl : c.lines with
  | nil => rw [hl]; exact List.suffix_rfl
  | cons l ls => exact List.suffix_cons _ _

theorem next_size {c : Ctx} (ho : c.Ok) : c.next.size ≤ c.size := by
  unfold Ctx.next
  obtain ⟨ls, n⟩ := c
  cases ls with
  | nil => exact Nat.le_refl _
  | cons l ls =>
    have : n ≤ l.length := ho
    show textSize ls - 0 ≤ l.length + 1 + textSize ls - n
    omega

theorem next_size_lt {c : Ctx} (ho : c.Ok) (hl : c.lines ≠ []) : c.next.size + 1 ≤ c.size := by
  unfold Ctx.next
  obtain ⟨ls, n⟩ := c
  cases ls with
  | nil => exact absurd rfl hl
  | cons l ls =>
    have : n ≤ l.length := ho
    show textSize ls - 0 + 1 ≤ l.length + 1 + textSize ls - n
    omega

theorem lead_le (l : Line) : lead l ≤ l.length := (List.takeWhile_sublist _).length_le

theorem spaces_lines (c : Ctx) : c.spaces.lines = c.lines := by unfold Ctx.spaces; split <;> rfl

theorem spaces_cur (c : Ctx) : c.spaces.cur = c.cur := by unfold Ctx.cur; rw [spaces_lines]

theorem spaces_ok {c : Ctx} (ho : c.Ok) : c.spaces.Ok := by
  unfold Ctx.Ok
  rw [spaces_cur]
  unfold Ctx.spaces
  split
  · exact ho
  · have := lead_le (c.cur.drop c.col)
    rw [List.length_drop] at this
    have : c.col ≤ c.cur.length := ho
    show c.col + lead (c.cur.drop c.col) ≤ c.cur.length
    omega

theorem spaces_size (c : Ctx) : c.spaces.size ≤ c.size := by
  unfold Ctx.size
  rw [spaces_lines]
  have : c.col ≤ c.spaces.col := by unfold Ctx.spaces; split <;> simp
  omega

theorem spaces_suffix (c : Ctx) : c.spaces.lines <:+ c.lines := by rw [spaces_lines]; exact List.suffix_rfl

theorem ws_props : ∀ (ls : List Line) (n : Nat), n ≤ (ls.headD []).length →
    (skipWs ls n).Ok ∧ (skipWs ls n).lines <:+ ls ∧ (skipWs ls n).size ≤ (Ctx.mk ls n).size := by
  intro ls
  induction ls with
  | nil => intro n h; exact ⟨h, List.suffix_rfl, Nat.le_refl _⟩
  | cons l ls ih =>
    intro n h
    have h : n ≤ l.length := h
    have hlead := lead_le (l.drop n)
    rw [List.length_drop] at hlead
    have hnext : (skipWs ls 0).Ok ∧ (skipWs ls 0).lines <:+ l :: ls ∧ (skipWs ls 0).size ≤ (Ctx.mk (l :: ls) n).size := by
      obtain ⟨h1, h2, h3⟩ := ih 0 (Nat.zero_le _)
      refine ⟨h1, h2.trans (List.suffix_cons _ _), Nat.le_trans h3 ?_⟩
      show textSize ls - 0 ≤ l.length + 1 + textSize ls - n
      omega
    unfold skipWs
    dsimp only
    split
    · exact hnext
    · split
      · exact hnext
      · refine ⟨?_, List.suffix_rfl, ?_⟩
        · show n + lead (l.drop n) ≤ l.length
          omega
        · show l.length + 1 + textSize ls - (n + lead (l.drop n)) ≤ l.length + 1 + textSize ls - n
          omega

theorem ws_ok {c : Ctx} (ho : c.Ok) : c.ws.Ok := (ws_props c.lines c.col ho).1
theorem ws_suffix {c : Ctx} (ho : c.Ok) : c.ws.lines <:+ c.lines := (ws_props c.lines c.col ho).2.1
theorem ws_size {c : Ctx} (ho : c.Ok) : c.ws.size ≤ c.size := (ws_props c.lines c.col ho).2.2

/-! ## consuming -/

theorem consume_eq {dbg : Bool} {n : Nat} {c : Ctx} (hd : dbg = true → c.lines ≠ []) (ho : c.Ok) (hn : n ≤ c.rem.length) :
    consume dbg n c = .ok () ⟨c.lines, c.col + n⟩ := by
  rw [rem_length ho] at hn
  have ho : c.col ≤ c.cur.length := ho
  obtain ⟨ls, k⟩ := c
  unfold consume
  cases ls with
  | nil =>
    have h0 : n = 0 := by simp only [Ctx.cur, List.headD_nil, List.length_nil] at hn; omega
    have hf : dbg = false := by cases dbg with
      | false => rfl
      | true => exact absurd rfl (hd rfl)
    subst h0 hf
    rfl
  | cons l ls =>
    have hn : n ≤ l.length - k := hn
    have ho : k ≤ l.length := ho
    show (if k + n ≤ l.length then _ else _) = _
    rw [if_pos (by omega)]

theorem consume_ok {c : Ctx} {n : Nat} (ho : c.Ok) (hn : n ≤ c.rem.length) : (Ctx.mk c.lines (c.col + n)).Ok := by
  rw [rem_length ho] at hn
  have ho : c.col ≤ c.cur.length := ho
  show c.col + n ≤ c.cur.length
  omega

theorem size_le_of_ok {c : Ctx} (ho : c.Ok) : c.cur.length ≤ textSize c.lines := by
  obtain ⟨ls, k⟩ := c
  cases ls with
  | nil => exact Nat.zero_le _
  | cons l ls => show l.length ≤ l.length + 1 + textSize ls; omega

theorem consume_size {c : Ctx} {n : Nat} (ho : c.Ok) (hn : n ≤ c.rem.length) : (Ctx.mk c.lines (c.col + n)).size + n ≤ c.size := by
  rw [rem_length ho] at hn
  have := size_le_of_ok ho
  have ho : c.col ≤ c.cur.length := ho
  show textSize c.lines - (c.col + n) + n ≤ textSize c.lines - c.col
  omega

theorem consume_safe {dbg : Bool} {n : Nat} {c : Ctx} (hd : dbg = true → c.lines ≠ []) (ho : c.Ok) (hn : n ≤ c.rem.length) :
    Safe c n (fun _ => True) (consume dbg n c) := by
  rw [consume_eq hd ho hn]
  exact ⟨trivial, consume_ok ho hn, List.suffix_rfl, consume_size ho hn⟩

theorem startsWith_props {c : Ctx} {p : List Char} (ho : c.Ok) (h : c.startsWith p = true) : p <+: c.rem ∧ c.lines ≠ [] ∧ c.rem ≠ [] := by
  unfold Ctx.startsWith at h
  simp only [Bool.and_eq_true, Bool.not_eq_true', List.isPrefixOf_iff_prefix] at h
  refine ⟨by rw [rem_eq ho]; exact h.2, ?_, ?_⟩
  · intro hl
    have := h.1
    unfold Ctx.eol at this
    simp [Ctx.eod, hl] at this
  · intro hr
    rw [(eol_iff ho).mpr hr] at h
    exact absurd h.1 (by decide)

theorem consumeIf_cases (dbg : Bool) (p : List Char) {c : Ctx} (ho : c.Ok) :
    (c.startsWith p = true ∧ consumeIf dbg p c = .ok true ⟨c.lines, c.col + p.length⟩ ∧ p.length ≤ c.rem.length) ∨
    (c.startsWith p = false ∧ consumeIf dbg p c = .ok false c) := by
  unfold consumeIf
  cases h : c.startsWith p with
  | true =>
    obtain ⟨hp, hl, -⟩ := startsWith_props ho h
    refine Or.inl ⟨rfl, ?_, hp.length_le⟩
    rw [if_pos rfl, consume_eq (fun _ => hl) ho hp.length_le]
    rfl
  | false => exact Or.inr ⟨rfl, by rw [if_neg (by decide)]⟩

/-- what is left after the text was tested for `p`, in the form the proofs need -/
theorem consumeIf_safe {dbg : Bool} {p : List Char} {c : Ctx} {e : Nat} {Q : β → Prop} {f : Bool → Ctx → Res β} (ho : c.Ok)
    (ht : ∀ c', c.startsWith p = true → c'.Ok → c'.lines = c.lines → c'.size + p.length ≤ c.size → Safe c' (e - p.length) Q (f true c'))
    (hf : c.startsWith p = false → Safe c e Q (f false c)) : Safe c e Q ((consumeIf dbg p c).bind f) := by
  rcases consumeIf_cases dbg p ho with ⟨h1, h2, h3⟩ | ⟨h1, h2⟩
  · rw [h2]
    have hz := consume_size ho h3
    exact (ht _ h1 (consume_ok ho h3) rfl hz).weak (List.suffix_rfl) (by omega) (fun _ h => h)
  · rw [h2]
    exact hf h1

theorem currentIndent_eq {chars : List Char} {c : Ctx} (hl : c.lines ≠ []) : currentIndent chars c = .ok (indentOf chars c.cur) c := by
  obtain ⟨ls, k⟩ := c
  cases ls with
  | nil => exact absurd rfl hl
  | cons l ls => rfl

theorem currentIndent_bind {chars : List Char} {c : Ctx} (hl : c.lines ≠ []) (f : Option Nat → Ctx → Res β) :
    (currentIndent chars c).bind f = f (indentOf chars c.cur) c := by
  rw [currentIndent_eq hl]; rfl

theorem ne_nil_of_eod {c : Ctx} (h : ¬ c.eod = true) : c.lines ≠ [] := fun hl => h (eod_iff.mpr hl)

/-! ## tags and strings -/

theorem findIdx_lt {p : Char → Bool} {s : List Char} {i : Nat} (h : s.findIdx? p = some i) : i < s.length := by
  rw [List.findIdx?_eq_some_iff_findIdx_eq] at h
  exact h.1

/-- the type a tag names is one of the eight -/
def TagOk (o : Option Tag) : Prop := ∀ t, o = some (.sca (.int t)) → Known t

theorem tagOf_ok {s : List Char} {t : Tag} (h : tagOf s = some t) : TagOk (some t) := by
  unfold tagOf at h
  obtain ⟨x, hx, rfl⟩ := Option.map_eq_some_iff.1 h
  have hm := List.mem_of_find?_eq_some hx
  have hall : ∀ x ∈ readerTags, ∀ i, x.2 = .sca (.int i) → i ∈ intTys := by
    intro x hx i hi
    simp only [readerTags, List.mem_cons, List.not_mem_nil, or_false] at hx
    rcases hx with rfl | rfl | rfl | rfl | rfl | rfl | rfl | rfl | rfl | rfl | rfl | rfl | rfl | rfl | rfl <;> cases hi <;> decide
  intro i hi
  have hm := hall x hm i (Option.some.inj hi)
  simp only [intTys, List.mem_cons, List.not_mem_nil, or_false] at hm
  unfold Known
  rcases hm with h | h | h | h | h | h | h | h <;> subst h <;> simp

theorem parseTag_safe {dbg : Bool} {c : Ctx} (ho : c.Ok) : Safe c 0 TagOk (parseTag dbg c) := by
  unfold parseTag
  split
  · rename_i h
    have hl := (startsWith_props ho h).2.1
    split
    · rename_i i hi
      have hi := findIdx_lt hi
      split
      · exact safe_fail ho List.suffix_rfl
      · rename_i t ht
        refine (safe_bind (consume_safe (fun _ => hl) ho hi) (e := 0) (Q := TagOk) ?_).weak List.suffix_rfl (by omega) (fun _ h => h)
        intro a c' _ h1 _ _
        exact ⟨tagOf_ok ht, h1, List.suffix_rfl, Nat.le_refl _⟩
    · split
      · exact safe_fail ho List.suffix_rfl
      · rename_i t ht
        refine (safe_bind (consume_safe (fun _ => hl) ho (Nat.le_refl _)) (e := 0) (Q := TagOk) ?_).weak List.suffix_rfl (by omega) (fun _ h => h)
        intro a c' _ h1 _ _
        exact ⟨tagOf_ok ht, h1, List.suffix_rfl, Nat.le_refl _⟩
  · exact ⟨nofun, ho, List.suffix_rfl, Nat.le_refl _⟩

theorem parseTag_lines {dbg : Bool} {c c' : Ctx} {t : Option Tag} (ho : c.Ok) (h : parseTag dbg c = .ok t c') : c'.lines = c.lines := by
  unfold parseTag at h
  split at h
  · rename_i hst
    have hl := (startsWith_props ho hst).2.1
    split at h
    · rename_i i hi
      split at h
      · cases h
      · rw [consume_eq (fun _ => hl) ho (findIdx_lt hi)] at h; cases h; rfl
    · split at h
      · cases h
      · rw [consume_eq (fun _ => hl) ho (Nat.le_refl _)] at h; cases h; rfl
  · cases h; rfl

theorem closing_lt : ∀ (s : List Char) (q : Char) (b : Bool) (i j : Nat), closing q b i s = some j → i ≤ j ∧ j < i + s.length := by
  intro s
  induction s with
  | nil => intro q b i j h; cases b <;> simp [closing] at h
  | cons c s ih =>
    intro q b i j h
    rw [List.length_cons]
    cases b with
    | true =>
      have := ih _ _ _ _ (by simpa [closing] using h)
      omega
    | false =>
      rw [closing] at h
      split at h
      · have := ih _ _ _ _ h; omega
      · split at h
        · injection h with h; omega
        · have := ih _ _ _ _ h; omega

/-- the part `findString` finds is in the line; a quote is behind it if there is one before it -/
theorem findString_le {delims s : List Char} {off len : Nat} (h : findString delims s = some (off, len)) :
    (off = 0 ∨ off = 1) ∧ 2 * off + len ≤ s.length := by
  unfold findString at h
  split at h
  · injection h with h; injection h with h1 h2; subst h1 h2; exact ⟨Or.inl rfl, by simp⟩
  · rename_i q r
    split at h
    · cases hc : closing q false 1 r with
      | none => rw [hc] at h; simp at h
      | some j =>
        rw [hc] at h
        simp only [Option.map_some, Option.some.injEq, Prod.mk.injEq] at h
        have := closing_lt _ _ _ _ _ hc
        rw [List.length_cons]
        omega
    · split at h
      · rename_i i hi
        have := findIdx_lt hi
        simp only [Option.some.injEq, Prod.mk.injEq] at h
        omega
      · split at h
        · rename_i i hi
          have := findIdx_lt hi
          simp only [Option.some.injEq, Prod.mk.injEq] at h
          omega
        · simp only [Option.some.injEq, Prod.mk.injEq] at h
          omega

theorem map_error {γ δ : Type} {r : Except Nat γ} {f : γ → δ} {j : Nat} (h : r.map f = .error j) : r = .error j := by
  cases r with
  | error e => simpa [Except.map] using h
  | ok a => simp [Except.map] at h

theorem resolve_err (s : List Char) (i j : Nat) (h : resolve i s = .error j) : j < i + s.length := by
  fun_induction resolve i s generalizing j
  all_goals first
    | (simp only [List.length_cons]; injection h with h; omega)
    | (rename_i ih; have := ih _ (map_error h); simp only [List.length_cons] at this ⊢; omega)
    | (injection h)

theorem resolveMulti_err (s : List Char) (i j : Nat) (h : resolveMulti i s = .error j) : j < i + s.length := by
  fun_induction resolveMulti i s generalizing j
  all_goals first
    | (simp only [List.length_cons]; injection h with h; omega)
    | (rename_i ih; have := ih _ (map_error h); simp only [List.length_cons] at this ⊢; omega)
    | (injection h)

/-! ## scalars -/

theorem holds_inRange {t : IntTy} {v : Int} (h : t.holds v = true) : InRange t v := by
  unfold IntTy.holds at h
  cases hs : t.signed with
  | true =>
    rw [hs, if_pos rfl, Bool.and_eq_true, decide_eq_true_eq, decide_eq_true_eq] at h
    exact ⟨fun _ => h, fun h' => absurd (hs.symm.trans h') (by decide)⟩
  | false =>
    rw [hs, if_neg (by decide), Bool.and_eq_true, decide_eq_true_eq, decide_eq_true_eq] at h
    exact ⟨fun h' => absurd (hs.symm.trans h') (by decide), fun _ => h⟩

theorem readInt_inRange {t : IntTy} {b : Nat} {s : List Char} {v : Int} (h : readInt t b s = some v) : InRange t v := by
  unfold readInt at h
  exact holds_inRange (Option.filter_eq_some_iff.mp h).2

theorem parseInt_inRange {t : IntTy} {s : List Char} {v : Int} (h : parseInt t s = some v) : InRange t v := by
  unfold parseInt at h
  dsimp only at h
  split at h <;> exact readInt_inRange h

theorem parseSca_ok {fl : Floats F} {t : Ty} {s : List Char} {v : Sca F} (hk : ∀ i, t = .int i → Known i) (h : parseSca fl t s = .ok v) :
    v.Ok ∧ v.ty = t := by
  unfold parseSca at h
  split at h
  · split at h
    · injection h with h; subst h; exact ⟨trivial, rfl⟩
    · injection h
  · split at h
    · rename_i v' hv
      injection h with h; subst h; exact ⟨⟨hk _ rfl, parseInt_inRange hv⟩, rfl⟩
    · injection h
  · split at h
    · injection h with h; subst h; exact ⟨trivial, rfl⟩
    · injection h
  · cases hc : parseComplex fl ‹Bool› s with
    | error e => rw [hc] at h; cases h
    | ok p => rw [hc] at h; cases h; exact ⟨trivial, rfl⟩

theorem trim_length (s : List Char) : (trim s).length ≤ s.length := by
  unfold trim
  rw [List.length_reverse]
  have h1 := (List.dropWhile_sublist (l := (s.dropWhile isSpace).reverse) isSpace).length_le
  have h2 := (List.dropWhile_sublist (l := s) isSpace).length_le
  rw [List.length_reverse] at h1
  omega

theorem strip_length (s : List Char) : (stripComment s).length ≤ s.length := (List.takeWhile_sublist _).length_le

/-- a part of a line gives a well-formed value, or an error at one of its characters -/
def ScaSafe (n : Nat) : Except (Err × Nat) (Val F) → Prop
  | .ok v => WF v
  | .error e => e.2 ≤ n

theorem strValue_safe (s : List Char) (n : Nat) (hn : s.length ≤ n) : ScaSafe (F := F) n (strValue s) := by
  unfold strValue
  split
  · exact WF.str
  · rename_i i hi
    have := resolve_err _ _ _ hi
    show i ≤ n
    omega

theorem scalarOf_safe (fl : Floats F) {tag : Option Tag} (quoted : Bool) (s : List Char) (ht : TagOk tag) :
    ScaSafe s.length (scalarOf fl tag quoted s) := by
  have hts : (trim (stripComment s)).length ≤ s.length := Nat.le_trans (trim_length _) (strip_length _)
  unfold scalarOf
  split
  · exact WF.null
  · split
    · rename_i v hv
      exact WF.sca (parseSca_ok (fun i hi => ht i (by rw [hi])) hv).1
    · exact Nat.zero_le _
  · split
    · exact strValue_safe _ _ (Nat.le_refl _)
    · exact strValue_safe _ _ hts
  · split
    · exact strValue_safe _ _ (Nat.le_refl _)
    · dsimp only
      split
      · exact WF.null
      · split
        · exact WF.sca trivial
        · split
          · rename_i v hv
            exact WF.sca ⟨Or.inr (Or.inr (Or.inr rfl)), parseInt_inRange hv⟩
          · split
            · exact WF.sca trivial
            · exact strValue_safe _ _ hts

theorem parsePlain_safe {fl : Floats F} {dbg : Bool} {tag : Option Tag} {delims : List Char} {c : Ctx} (hd : dbg = true → c.lines ≠ [])
    (ho : c.Ok) (ht : TagOk tag) : Safe c 0 WF (parsePlain fl dbg tag delims c) := by
  unfold parsePlain
  split
  · exact safe_fail ho List.suffix_rfl
  · rename_i off len hf
    obtain ⟨h01, hle⟩ := findString_le hf
    have hn : off ≤ c.rem.length := by omega
    rw [consume_eq hd ho hn]
    show Safe c 0 WF _
    have ho1 := consume_ok ho hn
    have hz1 := consume_size ho hn
    have hr1 := rem_length ho1
    have hr0 := rem_length ho
    have hcur : (Ctx.mk c.lines (c.col + off)).cur = c.cur := rfl
    rw [hcur] at hr1
    have hlen : off + len ≤ (Ctx.mk c.lines (c.col + off)).rem.length := by
      rw [hr1]; show off + len ≤ c.cur.length - (c.col + off); omega
    have hsc := scalarOf_safe fl (off != 0) ((Ctx.mk c.lines (c.col + off)).rem.take len) ht
    simp only [Res.bind]
    split
    · rename_i e i he
      rw [he] at hsc
      refine ⟨List.suffix_rfl, ?_⟩
      have hi : i ≤ ((Ctx.mk c.lines (c.col + off)).rem.take len).length := hsc
      rw [List.length_take] at hi
      have ho : c.col ≤ c.cur.length := ho
      show c.col + off + i ≤ c.cur.length
      have : off ≤ c.cur.length - c.col := by omega
      have h3 : (Ctx.mk c.lines (c.col + off)).rem.length = c.cur.length - (c.col + off) := hr1
      omega
    · rename_i v hv
      rw [hv] at hsc
      rw [consume_eq (c := Ctx.mk c.lines (c.col + off)) hd ho1 hlen]
      have hz2 := consume_size ho1 hlen
      exact ⟨hsc, consume_ok ho1 hlen, List.suffix_rfl, by show _ ≤ _; omega⟩

/-! ## strings over several lines -/

theorem indentOf_lt {chars : List Char} {l : Line} {k : Nat} (h : indentOf chars l = some k) : k < l.length := findIdx_lt h

theorem multiLoop_safe (fold : Bool) (ind : Nat) : ∀ (ls : List Line) (first : Bool) (acc : List Char),
    Safe ⟨ls, 0⟩ 0 (fun _ => True) (multiLoop fold ind ls first acc) := by
  intro ls
  induction ls with
  | nil => intro first acc; exact ⟨trivial, Nat.le_refl _, List.suffix_rfl, Nat.le_refl _⟩
  | cons l ls ih =>
    intro first acc
    have hz : (Ctx.mk ls 0).size ≤ (Ctx.mk (l :: ls) 0).size := by
      show textSize ls - 0 ≤ l.length + 1 + textSize ls - 0
      omega
    unfold multiLoop
    split
    · exact (ih _ _).weak (List.suffix_cons _ _) (by omega) (fun _ h => h)
    · rename_i k hk
      have hk := indentOf_lt hk
      split
      · exact ⟨trivial, Nat.zero_le _, List.suffix_rfl, Nat.le_refl _⟩
      · split
        · rename_i i hi
          have := resolveMulti_err _ _ _ hi
          rw [List.length_drop] at this
          refine ⟨List.suffix_rfl, ?_⟩
          show ind + i ≤ l.length
          omega
        · exact (ih _ _).weak (List.suffix_cons _ _) (by omega) (fun _ h => h)

theorem parseScalar_safe {fl : Floats F} {dbg : Bool} {tag : Option Tag} {level : Nat} {c0 : Ctx} (ho0 : c0.Ok) (ht : TagOk tag) :
    Safe c0 0 WF (parseScalar fl dbg tag level c0) := by
  have ho := ws_ok ho0
  have hs := ws_suffix ho0
  have hz := ws_size ho0
  unfold parseScalar
  dsimp only
  generalize c0.ws = c at ho hs hz
  by_cases he : c.eod = true
  · rw [if_pos he]; exact ⟨WF.null, ho, hs, by omega⟩
  · rw [if_neg he]
    have hl := ne_nil_of_eod he
    rw [currentIndent_bind hl]
    refine Safe.weak (c1 := c) (d := 0) (P := WF) ?_ hs (by omega) (fun _ h => h)
    split
    · exact ⟨WF.null, ho, List.suffix_rfl, Nat.le_refl _⟩
    · split
      · rename_i hb
        have hr : c.rem ≠ [] := by
          simp only [Bool.and_eq_true, Bool.or_eq_true] at hb
          rcases hb.2 with h | h
          · exact (startsWith_props ho h).2.2
          · exact (startsWith_props ho h).2.2
        have h1 : 1 ≤ c.rem.length := List.length_pos_iff.mpr hr
        refine (safe_bind (consume_safe (fun _ => hl) ho h1) (e := 0) (Q := WF) ?_).weak List.suffix_rfl (by omega) (fun _ h => h)
        intro _ c1 _ ho1 hs1 hz1
        have key : ∀ (dash fold : Bool) (c2 : Ctx), c2.Ok → Safe c2 0 (WF (F := F)) (match findString [] c2.spaces.rem with
            | none => fail Err.afterIndicator c2.spaces
            | some (_, len) =>
              if 0 < len then fail Err.afterIndicator c2.spaces
              else (multiLoop fold (level + 2) c2.spaces.next.lines true []).bind
                fun s c => .ok (.str (chomp fold (!dash) s)) c.spaces) := by
          intro dash fold c2 ho2
          split
          · exact safe_fail (spaces_ok ho2) (spaces_suffix _)
          · split
            · exact safe_fail (spaces_ok ho2) (spaces_suffix _)
            · have hm := multiLoop_safe fold (level + 2) c2.spaces.next.lines true []
              refine (safe_bind hm (e := 0) (Q := WF) ?_).weak ((next_suffix _).trans (spaces_suffix _)) ?_ (fun _ h => h)
              · intro s c3 _ ho3 _ _
                exact ⟨WF.str, spaces_ok ho3, spaces_suffix _, spaces_size _⟩
              · have h1 := spaces_size c2
                have h2 : (Ctx.mk c2.spaces.next.lines 0).size ≤ c2.spaces.size := by
                  have ho3 := spaces_ok ho2
                  generalize c2.spaces = c3 at ho3
                  obtain ⟨ls, n⟩ := c3
                  unfold Ctx.next
                  cases ls with
                  | nil => show 0 - 0 ≤ 0 - n; omega
                  | cons l ls =>
                    have : n ≤ l.length := ho3
                    show textSize ls - 0 ≤ l.length + 1 + textSize ls - n
                    omega
                omega
        refine consumeIf_safe (p := ['-']) ho1 ?_ ?_
        · intro c2 _ ho2 hl2 _
          exact key true _ c2 ho2
        · intro _
          exact key false _ c1 ho1
      · refine (safe_bind (parsePlain_safe (fun _ => hl) ho ht) (e := 0) (Q := WF) ?_).weak List.suffix_rfl (by omega) (fun _ h => h)
        intro v c1 hv ho1 hs1 hz1
        have hn : Safe c1 0 WF (Res.ok v c1.spaces.next) :=
          ⟨hv, next_ok _ (spaces_ok ho1), (next_suffix _).trans (spaces_suffix _), Nat.le_trans (next_size (spaces_ok ho1)) (spaces_size _)⟩
        split
        · exact hn
        · split
          · exact safe_fail (spaces_ok ho1) (spaces_suffix _)
          · split
            · exact safe_fail (spaces_ok ho1) (spaces_suffix _)
            · exact hn

/-! ## keys -/

theorem colonPos_lt : ∀ (s : List Char) (i j : Nat), colonPos i s = some j → i ≤ j ∧ j < i + s.length := by
  intro s
  induction s with
  | nil => intro i j h; simp [colonPos] at h
  | cons c s ih =>
    intro i j h
    rw [List.length_cons]
    unfold colonPos at h
    split at h
    · injection h with h; omega
    · have := ih _ _ h; omega

theorem parseKey_safe {dbg : Bool} {delims : List Char} {c0 : Ctx} (ho0 : c0.Ok) (hl0 : c0.lines ≠ []) :
    Safe c0 1 (fun _ => True) (parseKey dbg delims c0) := by
  have ho := spaces_ok ho0
  have hs := spaces_suffix c0
  have hz := spaces_size c0
  have hl : c0.spaces.lines ≠ [] := by rw [spaces_lines]; exact hl0
  unfold parseKey
  dsimp only
  generalize c0.spaces = c at ho hs hz hl
  refine Safe.weak (c1 := c) (d := 1) (P := fun _ => True) ?_ hs (by omega) (fun _ h => h)
  split
  · exact safe_fail ho List.suffix_rfl
  · split
    · exact safe_fail ho List.suffix_rfl
    · rename_i off len hf
      obtain ⟨h01, hle⟩ := findString_le hf
      have hr := rem_length ho
      split
      · split
        · rename_i i hi
          have := resolve_err _ _ _ hi
          rw [List.length_take, List.length_drop] at this
          refine ⟨List.suffix_rfl, ?_⟩
          have ho : c.col ≤ c.cur.length := ho
          omega
        · refine (safe_bind (consume_safe (fun _ => hl) ho hle) (e := 0) (Q := fun _ => True) ?_).weak List.suffix_rfl (by omega) (fun _ h => h)
          intro _ c1 _ ho1 hs1 hz1
          split
          · rename_i ht
            have h1 : c1.spaces.lines ≠ [] ∧ 1 ≤ c1.spaces.rem.length := by
              unfold Ctx.startsWithToken at ht
              simp only [Bool.and_eq_true, Bool.not_eq_true'] at ht
              have hne : c1.spaces.rem ≠ [] := fun h => by
                rw [(eol_iff (spaces_ok ho1)).mpr h] at ht
                exact absurd ht.1.1 (by decide)
              exact ⟨fun h => hne (rem_nil_of_eod h), List.length_pos_iff.mpr hne⟩
            refine (safe_bind (consume_safe (fun _ => h1.1) (spaces_ok ho1) h1.2) (e := 0) (Q := fun _ => True) ?_).weak (spaces_suffix _)
              (by have := spaces_size c1; omega) (fun _ h => h)
            intro _ c2 _ ho2 hs2 hz2
            exact ⟨trivial, ho2, List.suffix_rfl, Nat.le_refl _⟩
          · exact safe_fail (spaces_ok ho1) (spaces_suffix _)
      · split
        · exact safe_fail ho List.suffix_rfl
        · rename_i p hp
          have := colonPos_lt _ _ _ hp
          split
          · exact safe_fail ho List.suffix_rfl
          · refine (safe_bind (consume_safe (n := p + 1) (fun _ => hl) ho (by omega)) (e := 0) (Q := fun _ => True) ?_).weak List.suffix_rfl (by omega) (fun _ h => h)
            intro _ c1 _ ho1 _ _
            exact ⟨trivial, ho1, List.suffix_rfl, Nat.le_refl _⟩

/-- looking ahead stays where it is -/
theorem peek_ok {dbg : Bool} {level : Nat} {c0 : Ctx} (ho0 : c0.Ok) : ∃ vt, peek dbg level c0 = .ok vt c0 := by
  have ho := ws_ok ho0
  unfold peek
  dsimp only
  by_cases he : c0.ws.eod = true
  · rw [if_pos he]; exact ⟨_, rfl⟩
  · rw [if_neg he]
    have hl := ne_nil_of_eod he
    rw [currentIndent_bind hl]
    split
    · exact ⟨_, rfl⟩
    · split
      · exact ⟨_, rfl⟩
      · split
        · exact ⟨_, rfl⟩
        · have := parseKey_safe (dbg := dbg) (delims := []) ho hl
          split
          · exact ⟨_, rfl⟩
          · exact ⟨_, rfl⟩
          · rename_i h; rw [h] at this; exact this.elim
          · rename_i h; rw [h] at this; exact this.elim

end Verif.Yaml
