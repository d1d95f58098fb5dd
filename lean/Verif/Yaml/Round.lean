import Verif.Yaml.RoundSca
/-!
# Saved text loads again — lists and maps
-/
namespace Verif.Yaml

variable {F : Type}

/-! ## the text as lines -/

mutual
/-- the text of a value: the rest of the line and the lines after it -/
def serL (fl : Floats F) (k : Nat) : Val F → Line × List Line
  | .null => ("!!null null".toList, [])
  | .sca s => (s.ty.tag ++ ' ' :: s.text fl, [])
  | .str s =>
    if isMulti s then (' ' :: '|' :: (if s.getLast? = some '\n' then [] else ['-']), (splitLines s).map (spaces (2 * k) ++ ·))
    else (' ' :: '"' :: (escape s ++ ['"']), [])
  | .list vs => if vs.isEmpty then (" []".toList, []) else ([], listL fl k vs)
  | .arr t vs => if vs.isEmpty then (t.tag ++ " []".toList, []) else (t.tag, vs.map (fun s => spaces (2 * k) ++ '-' :: ' ' :: s.text fl))
  | .strs _ => ([], [])
  | .map es => if es.isEmpty then (" {}".toList, []) else ([], mapL fl k es)
/-- the lines of the items -/
def listL (fl : Floats F) (k : Nat) : List (Val F) → List Line
  | [] => []
  | v :: vs => (spaces (2 * k) ++ '-' :: ' ' :: (serL fl (k + 1) v).1) :: ((serL fl (k + 1) v).2 ++ listL fl k vs)
/-- the lines of the entries -/
def mapL (fl : Floats F) (k : Nat) : List (List Char × Val F) → List Line
  | [] => []
  | (key, v) :: es => (spaces (2 * k) ++ (keyPre key ++ ' ' :: (serL fl (k + 1) v).1)) :: ((serL fl (k + 1) v).2 ++ mapL fl k es)
end

theorem ser_null (fl : Floats F) (k : Nat) : ser fl k .null = "!!null null\n".toList := rfl
theorem ser_sca (fl : Floats F) (k : Nat) (s : Sca F) : ser fl k (.sca s) = s.ty.tag ++ [' '] ++ s.text fl ++ ['\n'] := rfl
theorem ser_str (fl : Floats F) (k : Nat) (s : List Char) : ser fl k (.str s) = [' '] ++ strText k s := rfl
theorem ser_list (fl : Floats F) (k : Nat) (vs : List (Val F)) : ser fl k (.list vs) = if vs.isEmpty then " []\n".toList else ['\n'] ++ serList fl k vs := rfl
theorem ser_arr (fl : Floats F) (k : Nat) (t : Ty) (vs : List (Sca F)) : ser fl k (.arr t vs) =
    t.tag ++ if vs.isEmpty then " []\n".toList else ['\n'] ++ vs.flatMap (fun s => spaces (2 * k) ++ ['-', ' '] ++ s.text fl ++ ['\n']) := rfl
theorem ser_map (fl : Floats F) (k : Nat) (es : List (List Char × Val F)) : ser fl k (.map es) =
    if es.isEmpty then " {}\n".toList else ['\n'] ++ serMap fl k es := rfl
theorem serList_nil (fl : Floats F) (k : Nat) : serList fl k [] = [] := rfl
theorem serList_cons (fl : Floats F) (k : Nat) (v : Val F) (vs : List (Val F)) :
    serList fl k (v :: vs) = spaces (2 * k) ++ ['-', ' '] ++ ser fl (k + 1) v ++ serList fl k vs := rfl
theorem serMap_nil (fl : Floats F) (k : Nat) : serMap fl k [] = [] := rfl
theorem serMap_cons (fl : Floats F) (k : Nat) (key : List Char) (v : Val F) (es : List (List Char × Val F)) :
    serMap fl k ((key, v) :: es) = spaces (2 * k) ++ keyText key ++ ser fl (k + 1) v ++ serMap fl k es := rfl

theorem serL_null (fl : Floats F) (k : Nat) : serL fl k .null = ("!!null null".toList, []) := rfl
theorem serL_sca (fl : Floats F) (k : Nat) (s : Sca F) : serL fl k (.sca s) = (s.ty.tag ++ ' ' :: s.text fl, []) := rfl
theorem serL_str (fl : Floats F) (k : Nat) (s : List Char) : serL fl k (.str s) =
    if isMulti s then (' ' :: '|' :: (if s.getLast? = some '\n' then [] else ['-']), (splitLines s).map (spaces (2 * k) ++ ·))
    else (' ' :: '"' :: (escape s ++ ['"']), []) := rfl
theorem serL_list (fl : Floats F) (k : Nat) (vs : List (Val F)) : serL fl k (.list vs) =
    if vs.isEmpty then (" []".toList, []) else ([], listL fl k vs) := rfl
theorem serL_arr (fl : Floats F) (k : Nat) (t : Ty) (vs : List (Sca F)) : serL fl k (.arr t vs) =
    if vs.isEmpty then (t.tag ++ " []".toList, []) else (t.tag, vs.map (fun s => spaces (2 * k) ++ '-' :: ' ' :: s.text fl)) := rfl
theorem serL_map (fl : Floats F) (k : Nat) (es : List (List Char × Val F)) : serL fl k (.map es) =
    if es.isEmpty then (" {}".toList, []) else ([], mapL fl k es) := rfl
theorem listL_nil (fl : Floats F) (k : Nat) : listL fl k [] = [] := rfl
theorem listL_cons (fl : Floats F) (k : Nat) (v : Val F) (vs : List (Val F)) : listL fl k (v :: vs) =
    (spaces (2 * k) ++ '-' :: ' ' :: (serL fl (k + 1) v).1) :: ((serL fl (k + 1) v).2 ++ listL fl k vs) := rfl
theorem mapL_nil (fl : Floats F) (k : Nat) : mapL fl k [] = [] := rfl
theorem mapL_cons (fl : Floats F) (k : Nat) (key : List Char) (v : Val F) (es : List (List Char × Val F)) : mapL fl k ((key, v) :: es) =
    (spaces (2 * k) ++ (keyPre key ++ ' ' :: (serL fl (k + 1) v).1)) :: ((serL fl (k + 1) v).2 ++ mapL fl k es) := rfl

theorem spaces_newline (n : Nat) : '\n' ∉ spaces n := by
  unfold spaces
  intro h
  exact absurd (List.eq_of_mem_replicate h) (by decide)

theorem keyPre_newline (key : List Char) : '\n' ∉ keyPre key := by
  unfold keyPre
  split
  · intro h
    simp only [List.mem_cons, List.mem_append, List.not_mem_nil, or_false] at h
    rcases h with h | h | h | h
    · exact absurd h (by decide)
    · exact escape_newline _ h
    · exact absurd h (by decide)
    · exact absurd h (by decide)
  · rename_i h
    intro hm
    rw [List.mem_append] at hm
    rcases hm with hm | hm
    · have := (keyPlain_iff.mp h).2 _ hm
      unfold Printable at this
      exact absurd this.1 (by decide)
    · exact absurd hm (by decide)

theorem unl_map {α : Type} (f : α → Line) (l : List α) : unl (l.map f) = l.flatMap (fun a => f a ++ ['\n']) := by
  unfold unl
  rw [List.flatMap_map]

mutual
theorem ser_lines (fl : Floats F) (k : Nat) : ∀ v : Val F, Clean fl v →
    ser fl k v = unl ((serL fl k v).1 :: (serL fl k v).2) ∧ ∀ l ∈ (serL fl k v).1 :: (serL fl k v).2, '\n' ∉ l
  | .null, _ => by
    rw [ser_null, serL_null]
    exact ⟨by decide, by decide⟩
  | .sca s, h => by
    cases h with
    | sca h =>
      have ht := tag_facts (t := s.ty) (fun i hi => by
        cases s with
        | int t v => cases hi; exact h.1
        | bool b => cases hi
        | flt w x => cases hi
        | cplx w x y => cases hi)
      rw [ser_sca, serL_sca, unl_cons]
      refine ⟨by simp [unl], ?_⟩
      intro l hl
      rw [List.mem_singleton] at hl
      subst hl
      simp only [List.mem_append, List.mem_cons, not_or]
      exact ⟨ht.2.2.1, by decide, sca_newline h⟩
  | .str s, h => by
    rw [ser_str, serL_str]
    unfold strText
    by_cases hm : isMulti s = true
    · rw [if_pos hm, if_pos hm, unl_cons, unl_map]
      dsimp only
      constructor
      · have : ∀ L : List Line, (∀ l ∈ L, l.flatMap escPlain = l) →
            L.flatMap (fun l => spaces (2 * k) ++ l.flatMap escPlain ++ ['\n']) = L.flatMap (fun l => spaces (2 * k) ++ l ++ ['\n']) := by
          intro L
          induction L with
          | nil => intro _; rfl
          | cons a L ih =>
            intro hL
            rw [List.flatMap_cons, List.flatMap_cons, hL a List.mem_cons_self, ih (fun l hl => hL l (List.mem_cons_of_mem _ hl))]
        rw [this _ (escPlain_line hm)]
        simp
      · intro l hl
        rw [List.mem_cons] at hl
        rcases hl with rfl | hl
        · split <;> decide
        · rw [List.mem_map] at hl
          obtain ⟨l', hl', rfl⟩ := hl
          rw [List.mem_append, not_or]
          exact ⟨spaces_newline _, (lines_mem (lines_split s) l' hl').1⟩
    · rw [if_neg hm, if_neg hm, unl_cons]
      refine ⟨by simp [unl], ?_⟩
      intro l hl
      rw [List.mem_singleton] at hl
      subst hl
      simp only [List.mem_append, List.mem_cons, List.not_mem_nil, or_false, not_or]
      exact ⟨by decide, by decide, escape_newline _, by decide⟩
  | .list vs, h => by
    cases h with
    | list h =>
      rw [ser_list, serL_list]
      cases vs with
      | nil =>
        rw [List.isEmpty_nil, if_pos rfl, if_pos rfl]
        exact ⟨by decide, by decide⟩
      | cons v vs =>
        rw [List.isEmpty_cons, if_neg (by decide), if_neg (by decide), unl_cons, (list_lines fl k (v :: vs) h).1]
        refine ⟨rfl, ?_⟩
        intro l hl
        rw [List.mem_cons] at hl
        rcases hl with rfl | hl
        · exact List.not_mem_nil
        · exact (list_lines fl k (v :: vs) h).2 l hl
  | .arr t vs, h => by
    cases h with
    | arr ht h =>
      have htag := tag_facts ht
      rw [ser_arr, serL_arr]
      cases vs with
      | nil =>
        rw [List.isEmpty_nil, if_pos rfl, if_pos rfl, unl_cons]
        refine ⟨by simp [unl], ?_⟩
        intro l hl
        rw [List.mem_singleton] at hl
        subst hl
        rw [List.mem_append, not_or]
        exact ⟨htag.2.2.1, by decide⟩
      | cons v vs =>
        rw [List.isEmpty_cons, if_neg (by decide), if_neg (by decide), unl_cons, unl_map]
        refine ⟨by simp, ?_⟩
        intro l hl
        rw [List.mem_cons] at hl
        rcases hl with rfl | hl
        · exact htag.2.2.1
        · rw [List.mem_map] at hl
          obtain ⟨s, hs, rfl⟩ := hl
          simp only [List.mem_append, List.mem_cons, not_or]
          exact ⟨spaces_newline _, by decide, by decide, sca_newline (h s hs).2⟩
  | .strs vs, h => by cases h
  | .map es, h => by
    cases h with
    | map h1 h2 h3 =>
      rw [ser_map, serL_map]
      cases es with
      | nil =>
        rw [List.isEmpty_nil, if_pos rfl, if_pos rfl]
        exact ⟨by decide, by decide⟩
      | cons e es =>
        rw [List.isEmpty_cons, if_neg (by decide), if_neg (by decide), unl_cons, (map_lines fl k (e :: es) h2).1]
        refine ⟨rfl, ?_⟩
        intro l hl
        rw [List.mem_cons] at hl
        rcases hl with rfl | hl
        · exact List.not_mem_nil
        · exact (map_lines fl k (e :: es) h2).2 l hl
theorem list_lines (fl : Floats F) (k : Nat) : ∀ vs : List (Val F), (∀ v ∈ vs, Clean fl v) →
    serList fl k vs = unl (listL fl k vs) ∧ ∀ l ∈ listL fl k vs, '\n' ∉ l
  | [], _ => by
    rw [serList_nil, listL_nil]
    exact ⟨rfl, by simp⟩
  | v :: vs, h => by
    obtain ⟨h1, h2⟩ := ser_lines fl (k + 1) v (h v List.mem_cons_self)
    obtain ⟨h3, h4⟩ := list_lines fl k vs (fun w hw => h w (List.mem_cons_of_mem _ hw))
    rw [serList_cons, listL_cons, h1, h3, unl_cons, unl_cons, unl_append]
    refine ⟨by simp, ?_⟩
    intro l hl
    rw [List.mem_cons, List.mem_append] at hl
    rcases hl with rfl | hl | hl
    · simp only [List.mem_append, List.mem_cons, not_or]
      exact ⟨spaces_newline _, by decide, by decide, h2 _ List.mem_cons_self⟩
    · exact h2 l (List.mem_cons_of_mem _ hl)
    · exact h4 l hl
theorem map_lines (fl : Floats F) (k : Nat) : ∀ es : List (List Char × Val F), (∀ e ∈ es, Clean fl e.2) →
    serMap fl k es = unl (mapL fl k es) ∧ ∀ l ∈ mapL fl k es, '\n' ∉ l
  | [], _ => by
    rw [serMap_nil, mapL_nil]
    exact ⟨rfl, by simp⟩
  | (key, v) :: es, h => by
    obtain ⟨h1, h2⟩ := ser_lines fl (k + 1) v (h (key, v) List.mem_cons_self)
    obtain ⟨h3, h4⟩ := map_lines fl k es (fun w hw => h w (List.mem_cons_of_mem _ hw))
    rw [serMap_cons, mapL_cons, h1, h3, unl_cons, unl_cons, unl_append, keyText_eq]
    refine ⟨by simp, ?_⟩
    intro l hl
    rw [List.mem_cons, List.mem_append] at hl
    rcases hl with rfl | hl | hl
    · simp only [List.mem_append, List.mem_cons, not_or]
      exact ⟨spaces_newline _, keyPre_newline _, by decide, h2 _ List.mem_cons_self⟩
    · exact h2 l (List.mem_cons_of_mem _ hl)
    · exact h4 l hl
end

/-! ## what follows a value -/

/-- the text after a value of a map or list whose lines are indented by more than `p`, or everything if there is none around it -/
def Ends (parent : Option Nat) (rest : List Line) : Prop :=
  rest = [] ∨ ∃ p i ch r ls, parent = some p ∧ rest = (spaces i ++ ch :: r) :: ls ∧ i ≤ p ∧ Good ch ∧ ['-', '-', '-'].isPrefixOf (ch :: r) = false

theorem Ends.stops {p : Nat} {rest : List Line} (h : Ends (some p) rest) : Stops p rest := by
  rcases h with h | ⟨q, i, ch, r, ls, h1, h2, h3, h4, -⟩
  · exact Or.inl h
  · cases h1
    exact Or.inr ⟨i, ch, r, ls, h2, h3, h4⟩

theorem Ends.mono {parent : Option Nat} {q : Nat} {rest : List Line} (h : Ends parent rest) (hq : ∀ p, parent = some p → p ≤ q) : Ends (some q) rest := by
  rcases h with h | ⟨p, i, ch, r, ls, h1, h2, h3, h4, h5⟩
  · exact Or.inl h
  · have := hq p h1
    exact Or.inr ⟨q, i, ch, r, ls, rfl, h2, by omega, h4, h5⟩

theorem ignorable_good (i : Nat) {ch : Char} (r : Line) (h : Good ch) : ignorable (spaces i ++ ch :: r) = false := by
  have hd : (spaces i ++ ch :: r).dropWhile (fun c => isSpace c || isCntrl c) = ch :: r := by
    unfold spaces
    induction i with
    | zero =>
      rw [List.replicate_zero, List.nil_append, List.dropWhile_cons, h.2.2.1, h.2.2.2]
      rfl
    | succ i ih =>
      rw [List.replicate_succ, List.cons_append, List.dropWhile_cons, show (isSpace ' ' || isCntrl ' ') = true by decide, if_pos rfl, ih]
  unfold ignorable
  rw [hd]
  simpa using h.2.1

/-- a position in the indentation of a line -/
theorem start_at (i j : Nat) (r : Line) (ls : List Line) (hj : j ≤ i) : (Ctx.mk ((spaces i ++ r) :: ls) j) = At (spaces j) (spaces (i - j) ++ r) ls := by
  have hs : spaces i = spaces j ++ spaces (i - j) := by
    unfold spaces
    rw [List.replicate_append_replicate]
    congr 1
    omega
  have hl : (spaces j).length = j := List.length_replicate ..
  unfold At
  rw [hs, hl, List.append_assoc]

theorem no_dashes (j : Nat) {ch : Char} {r : Line} (h : ['-', '-', '-'].isPrefixOf (ch :: r) = false) : ['-', '-', '-'].isPrefixOf (spaces j ++ ch :: r) = false := by
  cases j with
  | zero => exact h
  | succ j => exact not_prefix_head (by decide)

theorem at_col (i : Nat) (r : Line) (tl : List Line) : At (spaces i) r tl = ⟨(spaces i ++ r) :: tl, i⟩ := by
  unfold At
  rw [show (spaces i).length = i from List.length_replicate ..]

theorem mapLoop_stop (fl : Floats F) (dbg : Bool) {parent : Option Nat} {rest : List Line} (h : Ends parent rest) (n : Nat) (es : List (List Char × Val F))
    (j : Nat) (hj : j ≤ lead (rest.headD [])) :
    ∃ j', j' ≤ lead (rest.headD []) ∧ mapLoop fl dbg parent (n + 1) false es ⟨rest, j⟩ = .ok (.map es) ⟨rest, j'⟩ := by
  rcases h with rfl | ⟨p, i, ch, r, ls, rfl, rfl, hi, hg, hd⟩
  · exact ⟨j, hj, by rw [mapLoop]; rfl⟩
  · have hlead : lead ((((spaces i ++ ch :: r) :: ls)).headD []) = i := lead_spaces i ch r hg.1
    rw [hlead] at hj ⊢
    refine ⟨i, Nat.le_refl _, ?_⟩
    rw [mapLoop, start_at i j _ _ hj, at_eod, if_neg (by decide), at_startsWith _ _ _ _ (by simp), no_dashes _ hd, if_neg (by decide)]
    dsimp only
    rw [← start_at i j _ _ hj, start_ws i j ch r ls hj hg.1 hg.2.1, at_eod, if_neg (by decide), at_cur, ignorable_good i r hg, if_neg (by decide),
      if_neg (by decide), currentIndent_bind (at_ne _ _ _), at_cur, indentOf_spaces i ch r hg.1]
    dsimp only
    rw [if_pos (by simpa [notDeeper] using hi), at_col]

theorem listLoop_stop (fl : Floats F) (dbg : Bool) {p : Nat} {rest : List Line} (h : Ends (some p) rest) (tag : Option Tag) (n : Nat) (vs : List (Val F))
    (j : Nat) (hj : j ≤ lead (rest.headD [])) :
    ∃ j', j' ≤ lead (rest.headD []) ∧ listLoop fl dbg (some p) tag (n + 1) vs ⟨rest, j⟩ = .ok (convertList tag vs) ⟨rest, j'⟩ := by
  rcases h with rfl | ⟨q, i, ch, r, ls, hq, rfl, hi, hg, hd⟩
  · exact ⟨j, hj, by rw [listLoop]; rfl⟩
  · cases hq
    have hlead : lead ((((spaces i ++ ch :: r) :: ls)).headD []) = i := lead_spaces i ch r hg.1
    rw [hlead] at hj ⊢
    refine ⟨i, Nat.le_refl _, ?_⟩
    rw [listLoop, start_at i j _ _ hj, at_eod, if_neg (by decide)]
    dsimp only
    rw [← start_at i j _ _ hj, start_ws i j ch r ls hj hg.1 hg.2.1, at_eod, if_neg (by decide), at_cur, ignorable_good i r hg, if_neg (by decide),
      currentIndent_bind (at_ne _ _ _), at_cur, indentOf_spaces i ch r hg.1]
    dsimp only
    rw [if_pos (by simpa [notDeeper] using hi), at_col]

/-! ## one value -/

/-- the value after a key or an item sign, once its kind is known -/
def dispatch (fl : Floats F) (dbg : Bool) (n ind : Nat) (tag : Option Tag) (vt : VT) (c : Ctx) : Res (Val F) :=
  match vt with
  | .list => flowOr fl dbg n false tag (some ind) (fun c => listLoop fl dbg (some ind) tag n [] c) c
  | .map => flowOr fl dbg n true none (some ind) (fun c => mapLoop fl dbg (some ind) n true [] c) c
  | .scalar => parseScalar fl dbg tag ind c

/-- reading the rest of a line and the lines after it gives `v` and ends before `rest`; `outer` is the tag of the list around it -/
def Parses (fl : Floats F) (dbg : Bool) (n ind : Nat) (outer : Option Tag) (c : Ctx) (v : Val F) (rest : List Line) : Prop :=
  ∃ own c2 vt j, parseTag dbg c.spaces = .ok own c2 ∧ peek dbg ind c2.spaces = .ok vt c2.spaces ∧ (outer.isSome = true → own = none ∧ vt = .scalar) ∧
    (vt = .map → own = none) ∧ j ≤ lead (rest.headD []) ∧ dispatch fl dbg n ind (outer.orElse fun _ => own) vt c2.spaces = .ok v ⟨rest, j⟩

theorem mapLoop_step (fl : Floats F) (dbg : Bool) (parent : Option Nat) (k n : Nat) (first : Bool) (es : List (List Char × Val F)) {key : List Char}
    (hk : KeyClean key) (f : Line) (tl : List Line) (v : Val F) (rest : List Line) (hp : ∀ p, parent = some p → p < 2 * k) (j : Nat) (hj : j ≤ 2 * k)
    (h : Parses fl dbg n (2 * k) none (At (spaces (2 * k) ++ keyPre key) (' ' :: f) tl) v rest) :
    ∃ j', j' ≤ lead (rest.headD []) ∧ mapLoop fl dbg parent (n + 1) first es ⟨(spaces (2 * k) ++ (keyPre key ++ ' ' :: f)) :: tl, j⟩ =
      mapLoop fl dbg parent n false (upsert key v es) ⟨rest, j'⟩ := by
  obtain ⟨own, c2, vt, j', h1, h2, -, h3, h4, h5⟩ := h
  obtain ⟨ch, r, hch, hg, hdash, -, -⟩ := key_head hk
  refine ⟨j', h4, ?_⟩
  have hl : keyPre key ++ ' ' :: f = ch :: (r ++ ' ' :: f) := by rw [hch]; rfl
  have hind : indentOf (if first = true then [' ', '-'] else [' ']) (spaces (2 * k) ++ ch :: (r ++ ' ' :: f)) = some (2 * k) := by
    cases first with
    | false => exact indentOf_spaces _ _ _ hg.1
    | true =>
      unfold indentOf spaces
      rw [findIdx_replicate _ _ _ _ (by decide), List.findIdx?_cons]
      have : (!(if True then [' ', '-'] else [' ']).contains ch) = true := by simp [hg.1, hdash]
      simp [hg.1, hdash]
  rw [hl, mapLoop, start_at _ j _ _ hj, at_eod, if_neg (by decide), at_startsWith _ _ _ _ (by simp), no_dashes _ (not_prefix_head hdash), if_neg (by decide)]
  dsimp only
  rw [← start_at _ j _ _ hj, start_ws _ j ch _ _ hj hg.1 hg.2.1, at_eod, if_neg (by decide), at_cur, ignorable_good _ _ hg, if_neg (by decide),
    currentIndent_bind (at_ne _ _ _), at_cur, hind]
  dsimp only
  rw [if_neg, ← hl, parseKey_key dbg hk]
  · simp only [Res.bind]
    rw [h1]
    simp only [Res.bind]
    rw [h2]
    simp only [Res.bind]
    cases vt with
    | list =>
      have h5 : flowOr fl dbg n false own (some (2 * k)) (fun c => listLoop fl dbg (some (2 * k)) own n [] c) c2.spaces = .ok v ⟨rest, j'⟩ := h5
      simp only [h5]
    | scalar =>
      have h5 : parseScalar fl dbg own (2 * k) c2.spaces = .ok v ⟨rest, j'⟩ := h5
      simp only [h5]
    | map =>
      have := h3 rfl
      subst this
      have h5 : flowOr fl dbg n true none (some (2 * k)) (fun c => mapLoop fl dbg (some (2 * k)) n true [] c) c2.spaces = .ok v ⟨rest, j'⟩ := h5
      rw [if_neg (by decide)]
      simp only [h5]
  · cases parent with
    | none => simp [notDeeper]
    | some p =>
      have := hp p rfl
      simp only [notDeeper, decide_eq_true_eq]
      omega

theorem listLoop_step (fl : Floats F) (dbg : Bool) (p k n : Nat) (tag : Option Tag) (vs : List (Val F)) (f : Line) (tl : List Line) (v : Val F)
    (rest : List Line) (hp : p < 2 * k) (j : Nat) (hj : j ≤ 2 * k) (h : Parses fl dbg n (2 * k) tag (At (spaces (2 * k) ++ ['-']) (' ' :: f) tl) v rest) :
    ∃ j', j' ≤ lead (rest.headD []) ∧ listLoop fl dbg (some p) tag (n + 1) vs ⟨(spaces (2 * k) ++ '-' :: ' ' :: f) :: tl, j⟩ =
      listLoop fl dbg (some p) tag n (vs ++ [v]) ⟨rest, j'⟩ := by
  obtain ⟨own, c2, vt, j', h1, h2, h6, h3, h4, h5⟩ := h
  have hg : Good '-' := ⟨by decide, by decide, by decide, by decide⟩
  refine ⟨j', h4, ?_⟩
  rw [listLoop, start_at _ j _ _ hj, at_eod, if_neg (by decide)]
  dsimp only
  rw [← start_at _ j _ _ hj, start_ws _ j '-' _ _ hj hg.1 hg.2.1, at_eod, if_neg (by decide), at_cur, ignorable_good _ _ hg, if_neg (by decide),
    currentIndent_bind (at_ne _ _ _), at_cur, indentOf_spaces _ _ _ hg.1]
  dsimp only
  have hc := at_consumeIf_true dbg (spaces (2 * k)) ['-'] (' ' :: f) tl (by simp)
  rw [List.singleton_append] at hc
  rw [if_neg, hc]
  · simp only [Res.bind, Bool.not_true]
    rw [if_neg (by decide), h1]
    simp only
    rw [if_neg]
    · rw [h2]
      simp only
      cases vt with
      | list =>
        cases tag with
        | none =>
          have h5 : flowOr fl dbg n false own (some (2 * k)) (fun c => listLoop fl dbg (some (2 * k)) own n [] c) c2.spaces = .ok v ⟨rest, j'⟩ := h5
          rw [if_neg (by decide)]
          simp only [Option.orElse_none, h5]
        | some t => exact absurd (h6 rfl).2 (by decide)
      | scalar =>
        have h5 : parseScalar fl dbg (tag.orElse fun _ => own) (2 * k) c2.spaces = .ok v ⟨rest, j'⟩ := h5
        simp only [h5]
      | map =>
        have := h3 rfl
        subst this
        have h5 : flowOr fl dbg n true none (some (2 * k)) (fun c => mapLoop fl dbg (some (2 * k)) n true [] c) c2.spaces = .ok v ⟨rest, j'⟩ := h5
        simp only [Option.isSome_none, Bool.false_eq_true, if_false, h5]
    · cases tag with
      | none => simp
      | some t => rw [(h6 rfl).1]; simp
  · simp only [notDeeper, decide_eq_true_eq]
    omega

theorem parses_plain (fl : Floats F) (dbg : Bool) (n ind : Nat) (outer own : Option Tag) (pre r x : Line) (rest : List Line) (v : Val F)
    (htag : ∀ tl, parseTag dbg (At (pre ++ [' ']) r tl) = .ok own (At (pre ++ [' '] ++ x) (r.drop x.length) tl)) (hsp : r.head? ≠ some ' ')
    (ho : outer.isSome = true → own = none) (hp : PlainText (r.drop x.length))
    (htag' : (outer.orElse fun _ => own) ≠ some .str ∧ (outer.orElse fun _ => own) ≠ none)
    (hv : scalarOf fl (outer.orElse fun _ => own) false (r.drop x.length) = .ok v) :
    Parses fl dbg n ind outer (At pre (' ' :: r) rest) v rest := by
  have h1 := at_spaces pre 1 r rest hsp
  rw [show spaces 1 = [' '] from rfl, List.singleton_append] at h1
  have hh : (r.drop x.length).head? ≠ some ' ' := by
    cases h : r.drop x.length with
    | nil => simp
    | cons ch t => rw [h] at hp; simpa using hp.head.1
  refine ⟨own, _, .scalar, 0, by rw [h1]; exact htag rest, ?_, fun h => ⟨ho h, rfl⟩, nofun, Nat.zero_le _, ?_⟩
  · rw [at_spaces0 _ _ _ hh, peek_plain _ _ _ _ hp]
  · rw [at_spaces0 _ _ _ hh]
    show parseScalar fl dbg _ ind _ = _
    have := parsePlain_plain fl dbg (outer.orElse fun _ => own) (pre ++ [' '] ++ x) rest hp hv
    cases h : r.drop x.length with
    | nil => exact absurd h hp.1
    | cons ch t =>
      rw [h] at this hp
      exact parseScalar_stay fl dbg _ ind _ ch t rest hp.head.1 hp.head.2.1 (Or.inl htag') this

/-- an item of a typed list -/
theorem parses_item (fl : Floats F) (dbg : Bool) (n ind : Nat) {s : Sca F} (h : s.Clean fl) (pre : Line) (rest : List Line) :
    Parses fl dbg n ind (some (.sca s.ty)) (At pre (' ' :: s.text fl) rest) (.sca s) rest := by
  have hp := sca_plain h
  have hh : (s.text fl).head? ≠ some ' ' ∧ (s.text fl).head? ≠ some '!' := by
    cases he : s.text fl with
    | nil => simp
    | cons ch t => rw [he] at hp; simpa using ⟨hp.head.1, hp.head.2.2.2.2.2.2⟩
  refine parses_plain fl dbg n ind (some (.sca s.ty)) none pre (s.text fl) [] rest (.sca s) ?_ hh.1 (fun _ => rfl) hp ⟨by simp, by simp⟩ ?_
  · intro tl
    rw [parseTag_none _ _ _ hh.2, List.append_nil]
    rfl
  · show (match parseSca fl s.ty (s.text fl) with
      | .ok v => Except.ok (Val.sca v)
      | .error e => .error (e, 0)) = _
    rw [sca_parse h]

/-- a text in the rest of the line that is a list or a map in brackets without items -/
theorem parses_empty (fl : Floats F) (dbg isMap : Bool) (n ind : Nat) (own : Option Tag) (pre pre' r : Line) (rest : List Line)
    (htag : parseTag dbg (At pre (' ' :: r) rest).spaces = .ok own (At pre' ((if isMap then ['{', '}'] else ['[', ']'])) rest))
    (hm : isMap = true → own = none) :
    Parses fl dbg (n + 1) ind none (At pre (' ' :: r) rest) (if isMap then .map [] else convertList own []) rest := by
  cases isMap with
  | false =>
    have hs : (At pre' ['[', ']'] rest).spaces = At pre' ['[', ']'] rest := at_spaces0 _ _ _ (by simp)
    refine ⟨own, _, .list, 0, htag, ?_, nofun, nofun, Nat.zero_le _, ?_⟩
    · rw [if_neg (by decide), hs, peek_stay _ _ _ _ _ _ (by decide) (by decide), at_startsWith _ _ _ _ (by simp)]
      rfl
    · rw [if_neg (by decide), hs, if_neg (by decide)]
      show flowOr fl dbg (n + 1) false own (some ind) _ _ = _
      unfold flowOr
      rw [at_ws0 _ _ _ _ (by decide) (by decide), if_neg (by decide)]
      rw [show ['[', ']'] = ['['] ++ [']'] from rfl, at_consumeIf_true _ _ _ _ _ (by simp)]
      simp only [Res.bind, if_true]
      rw [flow]
      dsimp only
      rw [at_eod, if_neg (by decide), at_ws0 _ _ _ _ (by decide) (by decide), at_eod, if_neg (by decide), if_neg (by decide)]
      have := at_consumeIf_true dbg (pre' ++ ['[']) [']'] [] rest (by simp)
      rw [List.append_nil] at this
      rw [this]
      rfl
  | true =>
    have hs : (At pre' ['{', '}'] rest).spaces = At pre' ['{', '}'] rest := at_spaces0 _ _ _ (by simp)
    have := hm rfl
    subst this
    refine ⟨none, _, .map, 0, htag, ?_, nofun, fun _ => rfl, Nat.zero_le _, ?_⟩
    · rw [if_pos rfl, hs, peek_stay _ _ _ _ _ _ (by decide) (by decide), at_startsWith _ _ _ _ (by simp), at_startsWith _ _ _ _ (by simp),
        at_startsWith _ _ _ _ (by simp), at_rem]
      rfl
    · rw [if_pos rfl, hs, if_pos rfl]
      show flowOr fl dbg (n + 1) true none (some ind) _ _ = _
      unfold flowOr
      rw [at_ws0 _ _ _ _ (by decide) (by decide), if_pos rfl]
      rw [show ['{', '}'] = ['{'] ++ ['}'] from rfl, at_consumeIf_true _ _ _ _ _ (by simp)]
      simp only [Res.bind, if_true]
      rw [flow]
      dsimp only
      rw [at_eod, if_neg (by decide), at_ws0 _ _ _ _ (by decide) (by decide), at_eod, if_neg (by decide), if_pos rfl]
      have := at_consumeIf_true dbg (pre' ++ ['{']) ['}'] [] rest (by simp)
      rw [List.append_nil] at this
      rw [this]
      rfl

theorem textSize_append (a b : List Line) : textSize (a ++ b) = textSize a + textSize b := by
  induction a with
  | nil => rw [List.nil_append, textSize]; omega
  | cons l a ih => rw [List.cons_append, textSize, textSize, ih]; omega

theorem upsert_fresh (key : List Char) (v : Val F) : ∀ es : List (List Char × Val F), key ∉ es.map Prod.fst → upsert key v es = es ++ [(key, v)] := by
  intro es
  induction es with
  | nil => intro _; rfl
  | cons e es ih =>
    intro h
    rw [List.map_cons, List.mem_cons, not_or] at h
    obtain ⟨a, b⟩ := e
    rw [upsert, if_neg (fun e => h.1 e.symm), ih h.2, List.cons_append]

/-- what follows an item or an entry: the next one or what follows the list or the map -/
theorem ends_list (fl : Floats F) (k : Nat) {parent : Option Nat} (hp : ∀ p, parent = some p → p < 2 * k) {rest : List Line} (hr : Ends parent rest) (vs : List (Val F)) :
    Ends (some (2 * k)) (listL fl k vs ++ rest) := by
  cases vs with
  | nil => exact hr.mono (fun p h => by have := hp p h; omega)
  | cons v vs =>
    rw [listL_cons]
    exact Or.inr ⟨2 * k, 2 * k, '-', _, _, rfl, rfl, Nat.le_refl _, ⟨by decide, by decide, by decide, by decide⟩, rfl⟩

theorem ends_map (fl : Floats F) (k : Nat) {parent : Option Nat} (hp : ∀ p, parent = some p → p < 2 * k) {rest : List Line} (hr : Ends parent rest)
    (es : List (List Char × Val F)) (hk : ∀ e ∈ es, KeyClean e.1) : Ends (some (2 * k)) (mapL fl k es ++ rest) := by
  cases es with
  | nil => exact hr.mono (fun p h => by have := hp p h; omega)
  | cons e es =>
    obtain ⟨key, v⟩ := e
    obtain ⟨ch, r, hch, hg, hd, -, -⟩ := key_head (hk _ List.mem_cons_self)
    rw [mapL_cons, hch]
    exact Or.inr ⟨2 * k, 2 * k, ch, _, _, rfl, rfl, Nat.le_refl _, hg, not_prefix_head hd⟩

/-- the items of a typed list -/
theorem items_ok (fl : Floats F) (dbg : Bool) (t : Ty) (k p : Nat) (hp : p < 2 * k) (rest : List Line) (hr : Ends (some p) rest) :
    ∀ (vs : List (Sca F)), (∀ s ∈ vs, s.ty = t ∧ s.Clean fl) → ∀ (acc : List (Val F)) (n j : Nat),
      textSize (vs.map (fun s => spaces (2 * k) ++ '-' :: ' ' :: s.text fl)) < n →
      j ≤ lead ((vs.map (fun s => spaces (2 * k) ++ '-' :: ' ' :: s.text fl) ++ rest).headD []) →
      ∃ j', j' ≤ lead (rest.headD []) ∧ listLoop fl dbg (some p) (some (.sca t)) n acc
        ⟨vs.map (fun s => spaces (2 * k) ++ '-' :: ' ' :: s.text fl) ++ rest, j⟩ = .ok (convertList (some (.sca t)) (acc ++ vs.map .sca)) ⟨rest, j'⟩ := by
  intro vs
  induction vs with
  | nil =>
    intro _ acc n j hn hj
    cases n with
    | zero => omega
    | succ n =>
      rw [List.map_nil, List.map_nil, List.append_nil]
      exact listLoop_stop fl dbg hr _ n acc j hj
  | cons s vs ih =>
    intro h acc n j hn hj
    cases n with
    | zero => omega
    | succ n =>
      obtain ⟨hty, hc⟩ := h s List.mem_cons_self
      rw [List.map_cons, textSize] at hn
      rw [List.map_cons, List.cons_append] at hj ⊢
      have hlead : lead (spaces (2 * k) ++ '-' :: ' ' :: s.text fl) = 2 * k := lead_spaces _ _ _ (by decide)
      rw [List.headD_cons, hlead] at hj
      have := parses_item fl dbg n (2 * k) hc (spaces (2 * k) ++ ['-']) (vs.map (fun s => spaces (2 * k) ++ '-' :: ' ' :: s.text fl) ++ rest)
      rw [hty] at this
      obtain ⟨j1, hj1, he⟩ := listLoop_step fl dbg p k n (some (.sca t)) acc (s.text fl) _ (.sca s) _ hp j hj this
      obtain ⟨j2, hj2, he2⟩ := ih (fun s hs => h s (List.mem_cons_of_mem _ hs)) (acc ++ [.sca s]) n j1 (by omega) hj1
      refine ⟨j2, hj2, ?_⟩
      rw [he, he2, List.map_cons, List.append_assoc, List.singleton_append]

theorem convert_items (t : Ty) (vs : List (Sca F)) (h : ∀ s ∈ vs, s.ty = t) : convertList (some (.sca t)) (vs.map .sca) = .arr t vs := by
  show Val.arr t ((vs.map Val.sca).filterMap _) = _
  congr 1
  induction vs with
  | nil => rfl
  | cons s vs ih =>
    rw [List.map_cons, List.filterMap_cons]
    have hs := h s List.mem_cons_self
    simp only [hs, if_true]
    rw [ih (fun s hs => h s (List.mem_cons_of_mem _ hs))]

/-- the value is on the lines after this one and is a list -/
theorem parses_block_list (fl : Floats F) (dbg : Bool) (n k : Nat) (own : Option Tag) (pre pre' r f : Line) (tl : List Line) (v : Val F) (rest : List Line)
    (htag : parseTag dbg (At pre (' ' :: r) ((spaces (2 * (k + 1)) ++ '-' :: ' ' :: f) :: tl)).spaces = .ok own (At pre' [] ((spaces (2 * (k + 1)) ++ '-' :: ' ' :: f) :: tl)))
    (j : Nat) (hj : j ≤ lead (rest.headD []))
    (hl : listLoop fl dbg (some (2 * k)) own n [] ⟨(spaces (2 * (k + 1)) ++ '-' :: ' ' :: f) :: tl, 2 * (k + 1)⟩ = .ok v ⟨rest, j⟩) :
    Parses fl dbg n (2 * k) none (At pre (' ' :: r) ((spaces (2 * (k + 1)) ++ '-' :: ' ' :: f) :: tl)) v rest := by
  have hs := at_spaces0 pre' [] ((spaces (2 * (k + 1)) ++ '-' :: ' ' :: f) :: tl) (by simp)
  have hws : (At pre' [] ((spaces (2 * (k + 1)) ++ '-' :: ' ' :: f) :: tl)).ws = At (spaces (2 * (k + 1))) ('-' :: ' ' :: f) tl := by
    rw [at_ws_eol, start_ws _ 0 _ _ _ (Nat.zero_le _) (by decide) (by decide)]
  refine ⟨own, _, .list, j, htag, ?_, nofun, nofun, hj, ?_⟩
  · rw [hs]
    unfold peek
    dsimp only
    rw [hws, at_eod, if_neg (by decide), currentIndent_bind (at_ne _ _ _), at_cur, indentOf_spaces _ _ _ (by decide), if_neg, if_pos]
    · rw [at_startsWith _ _ _ _ (by simp), at_startsWith _ _ _ _ (by simp)]
      simp [List.isPrefixOf]
    · simp only [notDeeper, Bool.and_eq_true, decide_eq_true_eq, not_and]
      omega
  · rw [hs]
    show flowOr fl dbg n false own (some (2 * k)) _ _ = _
    unfold flowOr
    rw [hws, if_neg (by decide), at_consumeIf_false _ _ _ _ _ (by simp) (not_prefix_head (by decide))]
    simp only [Res.bind]
    rw [if_neg (by decide), at_col]
    exact hl

theorem parses_block_map (fl : Floats F) (dbg : Bool) (n k : Nat) {key : List Char} (hk : KeyClean key) (pre f : Line) (tl : List Line) (v : Val F) (rest : List Line)
    (j : Nat) (hj : j ≤ lead (rest.headD []))
    (hl : mapLoop fl dbg (some (2 * k)) n true [] ⟨(spaces (2 * (k + 1)) ++ (keyPre key ++ ' ' :: f)) :: tl, 2 * (k + 1)⟩ = .ok v ⟨rest, j⟩) :
    Parses fl dbg n (2 * k) none (At pre [' '] ((spaces (2 * (k + 1)) ++ (keyPre key ++ ' ' :: f)) :: tl)) v rest := by
  have hpk := parseKey_key dbg hk (spaces (2 * (k + 1))) f tl
  obtain ⟨ch, r, hch, hg, hd, hb, hb'⟩ := key_head hk
  have hline : keyPre key ++ ' ' :: f = ch :: (r ++ ' ' :: f) := by rw [hch]; rfl
  rw [hline] at hl hpk ⊢
  have h1 := at_spaces pre 1 [] ((spaces (2 * (k + 1)) ++ ch :: (r ++ ' ' :: f)) :: tl) (by simp)
  rw [show spaces 1 = [' '] from rfl, List.append_nil] at h1
  have hs := at_spaces0 (pre ++ [' ']) [] ((spaces (2 * (k + 1)) ++ ch :: (r ++ ' ' :: f)) :: tl) (by simp)
  have hws : (At (pre ++ [' ']) [] ((spaces (2 * (k + 1)) ++ ch :: (r ++ ' ' :: f)) :: tl)).ws = At (spaces (2 * (k + 1))) (ch :: (r ++ ' ' :: f)) tl := by
    rw [at_ws_eol, start_ws _ 0 _ _ _ (Nat.zero_le _) hg.1 hg.2.1]
  refine ⟨none, _, .map, j, by rw [h1]; exact parseTag_none _ _ _ (by simp), ?_, nofun, fun _ => rfl, hj, ?_⟩
  · rw [hs]
    unfold peek
    dsimp only
    rw [hws, at_eod, if_neg (by decide), currentIndent_bind (at_ne _ _ _), at_cur, indentOf_spaces _ _ _ hg.1, if_neg, at_startsWith _ _ _ _ (by simp),
      at_startsWith _ _ _ _ (by simp), at_startsWith _ _ _ _ (by simp), not_prefix_head hb', not_prefix_head hd, not_prefix_head hb, at_rem, hpk,
      decide_eq_false (by simp [hd])]
    · rfl
    · simp only [notDeeper, Bool.and_eq_true, decide_eq_true_eq, not_and]
      omega
  · rw [hs]
    show flowOr fl dbg n true none (some (2 * k)) _ _ = _
    unfold flowOr
    rw [hws, if_pos rfl, at_consumeIf_false _ _ _ _ _ (by simp) (not_prefix_head hb)]
    simp only [Res.bind]
    rw [if_neg (by decide), at_col, hl]

mutual
theorem value_ok (fl : Floats F) (dbg : Bool) : ∀ (v : Val F), Clean fl v → ∀ (k n : Nat) (pre : Line) (rest : List Line), Ends (some (2 * k)) rest →
    textSize (serL fl (k + 1) v).2 < n → Parses fl dbg n (2 * k) none (At pre (' ' :: (serL fl (k + 1) v).1) ((serL fl (k + 1) v).2 ++ rest)) v rest
  | .null, _ => by
    intro k n pre rest _ _
    rw [serL_null]
    refine parses_plain fl dbg n (2 * k) none (some .null) pre "!!null null".toList "!!null ".toList rest .null ?_ (by decide) nofun
      ⟨by decide, by decide, by decide⟩ ⟨by decide, by decide⟩ rfl
    intro tl
    exact parseTag_tag dbg (pre ++ [' ']) (T := "!!null".toList) "null".toList tl (by decide +kernel) (by decide) rfl
  | .sca s, h => by
    intro k n pre rest _ _
    cases h with
    | sca h =>
      obtain ⟨h1, h2, -, h3⟩ := tag_facts (t := s.ty) (fun i hi => by
        cases s with
        | int t v => cases hi; exact h.1
        | bool b => cases hi
        | flt w x => cases hi
        | cplx w x y => cases hi)
      rw [serL_sca]
      have hd : (s.ty.tag ++ ' ' :: s.text fl).drop (s.ty.tag ++ [' ']).length = s.text fl := by
        rw [show s.ty.tag ++ ' ' :: s.text fl = (s.ty.tag ++ [' ']) ++ s.text fl by simp, List.drop_left]
      refine parses_plain fl dbg n (2 * k) none (some (.sca s.ty)) pre (s.ty.tag ++ ' ' :: s.text fl) (s.ty.tag ++ [' ']) rest (.sca s) ?_ ?_ nofun
        (by rw [hd]; exact sca_plain h) ⟨by simp, by simp⟩ ?_
      · intro tl
        rw [hd]
        exact parseTag_tag dbg (pre ++ [' ']) (s.text fl) tl h1 h2 h3
      · cases ht : s.ty.tag with
        | nil => rw [ht] at h3; cases h3
        | cons c t =>
          rw [ht] at h2
          simpa using fun e => h2 (by rw [e]; exact List.mem_cons_self)
      · rw [hd]
        show (match parseSca fl s.ty (s.text fl) with
          | .ok v => Except.ok (Val.sca v)
          | .error e => .error (e, 0)) = _
        rw [sca_parse h]
  | .str s, h => by
    intro k n pre rest hr _
    cases h with
    | str h =>
      rw [serL_str]
      by_cases hm : isMulti s = true
      · rw [if_pos hm]
        dsimp only
        have h1 := at_spaces pre 2 ('|' :: (if s.getLast? = some '\n' then [] else ['-'])) ((splitLines s).map (spaces (2 * (k + 1)) ++ ·) ++ rest) (by simp)
        rw [show spaces 2 = [' ', ' '] from rfl] at h1
        have h1 : (At pre (' ' :: ' ' :: '|' :: (if s.getLast? = some '\n' then [] else ['-'])) ((splitLines s).map (spaces (2 * (k + 1)) ++ ·) ++ rest)).spaces = _ := h1
        have hp : PlainText ('|' :: (if s.getLast? = some '\n' then [] else ['-'])) := by
          split <;> exact ⟨by decide, by decide, by decide⟩
        refine ⟨none, _, .scalar, _, by rw [h1]; exact parseTag_none _ _ _ (by simp), ?_, nofun, nofun, Nat.le_refl _, ?_⟩
        · rw [at_spaces0 _ _ _ (by simp), peek_plain _ _ _ _ hp]
        · rw [at_spaces0 _ _ _ (by simp)]
          show parseScalar fl dbg none (2 * k) _ = _
          exact parseScalar_multi fl dbg (2 * k) (pre ++ [' ', ' ']) rest hm h hr.stops
      · rw [if_neg hm]
        dsimp only
        rw [List.nil_append]
        have h1 := at_spaces pre 2 ('"' :: (escape s ++ ['"'])) rest (by simp)
        rw [show spaces 2 = [' ', ' '] from rfl] at h1
        have h1 : (At pre (' ' :: ' ' :: '"' :: (escape s ++ ['"'])) rest).spaces = _ := h1
        refine ⟨none, _, .scalar, 0, by rw [h1]; exact parseTag_none _ _ _ (by simp), ?_, nofun, nofun, Nat.zero_le _, ?_⟩
        · rw [at_spaces0 _ _ _ (by simp), peek_quoted]
        · rw [at_spaces0 _ _ _ (by simp)]
          show parseScalar fl dbg none (2 * k) _ = _
          exact parseScalar_stay fl dbg none (2 * k) _ _ _ rest (by decide) (by decide) (Or.inr ⟨by decide, by decide⟩) (parsePlain_quoted fl dbg _ s rest)
  | .list vs, h => by
    intro k n pre rest hr hn
    cases h with
    | list h =>
      rw [serL_list] at hn ⊢
      cases vs with
      | nil =>
        rw [List.isEmpty_nil, if_pos rfl] at hn ⊢
        cases n with
        | zero => exact absurd hn (by omega)
        | succ n =>
          refine parses_empty fl dbg false n (2 * k) none pre (pre ++ [' ', ' ']) " []".toList rest ?_ nofun
          have := at_spaces pre 2 ['[', ']'] rest (by simp)
          rw [show spaces 2 = [' ', ' '] from rfl] at this
          rw [show (At pre (' ' :: " []".toList) rest).spaces = _ from this]
          exact parseTag_none _ _ _ (by simp)
      | cons v vs =>
        rw [List.isEmpty_cons, if_neg (by decide)] at hn ⊢
        obtain ⟨j', hj', hl⟩ := list_ok fl dbg (v :: vs) h (k + 1) n (2 * k) rest (by omega) hr [] (2 * (k + 1)) hn
          (by rw [listL_cons, List.cons_append, List.headD_cons, lead_spaces _ _ _ (by decide)]; omega)
        rw [listL_cons, List.cons_append] at hl ⊢
        refine parses_block_list fl dbg n k none pre (pre ++ [' ']) [] _ _ _ rest ?_ j' hj' hl
        have := at_spaces pre 1 [] ((spaces (2 * (k + 1)) ++ '-' :: ' ' :: (serL fl (k + 1 + 1) v).1) :: ((serL fl (k + 1 + 1) v).2 ++ listL fl (k + 1) vs ++ rest))
          (by simp)
        rw [show spaces 1 = [' '] from rfl, List.append_nil] at this
        rw [this]
        exact parseTag_none _ _ _ (by simp)
  | .arr t vs, h => by
    intro k n pre rest hr hn
    cases h with
    | arr ht h =>
      obtain ⟨h1, h2, -, h3⟩ := tag_facts ht
      have hsp : t.tag.head? ≠ some ' ' ∧ (t.tag ++ " []".toList).head? ≠ some ' ' := by
        cases ht : t.tag with
        | nil => rw [ht] at h3; cases h3
        | cons c t =>
          rw [ht] at h2
          have hne : c ≠ ' ' := fun e => h2 (by rw [e]; exact List.mem_cons_self)
          simp [hne]
      rw [serL_arr] at hn ⊢
      cases vs with
      | nil =>
        rw [List.isEmpty_nil, if_pos rfl] at hn ⊢
        cases n with
        | zero => exact absurd hn (by omega)
        | succ n =>
          refine parses_empty fl dbg false n (2 * k) (some (.sca t)) pre (pre ++ [' '] ++ (t.tag ++ [' '])) (t.tag ++ " []".toList) rest ?_ nofun
          have := at_spaces pre 1 (t.tag ++ " []".toList) rest hsp.2
          rw [show spaces 1 = [' '] from rfl, List.singleton_append] at this
          rw [this]
          exact parseTag_tag dbg (pre ++ [' ']) ['[', ']'] rest h1 h2 h3
      | cons v vs =>
        rw [List.isEmpty_cons, if_neg (by decide)] at hn ⊢
        obtain ⟨j', hj', hl⟩ := items_ok fl dbg t (k + 1) (2 * k) (by omega) rest hr (v :: vs) h [] n (2 * (k + 1)) hn
          (by rw [List.map_cons, List.cons_append, List.headD_cons, lead_spaces _ _ _ (by decide)]; omega)
        rw [List.nil_append, convert_items t _ (fun s hs => (h s hs).1)] at hl
        rw [List.map_cons, List.cons_append] at hl ⊢
        refine parses_block_list fl dbg n k (some (.sca t)) pre (pre ++ [' '] ++ t.tag) t.tag _ _ _ rest ?_ j' hj' hl
        have := at_spaces pre 1 t.tag ((spaces (2 * (k + 1)) ++ '-' :: ' ' :: v.text fl) ::
          (vs.map (fun s => spaces (2 * (k + 1)) ++ '-' :: ' ' :: s.text fl) ++ rest)) hsp.1
        rw [show spaces 1 = [' '] from rfl, List.singleton_append] at this
        rw [this]
        exact parseTag_end dbg _ _ h1 h2 h3
  | .strs _, h => by cases h
  | .map es, h => by
    intro k n pre rest hr hn
    cases h with
    | map hk h hnd =>
      rw [serL_map] at hn ⊢
      cases es with
      | nil =>
        rw [List.isEmpty_nil, if_pos rfl] at hn ⊢
        cases n with
        | zero => exact absurd hn (by omega)
        | succ n =>
          refine parses_empty fl dbg true n (2 * k) none pre (pre ++ [' ', ' ']) " {}".toList rest ?_ (fun _ => rfl)
          have := at_spaces pre 2 ['{', '}'] rest (by simp)
          rw [show spaces 2 = [' ', ' '] from rfl] at this
          rw [show (At pre (' ' :: " {}".toList) rest).spaces = _ from this]
          exact parseTag_none _ _ _ (by simp)
      | cons e es =>
        obtain ⟨key, v⟩ := e
        rw [List.isEmpty_cons, if_neg (by decide)] at hn ⊢
        have hkey := hk _ List.mem_cons_self
        obtain ⟨ch, r, hch, hg, -⟩ := key_head hkey
        obtain ⟨j', hj', hl⟩ := map_ok fl dbg ((key, v) :: es) hk h (k + 1) n (some (2 * k)) rest (fun p hp => by cases hp; omega) hr true (Or.inr (by simp)) []
          (2 * (k + 1)) (by simpa using hnd) hn
          (by rw [mapL_cons, List.cons_append, List.headD_cons, hch, List.cons_append, lead_spaces _ _ _ hg.1]; omega)
        rw [mapL_cons, List.cons_append] at hl ⊢
        exact parses_block_map fl dbg n k hkey pre _ _ _ rest j' hj' hl
theorem list_ok (fl : Floats F) (dbg : Bool) : ∀ (vs : List (Val F)), (∀ v ∈ vs, Clean fl v) → ∀ (k n p : Nat) (rest : List Line), p < 2 * k →
    Ends (some p) rest → ∀ (acc : List (Val F)) (j : Nat), textSize (listL fl k vs) < n → j ≤ lead ((listL fl k vs ++ rest).headD []) →
    ∃ j', j' ≤ lead (rest.headD []) ∧ listLoop fl dbg (some p) none n acc ⟨listL fl k vs ++ rest, j⟩ = .ok (.list (acc ++ vs)) ⟨rest, j'⟩
  | [], _ => by
    intro k n p rest hp hr acc j hn hj
    rw [listL_nil] at hn hj ⊢
    cases n with
    | zero => omega
    | succ n =>
      rw [List.append_nil]
      exact listLoop_stop fl dbg hr none n acc j hj
  | v :: vs, h => by
    intro k n p rest hp hr acc j hn hj
    rw [listL_cons] at hn hj ⊢
    cases n with
    | zero => omega
    | succ n =>
      rw [textSize, textSize_append] at hn
      rw [List.cons_append, List.headD_cons, lead_spaces _ _ _ (by decide)] at hj
      rw [List.cons_append, List.append_assoc]
      have hv := value_ok fl dbg v (h v List.mem_cons_self) k n (spaces (2 * k) ++ ['-']) (listL fl k vs ++ rest)
        (ends_list fl k (fun q hq => by cases hq; exact hp) hr vs) (by omega)
      obtain ⟨j1, hj1, he⟩ := listLoop_step fl dbg p k n none acc _ _ v _ hp j hj hv
      obtain ⟨j2, hj2, he2⟩ := list_ok fl dbg vs (fun w hw => h w (List.mem_cons_of_mem _ hw)) k n p rest hp hr (acc ++ [v]) j1 (by omega) hj1
      refine ⟨j2, hj2, ?_⟩
      rw [he, he2, List.append_assoc, List.singleton_append]
theorem map_ok (fl : Floats F) (dbg : Bool) : ∀ (es : List (List Char × Val F)), (∀ e ∈ es, KeyClean e.1) → (∀ e ∈ es, Clean fl e.2) →
    ∀ (k n : Nat) (parent : Option Nat) (rest : List Line), (∀ p, parent = some p → p < 2 * k) → Ends parent rest → ∀ (first : Bool), (first = false ∨ es ≠ []) →
    ∀ (acc : List (List Char × Val F)) (j : Nat), ((acc ++ es).map Prod.fst).Nodup → textSize (mapL fl k es) < n → j ≤ lead ((mapL fl k es ++ rest).headD []) →
    ∃ j', j' ≤ lead (rest.headD []) ∧ mapLoop fl dbg parent n first acc ⟨mapL fl k es ++ rest, j⟩ = .ok (.map (acc ++ es)) ⟨rest, j'⟩
  | [], _, _ => by
    intro k n parent rest hp hr first hf acc j hnd hn hj
    rcases hf with rfl | hf
    · rw [mapL_nil] at hn hj ⊢
      cases n with
      | zero => omega
      | succ n =>
        rw [List.append_nil]
        exact mapLoop_stop fl dbg hr n acc j hj
    · exact absurd rfl hf
  | (key, v) :: es, hk, h => by
    intro k n parent rest hp hr first _ acc j hnd hn hj
    rw [mapL_cons] at hn hj ⊢
    have hkey := hk _ List.mem_cons_self
    obtain ⟨ch, r, hch, hg, -⟩ := key_head hkey
    cases n with
    | zero => omega
    | succ n =>
      rw [textSize, textSize_append] at hn
      rw [List.cons_append, List.headD_cons, hch, List.cons_append, lead_spaces _ _ _ hg.1] at hj
      rw [List.cons_append, List.append_assoc]
      have hv := value_ok fl dbg v (h (key, v) List.mem_cons_self) k n (spaces (2 * k) ++ keyPre key) (mapL fl k es ++ rest)
        (ends_map fl k hp hr es (fun e he => hk e (List.mem_cons_of_mem _ he))) (by omega)
      obtain ⟨j1, hj1, he⟩ := mapLoop_step fl dbg parent k n first acc hkey _ _ v _ hp j hj hv
      have hfresh : key ∉ acc.map Prod.fst := by
        rw [List.map_append, List.map_cons, List.nodup_append] at hnd
        intro hm
        exact hnd.2.2 key hm key List.mem_cons_self rfl
      have hacc : acc ++ (key, v) :: es = acc ++ [(key, v)] ++ es := by simp
      obtain ⟨j2, hj2, he2⟩ := map_ok fl dbg es (fun e he => hk e (List.mem_cons_of_mem _ he)) (fun e he => h e (List.mem_cons_of_mem _ he)) k n parent rest hp hr
        false (Or.inl rfl) (acc ++ [(key, v)]) j1 (by rw [← hacc]; exact hnd) (by omega) hj1
      refine ⟨j2, hj2, ?_⟩
      rw [he, upsert_fresh key v acc hfresh, he2, ← hacc]
end

theorem roundtrip_core (fl : Floats F) (dbg : Bool) (es : List (List Char × Val F)) (h : Clean fl (.map es)) :
    ∃ c, deserialize fl dbg (serialize fl es) = .ok (.map es) c := by
  cases h with
  | map hk h hnd =>
    cases es with
    | nil => exact ⟨⟨[], 0⟩, rfl⟩
    | cons e es =>
      obtain ⟨key, v⟩ := e
      obtain ⟨h1, h2⟩ := map_lines fl 0 ((key, v) :: es) h
      have hlines : splitLines (serialize fl ((key, v) :: es)) = [] :: mapL fl 0 ((key, v) :: es) := by
        unfold serialize
        rw [List.isEmpty_cons, if_neg (by decide), ser_map, List.isEmpty_cons, if_neg (by decide), h1]
        have : ['\n'] ++ unl (mapL fl 0 ((key, v) :: es)) = unl ([] :: mapL fl 0 ((key, v) :: es)) := by rw [unl_cons]; rfl
        rw [this, split_unl]
        intro l hl
        rcases List.mem_cons.mp hl with rfl | hl
        · exact List.not_mem_nil
        · exact h2 l hl
      unfold deserialize
      rw [hlines]
      dsimp only
      have hkey := hk _ List.mem_cons_self
      obtain ⟨ch, r, hch, hg, hd, hb, -⟩ := key_head hkey
      obtain ⟨j', -, hm⟩ := map_ok fl dbg ((key, v) :: es) hk h 0 (textSize ([] :: mapL fl 0 ((key, v) :: es)) + 1) none [] (fun p hp => by cases hp) (Or.inl rfl) true
        (Or.inr (by simp)) [] 0 (by simpa using hnd) (by rw [textSize]; omega) (Nat.zero_le _)
      refine ⟨⟨[], j'⟩, ?_⟩
      rw [List.append_nil] at hm
      have hws : (Ctx.mk ([] :: mapL fl 0 ((key, v) :: es)) 0).ws = ⟨mapL fl 0 ((key, v) :: es), 0⟩ := by
        show skipWs ([] :: mapL fl 0 ((key, v) :: es)) 0 = _
        have := at_ws_eol [] (mapL fl 0 ((key, v) :: es))
        have this : skipWs ([] :: mapL fl 0 ((key, v) :: es)) 0 = (Ctx.mk (mapL fl 0 ((key, v) :: es)) 0).ws := this
        rw [this, mapL_cons, hch, List.cons_append, start_ws _ 0 _ _ _ (Nat.zero_le _) hg.1 hg.2.1, at_col]
      have hat : (Ctx.mk (mapL fl 0 ((key, v) :: es)) 0) = At (spaces 0) (ch :: (r ++ ' ' :: (serL fl 1 v).1)) ((serL fl 1 v).2 ++ mapL fl 0 es) := by
        rw [mapL_cons, hch, at_col]
        rfl
      rw [hws, hat, at_consumeIf_false _ _ _ _ _ (by simp) (not_prefix_head hd)]
      simp only [Res.bind]
      unfold flowOr
      rw [at_ws0 _ _ _ _ hg.1 hg.2.1, if_pos rfl, at_consumeIf_false _ _ _ _ _ (by simp) (not_prefix_head hb)]
      simp only [Res.bind]
      rw [if_neg (by decide), ← hat, hm]
      rfl

end Verif.Yaml
