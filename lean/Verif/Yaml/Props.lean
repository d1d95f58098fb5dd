import Verif.Yaml.Round
import Verif.Yaml.SafeProps
/-!
# C66: a saved map loads to itself

`roundtrip_partial`: loading the text a map was saved as gives the map again, for maps of any depth and size whose keys, strings and numbers meet
`Clean`. Missing, because it is false: keys, strings, floating point numbers and string tensors outside `Clean`; the witnesses below show what
happens to them.
-/
namespace Verif.Yaml

variable {F : Type}

/-- a map made of any values of the library's types comes back from its text unchanged, with and without assertions. Missing: see `Clean`. -/
theorem roundtrip_partial (fl : Floats F) (dbg : Bool) (es : List (List Char × Val F)) (h : Clean fl (.map es)) :
    ∃ c, deserialize fl dbg (serialize fl es) = .ok (.map es) c :=
  roundtrip_core fl dbg es h

/-! ## an instance -/

theorem intFloats_exact (w : Bool) (v : Int) (h : InRange ⟨64, true⟩ v) : Exact intFloats w v := by
  refine ⟨⟨(intText_plain v).1, (intText_plain v).2.1, ?_, ?_⟩, readInt_text h⟩
  · intro c hc
    rcases intText_mem v c hc with rfl | ⟨d, hd, rfl⟩
    · exact Or.inr (Or.inr (Or.inl rfl))
    · exact Or.inl (decimal_facts d hd).1
  · intro a c b he
    have : '.' ∈ intText v := by
      show '.' ∈ intFloats.print w v
      rw [he]
      simp
    rcases intText_mem v _ this with h | ⟨d, hd, h⟩
    · exact absurd h (by decide)
    · exact absurd h.symm (by revert d; decide +kernel)

/-- two strings with a colon and a control character as keys, a string over two lines, typed and untyped lists, an empty list and maps in maps -/
def sample : List (List Char × Val Int) :=
  [("plain key".toList, .str "one\n  two\n".toList),
   ("a:b".toList, .list [.null, .str "say \"hi\"\t: # no comment".toList, .map [("x".toList, .sca (.int ⟨8, true⟩ (-128)))], .list []]),
   ([].append [Char.ofNat 1], .map [("y".toList, .arr (.int ⟨16, false⟩) [.int ⟨16, false⟩ 65535, .int ⟨16, false⟩ 0]), ("z".toList, .map [])]),
   ("f".toList, .sca (.flt true 25)), ("c".toList, .arr (.cplx false) [.cplx false 1 (-2)]), ("b".toList, .sca (.bool true))]

theorem sample_clean : Clean intFloats (.map sample) := by
  have hkey : ∀ key : List Char, (':' ∈ key ∨ (∃ c ∈ key, ¬ Printable c) ∨
      ('#' ∉ key ∧ (∀ c, key.head? = some c → c ∉ [' ', '-', '"', '\'', '{', '[']) ∧ key.getLast? ≠ some ' ')) → KeyClean key := by
    intro key h h1 h2
    rcases h with h | ⟨c, hc, hp⟩ | h
    · exact absurd h h1
    · exact absurd (h2 c hc) hp
    · exact h
  have hplain : ∀ c : Char, ∀ s : List Char, c ∉ [' ', '-', '"', '\'', '{', '['] → '#' ∉ (c :: s) → (c :: s).getLast? ≠ some ' ' → KeyClean (c :: s) := by
    intro c s h1 h2 h3
    exact hkey _ (Or.inr (Or.inr ⟨h2, fun d hd => by cases hd; exact h1, h3⟩))
  have hstr : ∀ s : List Char, '\n' ∉ s → StrClean s := fun s h h' => absurd h' h
  have hmulti : StrClean "one\n  two\n".toList := by
    intro _ _
    constructor
    · intro a m b he ha hb hm hne
      rcases Classical.em (∃ c ∈ m, c ≠ ' ') with h | h
      · exact h
      · exfalso
        have hsp : ∀ c ∈ m, c = ' ' := fun c hc => Classical.byContradiction fun hh => h ⟨c, hc, hh⟩
        have hlen : a.length < 10 := by
          have : (a ++ m ++ b).length = 10 := by rw [← he]; decide
          rw [List.length_append, List.length_append] at this
          have : 0 < m.length := List.length_pos_iff.mpr hne
          omega
        have hta : a = "one\n  two\n".toList.take a.length := by rw [he, List.append_assoc, List.take_left]
        have htm : m ++ b = "one\n  two\n".toList.drop a.length := by rw [he, List.append_assoc, List.drop_left]
        generalize a.length = n at hlen hta htm
        subst hta
        match n, hlen with
        | 0, _ =>
          cases m with
          | nil => exact hne rfl
          | cons c m =>
            have h1 : c = 'o' := by have := congrArg List.head? htm; simpa using this
            exact absurd (h1 ▸ hsp c List.mem_cons_self) (by decide)
        | 4, _ =>
          match m with
          | [] => exact hne rfl
          | [c] =>
            have hb2 : b = " two\n".toList := (List.cons.inj htm).2
            subst hb2
            rcases hb with h | h
            · exact absurd h (by decide)
            · exact absurd h (by decide)
          | [c, d] =>
            have hb2 : b = "two\n".toList := (List.cons.inj (List.cons.inj htm).2).2
            subst hb2
            rcases hb with h | h
            · exact absurd h (by decide)
            · exact absurd h (by decide)
          | c :: d :: e :: m =>
            have h1 : e = 't' := (List.cons.inj (List.cons.inj (List.cons.inj htm).2).2).1
            exact absurd (h1 ▸ hsp e (by simp)) (by decide)
        | 1, _ | 2, _ | 3, _ | 5, _ | 6, _ | 7, _ | 8, _ | 9, _ => exact absurd ha (by decide)
    · intro a c b he
      have : '\\' ∈ "one\n  two\n".toList := by rw [he]; simp
      exact absurd this (by decide)
  have hnum : ∀ (w : Bool) (v : Int), InRange ⟨64, true⟩ v → Exact intFloats w v := intFloats_exact
  have hr : ∀ (v : Int), -1000 ≤ v → v ≤ 1000 → InRange ⟨64, true⟩ v := by
    intro v h1 h2
    exact ⟨fun _ => ⟨by dsimp only; omega, by dsimp only; omega⟩, nofun⟩
  refine .map ?_ ?_ (by decide +kernel)
  · simp only [sample, List.forall_mem_cons]
    refine ⟨hplain _ _ (by decide) (by decide) (by decide), hkey _ (Or.inl (by decide)), hkey _ (Or.inr (Or.inl ⟨Char.ofNat 1, by decide, by unfold Printable; decide⟩)),
      hplain _ _ (by decide) (by decide) (by decide), hplain _ _ (by decide) (by decide) (by decide), hplain _ _ (by decide) (by decide) (by decide), by simp⟩
  · simp only [sample, List.forall_mem_cons]
    refine ⟨.str hmulti, .list ?_, .map ?_ ?_ (by decide), .sca (Or.inr (Or.inr ⟨rfl, rfl, hnum _ _ (hr _ (by omega) (by omega))⟩)), .arr nofun ?_, .sca trivial, by simp⟩
    · simp only [List.forall_mem_cons]
      refine ⟨.null, .str (hstr _ (by decide)), .map ?_ ?_ (by decide), .list (by simp), by simp⟩
      · simp only [List.forall_mem_cons]
        exact ⟨hplain _ _ (by decide) (by decide) (by decide), by simp⟩
      · simp only [List.forall_mem_cons]
        exact ⟨.sca ⟨Or.inl rfl, by unfold InRange; decide⟩, by simp⟩
    · simp only [List.forall_mem_cons]
      exact ⟨hplain _ _ (by decide) (by decide) (by decide), hplain _ _ (by decide) (by decide) (by decide), by simp⟩
    · simp only [List.forall_mem_cons]
      refine ⟨.arr (fun i h => by cases h; exact Or.inr (Or.inl rfl)) ?_, .map (by simp) (by simp) (by decide), by simp⟩
      simp only [List.forall_mem_cons]
      exact ⟨⟨rfl, Or.inr (Or.inl rfl), by unfold InRange; decide⟩, ⟨rfl, Or.inr (Or.inl rfl), by unfold InRange; decide⟩, by simp⟩
    · simp only [List.forall_mem_cons]
      exact ⟨⟨rfl, hnum _ _ (hr _ (by omega) (by omega)), hnum _ _ (hr _ (by omega) (by omega))⟩, by simp⟩

example : ∃ c, deserialize intFloats true (serialize intFloats sample) = .ok (.map sample) c := roundtrip_partial _ _ _ sample_clean

/-! ## what does not come back -/

mutual
/-- whether two values are equal -/
def Val.eqb [DecidableEq F] : Val F → Val F → Bool
  | .null, .null => true
  | .sca a, .sca b => decide (a = b)
  | .str a, .str b => decide (a = b)
  | .list a, .list b => eqbList a b
  | .arr t a, .arr u b => decide (t = u ∧ a = b)
  | .strs a, .strs b => decide (a = b)
  | .map a, .map b => eqbMap a b
  | _, _ => false
/-- the same for lists -/
def eqbList [DecidableEq F] : List (Val F) → List (Val F) → Bool
  | [], [] => true
  | a :: as, b :: bs => a.eqb b && eqbList as bs
  | _, _ => false
/-- the same for entries -/
def eqbMap [DecidableEq F] : List (List Char × Val F) → List (List Char × Val F) → Bool
  | [], [] => true
  | (k, a) :: as, (l, b) :: bs => decide (k = l) && a.eqb b && eqbMap as bs
  | _, _ => false
end

mutual
theorem eqb_eq [DecidableEq F] : ∀ a b : Val F, a.eqb b = true → a = b
  | .null, b => by cases b <;> simp [Val.eqb]
  | .sca a, b => by cases b <;> simp [Val.eqb]
  | .str a, b => by cases b <;> simp [Val.eqb]
  | .list a, b => by
    cases b with
    | list b => intro h; rw [eqbList_eq a b (by simpa [Val.eqb] using h)]
    | _ => simp [Val.eqb]
  | .arr t a, b => by cases b <;> simp [Val.eqb]
  | .strs a, b => by cases b <;> simp [Val.eqb]
  | .map a, b => by
    cases b with
    | map b => intro h; rw [eqbMap_eq a b (by simpa [Val.eqb] using h)]
    | _ => simp [Val.eqb]
theorem eqbList_eq [DecidableEq F] : ∀ a b : List (Val F), eqbList a b = true → a = b
  | [], b => by cases b <;> simp [eqbList]
  | x :: a, b => by
    cases b with
    | nil => simp [eqbList]
    | cons y b =>
      intro h
      rw [eqbList, Bool.and_eq_true] at h
      rw [eqb_eq x y h.1, eqbList_eq a b h.2]
theorem eqbMap_eq [DecidableEq F] : ∀ a b : List (List Char × Val F), eqbMap a b = true → a = b
  | [], b => by cases b <;> simp [eqbMap]
  | (k, x) :: a, b => by
    cases b with
    | nil => simp [eqbMap]
    | cons y b =>
      obtain ⟨l, y⟩ := y
      intro h
      rw [eqbMap, Bool.and_eq_true, Bool.and_eq_true, decide_eq_true_eq] at h
      rw [h.1.1, eqb_eq x y h.1.2, eqbMap_eq a b h.2]
end

/-- the map that was loaded -/
def loaded : Res (Val F) → Option (List (List Char × Val F))
  | .ok (.map es) _ => some es
  | _ => none

/-- what a saved map loads to; `none` is an error -/
def again (es : List (List Char × Val Int)) : Option (List (List Char × Val Int)) := loaded (deserialize intFloats false (serialize intFloats es))

/-- for the witnesses -/
theorem eq_of_eqb {a : Option (List (List Char × Val Int))} {b : List (List Char × Val Int)} (h : a.any (eqbMap b) = true) : a = some b := by
  cases a with
  | none => simp at h
  | some a => rw [eqbMap_eq b a (by simpa using h)]

example : again sample = some sample := eq_of_eqb (by decide +kernel)

/-- finding: with a key that starts with a dash or holds a comment sign, the text saved cannot be loaded at all -/
theorem key_makes_text_unloadable :
    again [("gain".toList, .sca (.bool true)), ("-x".toList, .null)] = none ∧ again [("gain".toList, .sca (.bool true)), ("a#b".toList, .null)] = none ∧
    again [("'a".toList, .null)] = none := by
  have h : ∀ a : Option (List (List Char × Val Int)), a.isNone = true → a = none := fun a h => Option.isNone_iff_eq_none.mp h
  exact ⟨h _ (by decide +kernel), h _ (by decide +kernel), h _ (by decide +kernel)⟩

/-- finding: a key with spaces around it or in quotes comes back as another key, and an entry whose key starts with a brace can hide all others -/
theorem key_changed :
    again [(" a".toList, .null)] = some [("a".toList, .null)] ∧ again [("\"a\"".toList, .null)] = some [("a".toList, .null)] ∧
    again [("{}".toList, .null), ("gain".toList, .sca (.bool true))] = some [] :=
  ⟨eq_of_eqb (by decide +kernel), eq_of_eqb (by decide +kernel), eq_of_eqb (by decide +kernel)⟩

/-- finding: of two keys that differ in spaces around them, one is lost -/
theorem key_lost : again [("a".toList, .sca (.bool true)), (" a".toList, .sca (.bool false))] = some [("a".toList, .sca (.bool false))] :=
  eq_of_eqb (by decide +kernel)

/-- finding: in a string of several lines, a line of spaces becomes empty and `\x41` becomes `A`, and `\u` makes the text saved unloadable -/
theorem multi_line_changed :
    again [("a".toList, .str "x\n \ny".toList)] = some [("a".toList, .str "x\n\ny".toList)] ∧
    again [("a".toList, .str "x\n\\x41\n".toList)] = some [("a".toList, .str "x\nA\n".toList)] ∧
    again [("a".toList, .str "C:\\users\n".toList)] = none :=
  ⟨eq_of_eqb (by decide +kernel), eq_of_eqb (by decide +kernel), Option.isNone_iff_eq_none.mp (by decide +kernel)⟩

/-- finding: a tensor of strings comes back as a list of values, and its strings as whatever their text looks like -/
theorem strings_retyped :
    again [("a".toList, .strs ["1".toList, "x".toList, "a: b".toList])] =
      some [("a".toList, .list [.sca (.int ⟨64, true⟩ 1), .str "x".toList, .map [("a".toList, .str "b".toList)]])] :=
  eq_of_eqb (by decide +kernel)

/-- finding: hand-written text that YAML forbids or reads otherwise loads without an error -/
theorem invalid_text_accepted :
    loaded (deserialize intFloats false "a: b: c\n".toList) = some [("a".toList, .map []), ("b".toList, .str "c".toList)] ∧
    loaded (deserialize intFloats false "a:\n  - - x\n".toList) = some [("a".toList, .list [.list [], .str "x".toList])] ∧
    loaded (deserialize intFloats false "a: [1] 2]\n".toList) = some [("a".toList, .list [.sca (.int ⟨64, true⟩ 1)])] ∧
    loaded (deserialize intFloats false "a: \"\\x1g\"\n".toList) = some [("a".toList, .str [Char.ofNat 1])] :=
  ⟨eq_of_eqb (by decide +kernel), eq_of_eqb (by decide +kernel), eq_of_eqb (by decide +kernel), eq_of_eqb (by decide +kernel)⟩

end Verif.Yaml
