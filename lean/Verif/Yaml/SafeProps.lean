import Verif.Yaml.SafeLoops
/-!
# C67: loading YAML text is safe for every text

For every text, `deserialize` ends, reads only the text, and returns a well-formed map or an error whose position lies in the text (`Sane`).
This holds as the library is built for release. With assertions compiled in it holds for texts without `[` and `{`; in the others an unfinished
flow style value at the end of the text makes the assertion of `consume` read behind the table of lines.
-/
namespace Verif.Yaml

variable {F : Type}

/-- a printing of numbers for the examples: integers in place of floating point numbers -/
def intFloats : Floats Int where
  print _ v := intText v
  read _ s := readInt ⟨64, true⟩ 10 s
  isNan _ := false
  isInf _ := false
  neg v := decide (v < 0)
  nan := 0
  inf _ := 0

/-- whether an outcome is a value, an error or undefined behaviour -/
def kind : Res (Val F) → Nat
  | .ok _ _ => 0
  | .err _ _ _ => 1
  | .ub => 2
  | .fuel => 3

/-- every text loads to a well-formed map or to an error in the text, without a read outside it and in finitely many steps (assertions off) -/
theorem load_safe (fl : Floats F) (text : List Char) : ∃ lines, Lines text lines ∧ Sane lines (deserialize fl false text) :=
  ⟨splitLines text, lines_split text, sane_of_safe (deserialize_safe fl false text nofun)⟩

example : kind (deserialize intFloats false "a: !!int8 5\nb:\n  - x\n  - {c: [1, 2]}\n".toList) = 0 := by decide +kernel
example : kind (deserialize intFloats false "a: !!int8 500".toList) = 1 := by decide +kernel
example : kind (deserialize intFloats false "a: \"x".toList) = 1 := by decide +kernel
example : kind (deserialize intFloats false "a: {b:".toList) = 1 := by decide +kernel

/-- with assertions compiled in: the same for texts without flow style values. Missing: texts with `[` or `{`, where it fails
(`unfinished_flow_reads_outside`). -/
theorem load_safe_asserts_partial (fl : Floats F) (text : List Char) (hs : '[' ∉ text) (hc : '{' ∉ text) :
    ∃ lines, Lines text lines ∧ Sane lines (deserialize fl true text) := by
  refine ⟨splitLines text, lines_split text, sane_of_safe (deserialize_safe fl true text ?_)⟩
  intro _ l hl
  have key : ∀ {s : List Char} {ls : List Line}, Lines s ls → ∀ l ∈ ls, ∀ c ∈ l, c ∈ s := by
    intro s ls h
    induction h with
    | nil => intro l hl; cases hl
    | last _ _ => intro l hl c hc; rw [List.mem_singleton] at hl; subst hl; exact hc
    | cons _ _ ih =>
      intro l hl c hc
      rcases List.mem_cons.mp hl with hl | hl
      · subst hl; exact List.mem_append_left _ hc
      · exact List.mem_append_right _ (List.mem_cons_of_mem _ (ih l hl c hc))
  exact ⟨fun h => hs (key (lines_split text) l hl _ h), fun h => hc (key (lines_split text) l hl _ h)⟩

example : kind (deserialize intFloats true "a: 1\nb:\n  - x\n  -\n    c: |\n      y\n".toList) = 0 := by decide +kernel

/-- finding: text that ends after the colon of an entry of a `{...}` map, or after a type tag in a list `[...]`, makes the assertion in `consume` read the
line behind the last one -/
theorem unfinished_flow_reads_outside :
    kind (deserialize intFloats true "a: {b:".toList) = 2 ∧ kind (deserialize intFloats true "a: [!!int32".toList) = 2 := by decide +kernel

end Verif.Yaml
