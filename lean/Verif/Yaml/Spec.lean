import Verif.Yaml.Model
/-!
# What loading and saving YAML text is for

Nothing here uses the functions of the parser or of the writer.
-/
namespace Verif.Yaml

variable {F : Type}

/-- the values of an integral type -/
def InRange (t : IntTy) (v : Int) : Prop :=
  (t.signed = true → -(2 ^ (t.bits - 1) : Int) ≤ v ∧ v < (2 ^ (t.bits - 1) : Int)) ∧
  (t.signed = false → 0 ≤ v ∧ v < (2 ^ t.bits : Int))

/-- the eight integral types -/
def Known (t : IntTy) : Prop := t.bits = 8 ∨ t.bits = 16 ∨ t.bits = 32 ∨ t.bits = 64

/-- a scalar of the C++ type it claims to have -/
def Sca.Ok : Sca F → Prop
  | .int t v => Known t ∧ InRange t v
  | _ => True

/-- a value a program can hold: numbers in range, typed lists with items of their type, every key of a map once -/
inductive WF : Val F → Prop
  | null : WF .null
  | sca {s} : s.Ok → WF (.sca s)
  | str {s} : WF (.str s)
  | list {vs} : (∀ v ∈ vs, WF v) → WF (.list vs)
  | arr {t vs} : (∀ s ∈ vs, s.ty = t ∧ s.Ok) → WF (.arr t vs)
  | map {es} : (∀ e ∈ es, WF e.2) → (es.map Prod.fst).Nodup → WF (.map es)

/-- the lines of a text: the parts between newlines, without an empty part at the end -/
inductive Lines : List Char → List Line → Prop
  | nil : Lines [] []
  | last {l} : l ≠ [] → '\n' ∉ l → Lines l [l]
  | cons {l s ls} : '\n' ∉ l → Lines s ls → Lines (l ++ '\n' :: s) (l :: ls)

/-- what a caller can rely on whatever the text is: loading ends, with a map that is well formed, or with an error whose position is in the text or
directly behind a line or behind the text -/
def Sane (lines : List Line) : Res (Val F) → Prop
  | .ok v _ => WF v ∧ ∃ es, v = .map es
  | .err _ c n => ∃ k, k ≤ lines.length ∧ c.lines = lines.drop k ∧ n ≤ ((lines.drop k).headD []).length
  | .ub => False
  | .fuel => False

/-- a printable ASCII character -/
def Printable (c : Char) : Prop := 32 ≤ c.toNat ∧ c.toNat ≤ 126

/-- a key written without quotes comes back only if it has no comment sign, does not start with a character that means something else, and has
no space at either end. Keys with a colon or an unprintable character are written with quotes. -/
def KeyClean (key : List Char) : Prop :=
  ':' ∉ key → (∀ c ∈ key, Printable c) →
    '#' ∉ key ∧ (∀ c, key.head? = some c → c ∉ [' ', '-', '"', '\'', '{', '[']) ∧ key.getLast? ≠ some ' '

/-- a string written over several lines comes back only if none of its lines consists of spaces, and no backslash is followed by `0`, `x` or `u` -/
def StrClean (s : List Char) : Prop :=
  '\n' ∈ s → (∀ c ∈ s, Printable c ∨ c = '\n') →
    (∀ a m b, s = a ++ m ++ b → (a = [] ∨ a.getLast? = some '\n') → (b = [] ∨ b.head? = some '\n') → '\n' ∉ m → m ≠ [] → ∃ c ∈ m, c ≠ ' ') ∧
    (∀ a c b, s = a ++ '\\' :: c :: b → c ∉ ['0', 'x', 'u'])

/-- a character of a printed number -/
def NumChar (c : Char) : Prop := c.isAlphanum = true ∨ c = '+' ∨ c = '-' ∨ c = '.'

/-- text a number is printed as: nothing the parser takes for something else -/
def NumText (s : List Char) : Prop :=
  s ≠ [] ∧ s ≠ ['-'] ∧ (∀ c ∈ s, NumChar c) ∧ ∀ a c b, s = a ++ '.' :: c :: b → c.isDigit = true ∨ c = 'e'

/-- the number is printed with enough digits to be read again -/
def Exact (fl : Floats F) (w : Bool) (x : F) : Prop := NumText (fl.print w x) ∧ fl.read w (fl.print w x) = some x

/-- a scalar that comes back: in range, and floating point numbers printed with enough digits. Infinities and NaN have their own text, except
in complex numbers. -/
def Sca.Clean (fl : Floats F) : Sca F → Prop
  | .bool _ => True
  | .int t v => Known t ∧ InRange t v
  | .flt w x =>
    (fl.isNan x = true ∧ x = fl.nan) ∨ (fl.isNan x = false ∧ fl.isInf x = true ∧ x = fl.inf (fl.neg x)) ∨
      (fl.isNan x = false ∧ fl.isInf x = false ∧ Exact fl w x)
  | .cplx w re im => Exact fl w re ∧ Exact fl w im

/-- the values that come back -/
inductive Clean (fl : Floats F) : Val F → Prop
  | null : Clean fl .null
  | sca {s} : s.Clean fl → Clean fl (.sca s)
  | str {s} : StrClean s → Clean fl (.str s)
  | list {vs} : (∀ v ∈ vs, Clean fl v) → Clean fl (.list vs)
  | arr {t vs} : (∀ i, t = .int i → Known i) → (∀ s ∈ vs, s.ty = t ∧ s.Clean fl) → Clean fl (.arr t vs)
  | map {es} : (∀ e ∈ es, KeyClean e.1) → (∀ e ∈ es, Clean fl e.2) → (es.map Prod.fst).Nodup → Clean fl (.map es)

end Verif.Yaml
