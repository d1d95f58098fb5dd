/-!
# YAML text of property maps — model of core/include/gnuradio-4.0/YamlPmt.hpp

`serialize` writes a map with type tags, `deserialize` reads a text. A `Char` stands for one byte; character classes are those of the C locale
(the code calls `isspace` and `isprint` with a plain `char` in lines 92-93 and 230, which is defined for bytes below 128 only).

Floating point numbers are of any type `F`; how one is printed and read (`operator<<`, `std::from_chars`) is a parameter, `Floats F`.

Outcomes of the parser are a value with the new position, an error with the position it is reported at, `ub` (a read outside the lines, or a
failed assertion), and `fuel`, which the proofs exclude. Simplifications: the text of an error message is an enumeration; an indentation fits
an `int`; the recursion is not limited by a stack; `Tensor` is a list (its shape is not written to the text); a key is the whole string (the code
iterates keys as C strings).
-/
namespace Verif.Yaml

abbrev Line := List Char

/-! ## characters -/

/-- `std::isspace` -/
def isSpace (c : Char) : Bool :=
  c == ' ' || c == '\t' || c == '\n' || c == '\r' || c.toNat == 11 || c.toNat == 12

/-- `std::iscntrl` -/
def isCntrl (c : Char) : Bool := decide (c.toNat < 32) || c.toNat == 127

/-- `std::isprint` -/
def isPrint (c : Char) : Bool := decide (32 ≤ c.toNat) && decide (c.toNat ≤ 126)

/-- value of a digit up to base 16, as `std::from_chars` -/
def digitOf (c : Char) : Option Nat :=
  let n := c.toNat
  if 48 ≤ n ∧ n ≤ 57 then some (n - 48)
  else if 97 ≤ n ∧ n ≤ 102 then some (n - 87)
  else if 65 ≤ n ∧ n ≤ 70 then some (n - 55)
  else none

/-- the digit of the number `n < 16`, as `std::format("{:x}")` -/
def digitChar (n : Nat) : Char := if n < 10 then Char.ofNat (48 + n) else Char.ofNat (87 + n)

/-! ## values -/

/-- integral types -/
structure IntTy where
  bits : Nat
  signed : Bool
deriving DecidableEq, Repr

/-- the values of an integral type -/
def IntTy.holds (t : IntTy) (v : Int) : Bool :=
  if t.signed then decide (-(2 ^ (t.bits - 1) : Int) ≤ v) && decide (v < (2 ^ (t.bits - 1) : Int))
  else decide (0 ≤ v) && decide (v < (2 ^ t.bits : Int))

/-- types of the scalars a typed tensor can have; `true` is the wider of the two -/
inductive Ty where
  | bool
  | int (t : IntTy)
  | flt (wide : Bool)
  | cplx (wide : Bool)
deriving DecidableEq, Repr

/-- scalars other than strings -/
inductive Sca (F : Type) where
  | bool (b : Bool)
  | int (t : IntTy) (v : Int)
  | flt (wide : Bool) (x : F)
  | cplx (wide : Bool) (re im : F)
deriving DecidableEq, Repr

/-- type of a scalar -/
def Sca.ty {F : Type} : Sca F → Ty
  | .bool _ => .bool
  | .int t _ => .int t
  | .flt w _ => .flt w
  | .cplx w _ _ => .cplx w

/-- what a `pmt::Value` holds: `list` is `Tensor<Value>`, `arr` a `Tensor<T>`, `strs` a `Tensor<std::pmr::string>` -/
inductive Val (F : Type) where
  | null
  | sca (s : Sca F)
  | str (s : List Char)
  | list (vs : List (Val F))
  | arr (t : Ty) (vs : List (Sca F))
  | strs (vs : List (List Char))
  | map (es : List (List Char × Val F))
deriving Repr

/-- printing and reading of floating point numbers: `operator<<`, `std::from_chars` with its whole argument consumed, `isnan`, `isinf`, `< 0`,
`quiet_NaN()`, `infinity()` -/
structure Floats (F : Type) where
  print : Bool → F → List Char
  read : Bool → List Char → Option F
  isNan : F → Bool
  isInf : F → Bool
  neg : F → Bool
  nan : F
  inf : Bool → F

variable {F : Type}

/-! ## writing -/

/-- `escapeString(str, true)` for one character — YamlPmt.hpp:56-79 -/
def escChar (c : Char) : List Char :=
  if c = '"' then ['\\', '"']
  else if c = '\n' then ['\\', 'n']
  else if c = '\\' then ['\\', '\\']
  else if c = '\t' then ['\\', 't']
  else if c = '\r' then ['\\', 'r']
  else if c.toNat = 8 then ['\\', 'b']
  else if isCntrl c then ['\\', 'x', digitChar (c.toNat / 16), digitChar (c.toNat % 16)]
  else [c]

/-- `escapeString(str, true)` — YamlPmt.hpp:56-79 -/
def escape (s : List Char) : List Char := s.flatMap escChar

/-- `escapeString(str, false)` for one character — YamlPmt.hpp:56-79 -/
def escPlain (c : Char) : List Char :=
  if c.toNat = 8 then ['\\', 'b']
  else if isCntrl c && c != '\n' then ['\\', 'x', digitChar (c.toNat / 16), digitChar (c.toNat % 16)]
  else [c]

/-- `indent(os, level)` — YamlPmt.hpp:106 -/
def spaces (n : Nat) : List Char := List.replicate n ' '

/-- `split(str, "\n")`, and the lines `std::getline` delivers; `cur` is the part of the line already read — YamlPmt.hpp:372-386, 123 -/
def splitGo (sep : Char) : List Char → List Char → List Line
  | [], [] => []
  | cur, [] => [cur]
  | cur, c :: s => if c = sep then cur :: splitGo sep [] s else splitGo sep (cur ++ [c]) s

/-- `split` — YamlPmt.hpp:372-386 -/
def splitLines (s : List Char) : List Line := splitGo '\n' [] s

/-- decimal digits of a number -/
def natDigits (n : Nat) : List Char :=
  if n < 10 then [digitChar n] else natDigits (n / 10) ++ [digitChar (n % 10)]

/-- `os << value` of an integer — YamlPmt.hpp:193-199 -/
def intText (v : Int) : List Char :=
  match v with
  | .ofNat n => natDigits n
  | .negSucc n => '-' :: natDigits (n + 1)

/-- `tag_for_type` — YamlPmt.hpp:142-177 -/
def IntTy.tag (t : IntTy) : List Char :=
  (if t.signed then "!!int" else "!!uint").toList ++ natDigits t.bits

/-- `tag_for_type` — YamlPmt.hpp:142-177 -/
def Ty.tag : Ty → List Char
  | .bool => "!!bool".toList
  | .int t => t.tag
  | .flt w => if w then "!!float64".toList else "!!float32".toList
  | .cplx w => if w then "!!complex64".toList else "!!complex32".toList

/-- `serialize` of a scalar, without tag and without the newline — YamlPmt.hpp:191-211 -/
def Sca.text (fl : Floats F) : Sca F → List Char
  | .bool b => if b then "true".toList else "false".toList
  | .int _ v => intText v
  | .flt w x =>
    if fl.isNan x then ".nan".toList
    else if fl.isInf x then (if fl.neg x then "-.inf".toList else ".inf".toList)
    else fl.print w x
  | .cplx w re im => "(".toList ++ fl.print w re ++ ",".toList ++ fl.print w im ++ ")".toList

/-- whether a string is written over several lines — YamlPmt.hpp:213-214 -/
def isMulti (s : List Char) : Bool := s.contains '\n' && s.all (fun c => isPrint c || c == '\n')

/-- `serializeString` with type tags; `k` is `level + 1` — YamlPmt.hpp:111-128 -/
def strText (k : Nat) (s : List Char) : List Char :=
  if isMulti s then
    ['|'] ++ (if s.getLast? = some '\n' then [] else ['-']) ++ ['\n']
      ++ (splitLines s).flatMap (fun l => spaces (2 * k) ++ l.flatMap escPlain ++ ['\n'])
  else ['"'] ++ escape s ++ ['"', '\n']

/-- `serializeString` without type tags; `k` is `level + 1` — YamlPmt.hpp:111-140 -/
def bareText (k : Nat) (s : List Char) : List Char :=
  if isMulti s then strText k s
  else if (s.head?.any isSpace || s.getLast?.any isSpace) then ['"'] ++ escape s ++ ['"', '\n']
  else escape s ++ ['\n']

/-- the key of an entry — YamlPmt.hpp:229-234 -/
def keyText (key : List Char) : List Char :=
  if key.contains ':' || !key.all isPrint then ['"'] ++ escape key ++ ['"', ':', ' '] else key ++ [':', ' ']

mutual
/-- `serialize<Auto>`; `k` is `level + 1` — YamlPmt.hpp:179-251 -/
def ser (fl : Floats F) (k : Nat) : Val F → List Char
  | .null => "!!null null\n".toList
  | .sca s => s.ty.tag ++ [' '] ++ s.text fl ++ ['\n']
  | .str s => [' '] ++ strText k s
  | .list vs => if vs.isEmpty then " []\n".toList else ['\n'] ++ serList fl k vs
  | .arr t vs =>
    t.tag ++ if vs.isEmpty then " []\n".toList
      else ['\n'] ++ vs.flatMap (fun s => spaces (2 * k) ++ ['-', ' '] ++ s.text fl ++ ['\n'])
  | .strs vs =>
    if vs.isEmpty then " []\n".toList
    else ['\n'] ++ vs.flatMap (fun s => spaces (2 * k) ++ ['-', ' '] ++ bareText (k + 1) s)
  | .map es => if es.isEmpty then " {}\n".toList else ['\n'] ++ serMap fl k es
/-- the loop over the items — YamlPmt.hpp:244-249 -/
def serList (fl : Floats F) (k : Nat) : List (Val F) → List Char
  | [] => []
  | v :: vs => spaces (2 * k) ++ ['-', ' '] ++ ser fl (k + 1) v ++ serList fl k vs
/-- the loop over the entries — YamlPmt.hpp:223-236 -/
def serMap (fl : Floats F) (k : Nat) : List (List Char × Val F) → List Char
  | [] => []
  | (key, v) :: es => spaces (2 * k) ++ keyText key ++ ser fl (k + 1) v ++ serMap fl k es
end

/-- `serialize<Auto>(map)` — YamlPmt.hpp:1238-1247 -/
def serialize (fl : Floats F) (es : List (List Char × Val F)) : List Char :=
  if es.isEmpty then [] else ser fl 0 (.map es)

/-! ## position in the text -/

/-- `ParseContext`: the current line and those after it, and the column — YamlPmt.hpp:260-263. `lineIdx == lines.size()` is `lines = []`. -/
structure Ctx where
  lines : List Line
  col : Nat
deriving DecidableEq, Repr

/-- kinds of errors -/
inductive Err where
  | invalidBool | invalidInt | invalidFloat | invalidComplex | unicode
  | unsupportedType | unterminated | afterIndicator | afterScalar | listInMap | noColon
  | endOfDocument | flowIndent | twoTags | expectedComma | documents | tagForMap | tagForLists | expectedItem
deriving DecidableEq, Repr

/-- outcome of a parser: a value and the new position; an error, the position of the parser and the column reported; undefined behaviour -/
inductive Res (α : Type) where
  | ok (a : α) (c : Ctx)
  | err (e : Err) (c : Ctx) (col : Nat)
  | ub
  | fuel
deriving Repr

/-- continue with the value and the position -/
def Res.bind {α β : Type} (r : Res α) (f : α → Ctx → Res β) : Res β :=
  match r with
  | .ok a c => f a c
  | .err e c n => .err e c n
  | .ub => .ub
  | .fuel => .fuel

/-- `makeError(message)` — YamlPmt.hpp:363 -/
def fail {α : Type} (e : Err) (c : Ctx) : Res α := .err e c c.col

/-- `currentLine` — YamlPmt.hpp:265 -/
def Ctx.cur (c : Ctx) : Line := c.lines.headD []

/-- `atEndOfDocument` — YamlPmt.hpp:359 -/
def Ctx.eod (c : Ctx) : Bool := c.lines.isEmpty

/-- `atEndOfLine` — YamlPmt.hpp:357 -/
def Ctx.eol (c : Ctx) : Bool := c.eod || c.col == c.cur.length

/-- `remainingLine` — YamlPmt.hpp:355 -/
def Ctx.rem (c : Ctx) : Line := if c.eol then [] else c.cur.drop c.col

/-- `startsWith` — YamlPmt.hpp:269-291 -/
def Ctx.startsWith (c : Ctx) (p : List Char) : Bool := !c.eol && p.isPrefixOf (c.cur.drop c.col)

/-- `startsWithToken` for a single character — YamlPmt.hpp:276-284 -/
def Ctx.startsWithToken (c : Ctx) (p : Char) : Bool :=
  !c.eol && (match c.cur[c.col + 1]? with
    | some d => isSpace d
    | none => true) && [p].isPrefixOf (c.cur.drop c.col)

/-- `skipToNextLine` — YamlPmt.hpp:323-328 -/
def Ctx.next (c : Ctx) : Ctx := match c.lines with
  | [] => c
  | _ :: ls => ⟨ls, 0⟩

/-- `consume(n)` — YamlPmt.hpp:330-333. Its assertion reads `lines[lineIdx]`; `dbg` says whether assertions are compiled in. -/
def consume (dbg : Bool) (n : Nat) (c : Ctx) : Res Unit :=
  match c.lines with
  | [] => if dbg || n != 0 then .ub else .ok () c
  | l :: _ => if c.col + n ≤ l.length then .ok () ⟨c.lines, c.col + n⟩ else .ub

/-- `consumeIfStartsWith` — YamlPmt.hpp:293-307 -/
def consumeIf (dbg : Bool) (p : List Char) (c : Ctx) : Res Bool :=
  if c.startsWith p then (consume dbg p.length c).bind fun _ c => .ok true c else .ok false c

/-- number of leading spaces -/
def lead (l : Line) : Nat := (l.takeWhile (· == ' ')).length

/-- `consumeSpaces` — YamlPmt.hpp:335-345 -/
def Ctx.spaces (c : Ctx) : Ctx := if c.eol then c else ⟨c.lines, c.col + lead (c.cur.drop c.col)⟩

/-- `consumeWhitespaceAndComments` — YamlPmt.hpp:347-353 -/
def skipWs : List Line → Nat → Ctx
  | [], col => ⟨[], col⟩
  | l :: ls, col =>
    let col' := col + lead (l.drop col)
    match l.drop col' with
    | [] => skipWs ls 0
    | ch :: _ => if ch = '#' then skipWs ls 0 else ⟨l :: ls, col'⟩

/-- `consumeWhitespaceAndComments` — YamlPmt.hpp:347-353 -/
def Ctx.ws (c : Ctx) : Ctx := skipWs c.lines c.col

/-- `line.find_first_not_of(chars)`; `none` is `npos` -/
def indentOf (chars : List Char) (l : Line) : Option Nat := l.findIdx? (fun ch => !chars.contains ch)

/-- `currentIndent(indentChars)` — YamlPmt.hpp:361; reads `lines[lineIdx]` -/
def currentIndent (chars : List Char) (c : Ctx) : Res (Option Nat) :=
  match c.lines with
  | [] => .ub
  | l :: _ => .ok (indentOf chars l) c

/-- `indent <= level` of an unsigned number that can be `npos` with a level that can be -1 (`none`) -/
def notDeeper (ind : Option Nat) (level : Option Nat) : Bool :=
  match level, ind with
  | some n, some i => decide (i ≤ n)
  | _, _ => false

/-- `isIgnorableLine` — YamlPmt.hpp:81-89 -/
def ignorable (l : Line) : Bool :=
  match l.dropWhile (fun c => isSpace c || isCntrl c) with
  | [] => true
  | c :: _ => c == '#'

/-- `trim` — YamlPmt.hpp:91-95 -/
def trim (s : List Char) : List Char := ((s.dropWhile isSpace).reverse.dropWhile isSpace).reverse

/-- `stripComment` — YamlPmt.hpp:97-102 -/
def stripComment (s : List Char) : List Char := s.takeWhile (· != '#')

/-! ## scalars -/

/-- tags of `isKnownTag` — YamlPmt.hpp:613 -/
inductive Tag where
  | null
  | sca (t : Ty)
  | str
deriving DecidableEq, Repr

/-- the integral types of the tags -/
def intTys : List IntTy :=
  [⟨8, true⟩, ⟨16, true⟩, ⟨32, true⟩, ⟨64, true⟩, ⟨8, false⟩, ⟨16, false⟩, ⟨32, false⟩, ⟨64, false⟩]

/-- The reader's own table of tags: `isKnownTag`, and the chain of `applyTag` — YamlPmt.hpp:388-421, 613 -/
def readerTags : List (String × Tag) :=
  [("!!null", .null), ("!!bool", .sca .bool),
   ("!!int8", .sca (.int ⟨8, true⟩)), ("!!int16", .sca (.int ⟨16, true⟩)), ("!!int32", .sca (.int ⟨32, true⟩)), ("!!int64", .sca (.int ⟨64, true⟩)),
   ("!!uint8", .sca (.int ⟨8, false⟩)), ("!!uint16", .sca (.int ⟨16, false⟩)), ("!!uint32", .sca (.int ⟨32, false⟩)), ("!!uint64", .sca (.int ⟨64, false⟩)),
   ("!!float32", .sca (.flt false)), ("!!float64", .sca (.flt true)), ("!!complex32", .sca (.cplx false)), ("!!complex64", .sca (.cplx true)),
   ("!!str", .str)]

/-- The type a tag names for the reader — YamlPmt.hpp:388-421, 613 -/
def tagOf (s : List Char) : Option Tag := (readerTags.find? (fun t => t.1.toList == s)).map (·.2)

/-- `parseTag` — YamlPmt.hpp:615-635 -/
def parseTag (dbg : Bool) (c : Ctx) : Res (Option Tag) :=
  if c.startsWith ['!', '!'] then
    match c.rem.findIdx? (· == ' ') with
    | some i => match tagOf (c.rem.take i) with
      | none => fail .unsupportedType c
      | some t => (consume dbg (i + 1) c).bind fun _ c => .ok (some t) c
    | none => match tagOf c.rem with
      | none => fail .unsupportedType c
      | some t => (consume dbg c.rem.length c).bind fun _ c => .ok (some t) c
  else .ok none c

/-- `parseBytesFromHex` of two characters: `from_chars` need not read both — YamlPmt.hpp:423-439 -/
def hexByte (a b : Char) : Option Char :=
  match digitOf a, digitOf b with
  | none, _ => none
  | some x, none => some (Char.ofNat x)
  | some x, some y => some (Char.ofNat (16 * x + y))

/-- `resolveYamlEscapes_quoted`; `.error i` is the error at offset `i` — YamlPmt.hpp:483-526 -/
def resolve : Nat → List Char → Except Nat (List Char)
  | _, [] => .ok []
  | i, '\\' :: ch :: s =>
    match ch with
    | '\\' => (resolve (i + 2) s).map ('\\' :: ·)
    | 'b' => (resolve (i + 2) s).map (Char.ofNat 8 :: ·)
    | 'n' => (resolve (i + 2) s).map ('\n' :: ·)
    | 't' => (resolve (i + 2) s).map ('\t' :: ·)
    | 'r' => (resolve (i + 2) s).map ('\r' :: ·)
    | '"' => (resolve (i + 2) s).map ('"' :: ·)
    | '0' => (resolve (i + 2) s).map (Char.ofNat 0 :: ·)
    | 'x' => match s with
      | a :: b :: s' => match hexByte a b with
        | some d => (resolve (i + 4) s').map (d :: ·)
        | none => (resolve (i + 2) (a :: b :: s')).map (['\\', 'x'] ++ ·)
      | s' => (resolve (i + 2) s').map (['\\', 'x'] ++ ·)
    | 'u' => .error (i + 1)
    | ch => (resolve (i + 2) s).map (['\\', ch] ++ ·)
  | i, ch :: s => (resolve (i + 1) s).map (ch :: ·)

/-- `resolveYamlEscapes_multiline` — YamlPmt.hpp:441-481 -/
def resolveMulti : Nat → List Char → Except Nat (List Char)
  | _, [] => .ok []
  | i, '\\' :: ch :: s =>
    match ch with
    | '0' => (resolveMulti (i + 2) s).map (Char.ofNat 0 :: ·)
    | 'x' => match s with
      | a :: b :: s' => match hexByte a b with
        | some d => (resolveMulti (i + 4) s').map (d :: ·)
        | none => (resolveMulti (i + 2) (a :: b :: s')).map (['\\', 'x'] ++ ·)
      | s' => (resolveMulti (i + 2) s').map (['\\', 'x'] ++ ·)
    | 'u' => .error (i + 1)
    | ch => (resolveMulti (i + 2) s).map (['\\', ch] ++ ·)
  | i, ch :: s => (resolveMulti (i + 1) s).map (ch :: ·)

/-- the digits of `std::from_chars` in base `b`: the value so far and whether there was one -/
def readDigits (b : Nat) : Nat → Bool → List Char → Option Nat
  | n, any, [] => if any then some n else none
  | n, _, c :: s => match digitOf c with
    | none => none
    | some d => if d < b then readDigits b (b * n + d) true s else none

/-- `std::from_chars` of an integral type with the whole argument consumed, and in range — YamlPmt.hpp:560-567 -/
def readInt (t : IntTy) (b : Nat) (s : List Char) : Option Int :=
  let v := match s with
    | '-' :: s' => if t.signed then (readDigits b 0 false s').map (fun n => -(n : Int)) else none
    | s => (readDigits b 0 false s).map (fun n => (n : Int))
  v.filter (fun v => t.holds v)

/-- `parseAs` of an integral type — YamlPmt.hpp:558-576 -/
def parseInt (t : IntTy) (s : List Char) : Option Int :=
  let s := trim s
  match s with
  | '0' :: 'x' :: s' => readInt t 16 s'
  | '0' :: 'o' :: s' => readInt t 8 s'
  | '0' :: 'b' :: s' => readInt t 2 s'
  | s => readInt t 10 s

/-- `sv == "true" || sv == "True" || sv == "TRUE"` and the same for false — YamlPmt.hpp:532-540, 722-728 -/
def readBool (s : List Char) : Option Bool :=
  if s = "true".toList || s = "True".toList || s = "TRUE".toList then some true
  else if s = "false".toList || s = "False".toList || s = "FALSE".toList then some false
  else none

/-- `parseAs` of a floating point type — YamlPmt.hpp:541-557 -/
def parseFloat (fl : Floats F) (w : Bool) (s : List Char) : Option F :=
  let s := trim (stripComment s)
  if s = ".inf".toList || s = ".Inf".toList || s = ".INF".toList then some (fl.inf false)
  else if s = "-.inf".toList || s = "-.Inf".toList || s = "-.INF".toList then some (fl.inf true)
  else if s = ".nan".toList || s = ".NaN".toList || s = ".NAN".toList then some fl.nan
  else fl.read w s

/-- `parseAs` of a complex type — YamlPmt.hpp:577-595 -/
def parseComplex (fl : Floats F) (w : Bool) (s : List Char) : Except Err (F × F) :=
  let s := trim (stripComment s)
  if s.head? = some '(' && s.getLast? = some ')' then
    match splitGo ',' [] (s.drop 1).dropLast with
    | [a, b] => match parseFloat fl w (trim a) with
      | none => .error .invalidFloat
      | some re => match parseFloat fl w (trim b) with
        | none => .error .invalidFloat
        | some im => .ok (re, im)
    | _ => .error .invalidComplex
  else .error .invalidComplex

/-- `parseAs` of the types a typed tensor can have, all errors at offset 0 — YamlPmt.hpp:528-595 -/
def parseSca (fl : Floats F) (t : Ty) (s : List Char) : Except Err (Sca F) :=
  match t with
  | .bool => match readBool (trim (stripComment s)) with
    | some b => .ok (.bool b)
    | none => .error .invalidBool
  | .int t => match parseInt t s with
    | some v => .ok (.int t v)
    | none => .error .invalidInt
  | .flt w => match parseFloat fl w s with
    | some x => .ok (.flt w x)
    | none => .error .invalidFloat
  | .cplx w => (parseComplex fl w s).map fun p => .cplx w p.1 p.2

/-- `resolve`, the result as a string value; an error has kind and offset -/
def strValue (s : List Char) : Except (Err × Nat) (Val F) :=
  match resolve 0 s with
  | .ok r => .ok (.str r)
  | .error i => .error (.unicode, i)

/-- the functions of `parsePlainScalar`: what a part of a line stands for — YamlPmt.hpp:701-745 -/
def scalarOf (fl : Floats F) (tag : Option Tag) (quoted : Bool) (s : List Char) : Except (Err × Nat) (Val F) :=
  match tag with
  | some .null => .ok .null
  | some (.sca t) => match parseSca fl t s with
    | .ok v => .ok (.sca v)
    | .error e => .error (e, 0)
  | some .str => strValue (if quoted then s else trim (stripComment s))
  | none =>
    if quoted then strValue s
    else
      let s := trim (stripComment s)
      if s = [] || s = "null".toList || s = "Null".toList || s = "NULL".toList || s = "~".toList then .ok .null
      else match readBool s with
      | some b => .ok (.sca (.bool b))
      | none => match parseInt ⟨64, true⟩ s with
        | some v => .ok (.sca (.int ⟨64, true⟩ v))
        | none => match parseFloat fl true s with
          | some x => .ok (.sca (.flt true x))
          | none => strValue s

/-- `findClosingQuote`: index of the quote after the first character; `esc` is `inEscape` — YamlPmt.hpp:640-656 -/
def closing (q : Char) : Bool → Nat → List Char → Option Nat
  | _, _, [] => none
  | true, i, _ :: s => closing q false (i + 1) s
  | false, i, c :: s => if c = '\\' then closing q true (i + 1) s else if c = q then some i else closing q false (i + 1) s

/-- `findString`: offset and length, `none` for an unterminated quote — YamlPmt.hpp:658-683 -/
def findString (delims : List Char) (s : List Char) : Option (Nat × Nat) :=
  match s with
  | [] => some (0, 0)
  | q :: r =>
    if q = '"' || q = '\'' then (closing q false 1 r).map fun i => (1, i - 1)
    else match s.findIdx? (fun c => delims.contains c) with
      | some i => some (0, i)
      | none => match s.findIdx? (· == '#') with
        | some i => some (0, i)
        | none => some (0, s.length)

/-- `parsePlainScalar` with `parseNextString` — YamlPmt.hpp:685-745 -/
def parsePlain (fl : Floats F) (dbg : Bool) (tag : Option Tag) (delims : List Char) (c : Ctx) : Res (Val F) :=
  match findString delims c.rem with
  | none => fail .unterminated c
  | some (off, len) =>
    (consume dbg off c).bind fun _ c =>
      match scalarOf fl tag (off != 0) (c.rem.take len) with
      | .error (e, i) => .err e c (c.col + i)
      | .ok v => (consume dbg (off + len) c).bind fun _ c => .ok v c

/-- the loop over the lines of a multi-line string; `acc` is what was written to `oss` — YamlPmt.hpp:776-804 -/
def multiLoop (fold : Bool) (ind : Nat) : List Line → Bool → List Char → Res (List Char)
  | [], _, acc => .ok acc ⟨[], 0⟩
  | l :: ls, first, acc => match indentOf [' '] l with
    | none => multiLoop fold ind ls first (acc ++ ['\n'])
    | some k =>
      if k < ind then .ok acc ⟨l :: ls, 0⟩
      else match resolveMulti 0 (l.drop ind) with
        | .error i => .err .unicode ⟨l :: ls, ind⟩ (ind + i)
        | .ok s =>
          let acc := if fold && !first then acc ++ [' '] else acc
          multiLoop fold ind ls false (acc ++ s ++ if fold then [] else ['\n'])

/-- remove the characters at the end for which `p` holds -/
def dropEnd (p : Char → Bool) (s : List Char) : List Char := (s.reverse.dropWhile p).reverse

/-- end of a multi-line string — YamlPmt.hpp:806-821; `keep` is `trailingNewline` -/
def chomp (fold keep : Bool) (s : List Char) : List Char :=
  if fold then (if keep then s ++ ['\n'] else dropEnd isSpace s)
  else if keep then s else dropEnd (· == '\n') s

/-- `parseScalar` — YamlPmt.hpp:747-844 -/
def parseScalar (fl : Floats F) (dbg : Bool) (tag : Option Tag) (level : Nat) (c0 : Ctx) : Res (Val F) :=
  let c := c0.ws
  if c.eod then .ok .null c
  else (currentIndent [' '] c).bind fun ind c =>
    if decide (c.lines.length < c0.lines.length) && notDeeper ind (some level) then .ok .null c
    else if (tag = some .str || tag = none) && (c.startsWith ['|'] || c.startsWith ['>']) then
      let fold := c.startsWith ['>']
      (consume dbg 1 c).bind fun _ c =>
      (consumeIf dbg ['-'] c).bind fun dash c =>
        let c := c.spaces
        match findString [] c.rem with
        | none => fail .afterIndicator c
        | some (_, len) =>
          if 0 < len then fail .afterIndicator c
          else (multiLoop fold (level + 2) c.next.lines true []).bind fun s c => .ok (.str (chomp fold (!dash) s)) c.spaces
    else (parsePlain fl dbg tag [] c).bind fun v c =>
      let c := c.spaces
      if c.eol then .ok v c.next
      else match findString [] c.rem with
        | none => fail .afterScalar c
        | some (off, len) => if 0 < off || 0 < len then fail .afterScalar c else .ok v c.next

/-! ## keys -/

/-- a colon before `s` ends a key: the line ends, or white space follows — YamlPmt.hpp:880 -/
def endsKey : List Char → Bool
  | [] => true
  | d :: _ => isSpace d

/-- a comment starts before position `p` — YamlPmt.hpp:887-888 -/
def hashBefore (s : List Char) (p : Nat) : Bool := match s.findIdx? (· == '#') with
  | some h => decide (h < p)
  | none => false

/-- position of the first colon at the end of the line or before white space — YamlPmt.hpp:874-885; `i` is the index -/
def colonPos : Nat → List Char → Option Nat
  | _, [] => none
  | i, c :: s =>
    if c = ':' && endsKey s then some i
    else colonPos (i + 1) s

/-- `parseKey` — YamlPmt.hpp:848-896 -/
def parseKey (dbg : Bool) (delims : List Char) (c0 : Ctx) : Res (List Char) :=
  let c := c0.spaces
  if c.startsWith ['-'] then fail .listInMap c
  else match findString delims c.rem with
    | none => fail .unterminated c
    | some (off, len) =>
      if 0 < off then
        match resolve 0 ((c.rem.drop off).take len) with
        | .error i => .err .unicode c (c.col + i)
        | .ok key => (consume dbg (2 * off + len) c).bind fun _ c =>
            let c := c.spaces
            if c.startsWithToken ':' then (consume dbg 1 c).bind fun _ c => .ok key c
            else fail .noColon c
      else match colonPos 0 c.rem with
        | none => fail .noColon c
        | some p =>
          if hashBefore c.rem p then fail .noColon c
          else
            let key := c.rem.take p
            (consume dbg (p + 1) c).bind fun _ c => .ok (trim key) c

/-- `ValueType` — YamlPmt.hpp:846 -/
inductive VT where
  | list | map | scalar
deriving DecidableEq, Repr

/-- `peekToFindValueType`; the position is not changed — YamlPmt.hpp:898-920 -/
def peek (dbg : Bool) (level : Nat) (c0 : Ctx) : Res VT :=
  let c := c0.ws
  if c.eod then .ok .scalar c0
  else (currentIndent [' '] c).bind fun ind c =>
    if decide (c.lines.length < c0.lines.length) && notDeeper ind (some level) then .ok .scalar c0
    else if c.startsWith ['['] || c.startsWith ['-', ' '] || c.rem = ['-'] then .ok .list c0
    else if c.startsWith ['{'] then .ok .map c0
    else match parseKey dbg [] c with
      | .ok _ _ => .ok .map c0
      | .err _ _ _ => .ok .scalar c0
      | .ub => .ub
      | .fuel => .fuel

/-! ## lists and maps -/

/-- `ConvertList` — YamlPmt.hpp:922-936 -/
def convertList (tag : Option Tag) (vs : List (Val F)) : Val F :=
  match tag with
  | none => .list vs
  | some .null => .null
  | some .str => .list (vs.map fun v => match v with
      | .str s => .str s
      | _ => .str [])
  | some (.sca t) => .arr t (vs.filterMap fun v => match v with
      | .sca s => if s.ty = t then some s else none
      | _ => none)

/-- `insert_or_assign` -/
def upsert (key : List Char) (v : Val F) : List (List Char × Val F) → List (List Char × Val F)
  | [] => [(key, v)]
  | (k, w) :: es => if k = key then (k, v) :: es else (k, w) :: upsert key v es

/-- `parseElementValue`; `nested` is the call of `parseFlow` for an inner list or map — YamlPmt.hpp:966-990 -/
def element (fl : Floats F) (dbg isMap : Bool) (tag : Option Tag) (nested : Bool → Option Tag → Ctx → Res (Val F)) (c : Ctx) :
    Res (Val F) :=
  (parseTag dbg c).bind fun own c =>
    if tag.isSome && own.isSome then fail .twoTags c
    else
      let local_ := own.orElse fun _ => tag
      let c := c.ws
      (consumeIf dbg ['['] c).bind fun sq c =>
        if sq then nested false local_ c
        else (consumeIf dbg ['{'] c).bind fun cu c =>
          if cu then nested true local_ c
          else parsePlain fl dbg local_ (if isMap then [',', '}'] else [',', ']']) c

/-- `parseFlow`; `n0` counts the lines from the one it started at — YamlPmt.hpp:939-1033. The results collected so far are `vs` or `es`. -/
def flow (fl : Floats F) (dbg : Bool) (parent : Option Nat) :
    Nat → Bool → Option Tag → Nat → List (Val F) → List (List Char × Val F) → Ctx → Res (Val F)
  | 0, _, _, _, _, _, _ => .fuel
  | n + 1, isMap, tag, n0, vs, es, c0 =>
    let close : List Char := if isMap then ['}'] else [']']
    let done : Val F := if isMap then .map es else convertList tag vs
    if c0.eod then .ok done c0
    else
      let c := c0.ws
      if c.eod then fail .endOfDocument c
      else (consumeIf dbg close c).bind fun closed c =>
        if closed then .ok done c
        else (currentIndent [' '] c).bind fun ind c =>
          if decide (c.lines.length < n0) && notDeeper ind parent then fail .flowIndent c
          else
            let inner := fun m t c => flow fl dbg parent n m t c.lines.length [] [] c
            let entry : Res (List (Val F) × List (List Char × Val F)) :=
              if isMap then
                (parseKey dbg [','] c).bind fun key c =>
                (element fl dbg isMap tag inner c.ws).bind fun v c => .ok (vs, upsert key v es) c
              else (element fl dbg isMap tag inner c).bind fun v c => .ok (vs ++ [v], es) c
            entry.bind fun acc c =>
              let c := c.ws
              (consumeIf dbg [','] c).bind fun comma c =>
                if comma then flow fl dbg parent n isMap tag n0 acc.1 acc.2 c
                else (consumeIf dbg close c).bind fun closed c =>
                  if closed then .ok (if isMap then .map acc.2 else convertList tag acc.1) c
                  else fail .expectedComma c

/-- the first lines of `parseMap` and `parseList` around the loops: a flow style value if the text starts with `open_`, and then the rest of the line
is skipped — YamlPmt.hpp:1036-1053, 1136-1141 -/
def flowOr (fl : Floats F) (dbg : Bool) (n : Nat) (isMap : Bool) (tag : Option Tag) (parent : Option Nat) (loop : Ctx → Res (Val F)) (c : Ctx) :
    Res (Val F) :=
  (consumeIf dbg (if isMap then ['{'] else ['[']) c.ws).bind fun open_ c =>
    if open_ then (flow fl dbg parent n isMap tag c.lines.length [] [] c).bind fun v c => .ok v c.next
    else loop c

mutual
/-- the loop of `parseMap`; `first` is `firstLine` — YamlPmt.hpp:1055-1133 -/
def mapLoop (fl : Floats F) (dbg : Bool) (parent : Option Nat) : Nat → Bool → List (List Char × Val F) → Ctx → Res (Val F)
  | 0, _, _, _ => .fuel
  | n + 1, first, es, c0 =>
    if c0.eod then .ok (.map es) c0
    else if c0.startsWith ['-', '-', '-'] then fail .documents c0
    else
      let c := c0.ws
      if c.eod then .ok (.map es) c
      else if ignorable c.cur then mapLoop fl dbg parent n first es c.next
      else (currentIndent (if first then [' ', '-'] else [' ']) c).bind fun ind c =>
        match ind with
        | none => mapLoop fl dbg parent n first es c.next
        | some ind =>
          if notDeeper (some ind) parent then .ok (.map es) c
          else (parseKey dbg [] c).bind fun key c =>
            let cTag := c.spaces
            (parseTag dbg cTag).bind fun tag c =>
              let c := c.spaces
              (peek dbg ind c).bind fun vt c =>
                let value : Res (Val F) := match vt with
                  | .list => flowOr fl dbg n false tag (some ind) (fun c => listLoop fl dbg (some ind) tag n [] c) c
                  | .map =>
                    if tag.isSome then .err .tagForMap c cTag.col
                    else flowOr fl dbg n true none (some ind) (fun c => mapLoop fl dbg (some ind) n true [] c) c
                  | .scalar => parseScalar fl dbg tag ind c
                value.bind fun v c => mapLoop fl dbg parent n false (upsert key v es) c
/-- the loop of `parseList` — YamlPmt.hpp:1146-1234 -/
def listLoop (fl : Floats F) (dbg : Bool) (parent : Option Nat) (tag : Option Tag) : Nat → List (Val F) → Ctx → Res (Val F)
  | 0, _, _ => .fuel
  | n + 1, vs, c0 =>
    if c0.eod then .ok (convertList tag vs) c0
    else
      let c := c0.ws
      if c.eod then .ok (convertList tag vs) c
      else if ignorable c.cur then listLoop fl dbg parent tag n vs c.next
      else (currentIndent [' '] c).bind fun ind c =>
        match ind with
        | none => listLoop fl dbg parent tag n vs c.next
        | some ind =>
          if notDeeper (some ind) parent then .ok (convertList tag vs) c
          else (consumeIf dbg ['-'] c).bind fun dash c =>
            if !dash then fail .expectedItem c
            else
              let cTag := c.spaces
              (parseTag dbg cTag).bind fun own c =>
                if tag.isSome && own.isSome then fail .twoTags c
                else
                  let both := tag.orElse fun _ => own
                  let c := c.spaces
                  (peek dbg ind c).bind fun vt c =>
                    let value : Res (Val F) := match vt with
                      | .list =>
                        if tag.isSome then .err .tagForLists c cTag.col
                        else flowOr fl dbg n false both (some ind) (fun c => listLoop fl dbg (some ind) both n [] c) c
                      | .map =>
                        if own.isSome then .err .tagForMap c cTag.col
                        else flowOr fl dbg n true none (some ind) (fun c => mapLoop fl dbg (some ind) n true [] c) c
                      | .scalar => parseScalar fl dbg both ind c
                    value.bind fun v c => listLoop fl dbg parent tag n (vs ++ [v]) c
end

/-- number of characters and line ends not yet read: bounds the steps of every loop -/
def textSize : List Line → Nat
  | [] => 0
  | l :: ls => l.length + 1 + textSize ls

/-- `deserialize` — YamlPmt.hpp:1249-1255 -/
def deserialize (fl : Floats F) (dbg : Bool) (text : List Char) : Res (Val F) :=
  let lines := splitLines text
  (consumeIf dbg ['-', '-', '-'] (Ctx.mk lines 0).ws).bind fun _ c =>
    let n := textSize lines + 1
    flowOr fl dbg n true none none (fun c => mapLoop fl dbg none n true [] c) c

end Verif.Yaml
