/-!
# Reading position fixes

Model of /repo/blocks/timing/include/gnuradio-4.0/NMEAParser.hpp. A line is the list of its characters,
all of which stand for one byte. Floating point numbers are exact rationals; exponents, `inf` and `nan`
in number fields are left out.
-/
namespace Verif.Nmea

/-- Nanoseconds in a second. -/
def nanos : Nat := 1000000000

/-- `splitNMEAFields`. NMEAParser.hpp:37-50 -/
def splitFields : List Char → List (List Char)
  | [] => [[]]
  | c :: cs =>
    if c = ',' then [] :: splitFields cs
    else
      match splitFields cs with
      | [] => [[c]]
      | f :: fs => (c :: f) :: fs

/-- The value of decimal digits. -/
def digitsValue (ds : List Char) : Nat := ds.foldl (fun a d => a * 10 + (d.toNat - '0'.toNat)) 0

/-- `parseField<int>`: `std::from_chars` reads as many characters as fit, what follows is ignored; the
fallback is 0. NMEAParser.hpp:53-57 -/
def parseInt (s : List Char) : Int :=
  let neg := s.head? == some '-'
  let ds := (if neg then s.drop 1 else s).takeWhile Char.isDigit
  let v : Int := if neg then -(digitsValue ds : Int) else digitsValue ds
  if ds = [] then 0 else if v < -2147483648 ∨ 2147483647 < v then 0 else v

/-- `parseField<float>` and `parseField<double>`: a sign, digits, a point and digits.
NMEAParser.hpp:53-57 -/
def parseDec (s : List Char) : Rat :=
  let neg := s.head? == some '-'
  let s := if neg then s.drop 1 else s
  let ds := s.takeWhile Char.isDigit
  let rest := s.dropWhile Char.isDigit
  let fs := if rest.head? == some '.' then (rest.drop 1).takeWhile Char.isDigit else []
  let v : Rat := (digitsValue (ds ++ fs) : Rat) / (10 ^ fs.length : Nat)
  if ds ++ fs = [] then 0 else if neg then -v else v

/-- `parseNMEACoord`. NMEAParser.hpp:60-77 -/
def parseCoord (coord hemi : List Char) : Rat :=
  -- 61-67
  if coord = [] ∨ '.' ∉ coord ∨ coord.idxOf '.' < 2 then 0
  else
    -- 69-72
    let degDigits := if 4 < coord.idxOf '.' then 3 else 2
    let decimal := (parseInt (coord.take degDigits) : Rat) + parseDec (coord.drop degDigits) / 60
    -- 73-76
    if hemi = ['S'] ∨ hemi = ['W'] then -decimal else decimal

/-- Leap years of `std::chrono`. -/
def isLeap (y : Int) : Bool := (y % 4 == 0 && y % 100 != 0) || y % 400 == 0

/-- The days of the months. -/
def monthLength (y : Int) : Nat → Nat
  | 2 => if isLeap y then 29 else 28
  | 4 | 6 | 9 | 11 => 30
  | _ => 31

/-- The days of the first `m - 1` months. -/
def daysBeforeMonth (y : Int) : Nat → Nat
  | 0 => 0
  | 1 => 0
  | m + 2 => daysBeforeMonth y (m + 1) + monthLength y (m + 1)

/-- The days from 1970-01-01 to the first of January. -/
def daysBeforeYear (y : Int) : Int :=
  365 * (y - 1970) + ((y - 1) / 4 - (y - 1) / 100 + (y - 1) / 400) - (1969 / 4 - 1969 / 100 + 1969 / 400)

/-- `sys_days{ymd}`: a day that the month has not got is counted on into the next ones; for a month that
does not exist, and a day that is not a small number, the value is not specified.
NMEAParser.hpp:102-103 -/
def sysDays (y m d : Int) : Option Int :=
  if m < 1 ∨ 12 < m ∨ d < 0 ∨ 255 < d then none
  else some (daysBeforeYear y + daysBeforeMonth y m.toNat + (d - 1))

/-- `nmeaToUTCNs`; `none` stands for a value that is not specified. NMEAParser.hpp:80-108 -/
def toUtc (time date : List Char) : Option Int :=
  -- 81-83
  if time.length < 6 then some 0
  else
    -- 85-87
    let h := parseInt (time.take 2)
    let m := parseInt ((time.drop 2).take 2)
    let s := parseInt ((time.drop 4).take 2)
    -- 89-92, 106
    let frac : Int := if time[6]? = some '.' then (parseDec (time.drop 6) * nanos).floor else 0
    -- 94-99
    let (day, month, year) : Int × Int × Int :=
      if date.length = 6 then
        (parseInt (date.take 2), parseInt ((date.drop 2).take 2), 2000 + parseInt ((date.drop 4).take 2))
      else (1, 1, 2000)
    -- 102-107
    (sysDays year month day).map fun days => ((days * 24 + h) * 60 + m) * 60 * nanos + s * nanos + frac

/-- `computeNMEAChecksum`. NMEAParser.hpp:112-118 -/
def checksum (payload : List Char) : Nat := payload.foldl (fun cs c => cs ^^^ c.toNat) 0

/-- The value of a hexadecimal digit. -/
def hexDigit (c : Char) : Option Nat :=
  if c.isDigit then some (c.toNat - '0'.toNat)
  else if 'A' ≤ c ∧ c ≤ 'F' then some (c.toNat - 'A'.toNat + 10)
  else if 'a' ≤ c ∧ c ≤ 'f' then some (c.toNat - 'a'.toNat + 10)
  else none

/-- `std::from_chars` of two characters with base 16: one digit is enough. NMEAParser.hpp:133 -/
def parseHex : List Char → Option Nat
  | [] => none
  | c :: cs =>
    match hexDigit c with
    | none => none
    | some a =>
      match cs with
      | [] => some a
      | d :: _ =>
        match hexDigit d with
        | none => some a
        | some b => some (a * 16 + b)

/-- Where the last star of a line is, its length if there is none: `rfind`. NMEAParser.hpp:124, 158 -/
def lastStar (line : List Char) : Option Nat :=
  if '*' ∈ line then some (line.length - 1 - line.reverse.idxOf '*') else none

/-- `validateNMEAChecksum`. NMEAParser.hpp:120-135 -/
def validChecksum (line : List Char) : Bool :=
  -- 121-123
  if line.length < 4 ∨ line.head? ≠ some '$' then false
  else
    match lastStar line with
    -- 125-127
    | none => true
    | some star =>
      -- 128-130
      if star + 3 ≠ line.length then false
      -- 131-134
      else parseHex (line.drop (star + 1)) = some (checksum ((line.drop 1).take (star - 1)))

/-- `FixType`. NMEAParser.hpp:17 -/
inductive FixType where
  | none
  | fix2D
  | fix3D
deriving DecidableEq, Repr

/-- `GpsFix`. NMEAParser.hpp:20-33 -/
structure Fix where
  utc : Option Int := some 0
  localTime : Nat := 0
  latitude : Rat := 0
  longitude : Rat := 0
  altitude : Rat := 0
  satellites : Int := 0
  hdop : Rat := 0
  fixType : FixType := .none
  speed : Rat := 0
  heading : Rat := 0
  hasPosition : Bool := false
  hasTime : Bool := false
deriving DecidableEq

/-- `NMEAParser`. NMEAParser.hpp:141-145 -/
structure Parser where
  pending : Fix := {}
  complete : Fix := {}
  lastSecond : Int := -1
  lastDate : List Char := []
deriving DecidableEq

/-- `extractSentenceId`. NMEAParser.hpp:188-197 -/
def sentenceId (line : List Char) : List Char :=
  if line.length < 6 ∨ line.head? ≠ some '$' then []
  else if ',' ∉ line ∨ line.idxOf ',' < 4 then []
  else (line.drop 3).take (line.idxOf ',' - 3)

/-- Field `i` of a sentence. -/
def field (f : List (List Char)) (i : Nat) : List Char := f.getD i []

/-- `checkPpsBoundary`. NMEAParser.hpp:199-214 -/
def Parser.boundary (p : Parser) (time : List Char) (now : Nat) : Parser × Option Fix :=
  -- 200-202
  if time.length < 6 then (p, none)
  else
    -- 203
    let second := parseInt ((time.drop 4).take 2)
    -- 206-213
    if 0 ≤ p.lastSecond ∧ second ≠ p.lastSecond then
      let fix := { p.pending with localTime := now }
      ({ p with complete := fix, pending := {}, lastSecond := second }, some fix)
    else ({ p with lastSecond := second }, none)

/-- `parseRMC`. NMEAParser.hpp:226-250 -/
def Parser.rmc (p : Parser) (f : List (List Char)) (now : Nat) : Parser × Option Fix :=
  if f.length < 12 then (p, none)
  else
    -- 231
    let (p, fix) := p.boundary (field f 1) now
    -- 233-235
    let p := if (field f 9).length = 6 then { p with lastDate := field f 9 } else p
    -- 237-248
    let pending : Fix :=
      if field f 2 = ['A'] then
        { p.pending with
          utc := toUtc (field f 1) (field f 9)
          latitude := parseCoord (field f 3) (field f 4)
          longitude := parseCoord (field f 5) (field f 6)
          speed := parseDec (field f 7) * (1852 / 1000)
          heading := parseDec (field f 8)
          hasPosition := true
          hasTime := true }
      else
        { p.pending with utc := toUtc (field f 1) p.lastDate, hasTime := field f 1 ≠ [] }
    ({ p with pending := pending }, fix)

/-- `parseGGA`. NMEAParser.hpp:264-285 -/
def Parser.gga (p : Parser) (f : List (List Char)) (now : Nat) : Parser × Option Fix :=
  if f.length < 15 then (p, none)
  else
    -- 269
    let (p, fix) := p.boundary (field f 1) now
    -- 271-279
    let pending : Fix :=
      if 0 < parseInt (field f 6) then
        { p.pending with
          latitude := parseCoord (field f 2) (field f 3)
          longitude := parseCoord (field f 4) (field f 5)
          satellites := parseInt (field f 7)
          hdop := parseDec (field f 8)
          altitude := parseDec (field f 9)
          hasPosition := true }
      else p.pending
    -- 280-283
    let pending : Fix :=
      if pending.hasTime = false ∧ field f 1 ≠ [] then
        { pending with utc := toUtc (field f 1) p.lastDate, hasTime := true }
      else pending
    ({ p with pending := pending }, fix)

/-- `parseVTG`. NMEAParser.hpp:295-301 -/
def Parser.vtg (p : Parser) (f : List (List Char)) : Parser :=
  if f.length < 9 then p
  else { p with pending := { p.pending with heading := parseDec (field f 1), speed := parseDec (field f 7) } }

/-- `parseGSA`. NMEAParser.hpp:312-319 -/
def Parser.gsa (p : Parser) (f : List (List Char)) : Parser :=
  if f.length < 18 then p
  else
    let mode := parseInt (field f 2)
    { p with pending := { p.pending with
        fixType := if mode = 3 then .fix3D else if mode = 2 then .fix2D else .none
        hdop := parseDec (field f 16) } }

/-- `parseLine`. NMEAParser.hpp:148-182 -/
def Parser.line (p : Parser) (line : List Char) (now : Nat) : Parser × Option Fix :=
  -- 149-151
  if line.head? ≠ some '$' then (p, none)
  else
    -- 152-154
    let line := if line.getLast? = some '\r' then line.dropLast else line
    -- 155-157
    if validChecksum line = false then (p, none)
    else
      -- 158-161
      let line := match lastStar line with
        | none => line
        | some star => line.take star
      -- 163-181
      let id := sentenceId line
      let f := splitFields line
      if id = ['R', 'M', 'C'] then p.rmc f now
      else if id = ['G', 'G', 'A'] then p.gga f now
      else if id = ['V', 'T', 'G'] then (p.vtg f, none)
      else if id = ['G', 'S', 'A'] then (p.gsa f, none)
      else (p, none)

/-- Lines with their times of arrival, one after the other. -/
def Parser.run (p : Parser) : List (List Char × Nat) → Parser × List Fix
  | [] => (p, [])
  | (l, now) :: ls =>
    let (p, fix) := p.line l now
    let (p, fixes) := p.run ls
    (p, fix.toList ++ fixes)

end Verif.Nmea
