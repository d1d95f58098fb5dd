import Verif.Nmea.Model
/-!
# What a position receiver sends, and what a reader should make of it
-/
namespace Verif.Nmea

/-! ## Sentences -/

/-- The exclusive or of all characters. -/
def xorAll : List Char → Nat
  | [] => 0
  | c :: cs => c.toNat ^^^ xorAll cs

/-- A decimal or hexadecimal digit. -/
def digit (n : Nat) : Char := "0123456789ABCDEF".toList.getD n '?'

/-- A payload with the checksum `n` as two hexadecimal digits. -/
def withChecksum (payload : List Char) (n : Nat) : List Char :=
  '$' :: (payload ++ ['*', digit (n / 16), digit (n % 16)])

/-- A sentence as it is sent. -/
def sent (payload : List Char) : List Char := withChecksum payload (xorAll payload)

/-- Fields with commas between them. -/
def joinFields : List (List Char) → List Char
  | [] => []
  | [f] => f
  | f :: fs => f ++ ',' :: joinFields fs

/-! ## The calendar -/

/-- The days of month `m` of year `y` in the Gregorian calendar. -/
def monthDays (y : Int) (m : Nat) : Nat :=
  if m = 4 ∨ m = 6 ∨ m = 9 ∨ m = 11 then 30
  else if m = 2 then (if 4 ∣ y ∧ (¬ 100 ∣ y ∨ 400 ∣ y) then 29 else 28)
  else 31

/-- A day of the calendar. -/
def isDate (y : Int) (m d : Nat) : Prop := 1 ≤ m ∧ m ≤ 12 ∧ 1 ≤ d ∧ d ≤ monthDays y m

/-- The day after. -/
def tomorrow (y : Int) (m d : Nat) : Int × Nat × Nat :=
  if d < monthDays y m then (y, m, d + 1) else if m < 12 then (y, m + 1, 1) else (y + 1, 1, 1)

/-- A number below 100 with two digits. -/
def two (n : Nat) : List Char := [digit (n / 10), digit (n % 10)]

/-- A number below 1000 with three digits. -/
def three (n : Nat) : List Char := [digit (n / 100), digit (n / 10 % 10), digit (n % 10)]

/-- Decimal digits. -/
def decimals (ds : List Nat) : List Char := ds.map digit

/-- The number the decimal digits stand for. -/
def valueOf : List Nat → Nat
  | [] => 0
  | d :: ds => d * 10 ^ ds.length + valueOf ds

/-! ## Streams of sentences -/

/-- The identifier and the fields of a line that is accepted. -/
def sentenceOf (line : List Char) : Option (List Char × List (List Char)) :=
  if line.head? ≠ some '$' then none
  else
    let line := if line.getLast? = some '\r' then line.dropLast else line
    if validChecksum line = false then none
    else
      let line := match lastStar line with
        | none => line
        | some star => line.take star
      some (sentenceId line, splitFields line)

/-- The fields of an RMC sentence that is long enough. -/
def rmcOf (line : List Char) : Option (List (List Char)) :=
  match sentenceOf line with
  | some (id, f) => if id = ['R', 'M', 'C'] ∧ 12 ≤ f.length then some f else none
  | none => none

/-- The fields of a GGA sentence that is long enough. -/
def ggaOf (line : List Char) : Option (List (List Char)) :=
  match sentenceOf line with
  | some (id, f) => if id = ['G', 'G', 'A'] ∧ 15 ≤ f.length then some f else none
  | none => none

/-- The fields of a VTG sentence that is long enough. -/
def vtgOf (line : List Char) : Option (List (List Char)) :=
  match sentenceOf line with
  | some (id, f) => if id = ['V', 'T', 'G'] ∧ 9 ≤ f.length then some f else none
  | none => none

/-- The fields of a GSA sentence that is long enough. -/
def gsaOf (line : List Char) : Option (List (List Char)) :=
  match sentenceOf line with
  | some (id, f) => if id = ['G', 'S', 'A'] ∧ 18 ≤ f.length then some f else none
  | none => none

/-- The seconds of the time a line gives. -/
def secondOf (line : List Char) : Option Int :=
  match rmcOf line <|> ggaOf line with
  | some f => if 6 ≤ (field f 1).length then some (parseInt ((field f 1).drop 4 |>.take 2)) else none
  | none => none

/-- The position a line gives. -/
def positionOf (line : List Char) : Option (Rat × Rat) :=
  match rmcOf line, ggaOf line with
  | some f, _ =>
    if field f 2 = ['A'] then some (parseCoord (field f 3) (field f 4), parseCoord (field f 5) (field f 6)) else none
  | none, some f =>
    if 0 < parseInt (field f 6) then some (parseCoord (field f 2) (field f 3), parseCoord (field f 4) (field f 5))
    else none
  | none, none => none

/-- The altitude and the number of satellites a line gives. -/
def altitudeOf (line : List Char) : Option (Rat × Int) :=
  match ggaOf line with
  | some f => if 0 < parseInt (field f 6) then some (parseDec (field f 9), parseInt (field f 7)) else none
  | none => none

/-- Course and speed in km/h. -/
def courseOf (line : List Char) : Option (Rat × Rat) :=
  match rmcOf line, vtgOf line with
  | some f, _ => if field f 2 = ['A'] then some (parseDec (field f 8), parseDec (field f 7) * (1852 / 1000)) else none
  | none, some f => some (parseDec (field f 1), parseDec (field f 7))
  | none, none => none

/-- The precision of the position. -/
def hdopOf (line : List Char) : Option Rat :=
  match ggaOf line, gsaOf line with
  | some f, _ => if 0 < parseInt (field f 6) then some (parseDec (field f 8)) else none
  | none, some f => some (parseDec (field f 16))
  | none, none => none

/-- The kind of the fix. -/
def typeOf (line : List Char) : Option FixType :=
  match gsaOf line with
  | some f =>
    some (if parseInt (field f 2) = 3 then .fix3D else if parseInt (field f 2) = 2 then .fix2D else .none)
  | none => none

/-- The newest of what some lines give. -/
def newest {α : Type} (of : List Char → Option α) (lines : List (List Char)) : Option α :=
  (lines.filterMap of).getLast?

/-- The second of the newest time given, -1 before there is any. -/
def lastSecondOf (lines : List (List Char)) : Int := (newest secondOf lines).getD (-1)

/-- Whether a new second begins with a line. -/
def beginsSecond (before : List (List Char)) (line : List Char) : Prop :=
  ∃ s, secondOf line = some s ∧ 0 ≤ lastSecondOf before ∧ s ≠ lastSecondOf before

instance (before : List (List Char)) (line : List Char) : Decidable (beginsSecond before line) :=
  match h : secondOf line with
  | none => isFalse (by rintro ⟨s, hs, _⟩; rw [h] at hs; cases hs)
  | some s =>
    if hc : 0 ≤ lastSecondOf before ∧ s ≠ lastSecondOf before then isTrue ⟨s, h, hc⟩
    else isFalse (by rintro ⟨s', hs, hc'⟩; rw [h] at hs; cases hs; exact hc hc')

/-- The lines of the second that is still going on, after some lines. -/
def sameSecond (before group : List (List Char)) : List (List Char) → List (List Char)
  | [] => group
  | l :: ls => sameSecond (before ++ [l]) (if beginsSecond before l then [l] else group ++ [l]) ls

/-- The lines since the second last changed, with the line that changed it. -/
def currentGroup (lines : List (List Char)) : List (List Char) := sameSecond [] [] lines

end Verif.Nmea
