/-!
# Making a log record and its console line

Model of `makeRecordAt`, `filename` (core/src/Logger.cpp:139-170) and of the line that
`writeConsole` puts together (core/src/Logger.cpp:183-283). Bytes are written as characters. The
conversion of the time stamp to a calendar date (210-215) is not modelled: the numbers of the date
are given.
-/
namespace Verif.Log.Line

/-- core/include/gnuradio-4.0/Logger.hpp:25 -/
inductive Level where
  | fatal | failure | error | warning | info | debug | trace
deriving DecidableEq, Repr

/-- `kLogTextCapacity`. core/include/gnuradio-4.0/Logger.hpp:27 -/
def textCapacity : Nat := 512

/-- `kLogLocationCapacity`. core/include/gnuradio-4.0/Logger.hpp:28 -/
def locationCapacity : Nat := 96

/-- A date and time of day. core/src/Logger.cpp:211-215 -/
structure Stamp where
  year : Nat
  month : Nat
  day : Nat
  hour : Nat
  minute : Nat
  second : Nat
  milli : Nat

/-- A record. core/include/gnuradio-4.0/Logger.hpp:30-42; the character arrays are the bytes up to
their length, without the padding and the column. -/
structure Record where
  level : Level
  line : Nat
  stamp : Stamp
  droppedBefore : Nat
  textTruncated : Bool
  locationTruncated : Bool
  location : List Char
  text : List Char

/-- `store`: what fits, and whether something was cut off. core/src/Logger.cpp:148-157 -/
def store (n : Nat) (text : List Char) : List Char × Bool :=
  let k := min text.length (n - 1)
  (text.take k, decide (k < text.length))

/-- `find_last_of("/\\")`. core/src/Logger.cpp:140 -/
def lastSlash (path : List Char) : Option Nat :=
  match path.reverse.findIdx? (fun c => c == '/' || c == '\\') with
  | none => none
  | some i => some (path.length - 1 - i)

/-- `filename`. core/src/Logger.cpp:139-142 -/
def filename (path : List Char) : List Char :=
  match lastSlash path with
  | none => path
  | some i => path.drop (i + 1)

/-- `makeRecordAt`. core/src/Logger.cpp:146-168 -/
def makeRecord (level : Level) (message file : List Char) (line : Nat) (now : Stamp)
    (droppedBefore : Nat) : Record :=
  { level := level, line := line, stamp := now, droppedBefore := droppedBefore,
    text := (store textCapacity message).1, textTruncated := (store textCapacity message).2,
    location := (store locationCapacity (filename file)).1,
    locationTruncated := (store locationCapacity (filename file)).2 }

/-- `sizeof(line) - 1`. core/src/Logger.cpp:244, 247 -/
def room : Nat := 767

/-- `append`. core/src/Logger.cpp:246-252 -/
def append (line text : List Char) : List Char := line ++ text.take (room - line.length)

/-- `appendChar`. core/src/Logger.cpp:232-236 -/
def appendChar (line : List Char) (c : Char) : List Char :=
  if line.length < room then line ++ [c] else line

/-- One decimal digit. core/src/Logger.cpp:199 -/
def digit (v : Nat) : Char := Char.ofNat (48 + v % 10)

/-- The loop of `appendFixed`: the last `width` digits. core/src/Logger.cpp:198-201 -/
def fixedDigits : Nat → Nat → List Char
  | 0, _ => []
  | width + 1, value => fixedDigits width (value / 10) ++ [digit value]

/-- `appendFixed`. core/src/Logger.cpp:193-207 -/
def appendFixed (line : List Char) (value width : Nat) : List Char :=
  if room ≤ line.length then line else line ++ (fixedDigits width value).take (room - line.length)

/-- `appendUnsigned`: all digits or, when they do not fit, none. core/src/Logger.cpp:183-191 -/
def appendUnsigned (line : List Char) (value : Nat) : List Char :=
  if room ≤ line.length then line
  else if line.length + (Nat.toDigits 10 value).length ≤ room then line ++ Nat.toDigits 10 value
  else line

/-- `appendTimestamp`. core/src/Logger.cpp:209-230 -/
def appendTimestamp (line : List Char) (t : Stamp) : List Char :=
  let line := appendFixed line t.year 4
  let line := appendChar line '-'
  let line := appendFixed line t.month 2
  let line := appendChar line '-'
  let line := appendFixed line t.day 2
  let line := appendChar line 'T'
  let line := appendFixed line t.hour 2
  let line := appendChar line ':'
  let line := appendFixed line t.minute 2
  let line := appendChar line ':'
  let line := appendFixed line t.second 2
  let line := appendChar line '.'
  appendFixed line t.milli 3

/-- `enumName(record.level)`. core/src/Logger.cpp:255, core/include/gnuradio-4.0/Logger.hpp:25 -/
def levelName : Level → List Char
  | .fatal => ['f', 'a', 't', 'a', 'l']
  | .failure => ['f', 'a', 'i', 'l', 'u', 'r', 'e']
  | .error => ['e', 'r', 'r', 'o', 'r']
  | .warning => ['w', 'a', 'r', 'n', 'i', 'n', 'g']
  | .info => ['i', 'n', 'f', 'o']
  | .debug => ['d', 'e', 'b', 'u', 'g']
  | .trace => ['t', 'r', 'a', 'c', 'e']

/-- `upper`. core/src/Logger.cpp:257 -/
def upper (c : Char) : Char :=
  if 'a'.toNat ≤ c.toNat ∧ c.toNat ≤ 'z'.toNat then Char.ofNat (c.toNat - 32) else c

/-- The label of `appendLevel`. core/src/Logger.cpp:253-262 -/
def label (l : Level) : List Char :=
  let name := ((levelName l).take 7).map upper
  name ++ List.replicate (7 - name.length) ' '

/-- The line of `writeConsole`. core/src/Logger.cpp:244-281 -/
def consoleLine (r : Record) : List Char :=
  let line := appendTimestamp [] r.stamp
  let line := append line [' ']
  let line := append line (label r.level)
  let line := append line " : ".toList
  let line := append line r.text
  let line := if r.textTruncated then append line " <truncated>".toList else line
  let line := if r.droppedBefore ≠ 0 then
      appendUnsigned (append line " dropped=".toList) r.droppedBefore else line
  let line := append line " in: ".toList
  let line := append line r.location
  let line := if r.line ≠ 0 then appendUnsigned (append line [':']) r.line else line
  append line ['\n']

/-- `routeToStderr` as compiled by default. core/src/Logger.cpp:26-28, 123-136 -/
def toStderr : Level → Bool
  | .fatal | .error | .warning => true
  | .failure | .info | .debug | .trace => false

end Verif.Log.Line
