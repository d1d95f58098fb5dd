import Verif.Util.Bytes
/-! # Constants and symbol tables — model of core/include/gnuradio-4.0/Compression.hpp:139-173 -/
namespace Verif.Deflate
open Verif.Bytes (Byte)

/-- Compression.hpp:139 -/
def kLengthBase : List Nat := [3, 4, 5, 6, 7, 8, 9, 10, 11, 13, 15, 17, 19, 23, 27, 31, 35, 43, 51, 59, 67, 83, 99, 115, 131, 163, 195, 227, 258]
/-- Compression.hpp:140 -/
def kLengthExtra : List Nat := [0, 0, 0, 0, 0, 0, 0, 0, 1, 1, 1, 1, 2, 2, 2, 2, 3, 3, 3, 3, 4, 4, 4, 4, 5, 5, 5, 5, 0]
/-- Compression.hpp:141 -/
def kDistanceBase : List Nat := [1, 2, 3, 4, 5, 7, 9, 13, 17, 25, 33, 49, 65, 97, 129, 193, 257, 385, 513, 769, 1025, 1537, 2049, 3073, 4097, 6145, 8193, 12289, 16385, 24577]
/-- Compression.hpp:142 -/
def kDistanceExtra : List Nat := [0, 0, 0, 0, 1, 1, 2, 2, 3, 3, 4, 4, 5, 5, 6, 6, 7, 7, 8, 8, 9, 9, 10, 10, 11, 11, 12, 12, 13, 13]
/-- Compression.hpp:143 -/
def kCodeLengthOrder : List Nat := [16, 17, 18, 0, 8, 7, 9, 6, 10, 5, 11, 4, 12, 3, 13, 2, 14, 1, 15]

/-- Compression.hpp:145-147 -/
def kMaxStoredBlock : Nat := 65535
def kMaxMatchLength : Nat := 258
def kWindowSize : Nat := 32768

/-- `storedBlockCount` — Compression.hpp:149 -/
def storedBlockCount (size : Nat) : Nat := if size = 0 then 1 else (size + kMaxStoredBlock - 1) / kMaxStoredBlock

/-- loop of `reverseBits` — Compression.hpp:151-158; all counts used are at most 15, so nothing is shifted out of the 16 bits -/
def reverseGo : Nat → Nat → Nat → Nat
  | 0, _, result => result
  | n + 1, value, result => reverseGo n (value >>> 1) (((result <<< 1) ||| (value &&& 1)) % 65536)

/-- `reverseBits` — Compression.hpp:151-158 -/
def reverseBits (value count : Nat) : Nat := reverseGo count (value % 65536) 0

/-- `EncodedSymbol` — Compression.hpp:160-164 -/
structure EncodedSymbol where
  symbol : Nat
  extraValue : Nat
  extraBits : Nat
deriving DecidableEq, Repr

/-- position of the last entry not above `v` (`upper_bound - begin - 1`; the tables are sorted) — Compression.hpp:167, 172 -/
def lastNotAbove (base : List Nat) (v : Nat) : Nat := (base.takeWhile (· ≤ v)).length - 1

/-- `encodeLength` — Compression.hpp:166-169 -/
def encodeLength (length : Nat) : EncodedSymbol :=
  let i := lastNotAbove kLengthBase (length % 65536)
  ⟨257 + i, length - kLengthBase.getD i 0, kLengthExtra.getD i 0⟩

/-- `encodeDistance` — Compression.hpp:171-174 -/
def encodeDistance (distance : Nat) : EncodedSymbol :=
  let i := lastNotAbove kDistanceBase (distance % 65536)
  ⟨i, distance - kDistanceBase.getD i 0, kDistanceExtra.getD i 0⟩

end Verif.Deflate
