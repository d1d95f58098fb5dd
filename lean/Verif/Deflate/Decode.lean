import Verif.Deflate.Bits
import Verif.Deflate.Tables
import Verif.Deflate.Emit
/-!
# Decoder — model of core/include/gnuradio-4.0/Compression.hpp:892-1399, 1948-1998

Loops whose number of iterations depends on the input take the number of steps allowed as their first argument and end with `Fail.fuel`
when it does not suffice. Reads and writes outside of an array end with `Fail.ub`.
-/
namespace Verif.Deflate
open Verif.Bytes (Byte)

/-- `HuffmanDecoder` — Compression.hpp:892-897 -/
structure Decoder where
  counts : List Nat
  symbols : List Nat
  maxWidth : Nat
deriving DecidableEq

/-- the check of the code space; `none`: oversubscribed — Compression.hpp:926-932; the first argument counts the widths still to come -/
def spaceGo (c : Nat → Nat) : Nat → Nat → Nat → Option Nat
  | 0, _, remaining => some remaining
  | n + 1, w, remaining => if remaining * 2 < c w then none else spaceGo c n (w + 1) (remaining * 2 - c w)

/-- `nextIndex` — Compression.hpp:937-942 -/
def startIndex (c : Nat → Nat) : Nat → Nat
  | 0 => 0
  | 1 => 0
  | w + 2 => startIndex c (w + 1) + c (w + 1)

/-- the placement of the symbols — Compression.hpp:943-947; the first argument is the symbol -/
def placeSymbols : Nat → List Nat → (Nat → Nat) → List Nat → Res (List Nat)
  | _, [], _, symbols => .ok symbols
  | s, w :: r, next, symbols =>
    if w ≠ 0 then
      if next w < symbols.length then placeSymbols (s + 1) r (upd next w (next w + 1)) (symbols.set (next w) s) else .error .ub
    else placeSymbols (s + 1) r next symbols

/-- `makeDecoder<n, maxBits>` for the lengths of the first `symbolCount` symbols — Compression.hpp:905-949. The first loop is written as
counts and a maximum. -/
def makeDecoder (n maxBits : Nat) (lengths : List Nat) (allowEmpty allowIncomplete : Bool) : Res Decoder :=
  if lengths.any (fun l => decide (maxBits < l)) then .error (.err .invalidHuffmanTree)
  else
    let c := widthCount lengths
    let counts := (List.range (maxBits + 1)).map c
    let maxWidth := lengths.foldl max 0
    if lengths.all (fun l => decide (l = 0)) then
      if allowEmpty then .ok ⟨counts, List.replicate n 0, maxWidth⟩ else .error (.err .invalidHuffmanTree)
    else match spaceGo c maxBits 1 1 with
      | none => .error (.err .invalidHuffmanTree)
      | some remaining =>
        if 0 < remaining ∧ (allowIncomplete = false ∨ maxWidth ≠ 1) then .error (.err .invalidHuffmanTree)
        else match placeSymbols 0 lengths (startIndex c) (List.replicate n 0) with
          | .error e => .error e
          | .ok symbols => .ok ⟨counts, symbols, maxWidth⟩

/-- `decodeSymbol`; the first argument counts the widths still to come — Compression.hpp:951-969. All numbers stay below 2^17. -/
def symbolGo (d : Decoder) : Nat → Nat → Nat → Nat → Nat → Reader → Res (Nat × Reader)
  | 0, _, _, _, _, _ => .error (.err .invalidCode)
  | n + 1, width, code, first, index, r =>
    match r.fill 1 with
    | none => .error (.err .truncatedInput)
    | some r =>
      let code := (code <<< 1) ||| r.takeBit.1
      let count := d.counts.getD width 0
      if first ≤ code ∧ code - first < count then
        match d.symbols[index + (code - first)]? with
        | some s => .ok (s, r.takeBit.2)
        | none => .error .ub
      else symbolGo d n (width + 1) code ((first + count) <<< 1) (index + count) r.takeBit.2

def decodeSymbol (r : Reader) (d : Decoder) : Res (Nat × Reader) := symbolGo d d.maxWidth 1 0 0 0 r

/-- lengths of the fixed codes — Compression.hpp:971-984 -/
def fixedLiteralLengths : List Nat := List.replicate 144 8 ++ List.replicate 112 9 ++ List.replicate 24 7 ++ List.replicate 8 8
def fixedDistanceLengths : List Nat := List.replicate 32 5

/-- where the decoder writes to: `CountingOutput` or `SpanOutput` — Compression.hpp:989-1058 -/
class Output (σ : Type) where
  size : σ → Nat
  resetHistory : σ → σ
  append : σ → Byte → Res σ
  copy : σ → Nat → Nat → Res σ
  /-- the bytes from a position on, if they are kept -/
  range : σ → Nat → Option (List Byte)

/-- `CountingOutput` — Compression.hpp:989-1015 -/
structure Counting where
  count : Nat
  historyBegin : Nat
  limit : Nat
deriving DecidableEq

/-- `grow` — Compression.hpp:1005-1014; sizes are 64-bit -/
def Counting.grow (o : Counting) (n : Nat) : Res Counting :=
  if 2 ^ 64 - 1 - o.count < n then .error (.err .integerOverflow)
  else if o.limit < o.count + n then .error (.err .sizeLimitExceeded)
  else .ok { o with count := o.count + n }

instance : Output Counting where
  size o := o.count
  resetHistory o := { o with historyBegin := o.count }
  append o _ := o.grow 1
  copy o distance length :=
    if distance = 0 ∨ o.count - o.historyBegin < distance then .error (.err .invalidBackReference) else o.grow length
  range _ _ := none

/-- `SpanOutput`; `data` is the part written so far — Compression.hpp:1018-1058 -/
structure Span where
  data : List Byte
  capacity : Nat
  historyBegin : Nat
deriving DecidableEq

/-- the copy loop, byte by byte; reading before the begin of the output is undefined — Compression.hpp:1046-1048 -/
def copyGo : Nat → Nat → List Byte → Res (List Byte)
  | 0, _, data => .ok data
  | n + 1, distance, data =>
    if distance ≤ data.length then
      match data[data.length - distance]? with
      | some b => copyGo n distance (data ++ [b])
      | none => .error .ub
    else .error .ub

/-- `append` — Compression.hpp:1029-1035 -/
def Span.append (o : Span) (b : Byte) : Res Span :=
  if o.data.length = o.capacity then .error (.err .outputTooSmall) else .ok { o with data := o.data ++ [b] }

/-- `copy` — Compression.hpp:1037-1051 -/
def Span.copy (o : Span) (distance length : Nat) : Res Span :=
  if distance = 0 ∨ o.data.length - o.historyBegin < distance then .error (.err .invalidBackReference)
  else if o.capacity - o.data.length < length then .error (.err .outputTooSmall)
  else match copyGo length distance o.data with
    | .ok data => .ok { o with data := data }
    | .error e => .error e

instance : Output Span where
  size o := o.data.length
  resetHistory o := { o with historyBegin := o.data.length }
  append := Span.append
  copy := Span.copy
  range o b := some (o.data.drop b)

variable {σ : Type} [Output σ]

/-- base value plus extra bits; the read is skipped for zero bits — Compression.hpp:1083-1090, 1099-1105 -/
def readExtra (r : Reader) (base extra : Nat) : Res (Nat × Reader) :=
  if extra ≠ 0 then
    match r.readBits extra with
    | .error e => .error e
    | .ok (v, r) => .ok (base + v, r)
  else .ok (base, r)

/-- the part of `decodeCompressedBlock` after a length symbol — Compression.hpp:1081-1109 -/
def decodeMatch (distances : Decoder) (r : Reader) (o : σ) (symbol : Nat) : Res (Reader × σ) :=
  match readExtra r (kLengthBase.getD (symbol - 257) 0) (kLengthExtra.getD (symbol - 257) 0) with
  | .error e => .error e
  | .ok (length, r) =>
    match decodeSymbol r distances with
    | .error e => .error e
    | .ok (ds, r) =>
      if 30 ≤ ds then .error (.err .invalidDistance)
      else match readExtra r (kDistanceBase.getD ds 0) (kDistanceExtra.getD ds 0) with
        | .error e => .error e
        | .ok (distance, r) =>
          match Output.copy o distance length with
          | .error e => .error e
          | .ok o => .ok (r, o)

/-- one iteration of the loop of `decodeCompressedBlock`: whether the block ended — Compression.hpp:1062-1109 -/
def blockStep (literals distances : Decoder) (r : Reader) (o : σ) : Res (Bool × Reader × σ) :=
  match decodeSymbol r literals with
  | .error e => .error e
  | .ok (s, r) =>
    if s < 256 then
      match Output.append o (BitVec.ofNat 8 s) with
      | .error e => .error e
      | .ok o => .ok (false, r, o)
    else if s = 256 then .ok (true, r, o)
    else if 285 < s then .error (.err .invalidLength)
    else match decodeMatch distances r o s with
      | .error e => .error e
      | .ok (r, o) => .ok (false, r, o)

/-- `decodeCompressedBlock` — Compression.hpp:1060-1112 -/
def blockGo (literals distances : Decoder) : Nat → Reader → σ → Res (Reader × σ)
  | 0, _, _ => .error .fuel
  | n + 1, r, o =>
    match blockStep literals distances r o with
    | .error e => .error e
    | .ok (stop, r, o) => if stop then .ok (r, o) else blockGo literals distances n r o

def decodeCompressedBlock (literals distances : Decoder) (r : Reader) (o : σ) : Res (Reader × σ) :=
  blockGo literals distances (r.left + 1) r o

/-- the code length lengths — Compression.hpp:1130-1137; the first argument is the part of the order still to read -/
def clGo : List Nat → List Nat → Reader → Res (List Nat × Reader)
  | [], ls, r => .ok (ls, r)
  | i :: rest, ls, r =>
    match r.readBits 3 with
    | .error e => .error e
    | .ok (v, r) => clGo rest (ls.set i v) r

/-- value, base and width of a repetition — Compression.hpp:1154-1176 -/
def repeatOf (symbol : Nat) (lengths : List Nat) : Res (Nat × Nat × Nat) :=
  if symbol = 16 then
    match lengths.getLast? with
    | none => .error (.err .invalidHuffmanTree)
    | some v => .ok (v, 3, 2)
  else if symbol = 17 then .ok (0, 3, 3)
  else if symbol = 18 then .ok (0, 11, 7)
  else .error (.err .invalidCode)

/-- the code lengths; `lengths` is the part of the array written so far — Compression.hpp:1143-1185 -/
def lensGo (d : Decoder) (total : Nat) : Nat → List Nat → Reader → Res (List Nat × Reader)
  | 0, _, _ => .error .fuel
  | n + 1, lengths, r =>
    if lengths.length < total then
      match decodeSymbol r d with
      | .error e => .error e
      | .ok (s, r) =>
        if s ≤ 15 then lensGo d total n (lengths ++ [s]) r
        else match repeatOf s lengths with
          | .error e => .error e
          | .ok (value, base, width) =>
            match r.readBits width with
            | .error e => .error e
            | .ok (extra, r) =>
              if total - lengths.length < base + extra then .error (.err .invalidHuffmanTree)
              else lensGo d total n (lengths ++ List.replicate (base + extra) value) r
    else .ok (lengths, r)

/-- the decoders of a dynamic block — Compression.hpp:1115-1202 -/
def readDynamic (r : Reader) : Res (Decoder × Decoder × Reader) :=
  match r.readBits 5 with
  | .error _ => .error (.err .truncatedInput)
  | .ok (lb, r) => match r.readBits 5 with
    | .error _ => .error (.err .truncatedInput)
    | .ok (db, r) => match r.readBits 4 with
      | .error _ => .error (.err .truncatedInput)
      | .ok (cb, r) =>
        if 286 < lb + 257 ∨ 30 < db + 1 then .error (.err .invalidHuffmanTree)
        else match clGo (kCodeLengthOrder.take (cb + 4)) (List.replicate 19 0) r with
          | .error e => .error e
          | .ok (cl, r) => match makeDecoder 19 7 cl false false with
            | .error e => .error e
            | .ok cd => match lensGo cd (lb + 257 + (db + 1)) (lb + 257 + (db + 1) + 1) [] r with
              | .error e => .error e
              | .ok (lengths, r) =>
                if (lengths.take (lb + 257)).getD 256 0 = 0 then .error (.err .invalidHuffmanTree)
                else match makeDecoder 288 15 (lengths.take (lb + 257)) false true with
                  | .error e => .error e
                  | .ok ld => match makeDecoder 32 15 (lengths.drop (lb + 257)) true true with
                    | .error e => .error e
                    | .ok dd => .ok (ld, dd, r)

/-- `decodeDynamicBlock` — Compression.hpp:1114-1203 -/
def decodeDynamicBlock (r : Reader) (o : σ) : Res (Reader × σ) :=
  match readDynamic r with
  | .error e => .error e
  | .ok (ld, dd, r) => decodeCompressedBlock ld dd r o

/-- the loop over a stored block — Compression.hpp:1230-1238 -/
def storedBytes : Nat → Reader → σ → Res (Reader × σ)
  | 0, r, o => .ok (r, o)
  | n + 1, r, o =>
    match r.readBits 8 with
    | .error e => .error e
    | .ok (v, r) => match Output.append o (BitVec.ofNat 8 v) with
      | .error e => .error e
      | .ok o => storedBytes n r o

/-- a stored block — Compression.hpp:1219-1240 -/
def decodeStored (r : Reader) (o : σ) : Res (Reader × σ) :=
  match r.alignByte.readBits 16 with
  | .error _ => .error (.err .truncatedInput)
  | .ok (length, r) => match r.readBits 16 with
    | .error _ => .error (.err .truncatedInput)
    | .ok (complement, r) =>
      if 65535 - length ≠ complement then .error (.err .invalidStoredBlockLength) else storedBytes length r o

/-- a fixed block; the decoders are constants of the program — Compression.hpp:986-987, 1241-1245 -/
def decodeFixed (r : Reader) (o : σ) : Res (Reader × σ) :=
  match makeDecoder 288 15 fixedLiteralLengths false true with
  | .error e => .error e
  | .ok ld => match makeDecoder 32 15 fixedDistanceLengths false true with
    | .error e => .error e
    | .ok dd => decodeCompressedBlock ld dd r o

/-- one block: whether it was the last — Compression.hpp:1210-1253 -/
def decodeBlock (r : Reader) (o : σ) : Res (Bool × Reader × σ) :=
  match r.readBits 1 with
  | .error _ => .error (.err .truncatedInput)
  | .ok (final, r) => match r.readBits 2 with
    | .error _ => .error (.err .truncatedInput)
    | .ok (kind, r) =>
      let res := if kind = 0 then decodeStored r o else if kind = 1 then decodeFixed r o else if kind = 2 then decodeDynamicBlock r o
        else .error (.err .invalidBlockType)
      match res with
      | .error e => .error e
      | .ok (r, o) => .ok (decide (final ≠ 0), r, o)

/-- the loop over the blocks — Compression.hpp:1209-1255 -/
def blocksGo : Nat → Reader → σ → Res (Reader × σ)
  | 0, _, _ => .error .fuel
  | n + 1, r, o =>
    match decodeBlock r o with
    | .error e => .error e
    | .ok (final, r, o) => if final then .ok (r, o) else blocksGo n r o

/-- `decodeDeflate`: bytes consumed and the output — Compression.hpp:1205-1258 -/
def decodeDeflate (input : List Byte) (o : σ) : Res (Nat × σ) :=
  match blocksGo ((Reader.new input).left + 1) (Reader.new input) (Output.resetHistory o) with
  | .error e => .error e
  | .ok (r, o) => .ok (r.alignByte.pos, o)

/-- `readLittle16`, `readLittle32`, `readBig32` — Compression.hpp:1260-1262 -/
def readLittle (n : Nat) (input : List Byte) (pos : Nat) : Res Nat :=
  match Bytes.slice input pos n with
  | some bs => .ok (Bytes.leNat bs)
  | none => .error .ub
def readBig32 (input : List Byte) (pos : Nat) : Res Nat :=
  match Bytes.slice input pos 4 with
  | some bs => .ok (Bytes.leNat bs.reverse)
  | none => .error .ub

/-- `decodeRaw` — Compression.hpp:1264-1274 -/
def decodeRaw (input : List Byte) (o : σ) : Res (Nat × σ) :=
  match decodeDeflate input o with
  | .error e => .error e
  | .ok (consumed, o) => if consumed ≠ input.length then .error (.err .trailingData) else .ok (Output.size o, o)

/-- `decodeZlib` — Compression.hpp:1276-1310 -/
def decodeZlib (input : List Byte) (o : σ) : Res (Nat × σ) :=
  match input with
  | cmf :: flg :: body =>
    if cmf.toNat &&& 0x0f ≠ 8 ∨ 7 < cmf.toNat >>> 4 ∨ ((cmf.toNat <<< 8) + flg.toNat) % 31 ≠ 0 then .error (.err .invalidHeader)
    else if flg.toNat &&& 0x20 ≠ 0 then
      if input.length < 6 then .error (.err .truncatedInput) else .error (.err .presetDictionaryRequired)
    else
      match decodeDeflate body o with
      | .error e => .error e
      | .ok (consumed, o') =>
        if input.length < 2 + consumed + 4 then .error (.err .truncatedInput)
        else if input.length ≠ 2 + consumed + 4 then .error (.err .trailingData)
        else match readBig32 input (2 + consumed) with
          | .error e => .error e
          | .ok sum =>
            if (Output.range o' (Output.size o)).any (fun bs => decide (adler32 bs ≠ sum)) then .error (.err .checksumMismatch)
            else .ok (Output.size o', o')
  | _ => .error (.err .truncatedInput)

/-- position after a terminated string — Compression.hpp:1351-1356 -/
def skipString (input : List Byte) (pos : Nat) : Res Nat :=
  match (input.drop pos).findIdx? (fun b => decide (b = 0)) with
  | none => .error (.err .truncatedInput)
  | some i => .ok (pos + i + 1)

/-- the extra field — Compression.hpp:1337-1346 -/
def skipExtra (input : List Byte) (pos : Nat) : Res Nat :=
  if input.length - pos < 2 then .error (.err .truncatedInput)
  else match readLittle 2 input pos with
    | .error e => .error e
    | .ok n => if input.length - (pos + 2) < n then .error (.err .truncatedInput) else .ok (pos + 2 + n)

/-- the checksum of the header — Compression.hpp:1358-1368 -/
def skipHeaderCrc (W : Nat) (input : List Byte) (start pos : Nat) : Res Nat :=
  if input.length - pos < 2 then .error (.err .truncatedInput)
  else match readLittle 2 input pos with
    | .error e => .error e
    | .ok expected =>
      if expected ≠ computeCrc32 W ((input.drop start).take (pos - start)) &&& 0xffff then .error (.err .checksumMismatch) else .ok (pos + 2)

/-- the header of a member at `start`: position after it — Compression.hpp:1319-1368 -/
def gzipMemberHeader (W : Nat) (input : List Byte) (start : Nat) : Res Nat :=
  if input.length - start < 2 then
    if start = 0 ∨ input[start]? = some 0x1f#8 then .error (.err .truncatedInput) else .error (.err .trailingData)
  else if input[start]? ≠ some 0x1f#8 ∨ input[start + 1]? ≠ some 0x8b#8 then
    if start = 0 then .error (.err .invalidHeader) else .error (.err .trailingData)
  else if input.length - start < 10 then .error (.err .truncatedInput)
  else if input[start + 2]? ≠ some 0x08#8 then .error (.err .unsupportedCompressionMethod)
  else
    let flags := (input.getD (start + 3) 0).toNat
    if flags &&& 0xe0 ≠ 0 then .error (.err .reservedFlags)
    else match (if flags &&& 0x04 ≠ 0 then skipExtra input (start + 10) else .ok (start + 10)) with
      | .error e => .error e
      | .ok p1 => match (if flags &&& 0x08 ≠ 0 then skipString input p1 else .ok p1) with
        | .error e => .error e
        | .ok p2 => match (if flags &&& 0x10 ≠ 0 then skipString input p2 else .ok p2) with
          | .error e => .error e
          | .ok p3 => if flags &&& 0x02 ≠ 0 then skipHeaderCrc W input start p3 else .ok p3

/-- one member: position after it and the output — Compression.hpp:1317-1391 -/
def gzipMember (W : Nat) (input : List Byte) (start : Nat) (o : σ) : Res (Nat × σ) :=
  match gzipMemberHeader W input start with
  | .error e => .error e
  | .ok p => match decodeDeflate (input.drop p) o with
    | .error e => .error e
    | .ok (consumed, o') =>
      if input.length - (p + consumed) < 8 then .error (.err .truncatedInput)
      else match readLittle 4 input (p + consumed) with
        | .error e => .error e
        | .ok crc =>
          if (Output.range o' (Output.size o)).any (fun bs => decide (computeCrc32 W bs ≠ crc)) then .error (.err .checksumMismatch)
          else match readLittle 4 input (p + consumed + 4) with
            | .error e => .error e
            | .ok size =>
              if (Output.size o' - Output.size o) % 2 ^ 32 ≠ size then .error (.err .sizeMismatch) else .ok (p + consumed + 8, o')

/-- the loop over the members — Compression.hpp:1317-1392 -/
def gzipGo (W : Nat) (input : List Byte) : Nat → Nat → σ → Res (Nat × σ)
  | 0, _, _ => .error .fuel
  | n + 1, pos, o =>
    if pos < input.length then
      match gzipMember W input pos o with
      | .error e => .error e
      | .ok (pos, o) => gzipGo W input n pos o
    else .ok (Output.size o, o)

/-- `decodeGzip` — Compression.hpp:1312-1394 -/
def decodeGzip (W : Nat) (input : List Byte) (o : σ) : Res (Nat × σ) :=
  if input = [] then .error (.err .truncatedInput) else gzipGo W input (input.length + 1) 0 o

/-- `decompressInto` — Compression.hpp:1396-1403 -/
def decompressInto (W : Nat) (input : List Byte) (o : σ) : Format → Res (Nat × σ)
  | .rawDeflate => decodeRaw input o
  | .zlib => decodeZlib input o
  | .gzip => decodeGzip W input o

/-- `decompress` into a buffer: the bytes written — Compression.hpp:1950-1953 -/
def decompressSpan (W : Nat) (input : List Byte) (capacity : Nat) (format : Format) : Res (Nat × List Byte) :=
  match decompressInto W input (⟨[], capacity, 0⟩ : Span) format with
  | .error e => .error e
  | .ok (n, o) => .ok (n, o.data)

/-- `decompressedSize` — Compression.hpp:1956-1960 -/
def decompressedSize (W : Nat) (input : List Byte) (format : Format) (maxOutputSize : Nat) : Res Nat :=
  match decompressInto W input (⟨0, 0, maxOutputSize⟩ : Counting) format with
  | .error e => .error e
  | .ok (n, _) => .ok n

/-- the allocating `decompress` — Compression.hpp:1964-1994; failing allocations are not modelled -/
def decompress (W : Nat) (input : List Byte) (format : Format) (maxOutputSize : Nat) : Res (List Byte) :=
  match decompressedSize W input format maxOutputSize with
  | .error e => .error e
  | .ok counted => match decompressSpan W input counted format with
    | .error e => .error e
    | .ok (written, data) => if written ≠ counted then .error (.err .sizeMismatch) else .ok data

end Verif.Deflate
