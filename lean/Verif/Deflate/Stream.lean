import Verif.Deflate.Decode
/-!
# Streaming decoder — model of core/include/gnuradio-4.0/Compression.hpp:1399-1946, 2035-2464

The machine advances by small steps. Where the code has a loop inside of a state (`readDynamicCodeLengths`, `readDynamicLengths`, the header
and trailer loops), one iteration of it is one step here that leaves the state unchanged: the code's outer loop would enter the same state
again, with the same condition. Partly filled arrays with their fill index are lists of the part filled. A failing step carries the state the
object is left in.
-/
namespace Verif.Deflate
open Verif.Bytes (Byte)

/-- `StreamProgress` without `advanced`, which is a constructor of the step types — Compression.hpp:1399 -/
inductive Progress | needInput | needOutput | finished
deriving DecidableEq

/-- `StreamBitReader::readBits`, all widths used are at most 32; `none`: too few bits, and the reader is restored — Compression.hpp:1441-1458 -/
def Reader.tryBits (r : Reader) (width : Nat) : Option (Nat × Reader) :=
  match r.fill width with
  | none => none
  | some r => some (r.acc &&& (2 ^ width - 1), { r with acc := r.acc >>> width, count := r.count - width })

/-- `setInput` — Compression.hpp:1407-1410 -/
def Reader.setInput (r : Reader) (input : List Byte) : Reader := { r with rest := input, pos := 0 }

/-- result of the streaming `decodeSymbol`; the reader is restored unless a symbol was found -/
inductive Sym
  | got (symbol : Nat) (r : Reader)
  | need
  | invalid
  | ub
deriving DecidableEq

/-- the streaming `decodeSymbol`; the first argument counts the widths still to come — Compression.hpp:1473-1497 -/
def trySymbolGo (d : Decoder) : Nat → Nat → Nat → Nat → Nat → Reader → Sym
  | 0, _, _, _, _, _ => .invalid
  | n + 1, width, code, first, index, r =>
    match r.fill 1 with
    | none => .need
    | some r =>
      let code := (code <<< 1) ||| r.takeBit.1
      let count := d.counts.getD width 0
      if first ≤ code ∧ code - first < count then
        match d.symbols[index + (code - first)]? with
        | some s => .got s r.takeBit.2
        | none => .ub
      else trySymbolGo d n (width + 1) code ((first + count) <<< 1) (index + count) r.takeBit.2

def Reader.trySymbol (r : Reader) (d : Decoder) : Sym := trySymbolGo d d.maxWidth 1 0 0 0 r

/-- `StreamOutput`: `out` is the part of the target written so far, `room` its size — Compression.hpp:1499-1513 -/
structure StreamOut where
  history : Nat → Byte
  room : Nat
  out : List Byte
  checksumPos : Nat
  historyPos : Nat
  historySize : Nat
  total : Nat
  limit : Nat
  crcState : BitVec 32
  adler : Nat × Nat
  memberSize : Nat

/-- `reset` of a zeroed object — Compression.hpp:1515-1527 -/
def StreamOut.fresh (maxOutputSize : Nat) : StreamOut := ⟨fun _ => 0, 0, [], 0, 0, 0, 0, maxOutputSize, 0xffffffff#32, (1, 0), 0⟩

/-- `setTarget` — Compression.hpp:1529-1533 -/
def StreamOut.setTarget (o : StreamOut) (room : Nat) : StreamOut := { o with room := room, out := [], checksumPos := 0 }

/-- `flushChecksums` — Compression.hpp:1536-1545 -/
def StreamOut.flush (o : StreamOut) : StreamOut :=
  if o.checksumPos = o.out.length then o
  else
    let new := o.out.drop o.checksumPos
    { o with crcState := Crc.updateScalar Crc.ieee o.crcState new, adler := updateAdler o.adler new,
             memberSize := (o.memberSize + new.length) % 2 ^ 32, checksumPos := o.out.length }

/-- `clearTarget` — Compression.hpp:1547-1550 -/
def StreamOut.clearTarget (o : StreamOut) : StreamOut := { o.flush with room := 0 }

/-- `resetHistory` — Compression.hpp:1552-1555 -/
def StreamOut.resetHistory (o : StreamOut) : StreamOut := { o with historyPos := 0, historySize := 0 }

/-- `resetGzipMember` — Compression.hpp:1557-1562 -/
def StreamOut.resetGzipMember (o : StreamOut) : StreamOut := { o.flush.resetHistory with crcState := 0xffffffff#32, memberSize := 0 }

/-- `full` — Compression.hpp:1564 -/
def StreamOut.full (o : StreamOut) : Bool := decide (o.out.length = o.room)

/-- `append`; `none`: the target is full — Compression.hpp:1581-1594 -/
def StreamOut.append (o : StreamOut) (b : Byte) : Except Error (Option StreamOut) :=
  if o.full then .ok none
  else if o.total = o.limit then .error .sizeLimitExceeded
  else .ok (some { o with out := o.out ++ [b], history := upd o.history o.historyPos b,
                          historyPos := (o.historyPos + 1) &&& (kWindowSize - 1), historySize := min (o.historySize + 1) kWindowSize,
                          total := o.total + 1 })
where
  /-- an array with one element replaced -/
  upd (f : Nat → Byte) (i : Nat) (b : Byte) : Nat → Byte := fun j => if j = i then b else f j

/-- the loop of `copy`: whether it came to its end, the length left and the output — Compression.hpp:1600-1610 -/
def StreamOut.copyGo (distance : Nat) : Nat → StreamOut → Except Error Bool × Nat × StreamOut
  | 0, o => (.ok true, 0, o)
  | n + 1, o =>
    if o.full then (.ok false, n + 1, o)
    else match o.append (o.history ((o.historyPos + kWindowSize - distance) &&& (kWindowSize - 1))) with
      | .error e => (.error e, n + 1, o)
      | .ok none => copyGo distance n o
      | .ok (some o) => copyGo distance n o

/-- `copy` — Compression.hpp:1596-1611 -/
def StreamOut.copy (o : StreamOut) (distance length : Nat) : Except Error Bool × Nat × StreamOut :=
  if distance = 0 ∨ o.historySize < distance then (.error .invalidBackReference, length, o) else o.copyGo distance length

/-- `StreamInflate::Mode` — Compression.hpp:1615 -/
inductive Mode | header | storedLength | storedData | dynamicHeader | dynamicCodeLengths | dynamicLengths | compressed | done
deriving DecidableEq

/-- `StreamInflate` — Compression.hpp:1617-1631 -/
structure Inflate where
  mode : Mode
  finalBlock : Bool
  storedRemaining : Nat
  literals : Decoder
  distances : Decoder
  codeLengths : Decoder
  codeLengthLengths : List Nat
  lengths : List Nat
  literalCount : Nat
  distanceCount : Nat
  codeLengthCount : Nat
  codeLengthIndex : Nat
  pendingDistance : Nat
  pendingLength : Nat

/-- `reset` — Compression.hpp:1633-1649 -/
def Inflate.fresh : Inflate := ⟨.header, false, 0, ⟨[], [], 0⟩, ⟨[], [], 0⟩, ⟨[], [], 0⟩, List.replicate 19 0, [], 0, 0, 0, 0, 0, 0⟩

/-- one turn of the loop of `process`, or its end -/
inductive IStep
  | advanced (s : Inflate) (r : Reader) (o : StreamOut)
  | stop (p : Progress) (s : Inflate) (r : Reader) (o : StreamOut)
  | fail (e : Fail) (s : Inflate) (r : Reader) (o : StreamOut)

/-- bits are missing: an error at the end of the input — Compression.hpp:1447-1453, 1479-1487 -/
def starve (finish : Bool) (s : Inflate) (r : Reader) (o : StreamOut) : IStep :=
  if finish then .fail (.err .truncatedInput) s r o else .stop .needInput s r o

/-- bits are missing in the middle of an element: unless this is an error, the reader goes back to `before` — Compression.hpp:1831-1838,
1907-1914, 1918-1925, 1932-1939 -/
def starveBack (finish : Bool) (s : Inflate) (r before : Reader) (o : StreamOut) : IStep :=
  if finish then .fail (.err .truncatedInput) s r o else .stop .needInput s before o

/-- `Mode::header` — Compression.hpp:1666-1689 -/
def headerStep (s : Inflate) (r : Reader) (o : StreamOut) (finish : Bool) : IStep :=
  match r.tryBits 3 with
  | none => starve finish s r o
  | some (v, r) =>
    let s := { s with finalBlock := decide (v &&& 1 ≠ 0) }
    if v >>> 1 = 0 then .advanced { s with mode := .storedLength } r.alignByte o
    else if v >>> 1 = 1 then
      match makeDecoder 288 15 fixedLiteralLengths false true with
      | .error e => .fail e s r o
      | .ok ld => match makeDecoder 32 15 fixedDistanceLengths false true with
        | .error e => .fail e s r o
        | .ok dd => .advanced { s with literals := ld, distances := dd, mode := .compressed } r o
    else if v >>> 1 = 2 then .advanced { s with mode := .dynamicHeader } r o
    else .fail (.err .invalidBlockType) s r o

/-- `Mode::storedLength` — Compression.hpp:1690-1705 -/
def storedLengthStep (s : Inflate) (r : Reader) (o : StreamOut) (finish : Bool) : IStep :=
  match r.tryBits 32 with
  | none => starve finish s r o
  | some (v, r) =>
    let s := { s with storedRemaining := v % 65536 }
    if 65535 - v % 65536 ≠ (v >>> 16) % 65536 then .fail (.err .invalidStoredBlockLength) s r o
    else .advanced { s with mode := .storedData } r o

/-- `Mode::storedData` — Compression.hpp:1706-1727 -/
def storedDataStep (s : Inflate) (r : Reader) (o : StreamOut) (finish : Bool) : IStep :=
  if s.storedRemaining = 0 then
    if s.finalBlock then .stop .finished { s with mode := .done } r o else .advanced { s with mode := .header } r o
  else if o.full then .stop .needOutput s r o
  else match r.tryBits 8 with
    | none => starve finish s r o
    | some (v, r) => match o.append (BitVec.ofNat 8 v) with
      | .error e => .fail (.err e) s r o
      | .ok none => .advanced { s with storedRemaining := s.storedRemaining - 1 } r o
      | .ok (some o) => .advanced { s with storedRemaining := s.storedRemaining - 1 } r o

/-- `readDynamicHeader` — Compression.hpp:1753-1773 -/
def dynamicHeaderStep (s : Inflate) (r : Reader) (o : StreamOut) (finish : Bool) : IStep :=
  match r.tryBits 14 with
  | none => starve finish s r o
  | some (v, r) =>
    let s := { s with literalCount := (v &&& 0x1f) + 257, distanceCount := ((v >>> 5) &&& 0x1f) + 1, codeLengthCount := ((v >>> 10) &&& 0x0f) + 4 }
    if 286 < s.literalCount ∨ 30 < s.distanceCount then .fail (.err .invalidHuffmanTree) s r o
    else .advanced { s with codeLengthLengths := List.replicate 19 0, lengths := [], codeLengthIndex := 0, mode := .dynamicCodeLengths } r o

/-- one iteration of `readDynamicCodeLengths`, or the part after its loop — Compression.hpp:1775-1793 -/
def codeLengthsStep (s : Inflate) (r : Reader) (o : StreamOut) (finish : Bool) : IStep :=
  if s.codeLengthIndex < s.codeLengthCount then
    match r.tryBits 3 with
    | none => starve finish s r o
    | some (v, r) =>
      match kCodeLengthOrder[s.codeLengthIndex]? with
      | none => .fail .ub s r o
      | some i => .advanced { s with codeLengthLengths := s.codeLengthLengths.set i v, codeLengthIndex := s.codeLengthIndex + 1 } r o
  else match makeDecoder 19 7 s.codeLengthLengths false false with
    | .error e => .fail e s r o
    | .ok d => .advanced { s with codeLengths := d, mode := .dynamicLengths } r o

/-- the part of `readDynamicLengths` after its loop — Compression.hpp:1847-1866 -/
def treesStep (s : Inflate) (r : Reader) (o : StreamOut) : IStep :=
  if (s.lengths.take s.literalCount).getD 256 0 = 0 then .fail (.err .invalidHuffmanTree) s r o
  else match makeDecoder 288 15 (s.lengths.take s.literalCount) false true with
    | .error e => .fail e s r o
    | .ok ld => match makeDecoder 32 15 (s.lengths.drop s.literalCount) true true with
      | .error e => .fail e s r o
      | .ok dd => .advanced { s with literals := ld, distances := dd, mode := .compressed } r o

/-- value, base and width of a repetition — Compression.hpp:1811-1829 -/
def repetition (symbol : Nat) (lengths : List Nat) : Except Error (Nat × Nat × Nat) :=
  if symbol = 16 then
    match lengths.getLast? with
    | none => .error .invalidHuffmanTree
    | some v => .ok (v, 3, 2)
  else if symbol = 17 then .ok (0, 3, 3)
  else if symbol = 18 then .ok (0, 11, 7)
  else .error .invalidCode

/-- one iteration of `readDynamicLengths`, or the part after its loop — Compression.hpp:1795-1866 -/
def lengthsStep (s : Inflate) (r : Reader) (o : StreamOut) (finish : Bool) : IStep :=
  if s.lengths.length < s.literalCount + s.distanceCount then
    match r.trySymbol s.codeLengths with
    | .need => starve finish s r o
    | .invalid => .fail (.err .invalidCode) s r o
    | .ub => .fail .ub s r o
    | .got symbol r1 =>
      if symbol ≤ 15 then .advanced { s with lengths := s.lengths ++ [symbol] } r1 o
      else match repetition symbol s.lengths with
        | .error e => .fail (.err e) s r1 o
        | .ok (value, base, width) => match r1.tryBits width with
          | none => starveBack finish s r1 r o
          | some (extra, r2) =>
            if s.literalCount + s.distanceCount - s.lengths.length < base + extra then .fail (.err .invalidHuffmanTree) s r2 o
            else .advanced { s with lengths := s.lengths ++ List.replicate (base + extra) value } r2 o
  else treesStep s r o

/-- base value plus extra bits — Compression.hpp:1904-1916, 1929-1941 -/
def Reader.tryExtra (r : Reader) (base extra : Nat) : Option (Nat × Reader) :=
  if extra ≠ 0 then
    match r.tryBits extra with
    | none => none
    | some (v, r) => some (base + v, r)
  else some (base, r)

/-- the part of `readCompressedSymbol` after a length symbol — Compression.hpp:1899-1945 -/
def matchStep (s : Inflate) (r before : Reader) (o : StreamOut) (finish : Bool) (symbol : Nat) : IStep :=
  if o.full then .stop .needOutput s before o
  else match r.tryExtra (kLengthBase.getD (symbol - 257) 0) (kLengthExtra.getD (symbol - 257) 0) with
    | none => starveBack finish s r before o
    | some (length, r2) => match r2.trySymbol s.distances with
      | .need => starveBack finish s r2 before o
      | .invalid => .fail (.err .invalidCode) s r2 o
      | .ub => .fail .ub s r2 o
      | .got ds r3 =>
        if 30 ≤ ds then .fail (.err .invalidDistance) s r3 o
        else match r3.tryExtra (kDistanceBase.getD ds 0) (kDistanceExtra.getD ds 0) with
          | none => starveBack finish s r3 before o
          | some (distance, r4) => .advanced { s with pendingDistance := distance, pendingLength := length } r4 o

/-- `readCompressedSymbol` — Compression.hpp:1868-1945 -/
def symbolStep (s : Inflate) (r : Reader) (o : StreamOut) (finish : Bool) : IStep :=
  match r.trySymbol s.literals with
  | .need => starve finish s r o
  | .invalid => .fail (.err .invalidCode) s r o
  | .ub => .fail .ub s r o
  | .got symbol r1 =>
    if symbol < 256 then
      if o.full then .stop .needOutput s r o
      else match o.append (BitVec.ofNat 8 symbol) with
        | .error e => .fail (.err e) s r1 o
        | .ok none => .advanced s r1 o
        | .ok (some o) => .advanced s r1 o
    else if symbol = 256 then
      if s.finalBlock then .stop .finished { s with mode := .done } r1.alignByte o else .advanced { s with mode := .header } r1 o
    else if 285 < symbol then .fail (.err .invalidLength) s r1 o
    else matchStep s r1 r o finish symbol

/-- a copy that was interrupted — Compression.hpp:1653-1662 -/
def pendingStep (s : Inflate) (r : Reader) (o : StreamOut) : IStep :=
  match o.copy s.pendingDistance s.pendingLength with
  | (.error e, n, o) => .fail (.err e) { s with pendingLength := n } r o
  | (.ok false, n, o) => .stop .needOutput { s with pendingLength := n } r o
  | (.ok true, n, o) => .advanced { s with pendingLength := n } r o

/-- one turn of the loop of `StreamInflate::process` — Compression.hpp:1653-1748 -/
def inflateStep (s : Inflate) (r : Reader) (o : StreamOut) (finish : Bool) : IStep :=
  if s.pendingLength ≠ 0 then pendingStep s r o
  else match s.mode with
    | .done => .stop .finished s r o
    | .header => headerStep s r o finish
    | .storedLength => storedLengthStep s r o finish
    | .storedData => storedDataStep s r o finish
    | .dynamicHeader => dynamicHeaderStep s r o finish
    | .dynamicCodeLengths => codeLengthsStep s r o finish
    | .dynamicLengths => lengthsStep s r o finish
    | .compressed => symbolStep s r o finish

/-- `StreamInflate::process`; the first argument is the number of turns allowed — Compression.hpp:1651-1750 -/
def inflateGo (finish : Bool) : Nat → Inflate → Reader → StreamOut → IStep
  | 0, s, r, o => .fail .fuel s r o
  | n + 1, s, r, o =>
    match inflateStep s r o finish with
    | .advanced s r o => inflateGo finish n s r o
    | .stop p s r o => .stop p s r o
    | .fail e s r o => .fail e s r o

/-- a bound for the number of turns -/
def inflateFuel (r : Reader) (o : StreamOut) : Nat := 2 * r.left + (o.room - o.out.length) + 6

/-- `StreamDecompressor::State` — Compression.hpp:2204 -/
inductive State | rawDeflate | zlibHeader | zlibDictionary | zlibDeflate | zlibTrailer | gzipHeader | gzipExtraLength | gzipExtra | gzipName
  | gzipComment | gzipHeaderCrc | gzipDeflate | gzipTrailer | gzipBetweenMembers | done
deriving DecidableEq

/-- `StreamDecompressor` — Compression.hpp:2206-2220 -/
structure Dec where
  state : State
  reader : Reader
  out : StreamOut
  inflate : Inflate
  zlibHeader : List Byte
  trailer : List Byte
  gzipHeader : List Byte
  flags : Nat
  extraRemaining : Nat
  headerCrc : BitVec 32
  memberCount : Nat

/-- `reset` — Compression.hpp:2039-2056 -/
def Dec.fresh (format : Format) (maxOutputSize : Nat) : Dec where
  state := match format with | .rawDeflate => .rawDeflate | .zlib => .zlibHeader | .gzip => .gzipHeader
  reader := ⟨[], 0, 0, 0⟩
  out := .fresh maxOutputSize
  inflate := .fresh
  zlibHeader := []
  trailer := []
  gzipHeader := []
  flags := 0
  extraRemaining := 0
  headerCrc := 0xffffffff#32
  memberCount := 0

/-- one turn of the loop of `process`, or its end -/
inductive DStep
  | advanced (d : Dec)
  | stop (p : Progress) (d : Dec)
  | fail (e : Fail) (d : Dec)

/-- the step of a state that reads one byte with `readByte` — Compression.hpp:2222-2231 -/
def Dec.byteStep (d : Dec) (finish : Bool) (k : Byte → Dec → DStep) : DStep :=
  match d.reader.tryBits 8 with
  | none => if finish then .fail (.err .truncatedInput) d else .stop .needInput d
  | some (v, r) => k (BitVec.ofNat 8 v) { d with reader := r }

/-- the step of a state that reads one byte with `readGzipHeaderByte` — Compression.hpp:2233-2243 -/
def Dec.headerByteStep (d : Dec) (finish : Bool) (k : Byte → Dec → DStep) : DStep :=
  d.byteStep finish (fun b d => k b { d with headerCrc := Crc.updateScalar Crc.ieee d.headerCrc [b] })

/-- a state that runs the inflater — Compression.hpp:2084-2094, 2109-2120, 2170-2181 -/
def Dec.inflateWith (d : Dec) (finish : Bool) (next : Dec → Dec) : DStep :=
  match inflateGo finish (inflateFuel d.reader d.out) d.inflate d.reader d.out with
  | .advanced s r o => .fail .fuel { d with inflate := s, reader := r, out := o }
  | .fail e s r o => .fail e { d with inflate := s, reader := r, out := o }
  | .stop .finished s r o => .advanced (next { d with inflate := s, reader := r, out := o })
  | .stop p s r o => .stop p { d with inflate := s, reader := r, out := o }

/-- `readZlibHeader` — Compression.hpp:2245-2270 -/
def Dec.zlibHeaderStep (d : Dec) (finish : Bool) : DStep :=
  match d.zlibHeader with
  | [cmf, flg] =>
    if cmf.toNat &&& 0x0f ≠ 8 ∨ 7 < cmf.toNat >>> 4 ∨ ((cmf.toNat <<< 8) + flg.toNat) % 31 ≠ 0 then .fail (.err .invalidHeader) d
    else if flg.toNat &&& 0x20 ≠ 0 then .advanced { d with state := .zlibDictionary, trailer := [] }
    else .advanced { d with inflate := .fresh, out := d.out.resetHistory, state := .zlibDeflate }
  | _ => d.byteStep finish (fun b d => .advanced { d with zlibHeader := d.zlibHeader ++ [b] })

/-- `readUnsupportedDictionaryId` and the error after it — Compression.hpp:2102-2108, 2272-2284 -/
def Dec.dictionaryStep (d : Dec) (finish : Bool) : DStep :=
  if d.trailer.length < 4 then d.byteStep finish (fun b d => .advanced { d with trailer := d.trailer ++ [b] })
  else .fail (.err .presetDictionaryRequired) d

/-- `readZlibTrailer` — Compression.hpp:2286-2302; the numbers are read from the four bytes of the array -/
def Dec.zlibTrailerStep (d : Dec) (finish : Bool) : DStep :=
  if d.trailer.length < 4 then d.byteStep finish (fun b d => .advanced { d with trailer := d.trailer ++ [b] })
  else
    let d := { d with out := d.out.flush }
    if adlerWord d.out.adler ≠ Bytes.leNat d.trailer.reverse then .fail (.err .checksumMismatch) d else .advanced { d with state := .done }

/-- `beginGzipHeader` — Compression.hpp:2304-2313 -/
def Dec.beginGzipHeader (d : Dec) : Dec :=
  { d with state := .gzipHeader, gzipHeader := [], flags := 0, extraRemaining := 0, headerCrc := 0xffffffff#32, trailer := [] }

/-- `beginGzipDeflate` — Compression.hpp:2315-2319 -/
def Dec.beginGzipDeflate (d : Dec) : Dec := { d with out := d.out.resetGzipMember, inflate := .fresh, state := .gzipDeflate }

/-- `nextGzipOptionalState`; the fields are numbered in their order — Compression.hpp:2321-2344 -/
def Dec.nextOptional (d : Dec) (start : Nat) : Dec :=
  if start ≤ 0 ∧ d.flags &&& 0x04 ≠ 0 then { d with state := .gzipExtraLength }
  else if start ≤ 1 ∧ d.flags &&& 0x08 ≠ 0 then { d with state := .gzipName }
  else if start ≤ 2 ∧ d.flags &&& 0x10 ≠ 0 then { d with state := .gzipComment }
  else if start ≤ 3 ∧ d.flags &&& 0x02 ≠ 0 then { d with state := .gzipHeaderCrc, trailer := [] }
  else d.beginGzipDeflate

/-- `readGzipHeader` — Compression.hpp:2346-2372 -/
def Dec.gzipHeaderStep (d : Dec) (finish : Bool) : DStep :=
  if d.gzipHeader.length < 10 then
    d.headerByteStep finish (fun b d =>
      if d.gzipHeader.length = 0 ∧ b ≠ 0x1f#8 then .fail (.err (if d.memberCount = 0 then .invalidHeader else .trailingData)) d
      else if d.gzipHeader.length = 1 ∧ b ≠ 0x8b#8 then .fail (.err (if d.memberCount = 0 then .invalidHeader else .trailingData)) d
      else .advanced { d with gzipHeader := d.gzipHeader ++ [b] })
  else if d.gzipHeader[2]? ≠ some 0x08#8 then .fail (.err .unsupportedCompressionMethod) d
  else
    let d := { d with flags := (d.gzipHeader.getD 3 0).toNat }
    if d.flags &&& 0xe0 ≠ 0 then .fail (.err .reservedFlags) d else .advanced (d.nextOptional 0)

/-- `readGzipExtraLength` — Compression.hpp:2374-2389 -/
def Dec.extraLengthStep (d : Dec) (finish : Bool) : DStep :=
  if d.trailer.length < 2 then d.headerByteStep finish (fun b d => .advanced { d with trailer := d.trailer ++ [b] })
  else .advanced { d with extraRemaining := Bytes.leNat d.trailer, trailer := [], state := .gzipExtra }

/-- `readGzipExtra` — Compression.hpp:2391-2404 -/
def Dec.extraStep (d : Dec) (finish : Bool) : DStep :=
  if d.extraRemaining ≠ 0 then d.headerByteStep finish (fun _ d => .advanced { d with extraRemaining := d.extraRemaining - 1 })
  else .advanced (d.nextOptional 1)

/-- `readGzipString` — Compression.hpp:2406-2420 -/
def Dec.stringStep (d : Dec) (finish : Bool) (next : Nat) : DStep :=
  d.headerByteStep finish (fun b d => if b = 0 then .advanced (d.nextOptional next) else .advanced d)

/-- `readGzipHeaderCrc` — Compression.hpp:2422-2440 -/
def Dec.headerCrcStep (d : Dec) (finish : Bool) : DStep :=
  if d.trailer.length < 2 then d.byteStep finish (fun b d => .advanced { d with trailer := d.trailer ++ [b] })
  else if Bytes.leNat d.trailer ≠ (d.headerCrc ^^^ 0xffffffff#32).toNat &&& 0xffff then .fail (.err .checksumMismatch) d
  else .advanced d.beginGzipDeflate

/-- `readGzipTrailer` — Compression.hpp:2442-2463 -/
def Dec.gzipTrailerStep (d : Dec) (finish : Bool) : DStep :=
  if d.trailer.length < 8 then d.byteStep finish (fun b d => .advanced { d with trailer := d.trailer ++ [b] })
  else
    let d := { d with out := d.out.flush }
    if (d.out.crcState ^^^ 0xffffffff#32).toNat ≠ Bytes.leNat (d.trailer.take 4) then .fail (.err .checksumMismatch) d
    else if d.out.memberSize ≠ Bytes.leNat (d.trailer.drop 4) then .fail (.err .sizeMismatch) d
    else .advanced { d with memberCount := d.memberCount + 1, state := .gzipBetweenMembers }

/-- one turn of the loop of `StreamDecompressor::process`; what is left of the input is `reader.rest` — Compression.hpp:2078-2199 -/
def Dec.step (d : Dec) (finish : Bool) : DStep :=
  match d.state with
  | .done => if d.reader.rest ≠ [] then .fail (.err .trailingData) d else .stop .finished d
  | .rawDeflate => d.inflateWith finish (fun d => { d with state := .done })
  | .zlibHeader => d.zlibHeaderStep finish
  | .zlibDictionary => d.dictionaryStep finish
  | .zlibDeflate => d.inflateWith finish (fun d => { d with state := .zlibTrailer, trailer := [] })
  | .zlibTrailer => d.zlibTrailerStep finish
  | .gzipHeader => d.gzipHeaderStep finish
  | .gzipExtraLength => d.extraLengthStep finish
  | .gzipExtra => d.extraStep finish
  | .gzipName => d.stringStep finish 2
  | .gzipComment => d.stringStep finish 3
  | .gzipHeaderCrc => d.headerCrcStep finish
  | .gzipDeflate => d.inflateWith finish (fun d => { d with state := .gzipTrailer, trailer := [] })
  | .gzipTrailer => d.gzipTrailerStep finish
  | .gzipBetweenMembers =>
    if d.reader.rest = [] then if finish then .advanced { d with state := .done } else .stop .needInput d
    else .advanced d.beginGzipHeader

/-- the loop of `process`; the first argument is the number of turns allowed -/
def Dec.stepGo (finish : Bool) : Nat → Dec → DStep
  | 0, d => .fail .fuel d
  | n + 1, d =>
    match d.step finish with
    | .advanced d => stepGo finish n d
    | .stop p d => .stop p d
    | .fail e d => .fail e d

/-- `StreamStatus` — Compression.hpp:99 -/
inductive Status | needInput | needOutput | done
deriving DecidableEq

/-- `StreamResult`; instead of their number it has the bytes written to the target — Compression.hpp:101-107 -/
structure StreamResult where
  consumed : Nat
  produced : List Byte
  status : Status
deriving DecidableEq

/-- the end of a call: the spans are dropped — Compression.hpp:2064-2075 -/
def Dec.release (d : Dec) : Dec := { d with reader := { d.reader with rest := [] }, out := d.out.clearTarget }

/-- a bound for the number of turns -/
def Dec.fuel (d : Dec) : Nat := 2 * d.reader.left + 24

/-- `StreamDecompressor::process` for an output of `room` bytes — Compression.hpp:2059-2201 -/
def Dec.process (d : Dec) (input : List Byte) (room : Nat) (finish : Bool) : Except Fail StreamResult × Dec :=
  let d := { d with reader := d.reader.setInput input, out := d.out.setTarget room }
  match d.stepGo finish d.fuel with
  | .advanced d => (.error .fuel, d.release)
  | .fail e d => (.error e, d.release)
  | .stop p d =>
    (.ok ⟨d.reader.pos, d.out.out, if d.state = .done then .done else if p = .needOutput then .needOutput else .needInput⟩, d.release)

/-- `finished` — Compression.hpp:2057 -/
def Dec.finished (d : Dec) : Bool := decide (d.state = .done)

end Verif.Deflate
