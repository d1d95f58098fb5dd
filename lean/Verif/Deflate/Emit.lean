import Verif.Deflate.Bits
import Verif.Deflate.Code
import Verif.Deflate.Adler
import Verif.Crc.Model
/-!
# Emission of blocks and containers — model of core/include/gnuradio-4.0/Compression.hpp:252-282, 672-835, 2002-2028
-/
namespace Verif.Deflate
open Verif.Bytes (Byte)

inductive Format where | rawDeflate | zlib | gzip
deriving DecidableEq, Repr

/-- `putLittle16`, `putLittle32` — Compression.hpp:243-251 -/
def putLittle16 (v : Nat) : List Op := [.bits (v % 65536) 16]
def putLittle32 (v : Nat) : List Op := [.bits (v % 2 ^ 32) 32]
/-- `putBig32` — Compression.hpp:253-258 -/
def putBig32 (v : Nat) : List Op := [32, 24, 16, 8].map (fun s => .bits ((v >>> (s - 8)) &&& 0xff) 8)

/-- `fixedLiteralCode`: bits and width — Compression.hpp:265-276 -/
def fixedLiteralCode (s : Nat) : Nat × Nat :=
  if s ≤ 143 then (reverseBits (0x30 + s) 8, 8)
  else if s ≤ 255 then (reverseBits (0x190 + s - 144) 9, 9)
  else if s ≤ 279 then (reverseBits (s - 256) 7, 7)
  else (reverseBits (0xc0 + s - 280) 8, 8)

/-- `fixedDistanceCode` — Compression.hpp:278 -/
def fixedDistanceCode (s : Nat) : Nat × Nat := (reverseBits s 5, 5)

/-- `writeCode` — Compression.hpp:672-675 -/
def writeCode (c : Codes) (s : Nat) : Op := .bits (c.bits.getD s 0) (c.lengths.getD s 0)

/-- one token with fixed codes — Compression.hpp:680-693 -/
def emitTokenFixed (t : Token) : List Op :=
  if t.distance = 0 then [.bits (fixedLiteralCode t.value).1 (fixedLiteralCode t.value).2]
  else
    let l := encodeLength t.value
    let d := encodeDistance t.distance
    [.bits (fixedLiteralCode l.symbol).1 (fixedLiteralCode l.symbol).2, .bits l.extraValue l.extraBits,
      .bits (fixedDistanceCode d.symbol).1 (fixedDistanceCode d.symbol).2, .bits d.extraValue d.extraBits]

/-- `emitTokensFixed` — Compression.hpp:677-697 -/
def emitTokensFixed (tokens : List Token) : List Op :=
  tokens.flatMap emitTokenFixed ++ [.bits (fixedLiteralCode 256).1 (fixedLiteralCode 256).2]

/-- one token with dynamic codes — Compression.hpp:702-712 -/
def emitTokenDynamic (c : Coding) (t : Token) : List Op :=
  if t.distance = 0 then [writeCode c.literals t.value]
  else
    let l := encodeLength t.value
    let d := encodeDistance t.distance
    [writeCode c.literals l.symbol, .bits l.extraValue l.extraBits, writeCode c.distances d.symbol, .bits d.extraValue d.extraBits]

/-- `emitTokensDynamic` — Compression.hpp:699-715 -/
def emitTokensDynamic (c : Coding) (tokens : List Token) : List Op := tokens.flatMap (emitTokenDynamic c) ++ [writeCode c.literals 256]

/-- one chunk of `emitStoredDeflate` — Compression.hpp:721-728 -/
def storedChunk (chunk : List Byte) (last : Bool) : List Op :=
  [.bits (if last then 1 else 0) 1, .bits 0 2, .align] ++ putLittle16 chunk.length ++ putLittle16 (65535 - chunk.length % 65536) ++ [.bytes chunk]

/-- `emitStoredDeflate`; the loop runs `storedBlockCount` times — Compression.hpp:717-732 -/
def storedGo (final : Bool) : Nat → List Byte → List Op
  | 0, _ => []
  | n + 1, data =>
    let size := min data.length kMaxStoredBlock
    storedChunk (data.take size) (final && decide (size = data.length)) ++ (if size < data.length then storedGo final n (data.drop size) else [])

def emitStored (data : List Byte) (final : Bool) : List Op := storedGo final (storedBlockCount data.length) data

/-- `emitFixedDeflate` — Compression.hpp:734-742 -/
def emitFixed (tokens : List Token) (final : Bool) : List Op :=
  [.bits (if final then 1 else 0) 1, .bits 1 2] ++ emitTokensFixed tokens ++ (if final then [.align] else [])

/-- header of `emitDynamicDeflate` — Compression.hpp:748-757 -/
def dynamicHeader (c : Coding) : List Op :=
  [.bits (c.literalCount - 257) 5, .bits (c.distanceCount - 1) 5, .bits (c.codeLengthCount - 4) 4] ++
    (kCodeLengthOrder.take c.codeLengthCount).map (fun i => .bits (c.codeLengths.lengths.getD i 0) 3) ++
    c.encoded.flatMap (fun t => [writeCode c.codeLengths t.symbol, .bits t.extraValue t.extraBits])

/-- `emitDynamicDeflate` — Compression.hpp:744-763 -/
def emitDynamic (c : Coding) (tokens : List Token) (final : Bool) : List Op :=
  [.bits (if final then 1 else 0) 1, .bits 2 2] ++ dynamicHeader c ++ emitTokensDynamic c tokens ++ (if final then [.align] else [])

inductive Encoding where | stored | fixed | dynamic
deriving DecidableEq, Repr

/-- `selectEncoding` — Compression.hpp:767-779 -/
def selectEncoding (dataSize : Nat) (tokens : List Token) (c : Coding) (final : Bool) : Encoding :=
  let fixedSize := countOps 0 (emitFixed tokens final) / 8
  let dynamicSize := countOps 0 (emitDynamic c tokens final) / 8
  let storedSize := dataSize + 5 * storedBlockCount dataSize
  if storedSize < min fixedSize dynamicSize then .stored
  else if dynamicSize < fixedSize then .dynamic else .fixed

/-- `emitDeflate` — Compression.hpp:781-789 -/
def emitDeflate (data : List Byte) (tokens : List Token) (c : Coding) (e : Encoding) (final : Bool) : List Op :=
  match e with
  | .stored => emitStored data final
  | .fixed => emitFixed tokens final
  | .dynamic => emitDynamic c tokens final

/-- `compressBound` — Compression.hpp:791-799 -/
def compressBound (size : Nat) : Format → Nat
  | .rawDeflate => size + 5 * storedBlockCount size
  | .zlib => size + 5 * storedBlockCount size + 6
  | .gzip => size + 5 * storedBlockCount size + 18

/-- `computeCrc32`; `W` is the width of a SIMD register — Compression.hpp:801-807 -/
def computeCrc32 (W : Nat) (input : List Byte) : Nat := (Crc.compute .ieee W input).toNat

/-- the two bytes of the zlib header as a number — Compression.hpp:812-815 -/
def zlibHeader (level : Level) : Nat :=
  let flevel := match level with | .fast => 0 | .best => 3 | .balanced => 2
  let header := (0x78 <<< 8) ||| (flevel <<< 6)
  header + (31 - header % 31) % 31

/-- the gzip header — Compression.hpp:823-824 -/
def gzipHeader (level : Level) : List Nat :=
  [0x1f, 0x8b, 0x08, 0x00, 0x00, 0x00, 0x00, 0x00, match level with | .fast => 0x04 | .best => 0x02 | .balanced => 0x00, 0xff]

/-- `emitWrapped` — Compression.hpp:809-834 -/
def emitWrapped (W : Nat) (data : List Byte) (tokens : List Token) (c : Coding) (e : Encoding) (format : Format) (level : Level) : List Op :=
  match format with
  | .zlib => [.bits (zlibHeader level >>> 8) 8, .bits (zlibHeader level &&& 0xff) 8] ++ emitDeflate data tokens c e true ++ putBig32 (adler32 data)
  | .gzip => (gzipHeader level).map (fun b => .bits b 8) ++ emitDeflate data tokens c e true ++ putLittle32 (computeCrc32 W data) ++
      putLittle32 data.length
  | .rawDeflate => emitDeflate data tokens c e true

/-- the tokens of a whole buffer — Compression.hpp:838, 2005-2007 -/
def oneShotTokens (data : List Byte) (level : Level) : List Token :=
  ((⟨data, 0, historyBound data.length, level⟩ : Window).tokenize .fresh 0 0).1

/-- `compressInto` — Compression.hpp:836-841 -/
def compressOps (W : Nat) (data : List Byte) (format : Format) (level : Level) : List Op :=
  let tokens := oneShotTokens data level
  let c := makeDynamicCoding tokens
  emitWrapped W data tokens c (selectEncoding data.length tokens c true) format level

/-- `compress` — Compression.hpp:2002-2028: bytes, or the error of an overflowed sink -/
def compress (W : Nat) (data : List Byte) (format : Format) (level : Level) : Res (List Byte) :=
  let out := (Writer.fresh.run (compressOps W data format level)).out
  if compressBound data.length format < out.length then .error (.err .outputTooSmall) else .ok out

end Verif.Deflate
