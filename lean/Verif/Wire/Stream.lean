import Verif.Util.Bytes
import Verif.Crc.Model
/-!
# Model of `gr::wire` streaming transport (core/include/gnuradio-4.0/WireStream.hpp)

Buffers are byte lists; `none` in the outer `Option` of reading functions stands for an out-of-bounds access.
The `assert`s on output sizes (WireStream.hpp:50,77) are met by construction because outputs are appended.
-/
namespace Verif.Wire
open Verif.Bytes

/-- `kStreamMagic` = "GR4W" — WireStream.hpp:23. -/
def magic : List Byte := [0x47#8, 0x52#8, 0x34#8, 0x57#8]
/-- `kStreamVersionV1` — WireStream.hpp:24. -/
def versionV1 : Nat := 1
/-- `kStreamHeaderBytes`, `kFrameEnvelopeBytes`, `kFrameCrcOffset` — WireStream.hpp:28-30. -/
def headerBytes : Nat := 8
def envelopeBytes : Nat := 16
def crcOffset : Nat := 12

/-- `(flags & kStreamFlagFrameCRC) != 0` — WireStream.hpp:26,128,210. -/
def hasCrc (flags : Nat) : Bool := flags % 2 == 1

/-- `writeStreamHeader` — WireStream.hpp:45-50 with `version = kStreamVersionV1`; `flags` is a `uint16_t`. -/
def streamHeader (flags : Nat) : List Byte := magic ++ le 2 versionV1 ++ le 2 flags

/-- `readStreamHeader` — WireStream.hpp:53-69; the result is the flags field. -/
def readStreamHeader (bs : List Byte) : Option (Option Nat) := do
  if bs.length < headerBytes then return none
  let m ← slice bs 0 4
  if m != magic then return none
  let v ← slice bs 4 2
  let f ← slice bs 6 2
  if leNat v != versionV1 then return none
  return some (leNat f)

/-- `FrameEnvelope` — WireStream.hpp:38-42. -/
structure Envelope where
  frameSize : Nat
  sequence : Nat
  crc : Nat
  deriving DecidableEq, Repr

/-- `writeFrameEnvelope` — WireStream.hpp:73-78. -/
def envelope (e : Envelope) : List Byte := le 4 e.frameSize ++ le 8 e.sequence ++ le 4 e.crc

/-- `readFrameEnvelope` — WireStream.hpp:80-89; inner `none` = buffer shorter than an envelope. -/
def readEnvelope (bs : List Byte) : Option (Option Envelope) := do
  if bs.length < envelopeBytes then return none
  let a ← slice bs 0 4
  let b ← slice bs 4 8
  let c ← slice bs crcOffset 4
  return some { frameSize := leNat a, sequence := leNat b, crc := leNat c }

/-- `computeFrameCrc` — WireStream.hpp:94-100; `W` is the native SIMD width. -/
def frameCrc (W : Nat) (env payload : List Byte) : Nat :=
  let e := Crc.Flavour.castagnoli.engine
  (Crc.updateSimd e W (Crc.updateSimd e W e.init env) payload ^^^ e.xorOut).toNat

/-- `WireStreamWriter` — WireStream.hpp:105-140. -/
structure Writer where
  flags : Nat
  sequence : Nat := 0
  headerWritten : Bool := false
  deriving DecidableEq, Repr

/-- `writeHeader` — WireStream.hpp:110-116. -/
def Writer.writeHeader (w : Writer) (out : List Byte) : Writer × List Byte :=
  ({ w with sequence := 0, headerWritten := true }, out ++ streamHeader w.flags)

/-- `writeFrame` — WireStream.hpp:121-139: header on first use; `frame_size` is the payload size truncated to 32 bits;
the 64-bit sequence number is post-incremented; the envelope is written with a zero CRC, the CRC computed
over it and the payload, and the envelope rewritten. -/
def Writer.writeFrame (W : Nat) (w : Writer) (out payload : List Byte) : Writer × List Byte :=
  let (w, out) := if w.headerWritten then (w, out) else w.writeHeader out
  let env : Envelope := { frameSize := payload.length % 2 ^ 32, sequence := w.sequence, crc := 0 }
  let env' := if hasCrc w.flags then { env with crc := frameCrc W (envelope env) payload } else env
  ({ w with sequence := (w.sequence + 1) % 2 ^ 64 }, out ++ envelope env' ++ payload)

/-- Writing a list of payloads as frames. -/
def Writer.writeFrames (W : Nat) (w : Writer) (out : List Byte) : List (List Byte) → Writer × List Byte
  | [] => (w, out)
  | p :: ps => let (w, out) := w.writeFrame W out p; w.writeFrames W out ps

/-- `FrameStatus` — WireStream.hpp:149. -/
inductive Status where | ok | truncated | badCrc | badSequence
  deriving DecidableEq, Repr

/-- `FrameView` — WireStream.hpp:153-157. -/
structure FrameView where
  envelope : Envelope := { frameSize := 0, sequence := 0, crc := 0 }
  payload : List Byte := []
  status : Status := .ok
  deriving DecidableEq, Repr

/-- `WireStreamReader` — WireStream.hpp:228-232. -/
structure Reader where
  bytes : List Byte
  cursor : Nat
  flags : Nat
  nextExpected : Nat
  deriving DecidableEq, Repr

/-- `WireStreamReader::begin` — WireStream.hpp:166-177 (outer `none`: out-of-bounds; inner `none`: bad header). -/
def Reader.begin (bs : List Byte) : Option (Option Reader) := do
  match ← readStreamHeader bs with
  | none => return none
  | some f => return some { bytes := bs, cursor := headerBytes, flags := f, nextExpected := 0 }

/-- `WireStreamReader::next` — WireStream.hpp:182-225 (outer `none`: out-of-bounds; inner `none`: end of stream).
`subspan(_cursor)` at 187 is `drop` (its precondition `cursor ≤ size` is checked at 183). -/
def Reader.next (W : Nat) (r : Reader) : Option (Option FrameView × Reader) := do
  if r.bytes.length ≤ r.cursor then return (none, r)
  let e ← readEnvelope (r.bytes.drop r.cursor)
  match e with
  | none => return (some { status := .truncated }, { r with cursor := r.bytes.length })
  | some env =>
    let envEnd := r.cursor + envelopeBytes
    if env.frameSize > r.bytes.length - envEnd then
      return (some { envelope := env, status := .truncated }, { r with cursor := r.bytes.length })
    let frameEnd := envEnd + env.frameSize
    let payload ← slice r.bytes envEnd env.frameSize
    let st := if env.sequence != r.nextExpected then Status.badSequence else Status.ok
    let envCopy ← slice r.bytes r.cursor envelopeBytes
    let zeroed := envCopy.take crcOffset ++ le 4 0
    let st := if hasCrc r.flags && frameCrc W zeroed payload != env.crc then Status.badCrc else st
    return (some { envelope := env, payload := payload, status := st },
      { r with cursor := frameEnd, nextExpected := (r.nextExpected + 1) % 2 ^ 64 })

/-- `n` successive calls of `next`. -/
def Reader.nexts (W : Nat) : Nat → Reader → Option (List (Option FrameView))
  | 0, _ => some []
  | n + 1, r => do
    let (v, r') ← r.next W
    let vs ← r'.nexts W n
    return v :: vs

end Verif.Wire
