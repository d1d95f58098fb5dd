import Verif.Deflate.Stream
import Verif.Deflate.Emit
/-!
# Streaming encoder — model of core/include/gnuradio-4.0/Compression.hpp:2466-2679

Positions are unbounded numbers here; in the code they are `std::size_t`, which 2^64 bytes of input would wrap. Failing allocations
(`Error::allocationFailed`) are not modelled.
-/
namespace Verif.Deflate
open Verif.Bytes (Byte)

/-- `StreamCompressor` — Compression.hpp:2563-2583. The token scratch has no content between calls: `tokenRoom` is its size, which is the size of
`_previous` as well. -/
structure Enc where
  format : Format
  level : Level
  blockBytes : Nat
  window : List Byte
  historyBytes : Nat
  basePosition : Nat
  indexedEnd : Nat
  tokenRoom : Nat
  chains : Chains
  pending : List Byte
  pendingPos : Nat
  bits : Nat
  bitCount : Nat
  started : Bool
  finalQueued : Bool
  finished : Bool
  crcState : BitVec 32
  adler : Nat × Nat
  inputSize : Nat

/-- the constructor and `reset` — Compression.hpp:2468-2493 -/
def Enc.fresh (format : Format) (level : Level) (blockBytes : Nat) : Enc :=
  let blockBytes := max 1 (min blockBytes kMaxStoredBlock)
  ⟨format, level, blockBytes, [], 0, 0, 0, kWindowSize + blockBytes, .fresh, [], 0, 0, 0, false, false, false, 0xffffffff#32, (1, 0), 0⟩

/-- `pendingBytes` — Compression.hpp:2585 -/
def Enc.pendingBytes (e : Enc) : Nat := e.window.length - e.historyBytes

/-- `appendByte` — Compression.hpp:2587 -/
def toByte (v : Nat) : Byte := BitVec.ofNat 8 (v &&& 0xff)
/-- `appendLittle32` — Compression.hpp:2589-2594 -/
def little32 (v : Nat) : List Byte := [toByte v, toByte (v >>> 8), toByte (v >>> 16), toByte (v >>> 24)]
/-- `appendBig32` — Compression.hpp:2596-2601 -/
def big32 (v : Nat) : List Byte := [toByte (v >>> 24), toByte (v >>> 16), toByte (v >>> 8), toByte v]

/-- `queueHeader`; the header values are those of the one-shot encoder, written out again in the code — Compression.hpp:2603-2619 -/
def Enc.queueHeader (e : Enc) : Enc :=
  match e.format with
  | .zlib =>
    let flevel := match e.level with | .fast => 0 | .best => 3 | .balanced => 2
    let header := (0x78 <<< 8) ||| (flevel <<< 6)
    let header := header + (31 - header % 31) % 31
    { e with pending := e.pending ++ [toByte (header >>> 8), toByte header] }
  | .gzip =>
    let xfl := match e.level with | .fast => 0x04 | .best => 0x02 | .balanced => 0x00
    { e with pending := e.pending ++ [0x1f, 0x8b, 0x08, 0x00, 0x00, 0x00, 0x00, 0x00, xfl, 0xff].map toByte }
  | .rawDeflate => e

/-- `noteInput` and the append to the window — Compression.hpp:2536-2540, 2621-2625 -/
def Enc.take (e : Enc) (chunk : List Byte) : Enc :=
  { e with crcState := Crc.updateScalar Crc.ieee e.crcState chunk, adler := updateAdler e.adler chunk,
           inputSize := (e.inputSize + chunk.length % 2 ^ 32) % 2 ^ 32, window := e.window ++ chunk }

/-- `slideWindow` — Compression.hpp:2649-2658 -/
def Enc.slideWindow (e : Enc) : Enc :=
  if kWindowSize < e.window.length then
    { e with window := e.window.drop (e.window.length - kWindowSize), historyBytes := kWindowSize,
             basePosition := e.basePosition + (e.window.length - kWindowSize) }
  else { e with historyBytes := e.window.length }

/-- `queueDeflateBlock`; undefined behaviour: `subspan` beyond the end, a difference of positions that wraps, the assertion, a write past the token scratch —
Compression.hpp:2627-2647 -/
def Enc.queueBlock (e : Enc) (final : Bool) : Res Enc :=
  if ¬ (e.historyBytes ≤ e.window.length ∧ e.basePosition ≤ e.indexedEnd ∧ e.window.length ≤ e.tokenRoom) then .error .ub
  else
    let pending := e.window.drop e.historyBytes
    let r := (⟨e.window, e.basePosition, e.tokenRoom, e.level⟩ : Window).tokenize e.chains (e.indexedEnd - e.basePosition) e.historyBytes
    if e.tokenRoom < r.1.length then .error .ub
    else
      let coding := makeDynamicCoding r.1
      let encoding := selectEncoding pending.length r.1 coding final
      let w := (⟨e.pending, e.bits, e.bitCount⟩ : Writer).run (emitDeflate pending r.1 coding encoding final)
      .ok { e with chains := r.2, pending := w.out, bits := w.acc, bitCount := w.count,
                   indexedEnd := e.basePosition + (if 2 ≤ e.window.length then e.window.length - 2 else 0) }.slideWindow

/-- `queueTrailer` — Compression.hpp:2660-2667 -/
def Enc.queueTrailer (e : Enc) : Enc :=
  match e.format with
  | .zlib => { e with pending := e.pending ++ big32 (adlerWord e.adler) }
  | .gzip => { e with pending := e.pending ++ (little32 (e.crcState ^^^ 0xffffffff#32).toNat ++ little32 e.inputSize) }
  | .rawDeflate => e

/-- `drain`: the bytes copied into an output with `room` bytes left — Compression.hpp:2669-2678 -/
def Enc.drain (e : Enc) (room : Nat) : List Byte × Enc :=
  let count := min room (e.pending.length - e.pendingPos)
  let copied := (e.pending.drop e.pendingPos).take count
  if e.pendingPos + count = e.pending.length then (copied, { e with pending := [], pendingPos := 0 })
  else (copied, { e with pendingPos := e.pendingPos + count })

/-- `queueDeflateBlock(true)`, `queueTrailer` — Compression.hpp:2527-2533, 2543-2547 -/
def Enc.queueFinal (e : Enc) : Res Enc :=
  match e.queueBlock true with
  | .error f => .error f
  | .ok e => .ok { e.queueTrailer with finalQueued := true }

/-- the loop of `process`; the first argument bounds the number of turns: input not consumed yet, output of this call so far — Compression.hpp:2514-2550 -/
def Enc.go (finish : Bool) (room : Nat) : Nat → Enc → List Byte → List Byte → Res (Enc × List Byte × List Byte)
  | 0, _, _, _ => .error .fuel
  | n + 1, e, input, out =>
    let out' := out ++ (e.drain (room - out.length)).1
    let e' := (e.drain (room - out.length)).2
    if out'.length = room then .ok (e', input, out')
    else if e'.finalQueued then .ok (if e'.pending = [] then { e' with finished := true } else e', input, out')
    else if e'.pendingBytes = e'.blockBytes then
      if finish && decide (input = []) then
        match e'.queueFinal with
        | .error f => .error f
        | .ok e'' => go finish room n e'' input out'
      else
        match e'.queueBlock false with
        | .error f => .error f
        | .ok e'' => go finish room n e'' input out'
    else if input ≠ [] then
      let count := min input.length (e'.blockBytes - e'.pendingBytes)
      go finish room n (e'.take (input.take count)) (input.drop count) out'
    else if finish then
      match e'.queueFinal with
      | .error f => .error f
      | .ok e'' => go finish room n e'' input out'
    else .ok (e', input, out')

/-- `process` — Compression.hpp:2497-2560 -/
def Enc.process (e : Enc) (input : List Byte) (room : Nat) (finish : Bool) : Res (StreamResult × Enc) :=
  if e.finished then
    if input ≠ [] then .error (.err .trailingData) else .ok (⟨0, [], .done⟩, e)
  else
    let e := if e.started then e else { e.queueHeader with started := true }
    match Enc.go finish room (2 * input.length + 4) e input [] with
    | .error f => .error f
    | .ok (e, rest, out) =>
      .ok (⟨input.length - rest.length, out,
        if e.finished then .done else if e.pendingPos < e.pending.length then .needOutput else .needInput⟩, e)

end Verif.Deflate
