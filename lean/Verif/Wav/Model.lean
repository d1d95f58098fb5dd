import Verif.FileIo.Model
/-!
Model of reading WAV files (blocks/fileio/include/gnuradio-4.0/fileio/WavBlocks.hpp): the header, the samples and the source block.

Numbers of the C++ type `double` that occur are ratios of whole numbers here; all of them are exact in C++ too (see `toI16`). Left out: names of files and
directories, the time in tags, the texts of errors, the cast of a ratio to `float` (a function of the ratio).
-/
namespace Verif.Wav
open Verif.Bytes (Byte leNat)
open Verif.FileIo (Msg poll Polled)

/-- `WavFormat` (WavBlocks.hpp:61-69). -/
structure Fmt where
  tag : Nat
  channels : Nat
  rate : Nat
  align : Nat
  bits : Nat
deriving DecidableEq, Repr

/-- `bytesPerSample` (WavBlocks.hpp:68). -/
def Fmt.width (f : Fmt) : Nat := f.bits / 8

/-- The errors of the header and of the data (WavBlocks.hpp:73, 84, 87, 93, 100, 106, 310, 333, 395-410, 475, 486, 489). -/
inductive Err where
  | fmtSmall
  | fmtIncomplete
  | fmtBits
  | fmtExtensible
  | fmtAlign
  | fmtUnsupported
  | notWave
  | dataBeforeFmt
  | dataSize
  | headerTooLarge
  | headerMissing
  | midSample
  | truncated
  | reader (e : Verif.FileIo.Err)
deriving DecidableEq

/-- `readLe16`, `readLe32` at a position (WavBlocks.hpp:38-43). -/
def at16 (b : List Byte) (i : Nat) : Nat := leNat ((b.drop i).take 2)
def at32 (b : List Byte) (i : Nat) : Nat := leNat ((b.drop i).take 4)

/-- `parseWavFmtChunk` (WavBlocks.hpp:71-110). -/
def parseFmt (b : List Byte) : Except Err Fmt :=
  if b.length < 16 then .error .fmtSmall
  else
    let raw := at16 b 0
    let channels := at16 b 2
    let rate := at32 b 4
    let align := at16 b 12
    let bits := at16 b 14
    if channels = 0 ∨ rate = 0 ∨ bits = 0 then .error .fmtIncomplete
    else if bits % 8 ≠ 0 then .error .fmtBits
    else if raw = 0xFFFE ∧ b.length < 40 then .error .fmtExtensible
    else
      let tag := if raw = 0xFFFE then at16 b 24 else raw
      if align = 0 ∨ align ≠ channels * (bits / 8) then .error .fmtAlign
      else if (tag = 1 ∧ (bits = 8 ∨ bits = 16 ∨ bits = 24 ∨ bits = 32)) ∨ (tag = 3 ∧ bits = 32) then .ok ⟨tag, channels, rate, align, bits⟩
      else .error .fmtUnsupported

/-- The type of the samples of a block: `std::int16_t` or `float` (WavBlocks.hpp:36). -/
inductive Kind where
  | i16
  | f32
deriving DecidableEq, Repr

/-- `sizeof(T)`. -/
def Kind.size : Kind → Nat
  | .i16 => 2
  | .f32 => 4

/-- A sample that is put out: a whole number; a `float` given by its bits; the `float` next to a ratio; or the number that `std::lround` makes of a NaN, which
the standard does not say. -/
inductive Out where
  | i16 (v : Int)
  | f32 (bits : Nat)
  | ratio (num : Int) (den : Nat)
  | unspecified
deriving DecidableEq, Repr

/-- `std::lround` of `num / den` (half away from zero). -/
def lround (num : Int) (den : Nat) : Int :=
  if 0 ≤ num then ((2 * num.toNat + den) / (2 * den) : Nat) else -((2 * (-num).toNat + den) / (2 * den) : Nat)

/-- `convertNormalisedSample<std::int16_t>` (WavBlocks.hpp:112-124) of `num / den`. The product with 32767 is exact in `double`: `num` has at most 32
significant bits. -/
def toI16 (num : Int) (den : Nat) : Int :=
  let clamped := max (-(den : Int)) (min num den)
  if clamped ≤ -(den : Int) then -32768
  else max (-32768) (min (lround (clamped * 32767) den) 32767)

/-- A `float` that is a number, times 2 ^ 149, and without its sign; the infinities count as 2 ^ 128. -/
def f32Mag (bits : Nat) : Nat :=
  let e := bits / 2 ^ 23 % 256
  let m := bits % 2 ^ 23
  if e = 0 then m else (2 ^ 23 + m) * 2 ^ (e - 1)

/-- Whether the bits are those of a NaN. -/
def f32Nan (bits : Nat) : Bool := decide (0x7F800000 < bits % 2 ^ 31)

/-- The value of a `float` that is a number, times 2 ^ 149. -/
def f32Num (bits : Nat) : Int := if bits / 2 ^ 31 % 2 = 1 then -(f32Mag bits) else f32Mag bits

/-- `convertNormalisedSample<float>` (WavBlocks.hpp:113-117) of a `float`, in terms of its bits: `std::clamp` leaves NaNs alone. -/
def clampF32 (bits : Nat) : Nat :=
  if f32Nan bits then bits
  else if f32Num bits < -(2 ^ 149 : Int) then 0xBF800000
  else if (2 ^ 149 : Int) < f32Num bits then 0x3F800000
  else bits

/-- A number of `n` bits taken as signed. -/
def signed (n v : Nat) : Int := if v < 2 ^ (n - 1) then v else (v : Int) - 2 ^ n

/-- The integer encodings as ratios (WavBlocks.hpp:140-157). -/
def pcm (f : Fmt) (b : List Byte) : Int × Nat :=
  if f.bits = 8 then ((leNat (b.take 1) : Int) - 128, 128)
  else if f.bits = 16 then (signed 16 (leNat (b.take 2)), 32768)
  else if f.bits = 24 then (signed 24 (leNat (b.take 3)), 8388608)
  else if f.bits = 32 then (signed 32 (leNat (b.take 4)), 2147483648)
  else (0, 1)

/-- `decodeWavSample` (WavBlocks.hpp:126-161). -/
def decode (k : Kind) (f : Fmt) (b : List Byte) : Out :=
  if k = .i16 ∧ f.tag = 1 ∧ f.bits = 16 then .i16 (signed 16 (leNat (b.take 2)))
  else if f.tag = 3 then
    let v := leNat (b.take 4)
    match k with
    | .f32 => .f32 (clampF32 v)
    | .i16 => if f32Nan v then .unspecified else .i16 (toI16 (f32Num v) (2 ^ 149))
  else
    let (num, den) := pcm f b
    match k with
    | .f32 => .ratio (max (-(den : Int)) (min num den)) den
    | .i16 => .i16 (toI16 num den)

/-- The settings of `WavSource` (WavBlocks.hpp:176-183); `maxSamples` is the `max_samples` of its output. -/
structure Cfg where
  kind : Kind
  offset : Nat := 0
  length : Nat := 0
  again : Bool := false
  maxSamples : Nat := 2 ^ 64 - 1

/-- The configuration of its readers (WavBlocks.hpp:436-438). The product is that of `std::size_t`. -/
def Cfg.reader (c : Cfg) : Verif.FileIo.Cfg := { chunkBytes := max 1 (c.maxSamples * c.kind.size % 2 ^ 64 / 4), align := 1 }

/-- The names of chunks. -/
def RIFF : List Byte := [0x52#8, 0x49#8, 0x46#8, 0x46#8]
def WAVE : List Byte := [0x57#8, 0x41#8, 0x56#8, 0x45#8]
def FMT : List Byte := [0x66#8, 0x6D#8, 0x74#8, 0x20#8]
def DATA : List Byte := [0x64#8, 0x61#8, 0x74#8, 0x61#8]

/-- What a header that was read says: the format, the bytes of data to decode and to skip before that, and the bytes behind the header that are there. -/
structure Head where
  fmt : Fmt
  remaining : Nat
  skip : Nat
  rest : List Byte
deriving DecidableEq

/-- The data chunk (WavBlocks.hpp:484-515): `size` is its size, `rest` what is there of it. -/
def dataChunk (c : Cfg) (f : Fmt) (size : Nat) (rest : List Byte) : Head :=
  let off := c.offset * f.width
  let rem := if 0 < off ∧ off < size then size - off else if size ≤ off then 0 else size
  let skip := if 0 < off ∧ off < size then off else 0
  { fmt := f, remaining := if c.length ≠ 0 then min rem (c.length * f.width) else rem, skip := skip, rest := rest }

/-- The loop of `tryParseHeader` (WavBlocks.hpp:478-537) on the bytes from `pos` on; `none` if there are too few. The first argument bounds the turns. -/
def chunks (c : Cfg) : Nat → Option Fmt → List Byte → Except Err (Option Head)
  | 0, _, _ => .ok none
  | n + 1, f, b =>
    if b.length < 8 then .ok none
    else
      let id := b.take 4
      let size := at32 b 4
      let b := b.drop 8
      if id = DATA then
        match f with
        | none => .error .dataBeforeFmt
        | some f => if size % f.align ≠ 0 then .error .dataSize else .ok (some (dataChunk c f size b))
      else
        let padded := size + size % 2
        if b.length < padded then .ok none
        else if id = FMT then
          match parseFmt (b.take size) with
          | .error e => .error e
          | .ok g => chunks c n (some g) (b.drop padded)
        else chunks c n f (b.drop padded)

/-- `tryParseHeader` (WavBlocks.hpp:464-538). -/
def tryParse (c : Cfg) (b : List Byte) : Except Err (Option Head) :=
  if b.length < 12 then .ok none
  else if b.take 4 ≠ RIFF ∨ (b.drop 8).take 4 ≠ WAVE then .error .notWave
  else chunks c b.length none (b.drop 12)

/-- `decodeChunk` (WavBlocks.hpp:540-587) with `part` bytes of a sample at hand and `room` in the output: the samples, the number of bytes consumed, and the bytes of
a sample kept. -/
def decodeChunk (k : Kind) (f : Fmt) (part b : List Byte) (room : Nat) : List Out × Nat × List Byte :=
  if b = [] ∨ room = 0 ∨ f.width = 0 then ([], 0, part)
  else
    let take := if part = [] then 0 else min (f.width - part.length) b.length
    let first := part ++ b.take take
    if part ≠ [] ∧ first.length ≠ f.width then ([], take, first)
    else
      let done := if part = [] then [] else [decode k f first]
      let n := min (room - done.length) ((b.length - take) / f.width)
      let more := (List.range n).map fun i => decode k f ((b.drop (take + i * f.width)).take f.width)
      let pos := take + n * f.width
      let left := b.length - pos
      if 0 < left ∧ left < f.width then (done ++ more, b.length, b.drop pos) else (done ++ more, pos, [])

/-- The members of `WavSource` (WavBlocks.hpp:194-210) but those that are never read, with `queue` for the messages that the reader still has to give, and what was published so far: samples, and
start tags with rate and channels. -/
structure St where
  next : Nat
  queue : List Msg
  head : Bool
  final : Bool
  failed : Bool
  fmt : Fmt
  remaining : Nat
  skip : Nat
  buf : List Byte
  part : List Byte
  pending : Bool
  error : Option Err
  out : List Out
  tags : List (Nat × Nat × Nat)

/-- `WavFormat` as it comes (WavBlocks.hpp:61-66). -/
def Fmt.none : Fmt := ⟨0, 0, 0, 0, 0⟩

/-- `openNextFile` (WavBlocks.hpp:430-447), with `resetFileState` (214-227). `files` are the messages of the readers of the files. -/
def St.openNext (files : List (List Msg)) (s : St) : St :=
  match files[s.next]? with
  | none => s
  | some q =>
    { s with next := s.next + 1, queue := q, head := false, final := false, failed := false, fmt := .none, remaining := 0, skip := 0, buf := [], part := [],
             pending := true }

/-- `start` (WavBlocks.hpp:237-261). -/
def St.start (files : List (List Msg)) : St :=
  St.openNext files
    { next := 0, queue := [], head := false, final := false, failed := false, fmt := .none, remaining := 0, skip := 0, buf := [], part := [], pending := true,
      error := none, out := [], tags := [] }

inductive Status where
  | ok
  | insufficient
  | done
  | error
deriving DecidableEq, Repr

/-- `fail` (WavBlocks.hpp:229-235), and the returns that follow it. -/
def St.fail (s : St) (e : Err) : Status × St := (.error, { s with error := some e, final := true, failed := true, queue := [] })

/-- `finishCurrentFile` (WavBlocks.hpp:449-462). -/
def St.finish (c : Cfg) (files : List (List Msg)) (s : St) : Status × St :=
  if s.next < files.length then (.ok, s.openNext files)
  else if c.again = true ∧ files ≠ [] then (.ok, St.openNext files { s with next := 0 })
  else (.done, s)

/-- The largest header (WavBlocks.hpp:187). -/
def maxHeader : Nat := 1024 * 1024

/-- The header part of `processBulk` (WavBlocks.hpp:287-336), with what the poll gave. -/
def St.header (c : Cfg) (s : St) (p : Option Polled) : Except Err St :=
  let r : Except Err St :=
    match p with
    | some (.error e) => .error (.reader e)
    | some .final => .ok { s with final := true }
    | some (.data b) => let s := { s with buf := s.buf ++ b }; if maxHeader < s.buf.length then .error .headerTooLarge else .ok s
    | _ => .ok s
  match r with
  | .error e => .error e
  | .ok s =>
    match tryParse c s.buf with
    | .error e => .error e
    | .ok none => if s.final then .error .headerMissing else .ok s
    | .ok (some h) => .ok { s with head := true, fmt := h.fmt, remaining := h.remaining, skip := h.skip, buf := h.rest }

/-- Bytes to skip are dropped from those at hand (WavBlocks.hpp:338-343). -/
def St.skipped (s : St) : St :=
  let n := min s.skip s.buf.length
  if s.head = true ∧ 0 < s.skip ∧ s.buf ≠ [] then { s with buf := s.buf.drop n, skip := s.skip - n } else s

/-- The bytes at hand (WavBlocks.hpp:345-360): the samples and the new state. -/
def St.buffered (c : Cfg) (s : St) (room : Nat) : List Out × St :=
  if s.head = true ∧ s.buf ≠ [] then
    let (o, n, p) := decodeChunk c.kind s.fmt s.part (s.buf.take (min s.buf.length s.remaining)) room
    let s := { s with buf := s.buf.drop n, remaining := s.remaining - n, part := p }
    (o, if s.remaining = 0 then { s with buf := [] } else s)
  else ([], s)

/-- A piece (WavBlocks.hpp:382-392). -/
def St.piece (c : Cfg) (s : St) (b : List Byte) (room : Nat) : List Out × St :=
  let n := min b.length s.remaining
  let (o, k, p) := decodeChunk c.kind s.fmt s.part (b.take n) room
  (o, { s with remaining := s.remaining - k, part := p, buf := if k < n then (b.take n).drop k else s.buf })

/-- `maxBytesForOutputSamples` (WavBlocks.hpp:589-600). -/
def St.maxBytes (s : St) (room : Nat) : Nat := if s.fmt.width = 0 ∨ room = 0 then 0 else room * s.fmt.width - s.part.length

/-- The end of `processBulk` (WavBlocks.hpp:402-427), with the samples that are to be published; `tooLarge` if the piece that is next was too large. -/
def St.conclude (c : Cfg) (files : List (List Msg)) (s : St) (o : List Out) (tooLarge : Bool) : Status × St :=
  if s.final = true ∧ s.part ≠ [] then s.fail .midSample
  else if s.final = true ∧ 0 < s.remaining ∧ s.buf = [] then s.fail .truncated
  else if s.head = true ∧ s.remaining = 0 ∧ s.part ≠ [] then s.fail .midSample
  else
    let s := if o ≠ [] ∧ s.pending = true then { s with tags := s.tags ++ [(s.out.length, s.fmt.rate, s.fmt.channels)], pending := false } else s
    let s := { s with out := s.out ++ o }
    if tooLarge = true ∧ o = [] then (.insufficient, s)
    else if s.head = true ∧ s.remaining = 0 then s.finish c files
    else (.ok, s)

/-- `processBulk` (WavBlocks.hpp:268-427) with room for `room` samples; `arrived` says whether the reader's next message is there when the block polls. -/
def St.call (c : Cfg) (files : List (List Msg)) (s : St) (room : Nat) (arrived : Bool) : Status × St :=
  if room = 0 then (.insufficient, s)
  else if s.failed = true then (.error, s)
  else if s.head = false then
    let (p, q) := if arrived then poll s.queue Verif.FileIo.npos else (none, s.queue)
    match St.header c { s with queue := q } p with
    | .error e => St.fail { s with queue := q } e
    | .ok s =>
      let (o, s) := s.skipped.buffered c room
      s.conclude c files o false
  else
    let (o, s) := s.skipped.buffered c room
    if s.buf = [] ∧ o.length < room ∧ 0 < s.remaining then
      match if arrived then poll s.queue (s.maxBytes (room - o.length)) else (none, s.queue) with
      | (none, _) => s.conclude c files o false
      | (some (.tooLarge _), _) => s.conclude c files o true
      | (some (.error e), q) => St.fail { s with queue := q } (.reader e)
      | (some .final, q) => St.conclude c files { s with queue := q, final := true } o false
      | (some (.data b), q) =>
        let (o', s) := St.piece c { s with queue := q } b (room - o.length)
        s.conclude c files (o ++ o') false
    else s.conclude c files o false

/-- Calls, one after the other, with the given room and arrivals: what they return and the state after them. -/
def St.calls (c : Cfg) (files : List (List Msg)) : St → List (Nat × Bool) → List Status × St
  | s, [] => ([], s)
  | s, (r, a) :: rs =>
    let (x, s) := s.call c files r a
    let (l, s) := St.calls c files s rs
    (x :: l, s)

end Verif.Wav
