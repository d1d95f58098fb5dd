import Verif.Wav.Model
/-!
Model of writing WAV files (`WavSink`, WavBlocks.hpp:617-782). Left out: a file that cannot be opened, `start` while a file is open, and the time in file names.
-/
namespace Verif.Wav
open Verif.Bytes (Byte le)

/-- The settings (WavBlocks.hpp:629-634). `rate` is the whole part of the sample rate, at least 1 and less than 2 ^ 32: the cast of larger ones to `std::uint32_t` (730) is
undefined. `maxBytes` is 0 if files are not rotated, which needs the mode `multi`. -/
structure SinkCfg where
  kind : Kind
  channels : Nat := 1
  rate : Nat := 48000
  maxBytes : Nat := 0

/-- `kFormatTag`, `kBitsPerSamp` (WavBlocks.hpp:639-640). -/
def Kind.tag : Kind → Nat
  | .i16 => 1
  | .f32 => 3
def Kind.bits : Kind → Nat
  | .i16 => 16
  | .f32 => 32

/-- The channels and the bytes of a frame in the header, numbers of 16 bits (WavBlocks.hpp:729, 731). -/
def SinkCfg.ch (c : SinkCfg) : Nat := max 1 c.channels % 2 ^ 16
def SinkCfg.align (c : SinkCfg) : Nat := c.ch * (c.kind.bits / 8) % 2 ^ 16

/-- `writeHeader` (WavBlocks.hpp:728-753): both sizes are 0. -/
def SinkCfg.header (c : SinkCfg) : List Byte :=
  RIFF ++ le 4 0 ++ WAVE ++ FMT ++ le 4 16 ++ le 2 c.kind.tag ++ le 2 c.ch ++ le 4 c.rate ++ le 4 (c.rate * c.align) ++ le 2 c.align ++ le 2 c.kind.bits ++ DATA ++ le 4 0

/-- Bytes written over those at a position (`seekp` and `write`). -/
def overwrite (b : List Byte) (pos : Nat) (x : List Byte) : List Byte := b.take pos ++ x ++ b.drop (pos + x.length)

/-- `patchHeaderSizes` (WavBlocks.hpp:755-769) after `n` samples. -/
def SinkCfg.patch (c : SinkCfg) (n : Nat) (b : List Byte) : List Byte :=
  let size := n * c.kind.size % 2 ^ 32
  overwrite (overwrite b 4 (le 4 ((36 + size) % 2 ^ 32))) 40 (le 4 size)

/-- The block: the files that are closed, the bytes of the one that is open, whether its header was written, its samples, and all samples
(a number of 32 bits). -/
structure Snk where
  closed : List (List Byte)
  bytes : List Byte
  header : Bool
  count : Nat
  total : Nat
deriving DecidableEq

/-- `start` (WavBlocks.hpp:649-653). -/
def Snk.start : Snk := ⟨[], [], false, 0, 0⟩

/-- `closeFile` (WavBlocks.hpp:721-726). -/
def Snk.close (c : SinkCfg) (s : Snk) : Snk := { s with closed := s.closed ++ [if s.header then c.patch s.count s.bytes else s.bytes], bytes := [], header := false, count := 0 }

/-- The header is written if it was not (WavBlocks.hpp:663-666). -/
def Snk.begin (c : SinkCfg) (s : Snk) : Snk := if s.header then s else { s with bytes := s.bytes ++ c.header, header := true }

/-- The bytes of a sample (`reinterpret_cast`, WavBlocks.hpp:692), which is given by its bits. -/
def SinkCfg.raw (c : SinkCfg) (x : Nat) : List Byte := le c.kind.size x

/-- `processBulk` (WavBlocks.hpp:657-698) with the samples that are there: what it returns, how many it takes, and the new state. -/
def Snk.call (c : SinkCfg) (s : Snk) (x : List Nat) : Status × Nat × Snk :=
  let s := s.begin c
  let s := if c.maxBytes ≠ 0 ∧ c.maxBytes ≤ s.count * c.kind.size then (s.close c).begin c else s
  if x = [] then (.insufficient, 0, s)
  else
    let n := if c.maxBytes ≠ 0 then min x.length ((c.maxBytes - s.count * c.kind.size) / c.kind.size) else x.length
    (.ok, n, { s with bytes := s.bytes ++ (x.take n).flatMap c.raw, count := s.count + n, total := (s.total + n) % 2 ^ 32 })

/-- Calls, each with the samples that were left and those that have come: what they return, the samples that are left, and the state. -/
def Snk.calls (c : SinkCfg) : Snk → List Nat → List (List Nat) → List Status × List Nat × Snk
  | s, left, [] => ([], left, s)
  | s, left, x :: xs =>
    let (st, n, s) := s.call c (left ++ x)
    let (l, left, s) := Snk.calls c s ((left ++ x).drop n) xs
    (st :: l, left, s)

/-- The files after the calls and `stop` (WavBlocks.hpp:655). -/
def sinkFiles (c : SinkCfg) (xs : List (List Nat)) : List (List Byte) := ((Snk.start.calls c [] xs).2.2.close c).closed

/-- The name of a file, without the directory (WavBlocks.hpp:711), and the order of the files of a source (WavBlocks.hpp:253). -/
def fileName (time : String) (n : Nat) (base : String) : String := time ++ "_" ++ toString n ++ "_" ++ base

end Verif.Wav
