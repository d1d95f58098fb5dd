import Verif.FileIo.Model
/-!
Model of the blocks that read and write binary files (blocks/fileio/include/gnuradio-4.0/fileio/BasicFileIo.hpp).

Left out: names of files and directories that cannot be made, errors of the operating system, compression in the sink, the time in tags.
-/
namespace Verif.FileIo
open Verif.Bytes (Byte)

/-- The settings of `BasicFileSource` (BasicFileIo.hpp:194-201) for samples of `size` bytes; `maxSamples` is the `max_samples` of its output. -/
structure SrcCfg where
  size : Nat
  offset : Nat := 0
  length : Nat := 0
  again : Bool := false
  maxSamples : Nat := 2 ^ 64 - 1
  limit : Nat := 1024
  trigger : Bool := true

/-- The configuration of its readers (BasicFileIo.hpp:349-359). The product is that of `std::size_t`. -/
def SrcCfg.reader (c : SrcCfg) : Cfg :=
  let chunk := max c.size (c.maxSamples * c.size % 2 ^ 64)
  { chunkBytes := if c.length ≠ 0 then min chunk (c.length * c.size) else chunk, align := c.size, offset := some (c.offset * c.size), limit := c.limit }

/-- A file of the list to read: whether its reader decompresses it, and its bytes (`none` if it is not a regular file). -/
structure File where
  gzip : Bool
  content : Option (List Byte)

/-- The messages of the reader of a file. -/
def SrcCfg.messages (c : SrcCfg) (f : File) : List Msg := ((RS.new c.reader f.gzip none).runFile f.content).2.published

/-- The members of `BasicFileSource` (BasicFileIo.hpp:205-211), with `queue` for the messages that the reader still has to give, and what was
published so far: bytes of samples, and positions (in bytes) of start tags. -/
structure Src where
  next : Nat
  queue : List Msg
  active : Bool
  emitted : Bool
  readFile : Nat
  out : List Byte
  tags : List Nat
deriving DecidableEq

/-- `openNextFile` (BasicFileIo.hpp:342-368). -/
def Src.openNext (c : SrcCfg) (files : List File) (s : Src) : Src :=
  match files[s.next]? with
  | none => s
  | some f => { s with readFile := 0, emitted := false, queue := c.messages f, active := true, next := s.next + 1 }

/-- `start` (BasicFileIo.hpp:222-246). -/
def Src.start (c : SrcCfg) (files : List File) : Src :=
  Src.openNext c files { next := 0, queue := [], active := false, emitted := false, readFile := 0, out := [], tags := [] }

/-- What a call of `processBulk` returns; `waits` if it does not return. -/
inductive Status where
  | ok
  | insufficient
  | done
  | threw
  | waits
deriving DecidableEq, Repr

/-- `finishCurrentFile` (BasicFileIo.hpp:370-382), with `closeFile` (334-340). -/
def Src.finish (c : SrcCfg) (files : List File) (s : Src) : Status × Src :=
  let s := { s with active := false, queue := [] }
  if s.next < files.length then (.ok, s.openNext c files)
  else if c.again ∧ files ≠ [] then (.ok, Src.openNext c files { s with next := 0 })
  else (.done, s)

/-- The callback of `processBulk` on bytes, and what is published of them (BasicFileIo.hpp:278-299, 314-324). -/
def Src.take (c : SrcCfg) (s : Src) (b : List Byte) : Src :=
  let n := if c.length ≠ 0 then min b.length (c.length * c.size - s.readFile) else b.length
  let n := n - n % c.size
  if n = 0 then s
  else
    let tag := !s.emitted && c.trigger
    { s with out := s.out ++ b.take n, readFile := s.readFile + n, tags := if tag then s.tags ++ [s.out.length] else s.tags, emitted := s.emitted || tag }

/-- `processBulk` (BasicFileIo.hpp:250-331) with room for `room` samples. -/
def Src.call (c : SrcCfg) (files : List File) (s : Src) (room : Nat) : Status × Src :=
  if room = 0 then (.insufficient, s)
  else if s.active = false then (.done, s)
  else if c.length ≠ 0 ∧ c.length * c.size ≤ s.readFile then s.finish c files
  else
    match poll s.queue (room * c.size) with
    | (none, _) => (.waits, s)
    | (some (.tooLarge _), _) => (.insufficient, s)
    | (some (.error _), q) => (.threw, { s with queue := q })
    | (some .final, q) => Src.finish c files { s with queue := q }
    | (some (.data b), q) =>
      let s := Src.take c { s with queue := q } b
      if c.length ≠ 0 ∧ c.length * c.size ≤ s.readFile then s.finish c files else (.ok, s)

/-- Calls, one after the other, with the given room: what they return and the state after them. -/
def Src.calls (c : SrcCfg) (files : List File) : Src → List Nat → List Status × Src
  | s, [] => ([], s)
  | s, r :: rs =>
    let (a, s) := s.call c files r
    let (l, s) := Src.calls c files s rs
    (a :: l, s)

/-- The modes of the sink (FileIoTypes.hpp). -/
inductive Mode where
  | overwrite
  | append
  | multi
deriving DecidableEq, Repr

/-- The settings of `BasicFileSink` (BasicFileIo.hpp:77-81). -/
structure SnkCfg where
  size : Nat
  mode : Mode := .overwrite
  maxBytes : Nat := 0

/-- The members of `BasicFileSink` (BasicFileIo.hpp:85-88) and the disk: `files` are the files it writes, in the order of their making (a single one
unless the mode is `multi`). -/
structure Snk where
  files : List (List Byte)
  written : Nat
deriving DecidableEq

/-- What `fileio::write` does to the last file (FileIo.hpp:1073-1130; here without compression). -/
def writeLast (files : List (List Byte)) (truncate : Bool) (data : List Byte) : List (List Byte) :=
  match files.reverse with
  | [] => [data]
  | f :: fs => fs.reverse ++ [if truncate then data else f ++ data]

/-- `openNextFile` (BasicFileIo.hpp:146-177). -/
def Snk.openNext (c : SnkCfg) (s : Snk) : Snk :=
  match c.mode with
  | .overwrite => { files := writeLast s.files true [], written := 0 }
  | .append => { files := writeLast s.files false [], written := 0 }
  | .multi => { files := s.files ++ [[]], written := 0 }

/-- `processBulk` (BasicFileIo.hpp:104-134) on the bytes of the samples at hand: the number of samples consumed, and the new state. -/
def Snk.call (c : SnkCfg) (s : Snk) (data : List Byte) : Nat × Snk :=
  if data = [] then (0, s)
  else
    let s := if c.maxBytes ≠ 0 ∧ c.maxBytes ≤ s.written then s.openNext c else s
    let n := if c.maxBytes ≠ 0 then min data.length (c.maxBytes - s.written) else data.length
    let truncate := s.written = 0 ∧ c.mode ≠ .append
    (n / c.size, { files := writeLast s.files truncate (data.take n), written := s.written + n })

/-- `start` (BasicFileIo.hpp:97-100) when `old` is in the file already (nothing in mode `multi`). -/
def Snk.start (c : SnkCfg) (old : List (List Byte)) : Snk := Snk.openNext c { files := old, written := 0 }

/-- Calls, each with as many samples of the stream as the given number says (or all that are left): the bytes consumed and the state after them. -/
def Snk.calls (c : SnkCfg) : Snk → List Byte → List Nat → List Byte × Snk
  | s, _, [] => ([], s)
  | s, stream, n :: ns =>
    let (k, s) := s.call c (stream.take (n * c.size))
    let (l, s) := Snk.calls c s (stream.drop (k * c.size)) ns
    (stream.take (k * c.size) ++ l, s)

end Verif.FileIo
