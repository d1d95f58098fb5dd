import Verif.Deflate.Stream
/-!
Model of reading files in pieces (algorithm/include/gnuradio-4.0/algorithm/fileio/FileIo.hpp): the configuration, the worker that cuts
a source into messages, and the reader that takes them from the queue.

Left out: dialogs, the browser, requests that fail or are repeated (long polling), errors of the operating system while a file is read, files
that change while they are read, texts of error messages, failures to allocate less than the largest size of a vector.
-/
namespace Verif.FileIo
open Verif.Bytes (Byte)
open Verif.Deflate (Dec)

/-- The largest `size_t`. -/
def npos : Nat := 2 ^ 64 - 1

/-- The largest size of a vector of bytes; `resize` beyond it throws. -/
def vectorMax : Nat := 2 ^ 63 - 1

/-- `ReaderConfig` (FileIo.hpp:119-133): sizes of the pieces, offset, bound for decompressed data and number of slots of the queue. -/
structure Cfg where
  chunkBytes : Nat := npos
  align : Nat := 1
  offset : Option Nat := none
  limit : Nat := 1024
  slots : Nat := 1024
deriving DecidableEq, Repr

/-- `normalizeReaderConfig` (FileIo.hpp:136-146). -/
def Cfg.normalize (c : Cfg) : Cfg :=
  let c := if c.slots = 0 then { c with slots := 1024 } else c
  let c := if c.align = 0 then { c with align := 1 } else c
  if c.chunkBytes ≠ npos ∧ c.chunkBytes < c.align then { c with chunkBytes := c.align } else c

/-- `sourceReadChunkBytes` (FileIo.hpp:189-194). -/
def Cfg.sourceChunk (c : Cfg) : Nat := if c.chunkBytes = npos then 64 * 1024 else max 1 c.chunkBytes

/-- `codecChunkBytes` (FileIo.hpp:196-201). -/
def Cfg.codecChunk (c : Cfg) : Nat := if c.chunkBytes = npos then 64 * 1024 else max (max 1 c.chunkBytes) c.align

/-- The errors reported: a path that is not a file, what the decoder refuses, and a stream that ends before its end. -/
inductive Err where
  | notFile
  | decode (e : Verif.Deflate.Fail)
  | stalled
deriving DecidableEq

/-- A message of the queue (FileIo.hpp:397-408, 460-487): bytes, an error, or the final one. -/
inductive Msg where
  | data (bytes : List Byte)
  | error (e : Err)
  | final
deriving DecidableEq

/-- `ReaderState` (FileIo.hpp:206-240). `cancel` says how many more times the worker looks at the flag before it sees that the reader was cancelled
(`none`: never). `published` are the messages put into the queue so far, whether taken out of it or not. -/
structure RS where
  cfg : Cfg
  dec : Option Dec
  pending : List Byte
  codecPending : List Byte
  skip : Nat
  seen : Nat
  cancel : Option Nat
  published : List Msg

/-- The constructor (FileIo.hpp:223-229), after `normalizeReaderConfig` in `readAsync` (938, 1034). -/
def RS.new (c : Cfg) (gzip : Bool) (cancel : Option Nat) : RS :=
  let c := c.normalize
  { cfg := c, dec := if gzip then some (.fresh .gzip c.limit) else none, pending := [], codecPending := [],
    skip := if gzip then c.offset.getD 0 else 0, seen := 0, cancel := cancel, published := [] }

/-- A look at `cancelRequested`. -/
def RS.look (s : RS) : Bool × RS :=
  match s.cancel with
  | none => (false, s)
  | some 0 => (true, s)
  | some (n + 1) => (false, { s with cancel := some n })

/-- `publishMessage` (FileIo.hpp:381-395). That it waits for a free slot is left to `Verif.FileIo.Queue`. -/
def RS.publish (s : RS) (m : Msg) : RS := { s with published := s.published ++ [m] }

/-- `publishDataMessage` (FileIo.hpp:397-407). -/
def RS.publishData (s : RS) (bytes : List Byte) : RS :=
  match s.look with
  | (true, s) => s
  | (false, s) => if bytes = [] then s else s.publish (.data bytes)

/-- `publishPendingBytes` (FileIo.hpp:409-416). -/
def RS.publishPending (s : RS) : RS :=
  if s.pending = [] then s else
  match s.look with
  | (true, s) => s
  | (false, s) => { s.publishData s.pending with pending := [] }

/-- The alignment `pushData` uses (FileIo.hpp:420). -/
def Cfg.unit (c : Cfg) : Nat := max 1 c.align

/-- The number of bytes of the next message when `n` are at hand (FileIo.hpp:421, 430-431, 446-447). -/
def Cfg.cut (c : Cfg) (n : Nat) : Nat :=
  let chunk := if c.chunkBytes = npos then npos else max c.unit c.chunkBytes
  let n := if chunk = npos then n else min chunk n
  n - n % c.unit

/-- The loop of `pushData` (FileIo.hpp:445-454); the first argument bounds the turns. -/
def RS.pushLoop : Nat → RS → List Byte → RS × List Byte
  | 0, s, data => (s, data)
  | f + 1, s, data =>
    if data.length < s.cfg.unit then (s, data) else
    let n := s.cfg.cut data.length
    if n = 0 then (s, data) else pushLoop f (s.publishData (data.take n)) (data.drop n)

/-- The end of `pushData` (FileIo.hpp:445-458): what is left is kept. -/
def RS.pushRest (s : RS) (data : List Byte) : RS :=
  let (s, data) := RS.pushLoop (data.length + 1) s data
  { s with pending := s.pending ++ data }

/-- `pushData` (FileIo.hpp:418-459). -/
def RS.pushData (s : RS) (data : List Byte) : RS :=
  if data = [] then s else
  match s.look with
  | (true, s) => s
  | (false, s) =>
    if s.pending = [] then s.pushRest data
    else
      let total := s.pending.length + data.length
      if total < s.cfg.unit then { s with pending := s.pending ++ data }
      else
        let take := s.cfg.cut total - s.pending.length
        let s := s.publishData (s.pending ++ data.take take)
        RS.pushRest { s with pending := [] } (data.drop take)

/-- `pushFinal` (FileIo.hpp:471-491); calling it twice ends the program, which is not modelled: see the theorems for how often it is called. -/
def RS.pushFinal (s : RS) (publishPending : Bool) : RS :=
  let s := if publishPending then s.publishPending else { s with pending := [] }
  s.publish .final

/-- `pushErrorFinal` (FileIo.hpp:460-469, 493-496). -/
def RS.pushErrorFinal (s : RS) (e : Err) : RS := (s.publish (.error e)).pushFinal false

/-- `pushDecodedData` (FileIo.hpp:498-511). -/
def RS.pushDecoded (s : RS) (data : List Byte) : RS :=
  if data = [] then s
  else if data.length ≤ s.skip then { s with skip := s.skip - data.length }
  else RS.pushData { s with skip := 0 } (data.drop s.skip)

/-- How `pushSourceData` ends: it returns true, it returns false after an error and the final message, it throws, or it does not end. -/
inductive Pushed where
  | ok
  | failed
  | threw
  | stuck
deriving DecidableEq, Repr

/-- The loop over the decoder (FileIo.hpp:541-566); `input` are the bytes of `codecPending` not consumed. The first argument bounds the turns. -/
def RS.codecLoop (finish : Bool) : Nat → RS → Dec → List Byte → Pushed × RS
  | 0, s, _, _ => (.stuck, s)
  | f + 1, s, d, input =>
    match d.process input s.cfg.codecChunk finish with
    | (.error e, d) => (.failed, RS.pushErrorFinal { s with dec := some d } (.decode e))
    | (.ok r, d) =>
      let s := RS.pushDecoded { s with dec := some d } r.produced
      if r.status = .done then (.ok, { s with codecPending := [] })
      else if r.status = .needInput then
        if finish then (.failed, s.pushErrorFinal .stalled) else (.ok, { s with codecPending := input.drop r.consumed })
      else codecLoop finish f s d (input.drop r.consumed)

/-- `pushSourceData` (FileIo.hpp:513-569). -/
def RS.pushSource (s : RS) (data : List Byte) (finish : Bool) : Pushed × RS :=
  match s.look with
  | (true, s) => (.ok, s)
  | (false, s) =>
    match s.dec with
    | none => (.ok, s.pushData data)
    | some d =>
      let s := { s with seen := s.seen + data.length }
      if finish = true ∧ s.seen = 0 then (.ok, s)
      else if vectorMax < s.cfg.codecChunk then (.threw, s)
      else
        let input := s.codecPending ++ data
        RS.codecLoop finish (s.cfg.limit + 2) { s with codecPending := input } d input

/-- The end of reading a source (FileIo.hpp:664-667, 745-748): `finishSourceData` unless the reader was cancelled, then the final message. -/
def RS.finish (s : RS) : Pushed × RS :=
  let last (s : RS) : Pushed × RS :=
    let (c, s) := s.look
    (.ok, s.pushFinal (!c))
  match s.look with
  | (true, s) => last s
  | (false, s) =>
    match s.pushSource [] true with
    | (.ok, s) => last s
    | r => r

/-- `runReadMemorySource` (FileIo.hpp:573-593). -/
def RS.runMemory (s : RS) (bytes : List Byte) : Pushed × RS :=
  let offset := if s.dec.isSome then 0 else s.cfg.offset.getD 0
  if bytes.length ≤ offset then (.ok, s.pushFinal true)
  else
    match s.pushSource (bytes.drop offset) false with
    | (.ok, s) =>
      match s.pushSource [] true with
      | (.ok, s) => (.ok, s.pushFinal true)
      | r => r
    | r => r

/-- The loop of `runReadLocalFile` (FileIo.hpp:638-660); `rest` are the bytes of the file not read. The first argument bounds the turns. -/
def RS.fileLoop (chunk : Nat) : Nat → RS → List Byte → Pushed × RS
  | 0, s, _ => (.stuck, s)
  | f + 1, s, rest =>
    match s.look with
    | (true, s) => (.ok, s)
    | (false, s) =>
      let n := min chunk rest.length
      if n = 0 then (.ok, s)
      else
        match s.pushSource (rest.take n) false with
        | (.ok, s) => if n < rest.length then fileLoop chunk f s (rest.drop n) else (.ok, s)
        | r => r

/-- `runReadLocalFile` (FileIo.hpp:597-669); `none` for a path that is not a regular file. -/
def RS.runFile (s : RS) : Option (List Byte) → Pushed × RS
  | none => (.ok, s.pushErrorFinal .notFile)
  | some file =>
    let offset := if s.dec.isSome then 0 else s.cfg.offset.getD 0
    if file.length ≤ offset then (.ok, s.pushFinal true)
    else
      let chunk := if s.dec.isSome then s.cfg.sourceChunk else max 1 s.cfg.chunkBytes
      match RS.fileLoop chunk (file.length + 1) s (file.drop offset) with
      | (.ok, s) => s.finish
      | r => r

/-- The write callbacks of a request that succeeds (FileIo.hpp:697-711), one for each piece of the body; `false` once the reader is cancelled. -/
def RS.httpPieces : RS → List (List Byte) → Bool × Pushed × RS
  | s, [] => (true, .ok, s)
  | s, p :: ps =>
    match s.look with
    | (true, s) => (false, .ok, s)
    | (false, s) =>
      if p = [] then httpPieces s ps
      else
        match s.pushSource p false with
        | (.ok, s) => httpPieces s ps
        | (r, s) => (false, r, s)

/-- `runHttpGetNative` (FileIo.hpp:735-749) for a request that succeeds and whose body arrives in the given pieces. -/
def RS.runHttp (s : RS) (pieces : List (List Byte)) : Pushed × RS :=
  match s.httpPieces pieces with
  | (true, .ok, s) =>
    match s.look with
    | (true, s) => let (c, s) := s.look; (.ok, s.pushFinal (!c))
    | (false, s) => s.finish
  | (false, .ok, s) => let (c, s) := s.look; (.ok, s.pushFinal (!c))
  | (_, r, s) => (r, s)

/-- What the callback of `poll` is given (FileIo.hpp:245-249). -/
inductive Polled where
  | data (bytes : List Byte)
  | error (e : Err)
  | tooLarge (required : Nat)
  | final
deriving DecidableEq

/-- `poll` (FileIo.hpp:301-349) on the messages in the queue: what the callback is given, if it is called, and the messages left. -/
def poll (queue : List Msg) (maxSize : Nat) : Option Polled × List Msg :=
  match queue with
  | [] => (none, [])
  | .error e :: q => (some (.error e), q)
  | .final :: q => (some .final, q)
  | .data b :: q => if b.length ≤ maxSize then (some (.data b), q) else (some (.tooLarge b.length), .data b :: q)

/-- `get` (FileIo.hpp:351-378) on the messages that the worker publishes; `none` if it waits for ever. -/
def getGo (all : List Byte) (first : Option Err) : List Msg → Option (Except Err (List Byte))
  | [] => none
  | .data b :: ms => getGo (all ++ b) first ms
  | .error e :: ms => getGo all (first.or (some e)) ms
  | .final :: _ => some (match first with | some e => .error e | none => .ok all)

def get (ms : List Msg) : Option (Except Err (List Byte)) := getGo [] none ms

/-- `requiredMemoryReadSlots` (FileIo.hpp:1018-1027). -/
def Cfg.requiredSlots (c : Cfg) (total : Nat) (gzip : Bool) : Nat :=
  let offset := c.offset.getD 0
  if total ≤ offset then 1
  else
    let chunk := if gzip then c.codecChunk else max 1 c.chunkBytes
    let effective := total - offset
    effective / chunk + (if effective % chunk ≠ 0 then 1 else 0) + 1

/-- How reading from memory ends (FileIo.hpp:1033-1063). -/
inductive Memory where
  | refused
  | ready (queue : List Msg)
  | blocked
  | threw
deriving DecidableEq

/-- `readAsync` for bytes in memory (FileIo.hpp:1033-1063). `decoded` is the result of `decompressedSize` (gzip only). All is published before the
call returns, into a queue of as many slots as asked for (CircularBuffer.hpp:299-302, 885-896: the messages are not in mapped memory): with more messages than
slots the call waits for ever. -/
def readMemory (c : Cfg) (gzip : Bool) (decoded : Except Verif.Deflate.Fail Nat) (bytes : List Byte) : Memory :=
  let n := c.normalize
  let size : Except Verif.Deflate.Fail Nat := if gzip then (if bytes = [] then .ok 0 else decoded) else .ok bytes.length
  let required := match size with | .ok k => n.requiredSlots k gzip | .error _ => 2
  if n.slots < required then .refused
  else
    match size with
    | .error e => .ready ((RS.new c gzip none).pushErrorFinal (.decode e)).published
    | .ok _ =>
      match (RS.new c gzip none).runMemory bytes with
      | (.ok, s) | (.failed, s) => if s.published.length ≤ n.slots then .ready s.published else .blocked
      | (.stuck, _) => .blocked
      | (.threw, _) => .threw

end Verif.FileIo
