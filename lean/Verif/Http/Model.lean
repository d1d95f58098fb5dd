/-!
# Blocks that get and send over HTTP

Models `HttpSource` and `HttpSink` of `blocks/http/include/gnuradio-4.0/http/HttpBlock.hpp`. The requests themselves run elsewhere: what a
call finds (a message of the reader, a writer that has finished or not) is an input of the model.
-/

namespace Verif.Http

/-- What a call returns: a status, or an exception. -/
inductive Out where
  | ok | done | noInput | noOutput | thrown
  deriving DecidableEq, Repr

/-- What a call of the sink finds: its input, whether a writer in use has finished and with what result, and whether a request can be made. -/
structure Call where
  bytes : List UInt8
  finished : Bool
  result : Bool
  opens : Bool

/-- A sink: is there a writer, the requests made, and the bytes that were consumed. -/
structure Sink where
  writer : Bool := false
  posts : List (List UInt8) := []
  consumed : List UInt8 := []

/-- The bytes of a call as one request — HttpBlock.hpp:227-234; `consume` is not called, so the framework consumes all of the input on `OK`
— core/include/gnuradio-4.0/Block.hpp:1037-1058, 1337-1339, 2005-2019 -/
def post (s : Sink) (c : Call) : Sink × Out :=
  if c.opens then (⟨true, s.posts ++ [c.bytes], s.consumed ++ c.bytes⟩, .ok) else (s, .thrown)

/-- `HttpSink::processBulk` — HttpBlock.hpp:210-235 -/
def sink (s : Sink) (c : Call) : Sink × Out :=
  if c.bytes = [] then (s, .noInput)
  else if s.writer then
    if !c.finished then ({ s with consumed := s.consumed ++ c.bytes }, .ok)
    else if !c.result then ({ s with writer := false }, .thrown)
    else post { s with writer := false } c
  else post s c

/-- A run: calls up to the first exception. -/
def runSink (s : Sink) : List Call → Sink
  | [] => s
  | c :: cs => match sink s c with
    | (s', .thrown) => s'
    | (s', _) => runSink s' cs

/-- A message of the reader: bytes, or an error (`none`). -/
structure Msg where
  data : Option (List UInt8)
  final : Bool

/-- A source: messages that wait, and the values published. -/
structure Source where
  queue : List Msg := []
  published : List (List UInt8) := []

/-- `HttpSource::processBulk`; `Reader::poll` gives one message at most — HttpBlock.hpp:118-155,
algorithm/include/gnuradio-4.0/algorithm/fileio/FileIo.hpp:303-349 -/
def source (room : Nat) (s : Source) : Source × Out :=
  if room = 0 then (s, .noOutput)
  else match s.queue with
    | [] => (s, .ok)
    | m :: q => match m.data with
      | none => ({ s with queue := q }, .thrown)
      | some bytes =>
        let s' : Source := ⟨q, if bytes = [] then s.published else s.published ++ [bytes]⟩
        (s', if m.final then .done else .ok)

/-- What happens to a source: a message arrives, or it is called with room for some values. -/
inductive Event where
  | arrive (m : Msg)
  | call (room : Nat)

/-- A run of a source up to its end, with how it ended. -/
def runSource (s : Source) : List Event → Source × Option Out
  | [] => (s, none)
  | .arrive m :: es => runSource { s with queue := s.queue ++ [m] } es
  | .call room :: es => match source room s with
    | (s', .thrown) => (s', some .thrown)
    | (s', .done) => (s', some .done)
    | (s', _) => runSource s' es

end Verif.Http
