import Verif.Wav.Model
/-!
What a WAV file is and what a source has to make of it, in terms of the bytes only.
-/
namespace Verif.Wav
open Verif.Bytes (Byte le)

/-- A chunk of a file that is not its data: a name of four bytes, its contents, and a byte that makes the length even. -/
structure Chunk where
  id : List Byte
  body : List Byte
  pad : List Byte

def Chunk.bytes (x : Chunk) : List Byte := x.id ++ le 4 x.body.length ++ x.body ++ x.pad

def Chunk.Ok (x : Chunk) : Prop := x.id.length = 4 ∧ x.id ≠ DATA ∧ x.body.length < 2 ^ 32 ∧ x.pad.length = x.body.length % 2

/-- The formats supported: whole numbers of one to four bytes, and `float`. -/
def Supported (f : Fmt) : Prop := (f.tag = 1 ∧ f.bits ∈ [8, 16, 24, 32]) ∨ (f.tag = 3 ∧ f.bits = 32)

/-- The contents of a format chunk. -/
def IsFmt (body : List Byte) (f : Fmt) : Prop :=
  Supported f ∧ 0 < f.channels ∧ 0 < f.rate ∧ f.rate < 2 ^ 32 ∧ f.align = f.channels * (f.bits / 8) ∧ f.align < 2 ^ 16 ∧
  ∃ tag perSecond ext, tag < 2 ^ 16 ∧
    body = le 2 tag ++ le 2 f.channels ++ le 4 f.rate ++ perSecond ++ le 2 f.align ++ le 2 f.bits ++ ext ∧ perSecond.length = 4 ∧
    ((tag = f.tag ∧ tag ≠ 0xFFFE) ∨ (tag = 0xFFFE ∧ 24 ≤ ext.length ∧ (ext.drop 8).take 2 = le 2 f.tag))

/-- A file up to its data: `head` are the bytes of the header, `size` is the size of the data that it says, and `f` is the last format before the data. -/
def Header (head : List Byte) (f : Fmt) (size : Nat) : Prop :=
  ∃ (len : List Byte) (before : List Chunk) (x : Chunk) (after : List Chunk),
    head = RIFF ++ len ++ WAVE ++ (before ++ x :: after).flatMap Chunk.bytes ++ DATA ++ le 4 size ∧ len.length = 4 ∧ size < 2 ^ 32 ∧
    (∀ y ∈ before ++ x :: after, y.Ok) ∧ x.id = FMT ∧ IsFmt x.body f ∧ (∀ y ∈ before, y.id = FMT → ∃ g, IsFmt y.body g) ∧ (∀ y ∈ after, y.id ≠ FMT) ∧
    size % f.align = 0

/-- The samples of data: the bytes are taken `f.width` at a time. -/
def samples (k : Kind) (f : Fmt) (data : List Byte) : List Out :=
  (List.range (data.length / f.width)).map fun i => decode k f ((data.drop (i * f.width)).take f.width)

/-- The data of a file to play: from the offset on, at most as many samples as asked for (all of them for 0). -/
def part (c : Cfg) (f : Fmt) (data : List Byte) : List Byte :=
  let rest := data.drop (c.offset * f.width)
  if c.length = 0 then rest else rest.take (c.length * f.width)

/-- The number of bytes that have arrived when the pieces reach the byte `n`. -/
def reach (n : Nat) : List (List Byte) → Nat
  | [] => 0
  | p :: ps => if n ≤ p.length then p.length else p.length + reach (n - p.length) ps

/-- The messages of a reader that gives a file of format `f` with the given data. No more than 2 ^ 20 bytes arrive before the header is complete, and the bytes to
skip arrive with it. -/
def Gives (c : Cfg) (msgs : List Verif.FileIo.Msg) (f : Fmt) (data : List Byte) : Prop :=
  ∃ (pieces : List (List Byte)) (head tail : List Byte), msgs = pieces.map .data ++ [.final] ∧ pieces.flatten = head ++ data ++ tail ∧
    Header head f data.length ∧ reach head.length pieces ≤ 2 ^ 20 ∧
    (c.offset * f.width < data.length → head.length + c.offset * f.width ≤ reach head.length pieces)

/-- The first `h` files played, going round: the format and the samples of each. -/
def played (c : Cfg) (L : List (Fmt × List Byte)) (h : Nat) : List (Fmt × List Out) :=
  (List.range h).map fun i => let x := L.getD (i % L.length) (.none, []); (x.1, samples c.kind x.1 (part c x.1 x.2))

/-- The tags: one at the first sample of each part that is not empty, with the rate and the channels. -/
def marks : Nat → List (Fmt × List Out) → List (Nat × Nat × Nat)
  | _, [] => []
  | p, (f, o) :: r => (if o = [] then [] else [(p, f.rate, f.channels)]) ++ marks (p + o.length) r

end Verif.Wav
