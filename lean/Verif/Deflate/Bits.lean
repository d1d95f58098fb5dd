import Verif.Util.Bytes
/-!
# Bit writer and bit reader — model of core/include/gnuradio-4.0/Compression.hpp:168-250, 846-890

The emit functions are templates over the writer. Here they produce the list of calls (`Op`) they make, and each writer is an
interpreter of such lists.
-/
namespace Verif.Deflate
open Verif.Bytes (Byte)

/-- the errors of the API — Compression.hpp:93 — only those the modelled code returns -/
inductive Error where
  | truncatedInput | outputTooSmall | invalidHeader | unsupportedCompressionMethod | reservedFlags | presetDictionaryRequired
  | invalidBlockType | invalidStoredBlockLength | invalidHuffmanTree | invalidCode | invalidLength | invalidDistance
  | invalidBackReference | checksumMismatch | sizeMismatch | trailingData | integerOverflow | sizeLimitExceeded
deriving DecidableEq, Repr

/-- outcomes other than success: an error of the API, undefined behaviour, or a loop that did not end within the steps allowed here -/
inductive Fail where
  | err (e : Error) | ub | fuel
deriving DecidableEq, Repr

abbrev Res (α : Type) := Except Fail α

/-- calls on a writer -/
inductive Op where
  | bits (value width : Nat)
  | align
  | bytes (bs : List Byte)
deriving DecidableEq

/-- `BitWriter` and the bytes its sink received — Compression.hpp:206-236. What a `ByteSink` keeps after it overflowed is not modelled,
such a result is discarded (Compression.hpp:2012). -/
structure Writer where
  out : List Byte
  acc : Nat
  count : Nat
deriving DecidableEq

/-- a new writer -/
def Writer.fresh : Writer := ⟨[], 0, 0⟩

/-- one iteration of the loop of `writeBits` — Compression.hpp:216-218 -/
def Writer.put (w : Writer) : Writer := ⟨w.out ++ [BitVec.ofNat 8 (w.acc &&& 0xff)], w.acc >>> 8, w.count - 8⟩

/-- the loop of `writeBits`, it runs `count / 8` times — Compression.hpp:215-219 -/
def Writer.flush : Nat → Writer → Writer
  | 0, w => w
  | n + 1, w => w.put.flush n

/-- `writeBits` — Compression.hpp:212-220 -/
def Writer.writeBits (w : Writer) (value width : Nat) : Writer :=
  let w' : Writer := ⟨w.out, w.acc ||| (value <<< w.count) % 2 ^ 64, w.count + width⟩
  w'.flush (w'.count / 8)

/-- `alignByte` — Compression.hpp:222-228 -/
def Writer.alignByte (w : Writer) : Writer :=
  if w.count ≠ 0 then ⟨w.out ++ [BitVec.ofNat 8 (w.acc &&& 0xff)], 0, 0⟩ else w

/-- interpretation of a call — Compression.hpp:212-230 -/
def Writer.exec (w : Writer) : Op → Writer
  | .bits v n => w.writeBits v n
  | .align => w.alignByte
  | .bytes bs => { w with out := w.out ++ bs }

def Writer.run (w : Writer) (ops : List Op) : Writer := ops.foldl Writer.exec w

/-- `BitCounter` — Compression.hpp:233-240 -/
def countOp (bits : Nat) : Op → Nat
  | .bits _ n => bits + n
  | .align => ((bits + 7) / 8) * 8
  | .bytes bs => bits + 8 * bs.length

def countOps (bits : Nat) (ops : List Op) : Nat := ops.foldl countOp bits

/-- `BitReader`; `rest` is the input from `pos` on — Compression.hpp:846-850 -/
structure Reader where
  rest : List Byte
  pos : Nat
  acc : Nat
  count : Nat
deriving DecidableEq

/-- a new reader — Compression.hpp:1206 -/
def Reader.new (input : List Byte) : Reader := ⟨input, 0, 0, 0⟩

/-- `fill`; `none`: the input ended — Compression.hpp:852-861 -/
def fillGo (width : Nat) : List Byte → Nat → Nat → Nat → Option Reader
  | [], pos, acc, count => if count < width then none else some ⟨[], pos, acc, count⟩
  | b :: r, pos, acc, count =>
    if count < width then fillGo width r (pos + 1) (acc ||| b.toNat <<< count) (count + 8) else some ⟨b :: r, pos, acc, count⟩

def Reader.fill (r : Reader) (width : Nat) : Option Reader := fillGo width r.rest r.pos r.acc r.count

/-- `takeBit` — Compression.hpp:864-869 -/
def Reader.takeBit (r : Reader) : Nat × Reader := (r.acc &&& 1, { r with acc := r.acc >>> 1, count := r.count - 1 })

/-- `readBits`, all widths used are at most 32 — Compression.hpp:871-883 -/
def Reader.readBits (r : Reader) (width : Nat) : Res (Nat × Reader) :=
  match r.fill width with
  | none => .error (.err .truncatedInput)
  | some r => .ok (r.acc &&& (2 ^ width - 1), { r with acc := r.acc >>> width, count := r.count - width })

/-- `alignByte` — Compression.hpp:885-889 -/
def Reader.alignByte (r : Reader) : Reader :=
  { r with acc := r.acc >>> (r.count &&& 7), count := r.count - (r.count &&& 7) }

/-- bits left to read: a bound for the number of steps -/
def Reader.left (r : Reader) : Nat := r.count + 8 * r.rest.length

end Verif.Deflate
