import Verif.VMap.Model
/-!
# Byte form of property maps — model of core/include/gnuradio-4.0/ValueMap.hpp:266-375, 2390-2586

`blob()` hands out the map's memory as bytes; `from_blob` checks received bytes and copies them.
-/
namespace Verif.VMap
open Verif.Bytes

/-- `DeserialiseError` — ValueMap.hpp:366-374 -/
inductive Err
  | tooSmall | magic | version | corrupt | alignment
  deriving DecidableEq

/-- how a check can end early: with an error, or with undefined behaviour (a read outside the bytes given) -/
inductive Fault
  | ub
  | err (e : Err)
  deriving DecidableEq

abbrev Check := Except Fault

/-- checked read -/
def readAt (bs : List Byte) (off n : Nat) : Check (List Byte) := if off + n ≤ bs.length then .ok ((bs.drop off).take n) else .error .ub

/-- `return std::unexpected{e}` if the condition holds -/
def reject (c : Prop) [Decidable c] (e : Err) : Check Unit := if c then .error (.err e) else .ok ()

/-- the number in bytes `off` to `off + n` of a structure -/
def field (bs : List Byte) (off n : Nat) : Nat := leNat ((bs.drop off).take n)

/-- is this bit of the flags set? -/
def bit (flags mask : Nat) : Bool := flags / mask % 2 == 1

/-- `PackedEntry` as it is in memory — ValueMap.hpp:339-348 -/
structure Packed where
  off : Nat
  len : Nat
  keyId : Nat
  vt : Nat
  flags : Nat
  inlineKey : List Byte

def Packed.ofBytes (b : List Byte) : Packed := ⟨field b 0 4, field b 4 4, field b 8 2, field b 10 1, field b 11 1, b.drop 12⟩

/-- `kInlineKeyId`, `kSpilledKeyId` — ValueMap.hpp:109-110 -/
def kInlineKeyId : Nat := 0x8000
def kSpilledKeyId : Nat := 0x8001

/-- `_readKey` and `find` tell the kinds of keys apart — ValueMap.hpp:525-552, 1268-1284 -/
def Packed.key (e : Packed) : KeyRef :=
  if e.keyId = kInlineKeyId then .inline ((e.inlineKey.drop 1).take (field e.inlineKey 0 1))
  else if e.keyId = kSpilledKeyId then .spilled (field e.inlineKey 0 4) (field e.inlineKey 4 4)
  else .canonical e.keyId

def Packed.row (e : Packed) : Row := ⟨e.key, e.vt, bit e.flags 2, bit e.flags 8, bit e.flags 16, e.off, e.len⟩

/-- `alignToRecord` on 32-bit numbers — Value.hpp:58-61 -/
def align32 (n : Nat) : Nat := max 16 ((n + 15) % 2 ^ 32 / 16 * 16)

/-- `paddedTensorExtentsBytes` — Value.hpp:63-66 -/
def extentsBytes (rank : Nat) : Nat := (4 * rank + 7) / 8 * 8

/-- `_validateTensorSubBlob`: the elements of a tensor of variable-size elements; `inner` checks a sub-blob (`true`: of a map) at an address. A difference of
sizes below zero would be undefined behaviour further on — ValueMap.hpp:2439-2471 -/
def checkElements (inner : Bool → Nat → List Byte → Check Unit) (addr : Nat) (data : List Byte) : Nat → Nat → Check Unit
  | 0, _ => .ok ()
  | n + 1, off =>
    if data.length < off then .error .ub
    else do
      reject (data.length - off < 16) .corrupt
      let head ← readAt data off 16
      let len := field head 8 4
      let off := off + 16
      reject (data.length - off < len) .corrupt
      let sub ← readAt data off len
      if bit (field head 13 1) 16 then inner false (addr + off) sub
      else if field head 12 1 = vtValue ∧ bit (field head 13 1) 8 then inner true (addr + off) sub
      else .ok ()
      checkElements inner addr data n (off + min ((len + 7) % 2 ^ 32 / 8 * 8) ((data.length - off) % 2 ^ 32))

/-- `_validateTensorSubBlob` after the check of the depth — ValueMap.hpp:2394-2473 -/
def checkTensor (inner : Bool → Nat → List Byte → Check Unit) (addr : Nat) (bs : List Byte) : Check Unit := do
  reject (bs.length < 8) .corrupt
  let head ← readAt bs 0 8
  let vt := field head 0 1
  let rank := field head 1 1
  let varying := bit (field head 2 1) 1
  let count := field head 4 4
  reject (8 < rank) .corrupt
  reject (2 ^ 24 < count) .corrupt
  reject (bs.length < 8 + extentsBytes rank) .corrupt
  let start := 8 + extentsBytes rank
  reject (varying ≠ (vt == vtValue || vt == vtString)) .corrupt
  if !varying then do
    reject (scalarSize vt = 0) .corrupt
    reject ((bs.length - start) / scalarSize vt < count) .corrupt
  else checkElements inner (addr + start) (bs.drop start) count 0

/-- `_validateBlob`: one row; `deep`: nested values are at most 32 levels deep — ValueMap.hpp:2495-2548 -/
def checkRow (inner : Bool → Nat → List Byte → Check Unit) (deep : Bool) (addr : Nat) (bs : List Byte) (base total : Nat) (e : Packed) : Check Unit := do
  if bit e.flags 2 then do
    reject (e.off < base ∨ total < e.off ∨ total - e.off < e.len) .corrupt
    reject (e.len < 8) .corrupt
    let head ← readAt bs e.off 8
    reject (field head 0 4 ≠ align32 e.len) .corrupt
    reject (field head 7 1 ≠ 8) .corrupt
    reject (vtValue < e.vt) .corrupt
    if bit e.flags 8 ∨ bit e.flags 16 then do
      reject deep .corrupt
      reject (e.len < 8 + if bit e.flags 8 then 32 else 8) .corrupt
      let sub ← readAt bs (e.off + 8) (e.len - 8)
      inner (bit e.flags 8) (addr + e.off + 8) sub
    else .ok ()
  else .ok ()
  reject (e.keyId = kInlineKeyId ∧ kMaxInlineKeyLength < field e.inlineKey 0 1) .corrupt
  reject (e.keyId = kSpilledKeyId ∧ (field e.inlineKey 0 4 < base ∨ total < field e.inlineKey 0 4 ∨ total - field e.inlineKey 0 4 < field e.inlineKey 4 4)) .corrupt

/-- `_validateBlob`: all rows — ValueMap.hpp:2494-2549 -/
def checkRows (inner : Bool → Nat → List Byte → Check Unit) (deep : Bool) (addr : Nat) (bs : List Byte) (base total : Nat) : List Nat → Check Unit
  | [] => .ok ()
  | i :: is => do
    let b ← readAt bs (32 + 48 * i) 48
    checkRow inner deep addr bs base total (.ofBytes b)
    checkRows inner deep addr bs base total is

/-- `_validateBlob`: the chain of free regions; the first argument is what remains of `walkCap` — ValueMap.hpp:2551-2567 -/
def checkChain (bs : List Byte) (base total : Nat) : Nat → Nat → Check Unit
  | n, cur =>
    if cur = 0 then .ok ()
    else match n with
      | 0 => .error (.err .corrupt)
      | n + 1 => do
        reject (cur < base ∨ total - 8 < cur) .corrupt
        let chunk ← readAt bs cur 8
        reject (field chunk 0 4 < 8 ∨ total - cur < field chunk 0 4) .corrupt
        checkChain bs base total n (field chunk 4 4)

/-- `kBlobMagic` — ValueMap.hpp:265 -/
def blobMagic : List Byte := chars "GR4M"

/-- `_validateBlob` of bytes at address `addr` — ValueMap.hpp:2475-2568 -/
def checkMap (inner : Bool → Nat → List Byte → Check Unit) (deep : Bool) (addr : Nat) (bs : List Byte) : Check Unit := do
  reject (bs.length < 32) .tooSmall
  reject (addr % 16 ≠ 0) .alignment
  let h ← readAt bs 0 32
  reject (h.take 4 ≠ blobMagic) .magic
  reject (field h 4 1 ≠ 1) .version
  let total := field h 12 4
  let base := field h 16 4
  reject (bs.length < total ∨ total < base) .corrupt
  let count := field h 6 2
  reject (base < 32 + 48 * count) .corrupt
  checkRows inner deep addr bs base total (List.range count)
  checkChain bs base total (total / 8 + 1) (field h 28 4)

/-- `_validateBlob` (`true`) and `_validateTensorSubBlob` with what remains of the depth, 33 at first; there are no further calls at the last level —
ValueMap.hpp:570, 2390-2568 -/
def validate : Nat → Bool → Nat → List Byte → Check Unit
  | 0, _, _, _ => .error .ub
  | n + 1, true, addr, bs => checkMap (validate n) (decide (n ≤ 1)) addr bs
  | n + 1, false, addr, bs => if n = 0 then .error (.err .corrupt) else checkTensor (validate n) addr bs

/-- the map whose memory is given; the field `payloadCapacity`, used only for storing, is taken to be the space there is, and `_capacity` to be `totalSize` -/
def VMap.ofBlob (bs : List Byte) : VMap :=
  ⟨(List.range (field bs 6 2)).map fun i => (Packed.ofBytes ((bs.drop (32 + 48 * i)).take 48)).row, field bs 8 2, field bs 16 4, field bs 20 4,
    (bs.take (field bs 12 4)).drop (field bs 16 4), field bs 28 4, bit (field bs 5 1) 1, false, 0⟩

/-- `from_blob` of bytes at address `addr` — ValueMap.hpp:2570-2585 -/
def fromBlob (addr : Nat) (bs : List Byte) : Check VMap := do
  validate 33 true addr bs
  return .ofBlob bs

/-- a key in a row: `setInlineKey`, `setSpilledKey` — ValueMap.hpp:519-540, 3123-3143 -/
def KeyRef.pack : KeyRef → Nat × List Byte
  | .canonical id => (id, List.replicate 36 0#8)
  | .inline name => (kInlineKeyId, le 1 name.length ++ name ++ List.replicate (35 - name.length) 0#8)
  | .spilled off len => (kSpilledKeyId, le 4 off ++ le 4 len ++ List.replicate 28 0#8)

/-- a row in memory — ValueMap.hpp:339-348 -/
def Row.pack (r : Row) : List Byte :=
  le 4 r.off ++ le 4 r.len ++ le 2 r.key.pack.1 ++ le 1 r.vt ++
    le 1 ((if r.hasRec then 2 else 0) + (if r.nested then 8 else 0) + (if r.tensor then 16 else 0)) ++ r.key.pack.2

/-- `Header` in memory — ValueMap.hpp:289-301 -/
def VMap.header (m : VMap) : List Byte :=
  blobMagic ++ le 1 1 ++ le 1 (if m.overflow then 1 else 0) ++ le 2 m.rows.length ++ le 2 m.entryCapacity ++ le 2 0 ++ le 4 (m.base + m.pool.length) ++
    le 4 m.base ++ le 4 m.used ++ le 4 m.pool.length ++ le 4 m.freeHead

/-- `blob()`; `slack` are the rows not in use, whose bytes are unspecified — ValueMap.hpp:1158-1163 -/
def VMap.blob (m : VMap) (slack : List Byte) : List Byte := m.header ++ m.rows.flatMap Row.pack ++ slack ++ m.pool

/-- copy constructor, `_copyBlobFrom` — ValueMap.hpp:2747-2759 -/
def VMap.copy (m : VMap) (slack : List Byte) : VMap := .ofBlob (m.blob slack)

end Verif.VMap
