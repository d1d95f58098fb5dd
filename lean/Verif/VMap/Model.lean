import Verif.Util.Bytes
/-!
# Packed property map — model of core/include/gnuradio-4.0/ValueMap.hpp, Value.hpp and WireFormat.hpp

`property_map` of tags, settings and messages. One allocation holds a header, an array of rows (48 bytes each) and a pool of bytes with the keys longer than 34
characters, the value records and the free list of erased regions. Header and rows are structures here (their byte form is in `Blob.lean`), the pool is a list
of bytes and every access to it is checked: `none` is undefined behaviour (an access outside the pool, a read of freed memory, a size that wraps).

Release build: the guard patterns of debug builds (`kDebugBuild`) and the `kEndMarkerId` row behind the last entry, which nothing reads, are left out.
Numbers are unbounded except where the code narrows them on purpose (16-bit row counts) and in `grow`, where wrapping is undefined behaviour. Out of memory
is not modelled. Tensors with variable-size elements (`Tensor<Value>`) are opaque.
-/
namespace Verif.VMap
open Verif.Bytes

/-- characters as bytes -/
def chars (s : String) : List Byte := s.toList.map fun c => BitVec.ofNat 8 c.toNat

/-- `kCanonical`: the identifier of a name is its position plus one — ValueMap.hpp:116-139 -/
def canonicalNames : List (List Byte) :=
  ["gr:sample_rate", "gr:signal_name", "gr:num_channels", "gr:signal_quantity", "gr:signal_unit", "gr:signal_min", "gr:signal_max", "gr:n_dropped_samples",
   "gr:frequency", "gr:rx_overflow", "gr:trigger_name", "gr:trigger_time", "gr:trigger_offset", "gr:trigger_meta_info", "gr:local_time", "gr:context",
   "gr:ctx_time", "gr:reset_default", "gr:store_default", "gr:end_of_stream", "gr:user_data", "gr:trigger_time_error"].map chars

/-- `lookupId`; zero: `kIdUnknown` — ValueMap.hpp:149-160 -/
def lookupId (name : List Byte) : Nat :=
  if name.take 3 ≠ chars "gr:" then 0
  else match canonicalNames.findIdx? (· == name) with
    | some i => i + 1
    | none => 0

/-- `kMaxInlineKeyLength` — ValueMap.hpp:269 -/
def kMaxInlineKeyLength : Nat := 34

/-- `PackedEntry::keyId` with `inlineKey`: identifier, `kInlineKeyId` or `kSpilledKeyId` with offset and length — ValueMap.hpp:327-346, 516-560 -/
inductive KeyRef
  | canonical (id : Nat)
  | inline (name : List Byte)
  | spilled (off len : Nat)
  deriving DecidableEq

/-- `PackedEntry`; `hasRec`, `nested`, `tensor` are the flags `kEntryFlagOffsetLength`, `kEntryFlagNestedMap`, `kEntryFlagTensor` — ValueMap.hpp:339-346 -/
structure Row where
  key : KeyRef
  vt : Nat
  hasRec : Bool
  nested : Bool
  tensor : Bool
  off : Nat
  len : Nat
  deriving DecidableEq

/-- `ValueMap`: `base`, `used`, `freeHead` are `payloadOffset`, `payloadUsed`, `payloadFreeHead` (positions count from the start of the blob); the pool has
`payloadCapacity` bytes. `fixed`: `_isFixedBuffer`. `gen` counts reallocations: memory of an older generation is gone — ValueMap.hpp:289-301, 2653-2667 -/
structure VMap where
  rows : List Row
  entryCapacity : Nat
  base : Nat
  used : Nat
  pool : List Byte
  freeHead : Nat
  overflow : Bool
  fixed : Bool
  gen : Nat
  deriving DecidableEq

/-- `_allocateBlob`; the pool's initial bytes are unspecified — ValueMap.hpp:2705-2737 -/
def VMap.fresh (entries payload : Nat) : VMap :=
  ⟨[], entries % 65536, 32 + 48 * entries, 0, List.replicate payload 0xAA#8, 0, false, false, 0⟩

/-- rows there is memory for -/
def VMap.rowRoom (m : VMap) : Nat := (m.base - 32) / 48

/-! ## Memory -/

/-- `n` bytes at position `off` -/
def VMap.peek (m : VMap) (off n : Nat) : Option (List Byte) :=
  if m.base ≤ off ∧ off + n ≤ m.base + m.pool.length then some ((m.pool.drop (off - m.base)).take n) else none

/-- store bytes at position `off` -/
def VMap.poke (m : VMap) (off : Nat) (bs : List Byte) : Option VMap :=
  if m.base ≤ off ∧ off + bs.length ≤ m.base + m.pool.length then
    some { m with pool := m.pool.take (off - m.base) ++ bs ++ m.pool.drop (off - m.base + bs.length) }
  else none

/-- reading a `FreeChunk` — ValueMap.hpp:305-315 -/
def VMap.chunk (m : VMap) (off : Nat) : Option (Nat × Nat) :=
  (m.peek off 8).map fun b => (leNat (b.take 4), leNat (b.drop 4))

/-- `_freeListPush` — ValueMap.hpp:2861-2868 -/
def VMap.push (m : VMap) (off len : Nat) : Option VMap :=
  if len < 8 then some m
  else (m.poke off (le 4 len ++ le 4 m.freeHead)).map fun m => { m with freeHead := off }

/-- `_freeListPopFit`: take a region out of the list; `prev` is the region before it, zero if there is none — ValueMap.hpp:2979-2987 -/
def VMap.unlink (m : VMap) (prev next : Nat) : Option VMap :=
  if prev = 0 then some { m with freeHead := next }
  else (m.chunk prev).bind fun p => m.poke prev (le 4 p.1 ++ le 4 next)

/-- `_freeListPopFit`: the walk; the first argument is what remains of `walkCap` — ValueMap.hpp:2968-3003 -/
def VMap.popLoop (bytes : Nat) : Nat → VMap → Nat → Nat → Option (VMap × Option Nat)
  | 0, m, _, _ => some (m, none)
  | n + 1, m, prev, cur =>
    if cur = 0 then some (m, none)
    else do
      let (len, next) ← m.chunk cur
      if bytes ≤ len then
        let m ← m.unlink prev next
        let m ← (if 8 ≤ len - bytes then m.push (cur + bytes) (len - bytes) else some m)
        some (m, some cur)
      else popLoop bytes n m cur next

/-- `_freeListPopFit` — ValueMap.hpp:2963-3004 -/
def VMap.popFit (m : VMap) (bytes : Nat) : Option (VMap × Option Nat) :=
  if m.freeHead = 0 ∨ bytes = 0 then some (m, none)
  else m.popLoop bytes ((m.base + m.pool.length) / 8 + 1) 0 m.freeHead

/-- `alignToRecord` — Value.hpp:58-61 -/
def align (n : Nat) : Nat := max 16 ((n + 15) / 16 * 16)

/-- `_grow`: a row's offsets in the new blob — ValueMap.hpp:2818-2830 -/
def Row.rebase (r : Row) (old new : Nat) : Row :=
  { r with off := if r.hasRec then new + (r.off - old) else r.off,
           key := match r.key with
             | .spilled off len => .spilled (new + (off - old)) len
             | k => k }

/-- `_grow`: the chain of free regions in the new blob; the loop has no bound in the code, running out of turns stands for not terminating —
ValueMap.hpp:2837-2849 -/
def VMap.rebaseChain (old : Nat) : Nat → VMap → Nat → Option VMap
  | 0, m, cur => if cur = 0 then some m else none
  | n + 1, m, cur =>
    if cur = 0 then some m
    else do
      let (len, next) ← m.chunk cur
      let next := if next = 0 then 0 else m.base + (next - old)
      let m ← m.poke cur (le 4 len ++ le 4 next)
      rebaseChain old n m next

/-- `_grow`; undefined behaviour: a total that wraps, since the allocation is then smaller than what is copied into it — ValueMap.hpp:2764-2859 -/
def VMap.grow (m : VMap) (entries payload : Nat) (shrink : Bool) : Option VMap :=
  if m.fixed then some { m with overflow := true }
  else
    let e := max entries m.rows.length
    let p := max payload m.used
    let e := if shrink then e else max e (max (m.entryCapacity + m.entryCapacity / 2) 8)
    let p := if shrink then p else max p (m.pool.length + m.pool.length / 2)
    let start := 32 + 48 * e
    if 2 ^ 32 ≤ start + p ∨ m.pool.length < m.used then none
    else
      let n : VMap := ⟨m.rows.map (·.rebase m.base start), e % 65536, start, m.used, m.pool.take m.used ++ List.replicate (p - m.used) 0xAA#8,
        if m.freeHead = 0 then 0 else start + (m.freeHead - m.base), m.overflow, false, m.gen + 1⟩
      n.rebaseChain m.base ((n.base + n.pool.length) / 8 + 1) n.freeHead

/-- `_appendPayload`: bytes of a long key and guard bytes; `none` inside: `kInvalidOffset` — ValueMap.hpp:3006-3053 -/
def VMap.appendPayload (m : VMap) (bs : List Byte) (guards : Nat) : Option (VMap × Option Nat) := do
  let requested := bs.length + guards
  let (m, reused) ← m.popFit requested
  match reused with
  | some off =>
    let m ← m.poke off (bs ++ List.replicate guards 0#8)
    some (m, some off)
  | none =>
    if 2 ^ 32 - 1 - m.used < requested then some ({ m with overflow := true }, none)
    else if m.pool.length < m.used + requested ∧ m.fixed then some ({ m with overflow := true }, none)
    else
      let m ← (if m.pool.length < m.used + requested then m.grow m.rows.length (m.used + requested) false else some m)
      let off := m.base + m.used
      let m ← { m with used := m.used + requested }.poke off (bs ++ List.replicate guards 0#8)
      some (m, some off)

/-- `writeHeaderSized` — WireFormat.hpp:72-78 -/
def recHeader (size vt ct flags : Nat) : List Byte := le 4 size ++ le 1 vt ++ le 1 ct ++ le 1 flags ++ le 1 8

/-- `_appendValueRecord` — ValueMap.hpp:2900-2961 -/
def VMap.appendRecord (m : VMap) (vt ct flags : Nat) (content : List Byte) : Option (VMap × Option Nat) := do
  let size := align (8 + content.length)
  let bytes := recHeader size vt ct flags ++ content ++ List.replicate (size - 8 - content.length) 0#8
  let (m, reused) ← m.popFit size
  match reused with
  | some off =>
    let m ← m.poke off bytes
    some (m, some off)
  | none =>
    let aligned := (m.used + 15) / 16 * 16
    if 2 ^ 32 - 1 - aligned < size then some ({ m with overflow := true }, none)
    else if m.pool.length < aligned + size ∧ m.fixed then some ({ m with overflow := true }, none)
    else
      let m ← (if m.pool.length < aligned + size then m.grow m.rows.length (aligned + size) false else some m)
      let off := m.base + aligned
      let m ← { m with used := aligned + size }.poke (m.base + m.used) (List.replicate (aligned - m.used) 0#8)
      let m ← m.poke off bytes
      some (m, some off)

/-! ## Storing -/

/-- bytes the caller passes: from elsewhere, or from this map's own pool as it was at generation `gen` -/
inductive Src
  | given (bs : List Byte)
  | inside (gen off len : Nat)

def Src.get (m : VMap) : Src → Option (List Byte)
  | .given bs => some bs
  | .inside gen off len => if gen = m.gen then m.peek off len else none

/-- the argument is not in this map's pool (`aliasesSelf`) — ValueMap.hpp:3282-3283 -/
def Src.foreign : Src → Bool
  | .given _ => true
  | .inside .. => false

/-- what may be stored, by overload of `_assignValueAt`: numbers up to 8 bytes, `complex<double>`, strings, maps (their blob), tensors of fixed-size elements,
and `Value` / `ValueView` (their record) — ValueMap.hpp:3160-3336 -/
inductive Arg
  | scalar (vt : Nat) (bytes : List Byte)
  | big (bytes : List Byte)
  | text (s : Src)
  | map (blob : List Byte)
  | tensor (vt : Nat) (extents : List Nat) (data : List Byte)
  | value (record : Src)

/-- `ValueType::String`, `Value`, `ComplexFloat32`, `ComplexFloat64` — Value.hpp:31-40 -/
def vtString : Nat := 14
def vtValue : Nat := 15
def vtComplex32 : Nat := 12
def vtComplex64 : Nat := 13

/-- `ContainerType` of a number — ValueMap.hpp:3222 -/
def scalarCt (vt : Nat) : Nat := if vt = vtComplex32 then 1 else 0

/-- sizes of the number types, zero for other codes — Value.hpp:31-42 -/
def scalarSize (vt : Nat) : Nat := ([0, 1, 1, 2, 4, 8, 1, 2, 4, 8, 4, 8, 8, 16] : List Nat).getD vt 0

/-- `encodeTensorBlob` for fixed-size elements, `paddedTensorExtentsBytes` — ValueMap.hpp:787-880, Value.hpp:63-66 -/
def tensorBlob (vt : Nat) (extents : List Nat) (data : List Byte) : List Byte :=
  le 1 vt ++ le 1 extents.length ++ le 1 0 ++ le 1 0 ++ le 4 (data.length / scalarSize vt) ++ extents.flatMap (le 4)
    ++ List.replicate ((4 * extents.length + 7) / 8 * 8 - 4 * extents.length) 0#8 ++ data

/-- `_assignValueAt`: give the row its new record and put the old one on the free list — ValueMap.hpp:3174-3202, 3233-3241, 3327-3334 -/
def VMap.replaceRecord (m : VMap) (index vt ct flags : Nat) (content : List Byte) (len : Nat) : Option (VMap × Bool) := do
  let old ← m.rows[index]?
  let before := (m.gen, m.base)
  let (m, off) ← m.appendRecord vt ct flags content
  match off with
  | none => some (m, false)
  | some off =>
    let row ← m.rows[index]?
    let row : Row := ⟨row.key, vt, true, vt == vtValue && ct == 4, ct == 3, off, len⟩
    let m := { m with rows := m.rows.set index row }
    if old.hasRec && decide (0 < old.len) then
      let freed := if m.gen ≠ before.1 then m.base + (old.off - before.2) else old.off
      let m ← m.push freed (align old.len)
      some (m, true)
    else some (m, true)

/-- `_assignValueAt` — ValueMap.hpp:3160-3336 -/
def VMap.assignAt (m : VMap) (index : Nat) : Arg → Option (VMap × Bool)
  | .scalar vt bytes => do
    let old ← m.rows[index]?
    let padded := bytes ++ List.replicate (8 - bytes.length) 0#8
    if old.hasRec && decide (old.off ≠ 0) && !old.tensor && !old.nested && decide (old.vt = vt) && decide (align old.len = 16) then
      let m ← m.poke (old.off + 8) padded
      some ({ m with rows := m.rows.set index { old with len := 16 } }, true)
    else m.replaceRecord index vt (scalarCt vt) 0 padded 16
  | .big bytes => m.replaceRecord index vtComplex64 1 0 bytes (8 + bytes.length)
  | .map blob => m.replaceRecord index vtValue 4 0 blob (8 + blob.length)
  | .tensor vt extents data =>
    let blob := tensorBlob vt extents data
    m.replaceRecord index vt 3 0x10 blob (8 + blob.length)
  | .text s => do
    let old ← m.rows[index]?
    let text ← s.get m
    if old.hasRec && decide (old.off ≠ 0) && !old.tensor && !old.nested && decide (old.vt = vtString) && s.foreign
        && decide (8 + text.length + 1 ≤ align old.len) then
      let m ← m.poke old.off (recHeader (align old.len) vtString 2 0 ++ text ++ List.replicate (align old.len - 8 - text.length) 0#8)
      some ({ m with rows := m.rows.set index { old with len := align old.len } }, true)
    else m.replaceRecord index vtString 2 0 (text ++ [0#8]) (8 + text.length + 1)
  | .value record => do
    let record ← record.get m
    let vt := leNat ((record.drop 4).take 1)
    if vt = 0 then some (m, true)
    else m.replaceRecord index vt (leNat ((record.drop 5).take 1)) (leNat ((record.drop 6).take 1)) (record.drop 8) record.length

/-- `_ensureEntrySlot` — ValueMap.hpp:3055-3068 -/
def VMap.ensureSlot (m : VMap) : Option (VMap × Bool) :=
  if m.entryCapacity ≤ m.rows.length + 1 then
    if m.fixed then some ({ m with overflow := true }, false)
    else (m.grow (m.rows.length + 2) m.used false).map (·, true)
  else some (m, true)

/-- `_insertNew`: the row's key — ValueMap.hpp:3131-3143 -/
def VMap.storeKey (m : VMap) (key : List Byte) : Option (VMap × Option KeyRef) :=
  if lookupId key ≠ 0 then some (m, some (.canonical (lookupId key)))
  else if key.length ≤ kMaxInlineKeyLength then some (m, some (.inline key))
  else do
    let (m, off) ← m.appendPayload key 1
    some (m, off.map fun off => .spilled off key.length)

/-- `_insertNew`; the row is written behind the last one, before and after the key (storing a long key may move everything). The number of entries is a 16-bit number: with the 65536th entry it becomes zero (the record of that entry, which nothing refers to
afterwards, is left out) — ValueMap.hpp:3123-3158 -/
def VMap.insertNew (m : VMap) (key : List Byte) (a : Arg) : Option (VMap × Bool) := do
  let (m, ok) ← m.ensureSlot
  if !ok then some (m, false)
  else if m.rowRoom ≤ m.rows.length then none
  else
    let (m, ref) ← m.storeKey key
    match ref with
    | none => some (m, false)
    | some ref =>
      let index := m.rows.length
      if m.rowRoom ≤ index then none
      else if index + 1 = 65536 then some ({ m with rows := [] }, true)
      else
        let row : Row := ⟨ref, 0, false, false, false, 0, 0⟩
        let (m, ok) ← { m with rows := m.rows ++ [row] }.assignAt index a
        if ok then some (m, true) else some ({ m with rows := m.rows.take index }, false)

/-! ## Looking up -/

/-- `find`: does a row have this key? The bytes of a long key are compared only if the lengths agree — ValueMap.hpp:84-92, 1224-1243 -/
def VMap.keyMatches (m : VMap) (r : Row) (key : List Byte) : Option Bool :=
  match r.key with
  | .canonical id => some (lookupId key ≠ 0 && id == lookupId key)
  | .inline name => some (name == key)
  | .spilled off len => if len ≠ key.length then some false else (m.peek off len).map (· == key)

def VMap.findIn (m : VMap) (key : List Byte) : List Row → Nat → Option (Option Nat)
  | [], _ => some none
  | r :: rs, i => do
    if ← m.keyMatches r key then some (some i) else findIn m key rs (i + 1)

/-- `find`: position of the first row with this key — ValueMap.hpp:1222-1243 -/
def VMap.find (m : VMap) (key : List Byte) : Option (Option Nat) := m.findIn key m.rows 0

/-- `_readKey` — ValueMap.hpp:1268-1284 -/
def VMap.readKey (m : VMap) (r : Row) : Option (List Byte) :=
  match r.key with
  | .inline name => some name
  | .spilled off len => m.peek off len
  | .canonical id => some (if id = 0 then [] else canonicalNames[id - 1]?.getD [])

/-- what the typed accessors of `ValueView` find in a record. `unset`: monostate. `other`: a type for which none of the modelled accessors returns a value. -/
inductive Val
  | unset
  | scalar (vt : Nat) (bytes : List Byte)
  | text (s : List Byte)
  | map (blob : List Byte)
  | tensor (vt : Nat) (extents : List Nat) (data : List Byte)
  | other
  deriving DecidableEq

/-- `get_container_type` of the number types — Value.hpp:401-410 -/
def containerOf (vt : Nat) : Nat := if vt = vtComplex32 ∨ vt = vtComplex64 then 1 else 0

/-- checked read in a list of bytes -/
def bytesAt (bs : List Byte) (off n : Nat) : Option (List Byte) := if off + n ≤ bs.length then some ((bs.drop off).take n) else none

/-- `strLen`: up to the first zero byte, at most `cap` bytes; bytes behind the zero are not read — Value.hpp:320-328 -/
def textAt (bs : List Byte) (off cap : Nat) : Option (List Byte) :=
  let avail := (bs.drop off).take cap
  let s := avail.takeWhile (· != 0#8)
  if s.length < avail.length ∨ avail.length = cap then some s else none

/-- `get_if<TensorView<T>>` for fixed-size elements, reading all of them — Value.hpp:438-478 -/
def tensorAt (bs : List Byte) (off : Nat) (vt : Nat) : Option Val := do
  let head ← bytesAt bs off 8
  let rank := leNat ((head.drop 1).take 1)
  if 8 < rank ∨ leNat ((head.drop 2).take 1) % 2 = 1 then some .other
  else
    let ext ← bytesAt bs (off + 8) (4 * rank)
    let extents := (List.range rank).map fun i => leNat ((ext.drop (4 * i)).take 4)
    let data ← bytesAt bs (off + 8 + (4 * rank + 7) / 8 * 8) (leNat (head.drop 4) * scalarSize vt)
    some (.tensor vt extents data)

/-- accessors of `ValueView` on a record at the start of `bs` (`holds<T>`, `get_if<T>`, `value_or<T>`) — Value.hpp:300-359, 412-560, Value.cpp:15-72;
a nested map is its blob, whose length is in its header (bytes 12-15) — ValueMap.hpp:2639-2651, 3340-3348 -/
def decode (bs : List Byte) : Option Val := do
  let head ← bytesAt bs 0 8
  let size := leNat (head.take 4)
  let vt := leNat ((head.drop 4).take 1)
  let ct := leNat ((head.drop 5).take 1)
  let po := leNat ((head.drop 7).take 1)
  if ct = 2 then (textAt bs po (size - po)).map .text
  else if ct = 3 then
    if scalarSize vt = 0 ∨ size - po < 8 then some .other else tensorAt bs po vt
  else if ct = 4 then
    if size - po < 32 then some (.map [])
    else do
      let total ← bytesAt bs (po + 12) 4
      let blob ← bytesAt bs po (leNat total)
      some (.map blob)
  else if vt = 0 then some .unset
  else if scalarSize vt = 0 ∨ ct ≠ containerOf vt then some .other
  else (bytesAt bs po (scalarSize vt)).map (.scalar vt)

/-- `const_iterator::operator*`, `find_value` — ValueMap.hpp:1813-1824, 3368-3375 -/
def VMap.readVal (m : VMap) (r : Row) : Option Val :=
  if r.hasRec && decide (r.off ≠ 0) then
    if m.base ≤ r.off then decode (m.pool.drop (r.off - m.base)) else none
  else some .unset

/-- `operator*` of the iterator: key and value of a row — ValueMap.hpp:3368-3375 -/
def VMap.read (m : VMap) (r : Row) : Option (List Byte × Val) := do
  let key ← m.readKey r
  let val ← m.readVal r
  some (key, val)

/-- `find_value`, `get_if`, `value_or`: inside, `none` is a missing key — ValueMap.hpp:1813-1864 -/
def VMap.lookup (m : VMap) (key : List Byte) : Option (Option Val) := do
  match ← m.find key with
  | none => some none
  | some i =>
    let r ← m.rows[i]?
    (m.readVal r).map some

/-! ## Operations -/

/-- `emplace`, `try_emplace`, `insert` — ValueMap.hpp:2042-2054, 2077-2092 -/
def VMap.emplace (m : VMap) (key : List Byte) (a : Arg) : Option (VMap × Bool) := do
  match ← m.find key with
  | some _ => some (m, false)
  | none => m.insertNew key a

/-- `insert_or_assign`; the result tells whether the value was stored: the code returns an iterator, `end()` when it was not — ValueMap.hpp:2056-2071 -/
def VMap.insertOrAssign (m : VMap) (key : List Byte) (a : Arg) : Option (VMap × Bool) := do
  match ← m.find key with
  | some i => m.assignAt i a
  | none => m.insertNew key a

/-- `_reclaimEntryPayload` — ValueMap.hpp:1376-1394 -/
def VMap.reclaim (m : VMap) (r : Row) : Option VMap := do
  let m ← (if r.hasRec && decide (0 < r.len) then m.push r.off (align r.len) else some m)
  match r.key with
  | .spilled off len => m.push off (len + 1)
  | _ => some m

/-- `erase(const_iterator)` — ValueMap.hpp:1724-1740 -/
def VMap.eraseAt (m : VMap) (i : Nat) : Option VMap :=
  match m.rows[i]? with
  | none => some m
  | some r => (m.reclaim r).map fun m => { m with rows := m.rows.eraseIdx i }

/-- `erase(key)` — ValueMap.hpp:1766-1775 -/
def VMap.erase (m : VMap) (key : List Byte) : Option (VMap × Bool) := do
  match ← m.find key with
  | none => some (m, false)
  | some i => (m.eraseAt i).map (·, true)

/-- `clear` — ValueMap.hpp:2131-2151 -/
def VMap.clear (m : VMap) : VMap := { m with rows := [], used := 0, freeHead := 0 }

/-- `reserve` — ValueMap.hpp:2153-2165 -/
def VMap.reserve (m : VMap) (entries payload : Nat) : Option VMap :=
  let needed := max (entries + 1) (m.rows.length + 1)
  if m.entryCapacity < needed ∨ m.pool.length < payload then m.grow needed payload false else some m

/-- `shrink_to_fit` — ValueMap.hpp:2167-2175 -/
def VMap.shrinkToFit (m : VMap) : Option VMap := m.grow m.rows.length m.used true

end Verif.VMap
