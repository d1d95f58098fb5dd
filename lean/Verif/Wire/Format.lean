import Verif.Util.Bytes
/-!
# Model of the element prefix and annotations (core/include/gnuradio-4.0/WireFormat.hpp)
-/
namespace Verif.Wire
open Verif.Bytes

/-- The 8-byte prefix fields — WireFormat.hpp:26-33. -/
structure Prefix where
  size : Nat            -- u32
  valueType : Byte
  containerType : Byte
  flags : Byte
  payloadOffset : Byte
  deriving DecidableEq, Repr

/-- overwrite `new.length` bytes of `h` at `off`; `none` = out of bounds. -/
def patch (h : List Byte) (off : Nat) (new : List Byte) : Option (List Byte) :=
  if off + new.length ≤ h.length then some (h.take off ++ new ++ h.drop (off + new.length)) else none

/-- `writeHeaderSized` — WireFormat.hpp:78-84 (and `setElementSize`, 66): writes only the prefix. -/
def writeHeaderSized (h : List Byte) (p : Prefix) : Option (List Byte) := do
  let h ← patch h 0 (le 4 p.size)
  let h ← patch h 4 [p.valueType]
  let h ← patch h 5 [p.containerType]
  let h ← patch h 6 [p.flags]
  patch h 7 [p.payloadOffset]

/-- `elementSize`, `valueType`, `containerType`, `flags`, `payloadOffset` — WireFormat.hpp:61-71. -/
def readPrefix (h : List Byte) : Option Prefix := do
  let s ← slice h 0 4
  let vt ← h[4]?
  let ct ← h[5]?
  let fl ← h[6]?
  let po ← h[7]?
  return { size := leNat s, valueType := vt, containerType := ct, flags := fl, payloadOffset := po }

/-- `Annotation` — WireFormat.hpp:90-94; strings as byte lists. -/
structure Annotation where
  quantity : List Byte
  unit : List Byte
  description : List Byte
  deriving DecidableEq, Repr

/-- `annotationByteSize` — WireFormat.hpp:96-98. -/
def annotationByteSize (a : Annotation) : Nat :=
  1 + a.quantity.length + 1 + a.unit.length + 2 + a.description.length

/-- `writeAnnotation` — WireFormat.hpp:103-124: the bytes written at the start of the output span of size `cap`, or
`none` if refused. The lengths are stored truncated to `u8`/`u16`. -/
def writeAnnotation (cap : Nat) (a : Annotation) : Option (List Byte) :=
  if a.quantity.length > 0xFF || a.unit.length > 0xFF || a.description.length > 0xFFFF then none
  else if cap < annotationByteSize a then none
  else some (le 1 a.quantity.length ++ a.quantity ++ le 1 a.unit.length ++ a.unit
        ++ le 2 a.description.length ++ a.description)

/-- `readAnnotation` — WireFormat.hpp:131-170. Outer `none`: out-of-bounds read, inner `none`: refused. -/
def readAnnotation (bs : List Byte) : Option (Option (Annotation × Nat)) := do
  let pos := 0
  if bs.length < pos + 1 then return none
  let q ← bs[pos]?
  let qLen := q.toNat
  let pos := pos + 1
  if bs.length < pos + qLen then return none
  let quantity ← slice bs pos qLen
  let pos := pos + qLen
  if bs.length < pos + 1 then return none
  let u ← bs[pos]?
  let uLen := u.toNat
  let pos := pos + 1
  if bs.length < pos + uLen then return none
  let unit ← slice bs pos uLen
  let pos := pos + uLen
  if bs.length < pos + 2 then return none
  let d ← slice bs pos 2
  let dLen := leNat d
  let pos := pos + 2
  if bs.length < pos + dLen then return none
  let description ← slice bs pos dLen
  let pos := pos + dLen
  return some (⟨quantity, unit, description⟩, pos)

end Verif.Wire
