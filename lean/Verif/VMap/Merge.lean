import Verif.VMap.Model
/-!
# `merge` — model of core/include/gnuradio-4.0/ValueMap.hpp:2290-2385
-/
namespace Verif.VMap
open Verif.Bytes

/-- `merge`: bytes the source's rows refer to; a sum that wraps is left to the hypotheses — ValueMap.hpp:2305-2315 -/
def VMap.mergeGrowth (o : VMap) : Nat :=
  (o.rows.map fun s => (if s.hasRec then s.len else 0) + match s.key with
    | .spilled _ len => len
    | _ => 0).sum

/-- `merge`: the bytes of a long key, without a guard byte — ValueMap.hpp:2345-2353 -/
def VMap.mergeKey (m : VMap) (index : Nat) (s : Row) (key : List Byte) : Option (VMap × Bool) :=
  match s.key with
  | .spilled .. => do
    let (m, off) ← m.appendPayload key 0
    match off with
    | none => some (m, false)
    | some off =>
      let row ← m.rows[index]?
      some ({ m with rows := m.rows.set index { row with key := .spilled off key.length } }, true)
  | _ => some (m, true)

/-- `merge`: the record, `payloadLength` bytes of it, without alignment — ValueMap.hpp:2354-2365 -/
def VMap.mergeRecord (m o : VMap) (index : Nat) (s : Row) : Option (VMap × Bool) :=
  if s.hasRec then do
    let bytes ← o.peek s.off s.len
    let (m, off) ← m.appendPayload bytes 0
    match off with
    | none => some (m, false)
    | some off =>
      let row ← m.rows[index]?
      some ({ m with rows := m.rows.set index { row with off := off } }, true)
  else some (m, true)

/-- `merge`: one entry whose key is not there; `false`: a fixed buffer is full. The row is copied first and taken back on failure. As in `insertNew`, the
65536th entry empties the map (its payload is left out) — ValueMap.hpp:2331-2367 -/
def VMap.mergeRow (m o : VMap) (s : Row) (key : List Byte) : Option (VMap × Bool) := do
  let (m, ok) ← m.ensureSlot
  if !ok then some (m, false)
  else if m.rowRoom ≤ m.rows.length then none
  else
    let index := m.rows.length
    if index + 1 = 65536 then some ({ m with rows := [] }, true)
    else
      let (m, ok) ← { m with rows := m.rows ++ [s] }.mergeKey index s key
      if !ok then some ({ m with rows := m.rows.take index }, false)
      else
        let (m, ok) ← m.mergeRecord o index s
        if !ok then some ({ m with rows := m.rows.take index }, false)
        else some (m, true)

/-- `merge`: the loop over the source's rows; returns the rows that stay — ValueMap.hpp:2327-2382 -/
def VMap.mergeLoop (o : VMap) : List Row → VMap → Option (VMap × List Row)
  | [], m => some (m, [])
  | s :: ss, m => do
    let key ← o.readKey s
    match ← m.find key with
    | some _ =>
      let (m, rest) ← mergeLoop o ss m
      some (m, s :: rest)
    | none =>
      let (m, ok) ← m.mergeRow o s key
      if ok then mergeLoop o ss m else some (m, s :: ss)

/-- `merge(other)` of another map; returns both maps — ValueMap.hpp:2292-2385 -/
def VMap.merge (m o : VMap) : Option (VMap × VMap) :=
  if o.rows = [] then some (m, o)
  else do
    let m ← m.reserve (m.rows.length + o.rows.length) (m.used + o.mergeGrowth)
    let (m, rest) ← mergeLoop o o.rows m
    some (m, { o with rows := rest })

end Verif.VMap
