import Verif.VMap.Model
/-!
# Specification of property maps

A property map is a dictionary that remembers the order in which keys were first stored.
-/
namespace Verif.VMap
open Verif.Bytes

abbrev Key := List Byte

/-- keys with their values, in insertion order -/
abbrev Dict := List (Key × Val)

/-- value of a key -/
def Dict.get (d : Dict) (k : Key) : Option Val := (d.find? (·.1 == k)).map (·.2)

/-- is the key there? -/
def Dict.has (d : Dict) (k : Key) : Bool := d.any (·.1 == k)

/-- store a value unless the key is there -/
def Dict.add (d : Dict) (k : Key) (v : Val) : Dict := if d.has k then d else d ++ [(k, v)]

/-- store a value, replacing the one that is there -/
def Dict.put (d : Dict) (k : Key) (v : Val) : Dict :=
  if d.has k then d.map fun e => if e.1 = k then (k, v) else e else d ++ [(k, v)]

/-- forget a key -/
def Dict.remove (d : Dict) (k : Key) : Dict := d.filter (·.1 ≠ k)

/-- the bytes of a `Value`: an 8-byte header with the number of bytes, the type code, the container code, flags and the constant 8; the container code fits the
type code; strings end with a zero byte; a tensor begins with its type code; the typed accessor for these codes returns `v` -/
def IsValue (record : List Byte) (v : Val) : Prop :=
  ∃ vt ct flags content, record = le 4 (8 + content.length) ++ le 1 vt ++ le 1 ct ++ le 1 flags ++ le 1 8 ++ content ∧
    1 ≤ vt ∧ vt < 256 ∧ ct < 256 ∧ flags < 256 ∧ (ct = 2 → vt = 14 ∧ 0#8 ∈ content) ∧ (ct = 3 → content.take 1 = le 1 vt) ∧ (ct = 4 → vt = 15) ∧ v ≠ .other ∧ v ≠ .map [] ∧
    decode record = some v

/-- argument `a`, bytes in the map `m` itself included, denotes the value `v`. Strings have no zero byte (see `embedded_zero`). -/
inductive Means (m : VMap) : Arg → Val → Prop
  | scalar {vt bytes} : 1 ≤ vt → vt ≤ 12 → bytes.length = scalarSize vt → Means m (.scalar vt bytes) (.scalar vt bytes)
  | big {bytes} : bytes.length = 16 → Means m (.big bytes) (.scalar 13 bytes)
  | text {s bytes} : s.get m = some bytes → 0#8 ∉ bytes → Means m (.text s) (.text bytes)
  | map {blob} : 32 ≤ blob.length → leNat ((blob.drop 12).take 4) = blob.length → Means m (.map blob) (.map blob)
  | tensor {vt extents data} : scalarSize vt ≠ 0 → extents.length ≤ 8 → (∀ x ∈ extents, x < 2 ^ 32) → data.length % scalarSize vt = 0 →
      Means m (.tensor vt extents data) (.tensor vt extents data)
  | value {s record v} : s.get m = some record → IsValue record v → Means m (.value s) v

/-- bytes the argument needs -/
def Arg.size : Arg → Nat
  | .scalar .. => 8
  | .big _ => 16
  | .text (.given s) => s.length
  | .text (.inside _ _ n) => n
  | .map blob => blob.length
  | .tensor _ extents data => 48 + 4 * extents.length + data.length
  | .value (.given s) => s.length
  | .value (.inside _ _ n) => n

/-- the argument is not a piece of the map itself -/
def Arg.outside : Arg → Prop
  | .text (.inside ..) => False
  | .value (.inside ..) => False
  | _ => True

/-- the whole content, in iteration order -/
def VMap.contents (m : VMap) : Option (List (Key × Val)) := m.rows.mapM m.read

/-! ## Histories -/

/-- what a user does with a map -/
inductive Op
  | emplace (k : Key) (a : Arg)
  | assign (k : Key) (a : Arg)
  | erase (k : Key)
  | clear
  | reserve (entries payload : Nat)
  | shrink

/-- one operation on the packed map, with what it reports; `none`: undefined behaviour -/
def VMap.step (m : VMap) : Op → Option (VMap × Bool)
  | .emplace k a => m.emplace k a
  | .assign k a => m.insertOrAssign k a
  | .erase k => m.erase k
  | .clear => some (m.clear, true)
  | .reserve entries payload => (m.reserve entries payload).map (·, true)
  | .shrink => m.shrinkToFit.map (·, true)

/-- the same operation on the dictionary, given what was reported: a store that reports failure changes nothing -/
inductive Dict.Step (d : Dict) : Op → Bool → Dict → Prop
  | emplaced {k a v} : (∀ m, Means m a v) → d.has k = false → Dict.Step d (.emplace k a) true (d ++ [(k, v)])
  | notEmplaced {k a} : Dict.Step d (.emplace k a) false d
  | assigned {k a v} : (∀ m, Means m a v) → Dict.Step d (.assign k a) true (d.put k v)
  | notAssigned {k a} : Dict.Step d (.assign k a) false d
  | erase {k} : Dict.Step d (.erase k) (d.has k) (d.remove k)
  | clear : Dict.Step d .clear true []
  | reserve {e p} : Dict.Step d (.reserve e p) true d
  | shrink : Dict.Step d .shrink true d

/-- a store is refused only by a fixed buffer or, for `emplace`, because the key is there -/
def Granted (fixed : Bool) (d : Dict) : Op → Bool → Prop
  | .emplace k _, ok => fixed = true ∨ ok = !d.has k
  | .assign _ _, ok => fixed = true ∨ ok = true
  | _, _ => True

/-- the limits: arguments that denote values and are not parts of the map itself, fewer than 43689 entries, and (unless the buffer is fixed) sizes well below
4 GiB. Beyond: `entry_65536`, `growth_wraps`, `own_value`. -/
def Op.Within (m : VMap) (n : Nat) : Op → Prop
  | .emplace k a => (∃ v, ∀ m, Means m a v) ∧ a.outside ∧ n < 43689 ∧ (m.fixed = true ∨ 4 * (m.base + m.pool.length) + 6 * (k.length + a.size) + 5000 ≤ 2 ^ 32)
  | .assign k a => (∃ v, ∀ m, Means m a v) ∧ a.outside ∧ n < 43689 ∧ (m.fixed = true ∨ 4 * (m.base + m.pool.length) + 6 * (k.length + a.size) + 5000 ≤ 2 ^ 32)
  | .reserve e p => m.fixed = true ∨ 48 * e + p + 2 * (m.base + m.pool.length) + 1000 < 2 ^ 32
  | _ => True

/-- a history on the packed map stays within the limits -/
def Within (m : VMap) : List Op → Prop
  | [] => True
  | op :: ops => op.Within m m.rows.length ∧ ∀ m' ok, m.step op = some (m', ok) → Within m' ops

/-- a history with its reports -/
def VMap.run (m : VMap) : List Op → Option (VMap × List Bool)
  | [] => some (m, [])
  | op :: ops => do
    let (m, ok) ← m.step op
    let (m, oks) ← m.run ops
    some (m, ok :: oks)

/-- a history on the dictionary -/
inductive Dict.Run (fixed : Bool) : Dict → List Op → List Bool → Dict → Prop
  | nil {d} : Dict.Run fixed d [] [] d
  | cons {d op ok d' ops oks d''} : Dict.Step d op ok d' → Granted fixed d op ok → Dict.Run fixed d' ops oks d'' → Dict.Run fixed d (op :: ops) (ok :: oks) d''

end Verif.VMap
