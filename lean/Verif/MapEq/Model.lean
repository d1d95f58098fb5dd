/-!
# Comparing maps and lists of tags

Models `ValueMap::operator==` of `core/include/gnuradio-4.0/ValueMap.hpp` and `equal_tag_lists` of
`blocks/testing/include/gnuradio-4.0/testing/TagMonitors.hpp`. A map is its address, the memory it uses and its entries in order; the
comparison of values is a parameter, as it is not reflexive for NaN.
-/

namespace Verif.MapEq

variable {V : Type}

/-- A `ValueMap`: two maps may share their memory (`_blob`), and have the same entries then. -/
structure Map (V : Type) where
  addr : Nat
  blob : Option Nat
  entries : List (String × V)

/-- `find`: the first entry with the key; that known keys are compared by number is left out — ValueMap.hpp:1226-1244 -/
def find : List (String × V) → String → Option V
  | [], _ => none
  | e :: es, k => if e.1 = k then some e.2 else find es k

/-- The loop of `operator==` — ValueMap.hpp:2610-2615 -/
def matches_ (veq : V → V → Bool) (a b : List (String × V)) : Bool :=
  a.all fun e => match find b e.1 with
    | some v => veq e.2 v
    | none => false

/-- `operator==` — ValueMap.hpp:2600-2617 (and 1791-1808 for views) -/
def mapEq (veq : V → V → Bool) (a b : Map V) : Bool :=
  if a.addr = b.addr then true
  else if a.blob = b.blob ∧ a.blob ≠ none then true
  else if a.entries.length ≠ b.entries.length then false
  else matches_ veq a.entries b.entries

/-- `erase` of a key: the code removes the first entry with the key, here all are removed, which is the same as no key is there twice —
ValueMap.hpp:1768-1775 -/
def erase (m : List (String × V)) (k : String) : List (String × V) := m.filter fun e => e.1 ≠ k

/-- A tag, with the parts that are compared — core/include/gnuradio-4.0/Tag.hpp `struct Tag` -/
structure Tag (V : Type) where
  index : Int
  map : Map V

/-- `customComparator`: `n` is where copies are made, apart from all other maps — TagMonitors.hpp:99-121 -/
def tagEq (veq : V → V → Bool) (ignore : Option (List String)) (tol : Int) (n : Nat) (a b : Tag V) : Bool :=
  let indexClose := if tol = 0 then decide (a.index = b.index) else decide (a.index - b.index ≥ -tol ∧ a.index - b.index ≤ tol)
  let mapsEqual := match ignore with
    | none => mapEq veq a.map b.map
    | some [] => mapEq veq a.map b.map
    | some ks => mapEq veq ⟨n, some n, ks.foldl erase a.map.entries⟩ ⟨n + 1, some (n + 1), ks.foldl erase b.map.entries⟩
  indexClose && mapsEqual

/-- `std::mismatch` finding no difference — TagMonitors.hpp:123-124 -/
def noMismatch (eq : Tag V → Tag V → Bool) : List (Tag V) → List (Tag V) → Bool
  | [], _ => true
  | a :: as, b :: bs => eq a b && noMismatch eq as bs
  | _ :: _, [] => false

/-- `equal_tag_lists` — TagMonitors.hpp:93-129 -/
def tagsEq (veq : V → V → Bool) (ignore : Option (List String)) (tol : Int) (n : Nat) (a b : List (Tag V)) : Bool :=
  if a.length ≠ b.length then false else noMismatch (tagEq veq ignore tol n) a b

end Verif.MapEq
