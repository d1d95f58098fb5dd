import Verif.Nmea.Model

/-!
# Compute domains and their memory

Model of `/repo/core/include/gnuradio-4.0/ComputeDomain.hpp`.  Texts are lists of characters; the optional tag and payload, which
nothing in this file reads, are left out.
-/

namespace Verif.Domain

open Verif.Nmea (digitsValue)

/-- `Access` — ComputeDomain.hpp:16 -/
inductive Access where
  | hostOnly
  | shared
  | deviceOnly
deriving DecidableEq, Repr

/-- `ComputeDomain` — ComputeDomain.hpp:18-25; the defaults are those of `host()` (line 28). -/
structure Domain where
  kind : List Char := "host".toList
  access : Access := .hostOnly
  backend : List Char := "none".toList
  deviceIndex : Int := -1
deriving DecidableEq, Repr

/-- `gpu_shared` — ComputeDomain.hpp:30-37 -/
def gpuShared (be : List Char := "sycl".toList) (idx : Int := -1) : Domain := ⟨"gpu".toList, .shared, be, idx⟩

/-- `gpu_device` — ComputeDomain.hpp:38-45 -/
def gpuDevice (be : List Char := "sycl".toList) (idx : Int := -1) : Domain := ⟨"gpu".toList, .deviceOnly, be, idx⟩

/-- `std::from_chars` for `int` — ComputeDomain.hpp:85: as many digits as there are, what follows is ignored; `none` without a digit or
out of range. -/
def fromChars (s : List Char) : Option Int :=
  let neg := s.head? == some '-'
  let ds := (if neg then s.drop 1 else s).takeWhile Char.isDigit
  if ds = [] then none
  else
    let v : Int := if neg then -(digitsValue ds : Int) else digitsValue ds
    if -2147483648 ≤ v ∧ v ≤ 2147483647 then some v else none

/-- `mapKind` — ComputeDomain.hpp:56-67 -/
def mapKind (k : List Char) : List Char :=
  if k = "gpu".toList then "gpu".toList
  else if k = "fpga".toList then "fpga".toList
  else if k = "tpu".toList then "tpu".toList
  else "host".toList

/-- `find(':')` with the two `substr`: the part before the colon, and the part after it if there is one. -/
def cut (s : List Char) : List Char × Option (List Char) :=
  (s.takeWhile (· ≠ ':'), match s.dropWhile (· ≠ ':') with
    | [] => none
    | _ :: rest => some rest)

/-- `parse` — ComputeDomain.hpp:51-98 -/
def parse (s : List Char) : Domain :=
  if s = [] ∨ s = "host".toList ∨ s = "default_cpu".toList ∨ s = "default_io".toList then {}
  else
    let (k, rest) := cut s
    let kind := mapKind k
    if kind = "host".toList then {}
    else
      let backend := if kind = "gpu".toList then "sycl".toList else "none".toList
      match rest with
      | none => ⟨kind, .shared, backend, -1⟩
      | some rest =>
        let (rawBe, idx) := cut rest
        let backend := if rawBe ≠ [] then rawBe else backend
        match idx with
        | none => ⟨kind, .shared, backend, -1⟩
        | some i => ⟨kind, .shared, backend, (fromChars i).getD (-1)⟩

/-- What a provider does: it returns a memory resource, no resource, or throws. -/
inductive Given where
  | mem (id : Nat)
  | null
  | throws
deriving DecidableEq, Repr

/-- `ProviderFn` — ComputeDomain.hpp:103 -/
abbrev Provider (C : Type) := Domain → C → Given

/-- What `resolve` yields: memory (`none` is the default one of the heap), one of two errors, or the exception of the provider. -/
inductive Resolved where
  | ok (mem : Option Nat)
  | noProvider (backend : List Char)
  | nullResource (backend : List Char)
  | throws
deriving DecidableEq, Repr

/-- The map `_providers` — ComputeDomain.hpp:123 -/
abbrev Registry (C : Type) := List (List Char × Provider C)

/-- `register_provider` — ComputeDomain.hpp:131-134: replaces or inserts. -/
def register {C : Type} : Registry C → List Char → Provider C → Registry C
  | [], b, f => [(b, f)]
  | (b', f') :: r, b, f => if b' = b then (b', f) :: r else (b', f') :: register r b f

/-- `find` in the map. -/
def find {C : Type} (r : Registry C) (b : List Char) : Option (Provider C) := (r.find? (·.1 = b)).map (·.2)

/-- `resolve` — ComputeDomain.hpp:136-149 -/
def resolve {C : Type} (r : Registry C) (d : Domain) (ctx : C) : Resolved :=
  if d.kind = "host".toList ∨ d.backend = "none".toList then .ok none
  else
    match find r d.backend with
    | none => .noProvider d.backend
    | some f => match f d ctx with
      | .mem id => .ok (some id)
      | .null => .nullResource d.backend
      | .throws => .throws

/-- `tryResolve` — ComputeDomain.hpp:152-171: the memory, or nothing. -/
def tryResolve {C : Type} (r : Registry C) (d : Domain) (ctx : C) : Option (Option Nat) :=
  if d.kind = "host".toList ∨ d.backend = "none".toList then some none
  else
    match find r d.backend with
    | none => none
    | some f => match f d ctx with
      | .mem id => some (some id)
      | .null => none
      | .throws => none

/-- `bind` — ComputeDomain.hpp:183: the memory, with the default in place of an error; `none` outside is the exception. -/
def bind {C : Type} (r : Registry C) (d : Domain) (ctx : C) : Option (Option Nat) :=
  match resolve r d ctx with
  | .ok m => some m
  | .noProvider _ => some none
  | .nullResource _ => some none
  | .throws => none

end Verif.Domain
