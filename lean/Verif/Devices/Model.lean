/-!
# The registry of browser devices

Models `DeviceRegistry` of `blocks/common/include/gnuradio-4.0/common/DeviceRegistry.hpp`. A device is its number (which object it is),
its id, its concrete type and what it answers; the registry is the list in the order of registration.
-/

namespace Verif.Devices

/-- `DeviceBase` — DeviceRegistry.hpp:20-38 -/
structure Dev where
  object : Nat
  id : String
  type : Nat
  api : Bool
  granted : Int
deriving DecidableEq

/-- `DeviceBase::isGranted` — DeviceRegistry.hpp:30 -/
def Dev.isGranted (d : Dev) : Bool := decide (d.granted > 0)

/-- `DeviceRegistry::add` — DeviceRegistry.hpp:59-66 -/
def add (r : List Dev) (d : Dev) : List Dev := if r.any (fun e => e.id == d.id) then r else r ++ [d]

/-- `DeviceRegistry::find` — DeviceRegistry.hpp:68-75; `none` is the null pointer. -/
def find : List Dev → String → Option Dev
  | [], _ => none
  | d :: ds, id => if d.id = id then some d else find ds id

/-- The result of `findAs`: nothing, a device, or a pointer to an object of another type. -/
inductive As where
  | null
  | ok (d : Dev)
  | wrongType
deriving DecidableEq

/-- `DeviceRegistry::findAs` for the type `t` with the id `kId` — DeviceRegistry.hpp:77-88 -/
def findAs (r : List Dev) (t : Nat) (kId id : String) : As :=
  if id ≠ kId then .null
  else match find r id with
    | none => .null
    | some d => if d.type = t then .ok d else .wrongType

/-- The devices `requestAllPermissions` asks, in order — DeviceRegistry.hpp:96-102 -/
def asked (r : List Dev) : List Dev := r.filter fun d => d.api && !d.isGranted

/-- `DeviceRegistry::isGranted` — DeviceRegistry.hpp:104-107 -/
def isGranted (r : List Dev) (id : String) : Bool :=
  match find r id with
  | some d => d.isGranted
  | none => false

/-- `DeviceRegistry::grantedCount` — DeviceRegistry.hpp:109-112 -/
def grantedCount (r : List Dev) (id : String) : Int :=
  match find r id with
  | some d => d.granted
  | none => 0

/-- A history of registrations. -/
def registered (ds : List Dev) : List Dev := ds.foldl add []

end Verif.Devices
