/-!
# Meta-information of ports

Model of `PortMetaInfo` in `/repo/core/include/gnuradio-4.0/Port.hpp` and of the names in `/repo/core/include/gnuradio-4.0/Tag.hpp`.
Texts are lists of characters; `F` is the type of the floating point values. A text that is empty is taken to have an address, so that it
counts as a text (Port.hpp:244).
-/

namespace Verif.Meta

/-- A value in a map: a text, a `float`, or of another type (a `double` is another type: the check is strict, Port.hpp:250). -/
inductive Val (F : Type) where
  | text (s : List Char)
  | float (x : F)
  | other
deriving DecidableEq, Repr

/-- `PortMetaInfo` — Port.hpp:207-214 -/
structure Info (F : Type) where
  dataType : List Char
  name : List Char
  sampleRate : F
  signalName : List Char
  signalQuantity : List Char
  signalUnit : List Char
  signalMin : F
  signalMax : F
deriving DecidableEq, Repr

/-- `settingsKey` — Tag.hpp:180-186 -/
def settingsKey (k : List Char) : List Char := if "gr:".toList.isPrefixOf k then k.drop 3 else k

/-- `kDefaultTags` — Tag.hpp:188 -/
def defaultTags : List (List Char) :=
  ["sample_rate".toList, "frequency".toList, "signal_name".toList, "num_channels".toList, "signal_quantity".toList, "signal_unit".toList,
   "signal_min".toList, "signal_max".toList, "n_dropped_samples".toList, "rx_overflow".toList, "trigger_name".toList,
   "trigger_time".toList, "trigger_time_error".toList, "trigger_offset".toList, "trigger_meta_info".toList, "user_data".toList,
   "context".toList, "ctx_time".toList, "local_time".toList, "reset_default".toList, "store_default".toList, "end_of_stream".toList]

/-- A member of type text takes a text — Port.hpp:242-248; `none` is the error. -/
def asText {F : Type} : Val F → Option (List Char)
  | .text s => some s
  | _ => none

/-- A member of type `float` takes a `float` — Port.hpp:249-256 -/
def asFloat {F : Type} : Val F → Option F
  | .float x => some x
  | _ => none

/-- The loop over the members — Port.hpp:235-259; `none` is an error, which leaves the members as they are. -/
def setMember {F : Type} (i : Info F) (field : List Char) (v : Val F) : Option (Info F) :=
  if field = "data_type".toList then (asText v).map fun s => { i with dataType := s }
  else if field = "name".toList then (asText v).map fun s => { i with name := s }
  else if field = "sample_rate".toList then (asFloat v).map fun x => { i with sampleRate := x }
  else if field = "signal_name".toList then (asText v).map fun s => { i with signalName := s }
  else if field = "signal_quantity".toList then (asText v).map fun s => { i with signalQuantity := s }
  else if field = "signal_unit".toList then (asText v).map fun s => { i with signalUnit := s }
  else if field = "signal_min".toList then (asFloat v).map fun x => { i with signalMin := x }
  else if field = "signal_max".toList then (asFloat v).map fun x => { i with signalMax := x }
  else some i

/-- One entry of the map: the members, and whether there has been an error — Port.hpp:230-261 -/
def step {F : Type} (s : Info F × Bool) (e : List Char × Val F) : Info F × Bool :=
  let field := settingsKey e.1
  if field ∈ defaultTags then
    match setMember s.1 field e.2 with
    | some i => (i, s.2)
    | none => (s.1, true)
  else s

/-- `update` — Port.hpp:228-267: the members and whether an error is returned; the entries in the order of the map. -/
def update {F : Type} (i : Info F) (m : List (List Char × Val F)) : Info F × Bool := m.foldl step (i, false)

/-- `get` — Port.hpp:269-276 -/
def get {F : Type} (i : Info F) : List (List Char × Val F) :=
  [("data_type".toList, .text i.dataType), ("name".toList, .text i.name), ("sample_rate".toList, .float i.sampleRate),
   ("signal_name".toList, .text i.signalName), ("signal_quantity".toList, .text i.signalQuantity), ("signal_unit".toList, .text i.signalUnit),
   ("signal_min".toList, .float i.signalMin), ("signal_max".toList, .float i.signalMax)]

end Verif.Meta
