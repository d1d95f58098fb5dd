/-!
# The registry of data sinks — model of blocks/basic/include/gnuradio-4.0/basic/DataSink.hpp

Sinks are numbered; `kind` is the type of a sink (`DataSink<float>`, `DataSetSink<double>`, …) and `label` its name as a block, which
does not change. Signal names are numbers too, 0 being the empty string. The registry's mutex makes each operation one step.
-/
namespace Verif.Sink

/-- `signal_name` and `_registered` of the sinks, and `_sinks` and `_sink_by_signal_name` of the registry — DataSink.hpp:163-166, 517, 525 -/
structure Reg where
  name : Nat → Nat
  reg : Nat → Bool
  listed : List Nat
  byName : Nat → Option Nat

/-- nothing is registered, no sink has a name -/
def Reg.start : Reg := ⟨fun _ => 0, fun _ => false, [], fun _ => none⟩

/-- what happens: a setting or tag gives a sink a signal name, or a sink is stopped -/
inductive RAct where
  | rename (i new : Nat)
  | stop (i : Nat)
deriving DecidableEq, Repr

/-- how an operation ends: as it should, with an exception, or with the end of the program (`std::terminate`) -/
inductive RRes where
  | done (r : Reg)
  | refused (r : Reg)
  | terminated

/-- `f` changed at `i` -/
def upd {β : Type} (f : Nat → β) (i : Nat) (v : β) : Nat → β := fun k => if k = i then v else f k

/-- `registerSink` — DataSink.hpp:169-184 -/
def Reg.register (r : Reg) (i : Nat) : RRes :=
  if r.reg i = true ∨ r.name i = 0 then .done r
  else if (r.byName (r.name i)).isSome then .refused r
  else .done { r with listed := r.listed ++ [i], byName := upd r.byName (r.name i) (some i), reg := upd r.reg i true }

/-- `unregisterSink`: `std::any_cast` throws if the type is another one, and `stop` is `noexcept` — DataSink.hpp:186-195, 607-614 -/
def Reg.unregister (kind : Nat → Nat) (r : Reg) (i : Nat) : RRes :=
  if r.listed.all fun k => kind k = kind i then
    .done { r with listed := r.listed.filter (· ≠ i), byName := upd r.byName (r.name i) none, reg := upd r.reg i false }
  else .terminated

/-- `updateSignalName` — DataSink.hpp:197-215 -/
def Reg.update (r : Reg) (i old new : Nat) : RRes :=
  if old = 0 ∨ new = 0 ∨ (r.byName new).isSome then .refused r
  else .done { r with byName := upd (upd r.byName old none) new (some i) }

/-- `settingsChanged` after `signal_name` was set; an exception leaves the new value in place (Settings.hpp:1155-1215)
— DataSink.hpp:529-538, 1073-1082 — and `stop` -/
def Reg.step (kind : Nat → Nat) (r : Reg) : RAct → RRes
  | .rename i new =>
    let old := r.name i
    let r' := { r with name := upd r.name i new }
    if old = 0 then r'.register i
    else if old ≠ new ∧ r.reg i = true then r'.update i old new
    else .done r'
  | .stop i => r.unregister kind i

/-- operations in order; after a refusal things go on, and `ok` says whether there was none; `none` if the program ended -/
def Reg.run (kind : Nat → Nat) (r : Reg) : List RAct → Option (Reg × Bool)
  | [] => some (r, true)
  | a :: as => match r.step kind a with
    | .done r' => r'.run kind as
    | .refused r' => (r'.run kind as).map fun x => (x.1, false)
    | .terminated => none

/-- `find` with a signal name — DataSink.hpp:338-348 -/
def Reg.findSignal (kind : Nat → Nat) (r : Reg) (k n : Nat) : Option Nat :=
  (r.byName n).filter fun i => kind i = k

/-- `find` with the name of the block — DataSink.hpp:349-363 -/
def Reg.findLabel (kind label : Nat → Nat) (r : Reg) (k l : Nat) : Option Nat :=
  r.listed.find? fun i => kind i = k ∧ label i = l

end Verif.Sink
