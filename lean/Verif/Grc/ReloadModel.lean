import Verif.Grc.Model
import Verif.Settings.Model
/-!
# Model of loading the settings of a block

Sources: core/include/gnuradio-4.0/Settings.hpp (`loadParametersFromPropertyMap`, `init`), Block.hpp (`init`), the calls of Graph_yaml_importer.hpp:218-280 on
the settings of a new block. On top of the settings model; every clock reading is an explicit argument or taken from a sequence `clk`.

Not modelled: `meta_information`, messages to listeners, the change of state.
-/
namespace Verif.Settings

open Verif.Work.Tags (Key Map settingsKey insertOrAssign)

variable {V : Type}

/-- `loadParametersFromPropertyMap`; `none`: it threw (Settings.hpp:1221-1237) -/
def loadParams (cfg : Cfg V) (s : St V) (n n' : Nat) (ps : Map V) (ctx : Ctx) : Option (St V) :=
  let r := set cfg s n n' (ps.filter fun e => cfg.writable.contains e.1) ctx
  if r.2.2 then none else if r.2.1.isEmpty then some r.1 else none

/-- `activateContext()` where failure is an error (Graph_yaml_importer.hpp:276-278, Settings.hpp:962-964) -/
def activateNow (cfg : Cfg V) (s : St V) (n : Nat) : Option (St V) :=
  let r := activate cfg s n ⟨0, 0⟩
  if r.2.2 then none else if r.2.1.isNone then none else some r.1

/-- `init` of the settings of a block made without initial parameters (Settings.hpp:908-965) -/
def initSettings (cfg : Cfg V) (s : St V) (n n' n'' : Nat) : Option (St V) :=
  let r := set cfg (storeDefaults cfg s) n n' [] ⟨0, 0⟩
  if r.2.2 then none else if r.2.1.isEmpty then activateNow cfg r.1 n'' else none

/-- a member gets a value from outside the settings -/
def assign (s : St V) (k : Key) (v : V) : St V := { s with fields := fun j => if j = k then v else s.fields j }

/-- `Block::init`; `dom`: the member `compute_domain` and its new value; an exception from `setStaged` is caught (Block.hpp:892-934) -/
def initBlock (cfg : Cfg V) (cb : (Key → V) → Key → V) (dom : Key × V) (s : St V) (n n' n'' : Nat) : Option (St V) :=
  match initSettings cfg (assign s dom.1 dom.2) n n' n'' with
  | none => none
  | some s =>
    match apply cfg s cb with
    | none => none
    | some (s, _, fwd) => some (storeDefaults cfg (setStaged cfg s fwd).1)

/-- the stored sets of other contexts: context, time, parameters (Graph_yaml_importer.hpp:243-273) -/
def loadSets (cfg : Cfg V) (clk : Nat → Nat) : Nat → St V → List (Nat × Nat × Map V) → Option (St V)
  | _, s, [] => some s
  | i, s, e :: es =>
    match loadParams cfg s (clk i) (clk (i + 1)) e.2.2 ⟨e.2.1, e.1⟩ with
    | none => none
    | some s => loadSets cfg clk (i + 2) s es

/-- a new block whose members are `f` after loading its name, parameters and stored sets, activation and initialisation (Graph_yaml_importer.hpp:218-280) -/
def reload (cfg : Cfg V) (cb : (Key → V) → Key → V) (dom nm : Key × V) (clk : Nat → Nat) (f : Key → V) (ps : Map V) (sets : List (Nat × Nat × Map V)) :
    Option (St V) :=
  match loadParams cfg (assign (St.fresh f) nm.1 nm.2) (clk 0) (clk 1) ps ⟨0, 0⟩ with
  | none => none
  | some s =>
    match loadSets cfg clk 2 s sets with
    | none => none
    | some s =>
      let i := 2 + 2 * sets.length
      match activateNow cfg s (clk i) with
      | none => none
      | some s => initBlock cfg cb dom s (clk (i + 1)) (clk (i + 2)) (clk (i + 3))

end Verif.Settings

namespace Verif.Grc

open Verif.Yaml (Val)
open Verif.Work.Tags (Key Map)
open Verif.Settings (St Cfg)

variable {F : Type}

/-- a block type: its settings, its callback and the members of a new block -/
structure Kind (F : Type) where
  cfg : Cfg (Val F)
  cb : (Key → Val F) → Key → Val F
  fresh : Key → Val F

/-- a block with its settings; `tick`: how many clock readings loading has made on it so far -/
structure Live (F : Type) where
  kind : Kind F
  st : St (Val F)
  tick : Nat

/-- what loading needs besides the block types: the clock (each block sees the readings from the start, a simplification), numbers for context names -/
structure World (F : Type) where
  kinds : List Char → Option (Kind F)
  clk : Nat → Nat
  enc : List Char → Nat
  dec : Nat → List Char
  domain : List Char
  unique : Blk (Live F) → List Char
  category : Blk (Live F) → List Char
  arith : Blk (Live F) → PortDef → Bool
  hasPort : Blk (Live F) → Bool → List Char → Bool
  metaInfo : Live F → PMap F
  ports : Live F → PMap F

/-- `name()` -/
def liveName (b : Live F) : List Char :=
  match b.st.fields "name".toList with
  | .str s => s
  | _ => []

/-- the loader's calls on the settings model -/
def settingsLoader (w : World F) : Loader F (Live F) where
  make ty := (w.kinds ty).map fun k => ⟨k, St.fresh k.fresh, 0⟩
  makeSched _ _ := none
  setName b n := { b with st := Settings.assign b.st "name".toList (.str n) }
  name := liveName
  load b ps := (Settings.loadParams b.kind.cfg b.st (w.clk b.tick) (w.clk (b.tick + 1)) ps ⟨0, 0⟩).map fun s => ⟨b.kind, s, b.tick + 2⟩
  loadCtx b ps c t := (Settings.loadParams b.kind.cfg b.st (w.clk b.tick) (w.clk (b.tick + 1)) ps ⟨t, w.enc c⟩).map fun s => ⟨b.kind, s, b.tick + 2⟩
  activate b := (Settings.activateNow b.kind.cfg b.st (w.clk b.tick)).map fun s => ⟨b.kind, s, b.tick + 1⟩
  init b := (Settings.initBlock b.kind.cfg b.kind.cb ("compute_domain".toList, .str w.domain) b.st (w.clk b.tick) (w.clk (b.tick + 1)) (w.clk (b.tick + 2))).map
    fun s => ⟨b.kind, s, b.tick + 3⟩
  apply b := match Settings.apply b.kind.cfg b.st b.kind.cb with
    | some r => { b with st := r.1 }
    | none => b
  params b := b.st.active
  stored b := b.st.stored.map fun c => (w.dec c.1, c.2.map fun e => (e.ctx.time, e.settings))
  unique := w.unique
  category := w.category
  metaInfo := w.metaInfo
  inputPorts := w.ports
  outputPorts := w.ports
  arith := w.arith
  hasPort := w.hasPort

end Verif.Grc
