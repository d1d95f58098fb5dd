import Verif.Grc.ReloadModel
import Verif.Grc.Spec
/-!
# Settings that survive saving and loading
-/
namespace Verif.Settings

open Verif.Work.Tags (Key Map settingsKey)

variable {V : Type}

/-- parameters that come back from loading as they are: no key twice; values of members are not empty, their keys have no prefix, and converting them to the
member's type changes nothing -/
structure Stable (cfg : Cfg V) (ps : Map V) : Prop where
  keys : (ps.map (·.1)).Nodup
  usable : ∀ e ∈ ps, e.1 ∈ cfg.writable → cfg.isMono e.2 = false ∧ settingsKey e.1 = e.1 ∧ cfg.conv e.1 e.2 = some e.2

end Verif.Settings

namespace Verif.Grc

open Verif.Settings (Stable)

variable {F : Type}

/-- a saved block whose settings can come back: its type is known to the loader, its values are of their members' types -/
structure Restorable (w : World F) (b : Leaf (Live F)) : Prop where
  kind : w.kinds b.1 = some b.2.kind
  native : b.2.kind.cfg.wasm = false
  noExpiry : b.2.kind.cfg.expiry = Settings.noExpiry
  noReset : Settings.resetKey ∉ b.2.kind.cfg.writable ++ b.2.kind.cfg.readable
  params : Stable b.2.kind.cfg ((settingsLoader w).params ((settingsLoader w).apply b.2))
  sets : ∀ e ∈ entries (settingsLoader w) b.2, Stable b.2.kind.cfg e.2.2

end Verif.Grc
