import Verif.Log.ConsoleModel
/-! # What is said about the console -/
namespace Verif.Log.Console
open Verif.Log (Rec)

/-- The lines that came through the ring. -/
def ringLines (m : Mem) : List Rec :=
  m.lines.filterMap fun l => if l.1 then none else some l.2

/-- No thread is inside a call. -/
def quiet (s : Sys) : Prop := ∀ t, s.pc t = .idle

/-- The records that a schedule asks to publish. -/
def asked : List Act → List Rec
  | [] => []
  | .call _ (.publish r) :: as => r :: asked as
  | _ :: as => asked as

/-- A call run to its end by one thread, nobody else moving: `k` steps. -/
def alone (t : Nat) (op : Op) (k : Nat) : List Act := .call t op :: List.replicate k (.go t)

end Verif.Log.Console
