import Verif.Grc.Model
/-!
# What saving and loading a graph means

Only the graph, the loader's operations on blocks and the values of the YAML model are used; none of the functions that save or load.
-/
namespace Verif.Grc

open Verif.Yaml (Val Sca IntTy)

variable {F σ : Type}

/-- an ordinary block: its type and its settings -/
abbrev Leaf (σ : Type) := List Char × σ

/-- the settings of a saved block, one entry per stored time of every context but the default one -/
def entries (L : Loader F σ) (s : σ) : List (List Char × Nat × PMap F) :=
  ((L.stored (L.apply s)).filter (fun c => c.1 ≠ [])).flatMap fun c => c.2.map fun e => (c.1, e.1, e.2)

/-- `s'` is a new block of type `ty` after being given the name, the parameters and the stored settings that `s` had when its staged parameters were applied,
activated and initialised, all of it without an error -/
def Reloaded (L : Loader F σ) (b b' : Leaf σ) : Prop :=
  b'.1 = b.1 ∧ ∃ s₀ s₁ s₂ s₃, L.make b.1 = some s₀ ∧ L.load (L.setName s₀ (L.name (L.apply b.2))) (L.params (L.apply b.2)) = some s₁ ∧
    (entries L b.2).foldlM (fun s e => L.loadCtx s e.2.2 e.1 e.2.1) s₁ = some s₂ ∧ L.activate s₂ = some s₃ ∧ L.init s₃ = some b'.2

/-- a port that a signed 64 bit integer, or two of them, can name -/
def PortOk : PortDef → Prop
  | .index top sub => top < 2 ^ 63 ∧ (sub < 2 ^ 63 ∨ sub = 2 ^ 64 - 1)
  | .name _ => True

/-- a graph of ordinary blocks that all have names, no two the same, and edges between them whose sizes fit into 32 bits -/
structure Savable (L : Loader F σ) (blocks : List (Leaf σ)) (edges : List Edge) : Prop where
  types : ∀ b ∈ blocks, b.1 ≠ "SUBGRAPH".toList
  named : ∀ b ∈ blocks, L.name (L.apply b.2) ≠ []
  nameParam : ∀ b ∈ blocks, find (L.params (L.apply b.2)) "name" = some (.str (L.name (L.apply b.2)))
  distinct : (blocks.map fun b => L.name (L.apply b.2)).Nodup
  ends : ∀ e ∈ edges, e.src < blocks.length ∧ e.dst < blocks.length
  ports : ∀ e ∈ edges, PortOk e.srcPort ∧ PortOk e.dstPort
  sizes : ∀ e ∈ edges, e.minSize < 2 ^ 32

/-- the graph's own edges and exported ports, and those of every graph inside it, lead to blocks of the same graph -/
inductive Wf : Blk σ → Prop where
  | leaf (ty : List Char) (s : σ) : Wf (.leaf ty s)
  | sub (name : List Char) (sched : Option (List Char × σ)) (blocks : List (Blk σ)) (edges : List Edge) (ports : List Exported)
      (inner : ∀ b ∈ blocks, Wf b) (ends : ∀ e ∈ edges, e.src < blocks.length ∧ e.dst < blocks.length) (exported : ∀ p ∈ ports, p.block < blocks.length) :
      Wf (.sub name sched blocks edges ports)

/-- a sub-graph -/
def Blk.isSub : Blk σ → Prop
  | .leaf _ _ => False
  | .sub _ _ _ _ _ => True

/-- the maps among values -/
def maps : List (Val F) → List (PMap F)
  | [] => []
  | .map m :: vs => m :: maps vs
  | _ :: vs => maps vs

/-- the name an entry of `blocks` gives its block -/
def entryName (m : PMap F) : Option (List Char) :=
  match find m "parameters" with
  | some (.map ps) =>
    match find ps "name" with
    | some (.str s) => some s
    | _ => none
  | _ => none

end Verif.Grc
