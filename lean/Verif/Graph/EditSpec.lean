import Verif.Graph.EditModel
/-! # What graph edits promise -/
namespace Verif.Graph.Edit

/-- no edge refers to a block that is not in the graph -/
def NoDangling (g : G) : Prop := ∀ e ∈ g.edges, e.src ∈ g.blocks ∧ e.dst ∈ g.blocks

/-- no connection (source block and port, destination block and port) is listed twice -/
def NoDuplicates (g : G) : Prop :=
  g.edges.Pairwise (fun a b => ¬ (a.src = b.src ∧ a.sp = b.sp ∧ a.dst = b.dst ∧ a.dp = b.dp))

/-- what the caller has to respect for edges not to dangle: edges given by pointer refer to blocks of the graph, the replacement block is a
new one, a dissolved sub-graph is consistent and does not contain itself -/
def Proper (g : G) : Act → Prop
  | .addEdge e => e.src ∈ g.blocks ∧ e.dst ∈ g.blocks
  | .connectPtr e => e.src ∈ g.blocks ∧ e.dst ∈ g.blocks
  | .replaceBlock _ new _ => new ∉ g.blocks
  | .ungroup _ sub inner => (∀ e ∈ inner.edges, e.src ∈ inner.blocks ∧ e.dst ∈ inner.blocks) ∧ sub ∉ inner.blocks
  | _ => True

/-- what the caller has to respect for edges not to be duplicated: calls other than `addEdge` are not used for a connection that exists -/
def Fresh (g : G) : Act → Prop
  | .emplaceEdge e _ | .connectRef e _ | .connectPtr e =>
    ∀ x ∈ g.edges, ¬ (x.src = e.src ∧ x.sp = e.sp ∧ x.dst = e.dst ∧ x.dp = e.dp)
  | .group .. | .ungroup .. => False
  | _ => True

/-- every edit of the sequence respects `P` in the graph it meets -/
def All (P : G → Act → Prop) : G → List Act → Prop
  | _, [] => True
  | g, a :: as => P g a ∧
    match step g a with
    | .ok g' => All P g' as
    | .err g' => All P g' as
    | .ub => True

/-- what grouping and ungrouping may change about an edge: where it crosses the boundary, the port inside is now given by name, and the
memory resources and compute domain are back to the defaults -/
def named (portNames : Nat → Dir → Nat → Option String) (targets : List Nat) (e : E) : E :=
  if e.src ∈ targets ∧ e.dst ∉ targets then
    { e with sp := .str ((definedPortName portNames e.src .output e.sp).getD ""), res := 0 }
  else if e.src ∉ targets ∧ e.dst ∈ targets then
    { e with dp := .str ((definedPortName portNames e.dst .input e.dp).getD ""), res := 0 }
  else e

/-- the ports of the edges that cross the boundary exist -/
def PortsExist (portNames : Nat → Dir → Nat → Option String) (targets : List Nat) (es : List E) : Prop :=
  ∀ e ∈ es, (e.src ∈ targets → e.dst ∉ targets → (definedPortName portNames e.src .output e.sp).isSome) ∧
    (e.src ∉ targets → e.dst ∈ targets → (definedPortName portNames e.dst .input e.dp).isSome)

end Verif.Graph.Edit
