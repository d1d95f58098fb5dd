/-!
# Model of graph edits

Sources: core/include/gnuradio-4.0/Graph.hpp:406-421 (`clear`, `addBlock`), 446-482 (`containsEdge`, `addEdge`, `removeEdge`,
`removeBlockByName`), 491-556 (`emplaceEdge`, `removeEdgeBySourcePort`), 564-594 (`connect`); core/src/Graph.cpp:32-59
(`replaceBlock`), 61-77 (`definedPortName`), 79-172 (`groupBlocks`), 174-281 (`ungroupBlocks`); BlockModel.hpp:20-44
(`PortDefinition`), 154-159 (`Edge::operator==`).

Blocks are natural numbers standing for the `shared_ptr` and for the unique name. What happens inside the ports (type checks, buffers)
appears as Boolean arguments.
-/
namespace Verif.Graph.Edit

/-- `PortDefinition` — BlockModel.hpp:20-44 -/
inductive PortDef where
  | idx (top sub : Nat)
  | str (name : String)
  deriving DecidableEq, Repr

/-- `Edge`; `params` stands for minBufferSize, weight and name, `res` for the memory resources and the compute domain (0: the defaults);
the connection state is left out — BlockModel.hpp:72-160 -/
structure E where
  src : Nat
  sp : PortDef
  dst : Nat
  dp : PortDef
  params : Nat := 0
  res : Nat := 0
  deriving DecidableEq, Repr

/-- `Edge::operator==` ignores the parameters — BlockModel.hpp:154-159 -/
def E.same (a b : E) : Bool := a.src == b.src && a.dst == b.dst && a.sp == b.sp && a.dp == b.dp

/-- `_blocks`, its capacity, and `_edges` — Graph.hpp:373-380; Graph.cpp:8 reserves space for 100 blocks -/
structure G where
  blocks : List Nat := []
  edges : List E := []
  cap : Nat := 100
  deriving DecidableEq, Repr

/-- outcome of an edit: success, error return (with the graph as the edit left it), undefined behaviour -/
inductive Res where
  | ok (g : G)
  | err (g : G)
  | ub
  deriving DecidableEq, Repr

/-- `addBlock` — Graph.hpp:415-421; a full vector moves to a larger allocation (growth factor two, as in libstdc++) -/
def addBlock (g : G) (b : Nat) : G :=
  { g with blocks := g.blocks ++ [b], cap := if g.blocks.length = g.cap then max 1 (2 * g.cap) else g.cap }

/-- `containsEdge` — Graph.hpp:446-448 -/
def containsEdge (es : List E) (e : E) : Bool := es.any (fun x => x.same e)

/-- `addEdge` — Graph.hpp:450-457 -/
def addEdge (g : G) (e : E) : Res :=
  if containsEdge g.edges e then .err g else .ok { g with edges := g.edges ++ [e] }

/-- `removeEdge` — Graph.hpp:459-461 -/
def removeEdge (g : G) (e : E) : Res := .ok { g with edges := g.edges.filter (fun x => !x.same e) }

/-- `removeBlockByName` — Graph.hpp:465-480; `_blocks.erase(it)` removes the first occurrence -/
def removeBlockByName (g : G) (b : Nat) : Res :=
  if g.blocks.contains b then
    .ok { g with blocks := g.blocks.erase b, edges := g.edges.filter (fun e => !(e.src == b || e.dst == b)) }
  else .err g

/-- `emplaceEdge` — Graph.hpp:491-527; `portsOk`: both ports exist, have the same type and could be connected -/
def emplaceEdge (g : G) (e : E) (portsOk : Bool) : Res :=
  if !g.blocks.contains e.src then .err g
  else if !g.blocks.contains e.dst then .err g
  else if !portsOk then .err g
  else .ok { g with edges := g.edges ++ [e] }

/-- `connect` with block references — Graph.hpp:581-594, 597-669; `portsOk`: the ports exist -/
def connectRef (g : G) (e : E) (portsOk : Bool) : Res :=
  if !g.blocks.contains e.src || !g.blocks.contains e.dst then .err g
  else if !portsOk then .err g
  else .ok { g with edges := g.edges ++ [e] }

/-- `connect` with block pointers — Graph.hpp:564-578 -/
def connectPtr (g : G) (e : E) : G := { g with edges := g.edges ++ [e] }

/-- `removeEdgeBySourcePort` — Graph.hpp:529-556; `portOk`: the port exists and could be disconnected, `sel`: the edge starts at the port -/
def removeEdgeBySourcePort (g : G) (b : Nat) (portOk : Bool) (sel : E → Bool) : Res :=
  if !g.blocks.contains b then .err g
  else if !portOk then .err g
  else .ok { g with edges := g.edges.filter (fun e => !(e.src == b && sel e)) }

/-- the loop of `replaceBlock` over the edges — Graph.cpp:45-53 -/
def redirect (old new : Nat) (e : E) : E :=
  let e := if e.src = old then { e with src := new } else e
  if e.dst = old then { e with dst := new } else e

/-- `replaceBlock` — Graph.cpp:32-59; `created`: the plugin loader could instantiate the new block. The iterator to the old block is used
after `addBlock`, which invalidates it if the vector was full. -/
def replaceBlock (g : G) (old new : Nat) (created : Bool) : Res :=
  if !g.blocks.contains old then .err g
  else if !created then .err g
  else if g.blocks.length = g.cap then .ub
  else
    let g := addBlock g new
    .ok { g with blocks := g.blocks.erase old, edges := g.edges.map (redirect old new) }

/-! ## grouping -/

inductive Dir where
  | input | output
  deriving DecidableEq, Repr

/-- `PortExport` — Graph.cpp:86-93 -/
structure Export where
  block : Nat
  dir : Dir
  internal : String
  exported : String
  deriving DecidableEq, Repr

/-- the sub-graph: its blocks, edges and exported ports -/
structure Inner where
  blocks : List Nat := []
  edges : List E := []
  exports : List Export := []
  deriving DecidableEq, Repr

/-- `isTaken` — Graph.cpp:102 -/
def isTaken (ops : List Export) (d : Dir) (cand : String) : Bool := ops.any (fun x => x.dir == d && x.exported == cand)

/-- `for (suffix = 1; isTaken(exportedName); ++suffix)` — Graph.cpp:103-106; `base` is "{block name}.{internal name}"; `none`: more than
`fuel` iterations -/
def freeName (ops : List Export) (d : Dir) (base : String) : Nat → Nat → String → Option String
  | 0, _, _ => none
  | fuel + 1, suffix, cand =>
    if isTaken ops d cand then freeName ops d base fuel (suffix + 1) (base ++ "_" ++ toString suffix) else some cand

/-- `findOrCreateExport` — Graph.cpp:96-109; `nameOf` is the (not necessarily unique) name of a block -/
def findOrCreateExport (nameOf : Nat → String) (ops : List Export) (b : Nat) (d : Dir) (internal : String) :
    Option (List Export × String) :=
  match ops.find? (fun x => x.block == b && x.dir == d && x.internal == internal) with
  | some x => some (ops, x.exported)
  | none => do
    let base := nameOf b ++ "." ++ internal
    let n ← freeName ops d base (ops.length + 1) 1 base
    some (ops ++ [⟨b, d, internal, n⟩], n)

/-- `definedPortName` — Graph.cpp:61-74; `portNames b d i` is the name of the `i`-th port, if there is one -/
def definedPortName (portNames : Nat → Dir → Nat → Option String) (b : Nat) (d : Dir) : PortDef → Option String
  | .str s => some s
  | .idx top sub => (portNames b d top).map (fun n => if sub = 2 ^ 64 - 1 then n else n ++ "#" ++ toString sub)

/-- `CrossingEdge` — Graph.cpp:111-115 -/
structure Crossing where
  edge : E
  newPort : String
  srcInside : Bool
  deriving DecidableEq, Repr

/-- the classification loop — Graph.cpp:118-133; `none` (an `Except` error) if a port index is out of range -/
def classify (nameOf : Nat → String) (portNames : Nat → Dir → Nat → Option String) (targets : List Nat) :
    List E → List E × List Crossing × List Export → Option (List E × List Crossing × List Export)
  | [], acc => some acc
  | e :: es, (internal, crossing, ops) =>
    let s := targets.contains e.src
    let d := targets.contains e.dst
    if s && d then classify nameOf portNames targets es (internal ++ [e], crossing, ops)
    else if s || d then do
      let b := if s then e.src else e.dst
      let dir := if s then Dir.output else Dir.input
      let n ← definedPortName portNames b dir (if s then e.sp else e.dp)
      let r ← findOrCreateExport nameOf ops b dir n
      classify nameOf portNames targets es (internal, crossing ++ [⟨e, r.2, s⟩], r.1)
    else classify nameOf portNames targets es (internal, crossing, ops)

/-- the edge that replaces a crossing edge: only minBufferSize, weight and name are handed over — Graph.cpp:159-165 -/
def Crossing.toEdge (c : Crossing) (sub : Nat) : E :=
  if c.srcInside then ⟨sub, .str c.newPort, c.edge.dst, c.edge.dp, c.edge.params, 0⟩
  else ⟨c.edge.src, c.edge.sp, sub, .str c.newPort, c.edge.params, 0⟩

/-- adding edges one by one, ignoring the ones `addEdge` refuses — Graph.cpp:149-151, 255-257 -/
def addAll (es : List E) (new : List E) : List E := new.foldl (fun acc e => if containsEdge acc e then acc else acc ++ [e]) es

/-- `groupBlocks` — Graph.cpp:79-172; `spawned`: the sub-graph could be created, `exportOk`: all ports could be exported. Returns the outer
graph and the sub-graph. -/
def groupBlocks (g : G) (nameOf : Nat → String) (portNames : Nat → Dir → Nat → Option String) (targets : List Nat) (sub : Nat)
    (spawned exportOk : Bool) : Res × Inner :=
  if targets.isEmpty then (.err g, {})
  else
    match classify nameOf portNames targets g.edges ([], [], []) with
    | none => (.err g, {})
    | some (internal, crossing, ops) =>
      if !spawned then (.err g, {})
      else
        let g1 : G := { g with
          edges := g.edges.filter (fun e => !(targets.contains e.src || targets.contains e.dst))
          blocks := g.blocks.filter (fun b => !targets.contains b) }
        let inner : Inner := ⟨targets, addAll [] internal, ops⟩
        if !exportOk then (.err g1, inner)
        else
          let g2 := addBlock g1 sub
          (.ok { g2 with edges := g2.edges ++ crossing.map (·.toEdge sub) }, inner)

/-- the port of an inner block behind an exported name — Graph.cpp:189-217, 243-247. The code fills an unordered map in the order of the
(sorted) property map; the order matters only if two ports were exported under one name. -/
def lookupExport (inner : Inner) (d : Dir) (name : String) : Option Export :=
  inner.exports.find? (fun x => x.dir == d && x.exported == name && !(x.exported == ""))

/-- replace the source; the `Edge` constructor used resets resources and domain — Graph.cpp:243-249, 260-265 -/
def rewireSrc (portNames : Nat → Dir → Nat → Option String) (sub : Nat) (inner : Inner) (e : E) : Option E :=
  if e.src = sub then do
    let n ← definedPortName portNames sub .output e.sp
    let x ← lookupExport inner .output n
    some { e with src := x.block, sp := .str x.internal, res := 0 }
  else some e

/-- replace the destination — Graph.cpp:243-249, 265-270 -/
def rewireDst (portNames : Nat → Dir → Nat → Option String) (sub : Nat) (inner : Inner) (e : E) : Option E :=
  if e.dst = sub then do
    let n ← definedPortName portNames sub .input e.dp
    let x ← lookupExport inner .input n
    some { e with dst := x.block, dp := .str x.internal, res := 0 }
  else some e

/-- `ungroupBlocks` — Graph.cpp:174-281: all edges are resolved first, then the inner blocks and edges are added and the resolved edges
replaced in place -/
def ungroupBlocks (g : G) (portNames : Nat → Dir → Nat → Option String) (sub : Nat) (inner : Inner) : Res :=
  if !inner.exports.all (fun x => inner.blocks.contains x.block) then .err g
  else match g.edges.mapM (fun e => (rewireSrc portNames sub inner e).bind (rewireDst portNames sub inner)) with
  | none => .err g
  | some rewired =>
    let g1 := inner.blocks.foldl addBlock g
    let added := (addAll g.edges inner.edges).drop g.edges.length
    .ok { g1 with edges := rewired ++ added, blocks := g1.blocks.filter (fun b => !(b == sub)) }

/-! ## sequences of edits -/

inductive Act where
  | addBlock (b : Nat)
  | addEdge (e : E)
  | removeEdge (e : E)
  | removeBlock (b : Nat)
  | emplaceEdge (e : E) (portsOk : Bool)
  | connectRef (e : E) (portsOk : Bool)
  | connectPtr (e : E)
  | removeEdgeBySourcePort (b : Nat) (portOk : Bool) (sel : E → Bool)
  | replaceBlock (old new : Nat) (created : Bool)
  | group (nameOf : Nat → String) (portNames : Nat → Dir → Nat → Option String) (targets : List Nat) (sub : Nat) (spawned exportOk : Bool)
  | ungroup (portNames : Nat → Dir → Nat → Option String) (sub : Nat) (inner : Inner)
  | clear

def step (g : G) : Act → Res
  | .addBlock b => .ok (addBlock g b)
  | .addEdge e => addEdge g e
  | .removeEdge e => removeEdge g e
  | .removeBlock b => removeBlockByName g b
  | .emplaceEdge e ok => emplaceEdge g e ok
  | .connectRef e ok => connectRef g e ok
  | .connectPtr e => .ok (connectPtr g e)
  | .removeEdgeBySourcePort b ok sel => removeEdgeBySourcePort g b ok sel
  | .replaceBlock o n c => replaceBlock g o n c
  | .group nm pn ts sub sp ex => (groupBlocks g nm pn ts sub sp ex).1
  | .ungroup pn sub inner => ungroupBlocks g pn sub inner
  | .clear => .ok { g with blocks := [], edges := [] }

/-- a sequence of edits; an error return does not stop the caller; `none` after undefined behaviour -/
def run : G → List Act → Option G
  | g, [] => some g
  | g, a :: as =>
    match step g a with
    | .ok g' => run g' as
    | .err g' => run g' as
    | .ub => none

end Verif.Graph.Edit
