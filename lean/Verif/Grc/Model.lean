import Verif.Yaml.Model
/-!
# Model of saving and loading graphs

Sources: core/include/gnuradio-4.0/Graph_yaml_importer.hpp (`loadGraphFromMap`, `saveGraphToMap`, `loadGrc`, `saveGrc`), core/src/BlockModel.cpp
(`serializeBlock`, `serializeBlockImpl`, `serializeBlockSettings`), Graph.hpp:564-578 (`connect`).

Values are those of the YAML model. A block with all its settings is a value of an arbitrary type `σ`, and what the loader calls on it is a parameter
(`Loader`); `Verif/Grc/Reload.lean` supplies the settings model for it. Pointers to the blocks of a graph are positions in its list of blocks.

Not modelled: resources and compute domains of edges, user interface constraints, the text of errors.
-/
namespace Verif.Grc

open Verif.Yaml (Val Sca IntTy)

variable {F σ : Type}

/-- `property_map` -/
abbrev PMap (F : Type) := List (List Char × Val F)

/-- `property_map::find` -/
def find (m : PMap F) (k : String) : Option (Val F) := (m.find? (fun e => decide (e.1 = k.toList))).map (·.2)

/-- `PortDefinition` (BlockModel.hpp:20-44) -/
inductive PortDef where
  | index (top sub : Nat)
  | name (s : List Char)
  deriving DecidableEq, Repr

/-- `meta::invalid_index` -/
def invalidIndex : Nat := 2 ^ 64 - 1

/-- `undefined_size`, `std::numeric_limits<std::size_t>::max()` -/
def undefinedSize : Nat := 2 ^ 64 - 1

/-- the user-visible members of `Edge` (BlockModel.hpp:74-97) -/
structure Edge where
  src : Nat
  srcPort : PortDef
  dst : Nat
  dstPort : PortDef
  minSize : Nat
  weight : Int
  label : List Char
  deriving DecidableEq, Repr

/-- an entry of `_exportedInputPortsForBlock` or `_exportedOutputPortsForBlock` (Graph.hpp:185-190) -/
structure Exported where
  input : Bool
  block : Nat
  inner : List Char
  outer : List Char
  deriving DecidableEq

/-- blocks of a graph: ordinary ones, and sub-graphs with or without a scheduler of their own -/
inductive Blk (σ : Type) where
  | leaf (ty : List Char) (s : σ)
  | sub (name : List Char) (sched : Option (List Char × σ)) (blocks : List (Blk σ)) (edges : List Edge) (ports : List Exported)

/-- What loading and saving call: `PluginLoader::instantiate`, `instantiateScheduler`, `setName`, `name`, `loadParametersFromPropertyMap` for the default
context and for another one (`none`: it throws), `activateContext`, `init`, `applyStagedParameters`, `settings().get()`, `getStoredAll()`;
`unique`, `category`, `metaInfo`, `inputPorts`, `outputPorts` are written but not read; `arith`: the port is known and of arithmetic type;
`hasPort`: `dynamicInputPort`, `dynamicOutputPort`. -/
structure Loader (F σ : Type) where
  make : List Char → Option σ
  makeSched : List Char → PMap F → Option σ
  setName : σ → List Char → σ
  name : σ → List Char
  load : σ → PMap F → Option σ
  loadCtx : σ → PMap F → List Char → Nat → Option σ
  activate : σ → Option σ
  init : σ → Option σ
  apply : σ → σ
  params : σ → PMap F
  stored : σ → List (List Char × List (Nat × PMap F))
  unique : Blk σ → List Char
  category : Blk σ → List Char
  metaInfo : σ → PMap F
  inputPorts : σ → PMap F
  outputPorts : σ → PMap F
  arith : Blk σ → PortDef → Bool
  hasPort : Blk σ → Bool → List Char → Bool

/-! ## Saving -/

/-- a context of `getStoredAll` in `serializeBlockSettings` (BlockModel.cpp:25-36) -/
def saveCtx (c : List Char × List (Nat × PMap F)) : List (Val F) :=
  if c.1.isEmpty then []
  else c.2.map fun e => .map [("gr:context".toList, .str c.1), ("gr:ctx_time".toList, .sca (.int ⟨64, false⟩ e.1)), ("parameters".toList, .map e.2)]

/-- `serializeBlockSettings` after `applyStagedParameters` (BlockModel.cpp:8-37) -/
def saveSettings (L : Loader F σ) (s : σ) : PMap F :=
  [("parameters".toList, .map (L.params s)), ("ctx_parameters".toList, .list ((L.stored s).flatMap saveCtx))]

/-- `writePortDefinition` (Graph_yaml_importer.hpp:398-413) -/
def savePort : PortDef → Val F
  | .index top sub =>
    if sub ≠ invalidIndex then .list [.sca (.int ⟨64, true⟩ (int64 top)), .sca (.int ⟨64, true⟩ (int64 sub))]
    else .sca (.int ⟨64, true⟩ (int64 top))
  | .name s => .str s
where
  /-- `std::int64_t(x)` of a `std::size_t` -/
  int64 (x : Nat) : Int := if x < 2 ^ 63 then x else (x : Int) - 2 ^ 64

/-- `name()` of a block after saving it, which applies its staged parameters -/
def blkName (L : Loader F σ) : Blk σ → List Char
  | .leaf _ s => L.name (L.apply s)
  | .sub name _ _ _ _ => name

/-- an edge (Graph_yaml_importer.hpp:394-426); `name()` of the block at a position outside the list does not occur -/
def saveEdge (names : List (List Char)) (e : Edge) : Val F :=
  .list ([.str (names.getD e.src []), savePort e.srcPort, .str (names.getD e.dst []), savePort e.dstPort] ++
    if e.minSize ≠ undefinedSize then [.sca (.int ⟨32, false⟩ (e.minSize % 2 ^ 32 : Nat))] else [])

/-- `exportedPortsFor` (Graph.hpp:299-322); the order of the `unordered_multimap` is that of the entries here -/
def exportedMap (unique : Nat → List Char) (input : Bool) (ports : List Exported) : PMap F :=
  let mine := ports.filter (·.input == input)
  (mine.map (·.block)).eraseDups.map fun b =>
    (unique b, .map ((mine.filter (·.block == b)).map fun p => (p.inner, .map [("exportedName".toList, .str p.outer)])))

/-- the exported ports in `serializeBlock` (BlockModel.cpp:109-119) -/
def saveExported (unique : Nat → List Char) (ports : List Exported) : List (Val F) :=
  (exportedMap unique true ports).map (fun e => .list [.str e.1, .str "INPUT".toList, e.2]) ++
  (exportedMap unique false ports).map (fun e => .list [.str e.1, .str "OUTPUT".toList, e.2])

mutual
/-- `serializeBlock`, `serializeBlockImpl` with all flags (BlockModel.cpp:42-137) -/
def saveBlk (L : Loader F σ) : Blk σ → PMap F
  | .leaf ty s =>
    let b := Blk.leaf ty s
    [("id".toList, .str ty), ("unique_name".toList, .str (L.unique b)), ("name".toList, .str (L.name s)), ("block_category".toList, .str (L.category b))] ++
    (if (L.metaInfo s).isEmpty then [] else [("meta_information".toList, .map (L.metaInfo s))]) ++ saveSettings L (L.apply s) ++
    [("input_ports".toList, .map (L.inputPorts (L.apply s))), ("output_ports".toList, .map (L.outputPorts (L.apply s)))]
  | .sub name sched blocks edges ports =>
    let b := Blk.sub name sched blocks edges ports
    [("id".toList, .str "SUBGRAPH".toList), ("unique_name".toList, .str (L.unique b)), ("name".toList, .str name),
      ("block_category".toList, .str (L.category b)),
      ("graph".toList, .map [("blocks".toList, .list (saveBlks L blocks)), ("connections".toList, .list (edges.map (saveEdge (blocks.map (blkName L))))),
        ("exported_ports".toList, .list (saveExported (fun i => (blocks[i]?.map L.unique).getD []) ports))])] ++
    match sched with
    | none => []
    | some (ty, s) => [("scheduler".toList, .map (("id".toList, .str ty) :: saveSettings L (L.apply s)))]
/-- the blocks of a graph in order (Graph_yaml_importer.hpp:382-388) -/
def saveBlks (L : Loader F σ) : List (Blk σ) → List (Val F)
  | [] => []
  | b :: bs => .map (saveBlk L b) :: saveBlks L bs
end

/-- `saveGraphToMap` (Graph_yaml_importer.hpp:379-431). The traversal with category `NormalBlock` visits the blocks and edges of the graph itself: ordinary
blocks have none of their own, and sub-graphs are not entered (Graph.hpp:888-946). -/
def saveGraph (L : Loader F σ) (blocks : List (Blk σ)) (edges : List Edge) : PMap F :=
  [("blocks".toList, .list (saveBlks L blocks)), ("connections".toList, .list (edges.map (saveEdge (blocks.map (blkName L)))))]

/-! ## Loading -/

/-- why loading ended without a graph; `threw`: by an exception from the settings of a block -/
inductive Err where
  | missing | wrongType | noBlock | noScheduler | context | notActivated | threw | connection | unknownBlock | port | exported | depth
  deriving DecidableEq, Repr

/-- an optional result as one that can fail -/
def orErr {α : Type} (e : Err) : Option α → Except Err α
  | none => .error e
  | some a => .ok a

/-- `getProperty<std::string>(map, key)` (Graph_yaml_importer.hpp:20-54) -/
def strProp (m : PMap F) (k : String) : Except Err (List Char) :=
  match find m k with
  | none => .error .missing
  | some (.str s) => .ok s
  | some _ => .error .wrongType

/-- `getProperty<std::string>(map, key, subkey)` (Graph_yaml_importer.hpp:57-73) -/
def strProp2 (m : PMap F) (k k' : String) : Except Err (List Char) :=
  match find m k with
  | none => .error .missing
  | some (.map m') => strProp m' k'
  | some _ => .error .wrongType

/-- the entries of a `Tensor<Value>` under a key, nothing if there is no such (Graph_yaml_importer.hpp:87-93, 132, 284-290) -/
def items (m : PMap F) (k : String) : List (Val F) :=
  match find m k with
  | some (.list vs) => vs
  | _ => []

/-- the map under a key, an empty one if there is none (Graph_yaml_importer.hpp:186-192, 225-234) -/
def mapOr (m : PMap F) (k : String) : PMap F :=
  match find m k with
  | some (.map m') => m'
  | _ => []

/-- `findOr`: under the key with prefix, else under the short one (Graph_yaml_importer.hpp:250-260) -/
def findTag (m : PMap F) (k : String) : Option (Val F) :=
  match find m ("gr:" ++ k) with
  | some .null | none => find m k
  | some v => some v

/-- one entry of `ctx_parameters` (Graph_yaml_importer.hpp:243-273) -/
def loadCtx (L : Loader F σ) (s : σ) : Val F → Except Err σ
  | .map m =>
    match findTag m "context", findTag m "ctx_time", find m "parameters" with
    | some (.str c), some (.sca (.int ⟨64, false⟩ t)), some (.map ps) =>
      if c.isEmpty then .error .context else orErr .threw (L.loadCtx s ps c t.toNat)
    | _, _, _ => .error .context
  | _ => .error .wrongType

/-- the loop over `ctx_parameters` -/
def loadCtxs (L : Loader F σ) : σ → List (Val F) → Except Err σ
  | s, [] => .ok s
  | s, v :: vs =>
    match loadCtx L s v with
    | .error e => .error e
    | .ok s => loadCtxs L s vs

/-- the contexts of a block (Graph_yaml_importer.hpp:236-274) -/
def loadAllCtxs (L : Loader F σ) (s : σ) (m : PMap F) : Except Err σ :=
  match find m "ctx_parameters" with
  | none => .ok s
  | some (.list vs) => loadCtxs L s vs
  | some _ => .error .wrongType

/-- an ordinary block (Graph_yaml_importer.hpp:218-280) -/
def loadLeaf (L : Loader F σ) (m : PMap F) (ty name : List Char) : Except Err σ :=
  match L.make ty with
  | none => .error .noBlock
  | some s =>
    match L.load (L.setName s name) (mapOr m "parameters") with
    | none => .error .threw
    | some s =>
      match loadAllCtxs L s m with
      | .error e => .error e
      | .ok s =>
        match L.activate s with
        | none => .error .notActivated
        | some s => orErr .threw (L.init s)

/-- position of the last block with a name (Graph_yaml_importer.hpp:149-157) -/
def lastNamed (L : Loader F σ) (blocks : List (Blk σ)) (name : List Char) : Option Nat :=
  ((List.range blocks.length).filter fun i => (blocks[i]?.map (nameNow L)).getD [] == name).getLast?
where
  /-- `name()` -/
  nameNow (L : Loader F σ) : Blk σ → List Char
    | .leaf _ s => L.name s
    | .sub name _ _ _ _ => name

/-- one exported port (Graph_yaml_importer.hpp:133-167, Graph.hpp:254-271) -/
def loadExported (L : Loader F σ) (blocks : List (Blk σ)) (done : List Exported) : Val F → Except Err (List Exported)
  | .list [.str block, .str dir, .str inner, .str outer] =>
    match lastNamed L blocks block with
    | none => .error .exported
    | some i =>
      let input := decide (dir = "INPUT".toList)
      if done.any (fun p => p.input == input && p.block == i && p.inner == inner) then .error .exported
      else if ((blocks[i]?).map (fun b => L.hasPort b input inner)).getD false then .ok (done ++ [⟨input, i, inner, outer⟩])
      else .error .exported
  | _ => .error .exported

/-- the loop over exported ports -/
def loadExports (L : Loader F σ) (blocks : List (Blk σ)) : List Exported → List (Val F) → Except Err (List Exported)
  | done, [] => .ok done
  | done, v :: vs =>
    match loadExported L blocks done v with
    | .error e => .error e
    | .ok done => loadExports L blocks done vs

/-- `loadGraph` for the inside of a sub-graph (Graph_yaml_importer.hpp:113-169); `rec` is `loadGraphFromMap` -/
def loadInner (L : Loader F σ) (rec : PMap F → Except Err (List (Blk σ) × List Edge)) (m : PMap F) :
    Except Err (List (Blk σ) × List Edge × List Exported) :=
  match find m "graph" with
  | some (.map g) =>
    match rec g with
    | .error e => .error e
    | .ok (bs, es) =>
      match loadExports L bs [] (items g "exported_ports") with
      | .error e => .error e
      | .ok ps => .ok (bs, es, ps)
  | _ => .ok ([], [], [])

/-- the scheduler of a sub-graph (Graph_yaml_importer.hpp:171-202) -/
def loadSched (L : Loader F σ) (m : PMap F) : Except Err (Option (List Char × σ)) :=
  match find m "scheduler" with
  | none => .ok none
  | some (.map sm) =>
    match strProp sm "id" with
    | .error e => .error e
    | .ok ty =>
      match L.makeSched ty (mapOr sm "parameters") with
      | none => .error .noScheduler
      | some s => .ok (some (ty, s))
  | some _ => .error .wrongType

/-- one entry of `blocks` that is a map (Graph_yaml_importer.hpp:100-281) -/
def loadBlk (L : Loader F σ) (rec : PMap F → Except Err (List (Blk σ) × List Edge)) (m : PMap F) : Except Err (List Char × Blk σ) :=
  match strProp2 m "parameters" "name" with
  | .error e => .error e
  | .ok name =>
    match strProp m "id" with
    | .error e => .error e
    | .ok ty =>
      if ty = "SUBGRAPH".toList then
        match loadSched L m with
        | .error e => .error e
        | .ok sched =>
          match loadInner L rec m with
          | .error e => .error e
          | .ok (bs, es, ps) => .ok (name, .sub name sched bs es ps)
      else
        match loadLeaf L m ty name with
        | .error e => .error e
        | .ok s => .ok (name, .leaf ty s)

/-- the loop over `blocks`: the blocks so far, and `createdBlocks` with the latest entry for a name first -/
def loadBlks (L : Loader F σ) (rec : PMap F → Except Err (List (Blk σ) × List Edge)) :
    List (Blk σ) → List (List Char × Nat) → List (Val F) → Except Err (List (Blk σ) × List (List Char × Nat))
  | bs, created, [] => .ok (bs, created)
  | bs, created, .map m :: vs =>
    match loadBlk L rec m with
    | .error e => .error e
    | .ok (name, b) => loadBlks L rec (bs ++ [b]) ((name, bs.length) :: created) vs
  | bs, created, _ :: vs => loadBlks L rec bs created vs

/-- a value as `std::int64_t`, for the conversion of a list of indices; other than integers is an error here -/
def toInt64 : Val F → Option Int
  | .sca (.int _ v) => if v < 2 ^ 63 then some v else none
  | _ => none

/-- the port of a connection (Graph_yaml_importer.hpp:314-342) -/
def loadPort : Val F → Except Err PortDef
  | .list vs => pair (vs.map toInt64)
  | .arr _ vs => pair (vs.map fun s => toInt64 (.sca s : Val F))
  | .strs _ => .error .port
  | .str s => .ok (.name s)
  | .sca (.int ⟨64, true⟩ v) => if 0 ≤ v then .ok (.index v.toNat invalidIndex) else .error .port
  | _ => .error .port
where
  /-- top level and sub-index -/
  pair : List (Option Int) → Except Err PortDef
    | [some a, some b] => if 0 ≤ a ∧ 0 ≤ b then .ok (.index a.toNat b.toNat) else .error .port
    | _ => .error .port

/-- `parseBlockPort` (Graph_yaml_importer.hpp:304-343) -/
def loadEnd (created : List (List Char × Nat)) (block port : Val F) : Except Err (Nat × PortDef) :=
  match block with
  | .str name =>
    if name.isEmpty then .error .unknownBlock
    else
      match created.find? (fun c => decide (c.1 = name)) with
      | none => .error .unknownBlock
      | some c =>
        match loadPort port with
        | .error e => .error e
        | .ok p => .ok (c.2, p)
  | _ => .error .unknownBlock

/-- the size given with a connection (Graph_yaml_importer.hpp:359-368) -/
def sizeOf : Val F → Nat
  | .sca (.int _ v) => (v % 2 ^ 64).toNat
  | .sca (.bool b) => b.toNat
  | _ => undefinedSize

/-- the size of a connection with what follows its four parts (Graph_yaml_importer.hpp:354-368) -/
def givenSize : List (Val F) → Nat
  | [] => undefinedSize
  | v :: _ => sizeOf v

/-- the size `connect` uses (Graph.hpp:569-571, 102) -/
def connectSize (L : Loader F σ) (blocks : List (Blk σ)) (src : Nat) (port : PortDef) (size : Nat) : Nat :=
  if size = undefinedSize then (if (blocks[src]?.map (fun b => L.arith b port)).getD true then 65536 else 64) else size

/-- one connection (Graph_yaml_importer.hpp:293-373) -/
def loadEdge (L : Loader F σ) (blocks : List (Blk σ)) (created : List (List Char × Nat)) : Val F → Except Err Edge
  | .list (b1 :: p1 :: b2 :: p2 :: more) =>
    match loadEnd created b1 p1 with
    | .error e => .error e
    | .ok (src, srcPort) =>
      match loadEnd created b2 p2 with
      | .error e => .error e
      | .ok (dst, dstPort) =>
        .ok ⟨src, srcPort, dst, dstPort, connectSize L blocks src srcPort (givenSize more), 0, "unnamed edge".toList⟩
  | _ => .error .connection

/-- the loop over `connections` -/
def loadEdges (L : Loader F σ) (blocks : List (Blk σ)) (created : List (List Char × Nat)) : List (Val F) → Except Err (List Edge)
  | [] => .ok []
  | v :: vs =>
    match loadEdge L blocks created v with
    | .error e => .error e
    | .ok e =>
      match loadEdges L blocks created vs with
      | .error e => .error e
      | .ok es => .ok (e :: es)

/-- `loadGraphFromMap` into an empty graph (Graph_yaml_importer.hpp:84-377); the first argument limits the nesting of sub-graphs, which the code does not -/
def loadGraph (L : Loader F σ) : Nat → PMap F → Except Err (List (Blk σ) × List Edge)
  | 0, _ => .error .depth
  | n + 1, m =>
    match loadBlks L (loadGraph L n) [] [] (items m "blocks") with
    | .error e => .error e
    | .ok (bs, created) =>
      match loadEdges L bs created (items m "connections") with
      | .error e => .error e
      | .ok es => .ok (bs, es)

/-- `saveGrc` (Graph_yaml_importer.hpp:448) -/
def saveGrc (fl : Yaml.Floats F) (L : Loader F σ) (blocks : List (Blk σ)) (edges : List Edge) : List Char :=
  Yaml.serialize fl (saveGraph L blocks edges)

/-- `loadGrc` (Graph_yaml_importer.hpp:435-446); `none`: the text is not YAML, or undefined behaviour in a debug build -/
def loadGrc (fl : Yaml.Floats F) (dbg : Bool) (L : Loader F σ) (n : Nat) (text : List Char) : Option (Except Err (List (Blk σ) × List Edge)) :=
  match Yaml.deserialize fl dbg text with
  | .ok (.map m) _ => some (loadGraph L n m)
  | _ => none

end Verif.Grc
