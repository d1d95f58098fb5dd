import Verif.Sched.Model
/-!
# Model of the graph algorithms

Sources: core/include/gnuradio-4.0/Graph.hpp:64-83 (`detail::parsePort`), 979-1070 (`weaklyConnectedComponents`), 1103-1155
(`detectFeedbackLoops`), 1157-1222 (`calculateLoopPrimingSize`).

Blocks are natural numbers (the code compares `shared_ptr`s).
-/
namespace Verif.Graph

abbrev Edge := Verif.Sched.Edge

/-! ## weakly connected components -/

/-- `adjacencyList[v]` — Graph.hpp:989-1003: for each edge between known blocks the other end's index is appended at both ends, in edge
order; `indexOf` is the position of the first occurrence -/
def adjacency (blocks : List Nat) (es : List Edge) (v : Nat) : List Nat :=
  es.flatMap (fun e =>
    if blocks.contains e.1 ∧ blocks.contains e.2 then
      (if blocks.idxOf e.1 = v then [blocks.idxOf e.2] else []) ++ (if blocks.idxOf e.2 = v then [blocks.idxOf e.1] else [])
    else [])

/-- `compId[u] = c` — Graph.hpp:1022, 1031; `none` stands for -1 -/
def setId (ids : Nat → Option Nat) (u c : Nat) : Nat → Option Nat := fun x => if x = u then some c else ids x

/-- the loop over the neighbours — Graph.hpp:1029-1034 -/
def labelNew (c : Nat) : List Nat → List Nat → (Nat → Option Nat) → List Nat × (Nat → Option Nat)
  | [], q, ids => (q, ids)
  | u :: us, q, ids => if ids u = none then labelNew c us (q ++ [u]) (setId ids u c) else labelNew c us q ids

/-- `while (!q.empty())` — Graph.hpp:1024-1035; `none`: `fuel` iterations were not enough -/
def labelLoop (adj : Nat → List Nat) (c : Nat) : Nat → List Nat → List Nat → (Nat → Option Nat) → Option (List Nat × (Nat → Option Nat))
  | 0, _, _, _ => none
  | _ + 1, [], comp, ids => some (comp, ids)
  | fuel + 1, v :: q, comp, ids =>
    let r := labelNew c (adj v) q ids
    labelLoop adj c fuel r.1 (comp ++ [v]) r.2

/-- one iteration of the loop over all nodes — Graph.hpp:1010-1037 -/
def labelFrom (adj : Nat → List Nat) (n : Nat) (st : List (List Nat) × (Nat → Option Nat)) (s : Nat) :
    Option (List (List Nat) × (Nat → Option Nat)) :=
  if st.2 s ≠ none then some st
  else do
    let r ← labelLoop adj st.1.length (n + 1) [s] [] (setId st.2 s st.1.length)
    some (st.1 ++ [r.1], r.2)

/-- the component labelling — Graph.hpp:1005-1038 -/
def labelAll (blocks : List Nat) (es : List Edge) : Option (List (List Nat) × (Nat → Option Nat)) :=
  (List.range blocks.length).foldlM (labelFrom (adjacency blocks es) blocks.length) ([], fun _ => none)

/-- `std::ranges::sort` by decreasing size may return any order of the component numbers in which the sizes do not increase —
Graph.hpp:1041-1043 -/
def SortedOrder (comps : List (List Nat)) (order : List Nat) : Prop :=
  order.Perm (List.range comps.length) ∧ (order.map (fun c => (comps[c]?.getD []).length)).Pairwise (· ≥ ·)

/-- `Graph::addEdge` refuses duplicates; the result is ignored — Graph.hpp:451-456, 1065 -/
def addEdge (es : List Edge) (e : Edge) : List Edge := if es.contains e then es else es ++ [e]

/-- the edges of the component with number `cid` — Graph.hpp:1056-1067 -/
def edgesOf (blocks : List Nat) (es : List Edge) (ids : Nat → Option Nat) (cid : Nat) : List Edge :=
  es.foldl (fun acc e =>
    if blocks.contains e.1 ∧ blocks.contains e.2 ∧ ids (blocks.idxOf e.1) = ids (blocks.idxOf e.2) ∧ ids (blocks.idxOf e.1) = some cid
    then addEdge acc e else acc) []

/-- `weaklyConnectedComponents` — Graph.hpp:979-1070; each result is a component's blocks and edges -/
def weaklyConnectedComponents (blocks : List Nat) (es : List Edge) (order : List Nat) (comps : List (List Nat))
    (ids : Nat → Option Nat) : List (List Nat × List Edge) :=
  order.map (fun cid => ((comps[cid]?.getD []).filterMap (fun i => blocks[i]?), edgesOf blocks es ids cid))

/-! ## feedback loops -/

/-- `VisitState` — Graph.hpp:1104 -/
inductive Color where
  | unvisited | gray | black
  deriving DecidableEq, Repr

def paint (col : Nat → Color) (b : Nat) (c : Color) : Nat → Color := fun x => if x = b then c else col x

/-- the outgoing edges of a block — Graph.hpp:967-974; the order (the code iterates over a hash map of ports) is that of the edge list -/
def outEdges (es : List Edge) (b : Nat) : List Edge := es.filter (fun e => e.1 == b)

/-- the body of the loop over the outgoing edges — Graph.hpp:1121-1138; `visit` is the recursive call -/
def dfsEdge (visit : List Edge → (Nat → Color) × List (List Edge) → Nat → Option ((Nat → Color) × List (List Edge)))
    (path : List Nat) (pathEdges : List Edge) (st : (Nat → Color) × List (List Edge)) (e : Edge) :
    Option ((Nat → Color) × List (List Edge)) :=
  match st.1 e.2 with
  | .gray =>
    if path.contains e.2 then some (st.1, st.2 ++ [(pathEdges ++ [e]).drop (path.idxOf e.2)]) else some st
  | .unvisited => visit (pathEdges ++ [e]) st e.2
  | .black => some st

/-- the recursive lambda `dfs` — Graph.hpp:1115-1144. The stacks `path` and `pathEdges` are restored by the code before it returns and
are passed as arguments here. `none`: recursion deeper than `fuel`. -/
def dfs (es : List Edge) : Nat → List Nat → List Edge → (Nat → Color) × List (List Edge) → Nat →
    Option ((Nat → Color) × List (List Edge))
  | 0, _, _, _, _ => none
  | fuel + 1, path, pathEdges, st, current => do
    let r ← (outEdges es current).foldlM (dfsEdge (dfs es fuel (path ++ [current])) (path ++ [current]) pathEdges)
      (paint st.1 current .gray, st.2)
    some (paint r.1 current .black, r.2)

/-- `detectFeedbackLoops` — Graph.hpp:1103-1155 -/
def detectFeedbackLoops (blocks : List Nat) (es : List Edge) : Option (List (List Edge)) := do
  let r ← blocks.foldlM (fun st b => if st.1 b = .unvisited then dfs es (blocks.length + es.length + 1) [] [] st b else some st)
    ((fun _ => Color.unvisited), ([] : List (List Edge)))
  some r.2

/-! ## loop priming -/

/-- what `calculateLoopPrimingSize` reads of a block: `input_chunk_size` and `output_chunk_size` as the resampling ratio, the stride, and
the minimum number of samples of each input port — BlockModel.hpp:782-789 -/
structure BlockInfo where
  num : Int
  den : Int
  stride : Nat
  minIn : List Nat
  deriving Repr, DecidableEq

/-- an edge of the loop: source, destination and index of the destination port -/
structure LoopEdge where
  src : BlockInfo
  dst : BlockInfo
  port : Nat
  deriving Repr, DecidableEq

/-- result of `calculateLoopPrimingSize`; signed overflow is undefined behaviour -/
inductive Priming where
  | ub
  | unstable
  | size (n : Nat)
  deriving Repr, DecidableEq

def int32Fits (x : Int) : Prop := -2147483648 ≤ x ∧ x ≤ 2147483647

instance (x : Int) : Decidable (int32Fits x) := by unfold int32Fits; infer_instance

/-- `cumulativeNumerator *= ratio.numerator` etc. in `std::int32_t` — Graph.hpp:1163-1169; `none`: overflow -/
def cumulative : List LoopEdge → Int → Int → Option (Int × Int)
  | [], n, d => some (n, d)
  | e :: es, n, d =>
    if int32Fits (n * e.dst.num) ∧ int32Fits (d * e.dst.den) then cumulative es (n * e.dst.num) (d * e.dst.den) else none

/-- `if (destBlock->stride() > 0)` — Graph.hpp:1199-1201, 1216-1218 -/
def primeStride (b : BlockInfo) (need : Nat) : Nat := if b.stride > 0 then max need b.stride else need

/-- the source part for the first edge — Graph.hpp:1192-1202 -/
def primeSource (b : BlockInfo) (need : Nat) : Nat :=
  primeStride b (if b.den > 0 then max need ((need * b.num.toNat) / b.den.toNat) else need)

/-- `if (destPortIdx < destMinIn.size() && destMinIn[destPortIdx] > 0)` — Graph.hpp:1208-1210 -/
def primeMin (b : BlockInfo) (port need : Nat) : Nat :=
  match b.minIn[port]? with
  | some m => if m > 0 then max need m else need
  | none => need

/-- `if (destRatio.numerator > 0)` — Graph.hpp:1212-1214 -/
def primeNum (b : BlockInfo) (need : Nat) : Nat := if b.num > 0 then max need b.num.toNat else need

/-- the destination part of each edge — Graph.hpp:1205-1218 -/
def primeDest (e : LoopEdge) (need : Nat) : Nat := primeStride e.dst (primeNum e.dst (primeMin e.dst e.port need))

/-- `calculateLoopPrimingSize` — Graph.hpp:1157-1222. Chunk sizes are non-negative `Size_t` values cast to `int32`; the 64-bit product
in `primeSource` cannot overflow for values below 2^31. -/
def calculateLoopPrimingSize (loop : List LoopEdge) : Priming :=
  match loop with
  | [] => .size 0
  | e :: _ =>
    match cumulative loop 1 1 with
    | none => .ub
    | some (n, d) => if n ≠ d then .unstable else .size (loop.foldl (fun need e => primeDest e need) (primeSource e.src 1))

/-! ## port references -/

/-- `meta::invalid_index` — meta/utils.hpp:664 -/
def invalidIndex : Nat := 2 ^ 64 - 1

/-- the loop over the digits, in `std::size_t` — Graph.hpp:75-81 -/
def parseDigits : List Char → Nat → Nat
  | [], num => num
  | c :: cs, num => if '0' ≤ c ∧ c ≤ '9' then parseDigits cs ((num * 10 + (c.toNat - 48)) % 2 ^ 64) else num

/-- `detail::parsePort` — Graph.hpp:64-83 -/
def parsePort (s : List Char) : List Char × Nat :=
  if s.contains '#' then (s.takeWhile (· ≠ '#'), parseDigits ((s.dropWhile (· ≠ '#')).drop 1) 0)
  else (s, invalidIndex)

end Verif.Graph
