/-
Model of compile-time block merging, /repo/core/include/gnuradio-4.0/BlockMerging.hpp.

All port values share one type `V`; the types of connected ports are checked by the compiler.
A part that is not itself a merged block is described by a library: its number of stream ports
and its `processOne` as a function of its state and one sample per input.
Merging is a compile-time operation, so what does not compile is described by `Compiles`.
-/
namespace Verif.Merge

/-- The blocks that can be merged: `processOne` of each kind, and the arithmetic of the sample type.
`reset` is what a block does when its life-cycle state changes to a given value; `zero` is the
value-initialised sample. -/
structure Lib (K S V : Type) where
  nIn : K → Nat
  nOut : K → Nat
  step : K → S → List V → S × List V
  reset : K → S → S
  add : V → V → V
  mul : V → V → V
  one : V
  zero : V

mutual
/-- BlockMerging.hpp: a block built from parts. `leaf` is an ordinary block with its state;
`merge` is `MergeByIndex<Left, OutId, Right, InId>` (132-309);
`fan` is `SplitMergeCombine` with its `OutputSigns` (378-598), an empty list standing for the
specialisation without signs;
`feedback` is `FeedbackMergeByIndex` and, with `tap`, `FeedbackMergeWithTapByIndex` (600-862), `z`
being the member `_state`; `monitored` is the same with a `Monitor` block.
The port indices `ForwardOutputPortIndex` and `FeedbackOutputPortIndex` can only be 0, see
`Compiles`. -/
inductive Blk (K S V : Type) where
  | leaf (k : K) (s : S)
  | merge (l : Blk K S V) (o : Nat) (r : Blk K S V) (i : Nat)
  | fan (signs : List V) (ps : Paths K S V)
  | feedback (f : Blk K S V) (g : Blk K S V) (i : Nat) (z : V) (tap : Bool)
  | monitored (f : Blk K S V) (mon : Blk K S V) (g : Blk K S V) (i : Nat) (z : V) (tap : Bool)
/-- the tuple `_paths` of `SplitMergeCombine` (BlockMerging.hpp:418, 525) -/
inductive Paths (K S V : Type) where
  | nil
  | cons (p : Blk K S V) (rest : Paths K S V)
end

variable {K S V : Type}

/-- Number of paths. -/
def Paths.length : Paths K S V → Nat
  | .nil => 0
  | .cons _ rest => rest.length + 1

/-- BlockMerging.hpp:146-152, 403, 517, 620-627: the number of stream inputs of the merged block. -/
def nIn (L : Lib K S V) : Blk K S V → Nat
  | .leaf k _ => L.nIn k
  | .merge l _ r _ => nIn L l + (nIn L r - 1)
  | .fan _ _ => 1
  | .feedback f _ _ _ _ => nIn L f - 1
  | .monitored f _ _ _ _ _ => nIn L f - 1

/-- BlockMerging.hpp:146-154, 404, 518, 620-628, 819-823: the number of stream outputs of the
merged block. -/
def nOut (L : Lib K S V) : Blk K S V → Nat
  | .leaf k _ => L.nOut k
  | .merge l _ r _ => (nOut L l - 1) + nOut L r
  | .fan _ _ => 1
  | .feedback f _ _ _ tap => nOut L f + (if tap then 1 else 0)
  | .monitored f _ _ _ _ tap => nOut L f + (if tap then 1 else 0)

/-- `std::get<n>` of a tuple; the compiler rejects an index outside, `L.zero` is never read then. -/
def pick (L : Lib K S V) (xs : List V) (n : Nat) : V := (xs[n]?).getD L.zero

/-- BlockMerging.hpp:188-191 `apply_left`: the arguments passed to the left block, where `nl` is
its number of inputs. -/
def leftArgs (L : Lib K S V) (nl : Nat) (inputs : List V) : List V :=
  (List.range nl).map (fun j => pick L inputs j)

/-- BlockMerging.hpp:193-201 `apply_right`: the arguments passed to the right block; `nl` and `nr`
are the numbers of inputs of the two blocks, `tmp` the value on the connection. -/
def rightArgs (L : Lib K S V) (nl nr i : Nat) (inputs : List V) (tmp : V) : List V :=
  (List.range i).map (fun j => pick L inputs (nl + j)) ++ [tmp]
    ++ (List.range (nr - i - 1)).map (fun j => pick L inputs (nl + i + j))

/-- BlockMerging.hpp:249-271: what the merged block returns, by the number of outputs of the left
block. -/
def joinOuts (L : Lib K S V) (nl o : Nat) (left right : List V) : List V :=
  if nl = 1 then right
  else if nl = 2 then pick L left (o ^^^ 1) :: right
  else (List.range o).map (fun j => pick L left j)
    ++ (List.range (nl - o - 1)).map (fun j => pick L left (o + 1 + j)) ++ right

/-- BlockMerging.hpp:665-672: the arguments passed to the forward block of a feedback loop;
`n` is the number of external inputs. -/
def forwardArgs (L : Lib K S V) (n i : Nat) (inputs : List V) (z : V) : List V :=
  (List.range i).map (fun j => pick L inputs j) ++ [z]
    ++ (List.range (n - i)).map (fun j => pick L inputs (i + 1 + j - 1))

/-- BlockMerging.hpp:398-401, 507-515 `signOf<I>()`. -/
def signOf (L : Lib K S V) (signs : List V) (n : Nat) : V :=
  if n < signs.length then pick L signs n else L.one

/-- BlockMerging.hpp:463, 570: the right fold over `+` of the signed outputs, from path `n` on. -/
def foldPlus (L : Lib K S V) (signs : List V) : Nat → List V → V
  | _, [] => L.zero
  | n, [y] => L.mul (signOf L signs n) y
  | n, y :: ys => L.add (L.mul (signOf L signs n) y) (foldPlus L signs (n + 1) ys)

mutual
/-- BlockMerging.hpp:242-272 (`merge`), 462-464, 569-571 (`fan`), 660-680 and 846-854 (feedback):
`processOne` of the merged block, one sample on every input, giving the block after the call and
one sample for every output. The vector forms (221-240) are in `VecModel`. -/
def step (L : Lib K S V) : Blk K S V → List V → Blk K S V × List V
  | .leaf k s, xs =>
    let r := L.step k s xs
    (.leaf k r.1, r.2)
  | .merge l o r i, xs =>
    let lo := step L l (leftArgs L (nIn L l) xs)
    let ro := step L r (rightArgs L (nIn L l) (nIn L r) i xs (pick L lo.2 o))
    (.merge lo.1 o ro.1 i, joinOuts L (nOut L l) o lo.2 ro.2)
  | .fan signs ps, xs =>
    let r := stepPaths L ps (pick L xs 0)
    (.fan signs r.1, [foldPlus L signs 0 r.2])
  | .feedback f g i z tap, xs =>
    let fo := step L f (forwardArgs L (nIn L f - 1) i xs z)
    let go := step L g fo.2
    let z' := pick L go.2 0
    (.feedback fo.1 go.1 i z' tap, fo.2 ++ (if tap then [z'] else []))
  | .monitored f mon g i z tap, xs =>
    let fo := step L f (forwardArgs L (nIn L f - 1) i xs z)
    let mo := step L mon fo.2
    let go := step L g mo.2
    let z' := pick L go.2 0
    (.monitored fo.1 mo.1 go.1 i z' tap, fo.2 ++ (if tap then [z'] else []))
/-- BlockMerging.hpp:463, 570: every path is given the same sample. -/
def stepPaths (L : Lib K S V) : Paths K S V → V → Paths K S V × List V
  | .nil, _ => (.nil, [])
  | .cons p rest, x =>
    let po := step L p [x]
    let ro := stepPaths L rest x
    (.cons po.1 ro.1, pick L po.2 0 :: ro.2)
end

/-- Block.hpp `workInternal` calls `processOne` once per sample, in order: the block after the
calls, and the outputs of each call. -/
def runAll (L : Lib K S V) : Blk K S V → List (List V) → Blk K S V × List (List V)
  | m, [] => (m, [])
  | m, xs :: rest =>
    let r := step L m xs
    let q := runAll L r.1 rest
    (q.1, r.2 :: q.2)

mutual
/-- The merged types that compile.
`merge`: the port indices exist (`meta::remove_at`, `std::get`); with two or more left outputs the
right result is put into a tuple (263-270), so it must not be `void`; with three or more left outputs
and two or more right outputs the last branch (269) calls `std::move` with several arguments and
does not compile.
`fan`: the static assertions at 367-375.
feedback: the static assertions at 606-607; the forward result is passed as it is to the feedback
block and the feedback result is stored as it is (674-678), so each must be a single value;
the monitor takes and gives one value. -/
def Compiles (L : Lib K S V) : Blk K S V → Prop
  | .leaf _ _ => True
  | .merge l o r i => Compiles L l ∧ Compiles L r ∧ o < nOut L l ∧ i < nIn L r
      ∧ (2 ≤ nOut L l → 1 ≤ nOut L r) ∧ (3 ≤ nOut L l → nOut L r = 1)
  | .fan _ ps => CompilesPaths L ps ∧ 2 ≤ ps.length
  | .feedback f g i _ _ => Compiles L f ∧ Compiles L g ∧ 2 ≤ nIn L f ∧ i < nIn L f
      ∧ nOut L f = 1 ∧ nIn L g = 1 ∧ nOut L g = 1
  | .monitored f mon g i _ _ => Compiles L f ∧ Compiles L mon ∧ Compiles L g
      ∧ 2 ≤ nIn L f ∧ i < nIn L f ∧ nOut L f = 1 ∧ nIn L g = 1 ∧ nOut L g = 1
      ∧ nIn L mon = 1 ∧ nOut L mon = 1
def CompilesPaths (L : Lib K S V) : Paths K S V → Prop
  | .nil => True
  | .cons p rest => Compiles L p ∧ nIn L p = 1 ∧ nOut L p = 1 ∧ CompilesPaths L rest
end

mutual
/-- BlockMerging.hpp:213-220, 437-448, 545-556, 773-780, 831-838 `stateChanged`: a change of the
life-cycle state is passed on to the parts. The monitor is not told, and `_state` is kept. -/
def notify (L : Lib K S V) : Blk K S V → Blk K S V
  | .leaf k s => .leaf k (L.reset k s)
  | .merge l o r i => .merge (notify L l) o (notify L r) i
  | .fan signs ps => .fan signs (notifyPaths L ps)
  | .feedback f g i z tap => .feedback (notify L f) (notify L g) i z tap
  | .monitored f mon g i z tap => .monitored (notify L f) mon (notify L g) i z tap
def notifyPaths (L : Lib K S V) : Paths K S V → Paths K S V
  | .nil => .nil
  | .cons p rest => .cons (notify L p) (notifyPaths L rest)
end

/-! The graph shown for a merged block. -/

/-- BlockMerging.hpp:13-16 `PortRef`; blocks are numbered in the order of construction. -/
structure Port where
  node : Nat
  port : Nat
deriving DecidableEq, Repr

/-- A block of the shown graph: a part, or one of the two display nodes (348-364). -/
inductive Shown (K : Type) where
  | block (k : K)
  | fanOut
  | sum
deriving DecidableEq, Repr

/-- BlockMerging.hpp:23-27 `GraphWithPortMaps`. Edges carry only their end points; weights, sizes
and names are the same for all of them. -/
structure Graph (K : Type) where
  nodes : List (Nat × Shown K)
  edges : List (Port × Port)
  outs : List Port
  ins : List Port
deriving DecidableEq, Repr

mutual
/-- Number of blocks in the graph of a merged block. -/
def size : Blk K S V → Nat
  | .leaf _ _ => 1
  | .merge l _ r _ => size l + size r
  | .fan _ ps => 2 + sizePaths ps
  | .feedback f g _ _ _ => size f + size g
  | .monitored f mon g _ _ _ => size f + size g + size mon
def sizePaths : Paths K S V → Nat
  | .nil => 0
  | .cons p rest => size p + sizePaths rest
end

mutual
/-- BlockMerging.hpp:40-66 `addSubBlock`, 274-306, 466-483, 573-590 and 682-724
`graphWithPortMaps`: the graph of a merged block, whose blocks are numbered from `n` on.
`none` is the read past the end of a port list (`leftPorts.outputPorts[OutId]` and the like),
which is undefined behaviour. -/
def graphOf (L : Lib K S V) : Blk K S V → Nat → Option (Graph K)
  | .leaf k _, n => some {
      nodes := [(n, .block k)], edges := [],
      outs := (List.range (L.nOut k)).map (fun p => ⟨n, p⟩),
      ins := (List.range (L.nIn k)).map (fun p => ⟨n, p⟩) }
  | .merge l o r i, n => do
    let a ← graphOf L l n
    let b ← graphOf L r (n + size l)
    let src ← a.outs[o]?
    let dst ← b.ins[i]?
    pure { nodes := a.nodes ++ b.nodes, edges := a.edges ++ b.edges ++ [(src, dst)],
           outs := a.outs.eraseIdx o ++ b.outs, ins := a.ins ++ b.ins.eraseIdx i }
  | .fan _ ps, n => do
    let q ← graphPaths L ps n (n + 2)
    pure { nodes := [(n, .fanOut), (n + 1, .sum)] ++ q.nodes, edges := q.edges,
           outs := [⟨n + 1, 0⟩], ins := [⟨n, 0⟩] }
  | .feedback f g i _ _, n => do
    let a ← graphOf L f n
    let b ← graphOf L g (n + size f)
    let fwdOut ← a.outs[0]?
    let fbkIn ← b.ins[0]?
    let fbkOut ← b.outs[0]?
    let fwdIn ← a.ins[i]?
    pure { nodes := a.nodes ++ b.nodes,
           edges := a.edges ++ b.edges ++ [(fwdOut, fbkIn), (fbkOut, fwdIn)],
           outs := a.outs, ins := a.ins.eraseIdx i }
  | .monitored f mon g i _ _, n => do
    let a ← graphOf L f n
    let b ← graphOf L g (n + size f)
    let c ← graphOf L mon (n + size f + size g)
    let fwdOut ← a.outs[0]?
    let fbkIn ← b.ins[0]?
    let fbkOut ← b.outs[0]?
    let fwdIn ← a.ins[i]?
    let monIn ← c.ins[0]?
    let monOut ← c.outs[0]?
    pure { nodes := a.nodes ++ b.nodes ++ c.nodes,
           edges := a.edges ++ b.edges ++ c.edges
             ++ [(fwdOut, monIn), (monOut, fbkIn), (fbkOut, fwdIn)],
           outs := a.outs, ins := a.ins.eraseIdx i }
/-- BlockMerging.hpp:472-481, 579-588: the paths of a fan-out whose `FanOut` node is `h` and whose
`Sum` node is `h + 1`. -/
def graphPaths (L : Lib K S V) : Paths K S V → Nat → Nat → Option (Graph K)
  | .nil, _, _ => some ⟨[], [], [], []⟩
  | .cons p rest, h, n => do
    let a ← graphOf L p n
    let pIn ← a.ins[0]?
    let pOut ← a.outs[0]?
    let q ← graphPaths L rest h (n + size p)
    pure { nodes := a.nodes ++ q.nodes,
           edges := a.edges ++ [(⟨h, 0⟩, pIn), (pOut, ⟨h + 1, 0⟩)] ++ q.edges,
           outs := [], ins := [] }
end

end Verif.Merge
