import Verif.Merge.Model

/-
Model of the loops that call `processOne` (Block.hpp:1696-1761, 1883-1911) and of the vector forms of
`processOne` of merged blocks (BlockMerging.hpp:226-253).
-/
namespace Verif.Merge

/-- Blocks of which some accept vectors. `simd` tells that `processOne` accepts one vector per
input, `vec` is its result; such a function is `const`, so the state does not change.
`wide` tells that a block without inputs has `processOne(N)`, `gen` is its result.
`stops` tells that a block is shutting down (it has called `requestStop`). -/
structure VLib (K S V : Type) extends Lib K S V where
  simd : K → Bool
  vec : K → S → List (List V) → List (List V)
  wide : K → Bool
  gen : K → S → Nat → S × List (List V)
  stops : K → S → Bool

variable {K S V : Type}

/-- BlockTraits.hpp:182-186 `can_processOne_simd`; BlockMerging.hpp:227-229: a merge accepts vectors
if both parts do. The other merge types only take single samples (462, 569, 660). -/
def isVec (L : VLib K S V) : Blk K S V → Bool
  | .leaf k _ => L.simd k && decide (0 < L.nIn k)
  | .merge l _ r _ => isVec L l && isVec L r
  | _ => false

/-- BlockMerging.hpp:234-239: `processOne(N)` exists. -/
def isWide (L : VLib K S V) : Blk K S V → Bool
  | .leaf k _ => L.wide k
  | .merge l _ r _ => isVec L r && (decide (nIn L.toLib l = 0) || isWide L l)
  | _ => false

/-- `std::get<n>` of a tuple of vectors. -/
def pickVec (xs : List (List V)) (n : Nat) : List V := (xs[n]?).getD []

/-- BlockMerging.hpp:188-191, 231, on vectors. -/
def leftVecs (nl : Nat) (inputs : List (List V)) : List (List V) :=
  (List.range nl).map (fun j => pickVec inputs j)

/-- BlockMerging.hpp:193-201, 231, on vectors. -/
def rightVecs (nl nr i : Nat) (inputs : List (List V)) (tmp : List V) : List (List V) :=
  (List.range i).map (fun j => pickVec inputs (nl + j)) ++ [tmp]
    ++ (List.range (nr - i - 1)).map (fun j => pickVec inputs (nl + i + j))

/-- BlockMerging.hpp:226-232 and 234-253: `processOne` on vectors of `w` samples, one per input;
without inputs `processOne(N)`, where a left block without such a form is called `w` times.
The other merge types have no such form, so the last case is never reached. -/
def vecStep (L : VLib K S V) : Blk K S V → Nat → List (List V) → Blk K S V × List (List V)
  | .leaf k s, w, cs =>
    if L.nIn k = 0 then
      let r := L.gen k s w
      (.leaf k r.1, r.2)
    else (.leaf k s, L.vec k s cs)
  | .merge l o r i, w, cs =>
    if nIn L.toLib l = 0 then
      if isWide L l then
        let lo := vecStep L l w []
        let ro := vecStep L r w [pickVec lo.2 0]
        (.merge lo.1 o ro.1 i, ro.2)
      else
        let lo := runAll L.toLib l (List.replicate w [])
        let ro := vecStep L r w [lo.2.map (fun y => pick L.toLib y 0)]
        (.merge lo.1 o ro.1 i, ro.2)
    else
      let lo := vecStep L l w (leftVecs (nIn L.toLib l) cs)
      let ro := vecStep L r w (rightVecs (nIn L.toLib l) (nIn L.toLib r) i cs (pickVec lo.2 0))
      (.merge lo.1 o ro.1 i, ro.2)
  | m, _, _ => (m, [])

/-- Block.hpp:48-52 `simdize_tuple_load_and_apply`: one vector per input from consecutive samples. -/
def columns (L : Lib K S V) (n : Nat) (rs : List (List V)) : List (List V) :=
  (List.range n).map (fun p => rs.map (fun r => pick L r p))

/-- Block.hpp:1703 `copy_to`: the vectors of the outputs as consecutive samples. -/
def rows (L : Lib K S V) (w : Nat) (cs : List (List V)) : List (List V) :=
  (List.range w).map (fun j => cs.map (fun c => pick L c j))

/-- Block.hpp:1072-1086, 1702-1703: one vector call on the next `w` samples. -/
def vecCall (L : VLib K S V) (m : Blk K S V) (w : Nat) (rs : List (List V)) : Blk K S V × List (List V) :=
  let r := vecStep L m w (columns L.toLib (nIn L.toLib m) (rs.take w))
  (r.1, rows L.toLib w r.2)

/-- Block.hpp:1701-1704: the loop over full vectors; gives the block, the outputs and what is left. -/
def fullLoop (L : VLib K S V) (w : Nat) : Nat → Blk K S V → List (List V) →
    Blk K S V × List (List V) × List (List V)
  | 0, m, rs => (m, [], rs)
  | fuel + 1, m, rs =>
    if w ≤ rs.length then
      let r := vecCall L m w rs
      let q := fullLoop L w fuel r.1 (rs.drop w)
      (q.1, r.2 ++ q.2.1, q.2.2)
    else (m, [], rs)

/-- Block.hpp:37-46 and 1705-1711: half the width, a quarter, and so on, each at most once. -/
def epilogue (L : VLib K S V) : Nat → Nat → Blk K S V → List (List V) →
    Blk K S V × List (List V) × List (List V)
  | 0, _, m, rs => (m, [], rs)
  | fuel + 1, w, m, rs =>
    if 0 < w / 2 then
      if w / 2 ≤ rs.length then
        let r := vecCall L m (w / 2) rs
        let q := epilogue L fuel (w / 2) r.1 (rs.drop (w / 2))
        (q.1, r.2 ++ q.2.1, q.2.2)
      else epilogue L fuel (w / 2) m rs
    else (m, [], rs)

/-- Block.hpp:1699-1713 `invokeProcessOneSimd`. The bounds on the two loops are large enough: every
round takes at least one sample, halves the width. The third part is what remains unprocessed. -/
def simdRun (L : VLib K S V) (w : Nat) (m : Blk K S V) (rs : List (List V)) :
    Blk K S V × List (List V) × List (List V) :=
  let a := fullLoop L w rs.length m rs
  let b := epilogue L w w a.1 a.2.2
  (b.1, a.2.1 ++ b.2.1, b.2.2)

/-- Block.hpp:1723-1761 `invokeProcessOneNonConst`, for an ordinary block whose `processOne` is not
`const`: ends early when the block is shutting down. Tags are left out. -/
def stopRun (L : VLib K S V) (k : K) : S → List (List V) → S × List (List V)
  | s, [] => (s, [])
  | s, xs :: rest =>
    let r := L.step k s xs
    if L.stops k r.1 then (r.1, [r.2])
    else
      let q := stopRun L k r.1 rest
      (q.1, r.2 :: q.2)

/-- Block.hpp:1890-1904: the loop chosen for a merged block. All forms of its `processOne` are
`const` (BlockMerging.hpp:229, 234, 258, 462, 569, 662, 848), so `invokeProcessOneNonConst` is never
chosen. `w` is the vector width for the target machine. -/
def dispatch (L : VLib K S V) (w : Nat) (m : Blk K S V) (rs : List (List V)) :
    Blk K S V × List (List V) × List (List V) :=
  if nIn L.toLib m = 0 then
    if isWide L m then simdRun L w m rs
    else
      let r := runAll L.toLib m rs
      (r.1, r.2, [])
  else if isVec L m then simdRun L w m rs
  else
    let r := runAll L.toLib m rs
    (r.1, r.2, [])

end Verif.Merge
