import Verif.Merge.Model

/-
What a merged block is supposed to compute: the network of its parts, read as equations between
signals. A signal gives the sample at every time. Nothing here uses `step` or `graphOf`.
-/
namespace Verif.Merge

variable {K S V : Type}

abbrev Signal (V : Type) := Nat → V

/-- A node of the network: a part with its initial state, a node that passes its input on, or
a node that adds its inputs, each multiplied by its weight. -/
inductive Node (K S V : Type) where
  | block (k : K) (s : S)
  | copy
  | sum (weights : List V)

/-- A connection; with `delay := some z` it delivers every sample one step later, after `z`. -/
structure Wire (V : Type) where
  src : Port
  dst : Port
  delay : Option V

/-- A network with its free output and input ports. -/
structure Net (K S V : Type) where
  nodes : List (Nat × Node K S V)
  wires : List (Wire V)
  outs : List Port
  ins : List Port

/-- The signal at the far end of a wire. -/
def carried (delay : Option V) (s : Signal V) : Signal V :=
  match delay with
  | none => s
  | some z => fun t => match t with
    | 0 => z
    | t + 1 => s t

/-- The values at time `t` of signals `s 0, …, s (n-1)`. -/
def atTime (n : Nat) (s : Nat → Signal V) (t : Nat) : List V := (List.range n).map (fun p => s p t)

/-- `a₀ + (a₁ + (… + aₙ))`: the order matters for floating-point samples. -/
def total (L : Lib K S V) : List V → V
  | [] => L.zero
  | [a] => a
  | a :: as => L.add a (total L as)

/-- The equations of one node between its input signals and its output signals. -/
def NodeRuns (L : Lib K S V) : Node K S V → (Nat → Signal V) → (Nat → Signal V) → Prop
  | .block k s, inp, out => ∃ st : Nat → S, st 0 = s ∧
      ∀ t, L.step k (st t) (atTime (L.nIn k) inp t) = (st (t + 1), atTime (L.nOut k) out t)
  | .copy, inp, out => out 0 = inp 0
  | .sum weights, inp, out =>
      ∀ t, out 0 t = total L (weights.mapIdx (fun n w => L.mul w (inp n t)))

/-- `u` gives the signal at every input port, `w` at every output port: all nodes run and all
wires carry what is put into them. -/
def Solves (L : Lib K S V) (net : Net K S V) (u w : Nat → Nat → Signal V) : Prop :=
  (∀ n ∈ net.nodes, NodeRuns L n.2 (u n.1) (w n.1)) ∧
  (∀ e ∈ net.wires, u e.dst.node e.dst.port = carried e.delay (w e.src.node e.src.port))

/-- The signals at a list of ports. -/
def signals (u : Nat → Nat → Signal V) (ps : List Port) : List (Signal V) :=
  ps.map (fun p => u p.node p.port)

/-- `ps` without its element at position `n`. -/
def without (ps : List Port) (n : Nat) : List Port := ps.take n ++ ps.drop (n + 1)

/-- The element at position `n`; the positions used below exist in every type that compiles. -/
def portAt (ps : List Port) (n : Nat) : Port := (ps[n]?).getD ⟨0, 0⟩

/-- One weight per path: the given one, and 1 where none is given. -/
def weightsFrom (L : Lib K S V) (signs : List V) : Nat → List V
  | 0 => []
  | n + 1 => match signs with
    | [] => L.one :: weightsFrom L [] n
    | a :: rest => a :: weightsFrom L rest n

mutual
/-- The network described by the documentation of the merge types, docs/USER_API_Connecting_Blocks.md
74-170: all ports of the parts stay free except the connected ones; a fan-out copies its input to
every path and adds the weighted results; a feedback loop is closed with a delay of one sample
starting with a stored value, and the tap is the output of the feedback block. -/
def wiring (L : Lib K S V) : Blk K S V → Nat → Net K S V
  | .leaf k s, n => {
      nodes := [(n, .block k s)], wires := [],
      outs := (List.range (L.nOut k)).map (fun p => ⟨n, p⟩),
      ins := (List.range (L.nIn k)).map (fun p => ⟨n, p⟩) }
  | .merge l o r i, n =>
    let a := wiring L l n
    let b := wiring L r (n + size l)
    { nodes := a.nodes ++ b.nodes,
      wires := a.wires ++ b.wires ++ [⟨portAt a.outs o, portAt b.ins i, none⟩],
      outs := without a.outs o ++ b.outs,
      ins := a.ins ++ without b.ins i }
  | .fan signs ps, n =>
    let q := wiringPaths L ps n 0 (n + 2)
    { nodes := [(n, .copy), (n + 1, .sum (weightsFrom L signs ps.length))] ++ q.nodes,
      wires := q.wires, outs := [⟨n + 1, 0⟩], ins := [⟨n, 0⟩] }
  | .feedback f g i z tap, n =>
    let a := wiring L f n
    let b := wiring L g (n + size f)
    { nodes := a.nodes ++ b.nodes,
      wires := a.wires ++ b.wires ++ [⟨portAt a.outs 0, portAt b.ins 0, none⟩,
        ⟨portAt b.outs 0, portAt a.ins i, some z⟩],
      outs := a.outs ++ (if tap then [portAt b.outs 0] else []),
      ins := without a.ins i }
  | .monitored f mon g i z tap, n =>
    let a := wiring L f n
    let b := wiring L g (n + size f)
    let c := wiring L mon (n + size f + size g)
    { nodes := a.nodes ++ b.nodes ++ c.nodes,
      wires := a.wires ++ b.wires ++ c.wires ++ [⟨portAt a.outs 0, portAt c.ins 0, none⟩,
        ⟨portAt c.outs 0, portAt b.ins 0, none⟩, ⟨portAt b.outs 0, portAt a.ins i, some z⟩],
      outs := a.outs ++ (if tap then [portAt b.outs 0] else []),
      ins := without a.ins i }
/-- The paths of a fan-out with copying node `h` and adding node `h + 1`; path number `j` goes to
input `j` of the adding node. -/
def wiringPaths (L : Lib K S V) : Paths K S V → Nat → Nat → Nat → Net K S V
  | .nil, _, _, _ => ⟨[], [], [], []⟩
  | .cons p rest, h, j, n =>
    let a := wiring L p n
    let q := wiringPaths L rest h (j + 1) (n + size p)
    { nodes := a.nodes ++ q.nodes,
      wires := a.wires ++ [⟨⟨h, 0⟩, portAt a.ins 0, none⟩, ⟨portAt a.outs 0, ⟨h + 1, j⟩, none⟩]
        ++ q.wires,
      outs := [], ins := [] }
end

/-- Every block of the library gives one sample per output when it gets one per input. -/
def Lib.Lawful (L : Lib K S V) : Prop :=
  ∀ k s xs, xs.length = L.nIn k → (L.step k s xs).2.length = L.nOut k

/-- The samples that signals `x` deliver up to time `t`, one list per time. -/
def samples (x : List (Signal V)) (t : Nat) : List (List V) :=
  (List.range t).map (fun s => x.map (fun f => f s))

/-- A node as it is shown: without weights and state. -/
def Node.shown : Node K S V → Shown K
  | .block k _ => .block k
  | .copy => .fanOut
  | .sum _ => .sum

mutual
/-- There is no feedback tap inside. -/
def TapFree : Blk K S V → Prop
  | .leaf _ _ => True
  | .merge l _ r _ => TapFree l ∧ TapFree r
  | .fan _ ps => TapFreePaths ps
  | .feedback f g _ _ tap => TapFree f ∧ TapFree g ∧ tap = false
  | .monitored f mon g _ _ tap => TapFree f ∧ TapFree mon ∧ TapFree g ∧ tap = false
def TapFreePaths : Paths K S V → Prop
  | .nil => True
  | .cons p rest => TapFree p ∧ TapFreePaths rest
end

mutual
/-- There is no fan-out inside. -/
def FanFree : Blk K S V → Prop
  | .leaf _ _ => True
  | .merge l _ r _ => FanFree l ∧ FanFree r
  | .fan _ _ => False
  | .feedback f g _ _ _ => FanFree f ∧ FanFree g
  | .monitored f mon g _ _ _ => FanFree f ∧ FanFree mon ∧ FanFree g
end

/-- The graph that shows a network, its connections given by `edges`. -/
def Net.shownWith (net : Net K S V) (edges : List (Port × Port)) : Graph K where
  nodes := net.nodes.map (fun n => (n.1, n.2.shown))
  edges := edges
  outs := net.outs
  ins := net.ins

mutual
/-- There is no feedback loop inside. -/
def LoopFree : Blk K S V → Prop
  | .leaf _ _ => True
  | .merge l _ r _ => LoopFree l ∧ LoopFree r
  | .fan _ ps => LoopFreePaths ps
  | .feedback _ _ _ _ _ => False
  | .monitored _ _ _ _ _ _ => False
def LoopFreePaths : Paths K S V → Prop
  | .nil => True
  | .cons p rest => LoopFree p ∧ LoopFreePaths rest
end

mutual
/-- The same block with every part reset and every stored value as at construction. -/
def restarted (L : Lib K S V) : Blk K S V → Blk K S V
  | .leaf k s => .leaf k (L.reset k s)
  | .merge l o r i => .merge (restarted L l) o (restarted L r) i
  | .fan signs ps => .fan signs (restartedPaths L ps)
  | .feedback f g i _ tap => .feedback (restarted L f) (restarted L g) i L.zero tap
  | .monitored f mon g i _ tap => .monitored (restarted L f) (restarted L mon) (restarted L g) i L.zero tap
def restartedPaths (L : Lib K S V) : Paths K S V → Paths K S V
  | .nil => .nil
  | .cons p rest => .cons (restarted L p) (restartedPaths L rest)
end

end Verif.Merge
