import Verif.Merge.GraphLemmas

/- C75: a merged block computes what the network of its parts computes. -/
namespace Verif.Merge

variable {K S V : Type}

/-! Blocks for the examples: samples are integers. -/

inductive Demo where
  | scale (c : Int)
  | adder
  | delay
  | split
deriving DecidableEq, Repr

/-- `scale` multiplies, `adder` adds two inputs, `delay` gives the sample before, `split` has three
outputs `x`, `x + 1` and the number of calls so far. -/
def demo : Lib Demo Int Int where
  nIn
    | .adder => 2
    | _ => 1
  nOut
    | .split => 3
    | _ => 1
  step
    | .scale c, s, [x] => (s, [c * x])
    | .adder, s, [x, y] => (s, [x + y])
    | .delay, s, [x] => (x, [s])
    | .split, s, [x] => (s + 1, [x, x + 1, s])
    | .split, s, _ => (s, [0, 0, 0])
    | _, s, _ => (s, [0])
  reset _ _ := 0
  add := (· + ·)
  mul := (· * ·)
  one := 1
  zero := 0

theorem demo_lawful : demo.Lawful := by
  intro k s xs h
  cases k with
  | adder =>
    match xs, h with
    | [x, y], _ => rfl
  | _ =>
    match xs, h with
    | [x], _ => rfl

/-- C75: the network of the parts of a merged block can be solved for all input signals, and the
outputs of the solution are what the merged block puts out, sample by sample. -/
theorem merged_computes_network (L : Lib K S V) (hL : L.Lawful) (m : Blk K S V) (hm : Compiles L m)
    (x : List (Signal V)) (hx : x.length = nIn L m) :
    ∃ u w, Solves L (wiring L m 0) u w ∧ signals u (wiring L m 0).ins = x ∧
      ∀ t, (runAll L m (samples x t)).2 = samples (signals w (wiring L m 0).outs) t := by
  obtain ⟨u, w, hs, hi⟩ := exists_solution L hL m hm 0 x hx
  refine ⟨u, w, hs, hi, fun t => ?_⟩
  rw [runAll_samples]
  apply List.map_congr_left
  intro s _
  rw [← hi]
  exact solution L m hm 0 u w hs s

/-- C75: any signals that satisfy the equations of the network, wherever its blocks are numbered
from, have the outputs of the merged block: the outputs do not depend on which solution is meant. -/
theorem network_determines_outputs (L : Lib K S V) (m : Blk K S V) (hm : Compiles L m) (n : Nat)
    (u w : Nat → Nat → Signal V) (hs : Solves L (wiring L m n) u w) (t : Nat) :
    (runAll L m (samples (signals u (wiring L m n).ins) t)).2 = samples (signals w (wiring L m n).outs) t := by
  rw [runAll_samples]
  apply List.map_congr_left
  intro s _
  exact solution L m hm n u w hs s

/-- C75: the merged block has exactly the free ports of the network. -/
theorem merged_ports (L : Lib K S V) (m : Blk K S V) (hm : Compiles L m) (n : Nat) :
    (wiring L m n).ins.length = nIn L m ∧ (wiring L m n).outs.length = nOut L m :=
  ⟨ins_length L m hm n, outs_length L m hm n⟩

/-- C75: the samples may be handed over in any portions. -/
theorem portions_do_not_matter (L : Lib K S V) (m : Blk K S V) (xs ys : List (List V)) :
    (runAll L m (xs ++ ys)).2 = (runAll L m xs).2 ++ (runAll L (runAll L m xs).1 ys).2 := by
  rw [runAll_append]

/-- A feedback loop with a signed fan-out inside, behind the middle output of a splitter. -/
def bigDemo : Blk Demo Int Int :=
  .merge (.leaf .split 0) 1
    (.feedback (.leaf .adder 0)
      (.fan [1, -1] (.cons (.leaf (.scale 3) 0) (.cons (.leaf .delay 0) .nil))) 1 5 false) 0

example : Compiles demo bigDemo := by
  simp [bigDemo, Compiles, CompilesPaths, nIn, nOut, demo, Paths.length]

example : nIn demo bigDemo = 1 ∧ nOut demo bigDemo = 3 := by decide

/-- outputs: `x`, the counter and `y`, which is `x + 1` plus the value fed back before; `3 y` minus the
`y` before is fed back -/
example : (runAll demo bigDemo [[0], [10], [20]]).2 = [[0, 0, 6], [10, 1, 29], [20, 2, 102]] := by
  decide

example : Compiles demo (.monitored (.leaf .adder 0) (.leaf (.scale 2) 0) (.leaf (.scale 3) 0) 0 1 false) := by
  simp [Compiles, nIn, nOut, demo]

example : (runAll demo (.monitored (.leaf .adder 0) (.leaf (.scale 2) 0) (.leaf (.scale 3) 0) 0 1 false)
    [[4], [5]]).2 = [[5], [35]] := by decide

/-! The shown graph. -/

/-- C75: the graph shown for a merged block without feedback taps has the parts and free ports of
its network and connects the same blocks; without fan-outs the connections are those of the
network, port by port. -/
theorem graph_shows_network_partial (L : Lib K S V) (m : Blk K S V) (hm : Compiles L m) (ht : TapFree m)
    (n : Nat) : ∃ g, graphOf L m n = some g ∧ g = (wiring L m n).shownWith g.edges ∧
      g.edges.map (fun e => (e.1, e.2.node)) = (wiring L m n).wires.map (fun e => (e.src, e.dst.node)) ∧
      (FanFree m → g.edges = (wiring L m n).wires.map (fun e => (e.src, e.dst))) := by
  obtain ⟨g, hg, hs, he⟩ := graph_shows L m hm ht n
  exact ⟨g, hg, hs.1, hs.2, he⟩

example : TapFree (.merge (.leaf .split 0) 2 (.feedback (.leaf .adder 0) (.leaf .delay 0) 1 0 false) 0
    : Blk Demo Int Int) := by simp [TapFree]

example : graphOf demo (.merge (.leaf .split 0) 2 (.feedback (.leaf .adder 0) (.leaf .delay 0) 1 0 false) 0) 0
    = some { nodes := [(0, .block .split), (1, .block .adder), (2, .block .delay)],
             edges := [(⟨1, 0⟩, ⟨2, 0⟩), (⟨2, 0⟩, ⟨1, 1⟩), (⟨0, 2⟩, ⟨1, 0⟩)],
             outs := [⟨0, 0⟩, ⟨0, 1⟩, ⟨1, 0⟩], ins := [⟨0, 0⟩] } := by decide

/-- Against the full claim: the shown graph does not tell the signs of a fan-out, which change the
output. -/
theorem graph_forgets_signs :
    (∀ (L : Lib K S V) (signs signs' : List V) (ps : Paths K S V) (n : Nat),
      graphOf L (.fan signs ps) n = graphOf L (.fan signs' ps) n) ∧
    ∃ (signs signs' : List Int) (ps : Paths Demo Int Int),
      Compiles demo (.fan signs ps) ∧ Compiles demo (.fan signs' ps) ∧
      (runAll demo (.fan signs ps) [[7]]).2 ≠ (runAll demo (.fan signs' ps) [[7]]).2 := by
  refine ⟨fun L a b ps n => by simp only [graphOf],
    [1, -1], [], .cons (.leaf (.scale 2) 0) (.cons (.leaf (.scale 1) 0) .nil), ?_, ?_, by decide⟩
  · simp [Compiles, CompilesPaths, nIn, nOut, demo, Paths.length]
  · simp [Compiles, CompilesPaths, nIn, nOut, demo, Paths.length]

/-- Against the full claim: the shown graph of a fan-out connects two different outputs to one
input port, port 0 of the block that stands for the sum. -/
theorem graph_shares_input (L : Lib K S V) (signs : List V) (p q : Blk K S V) (rest : Paths K S V) (n : Nat)
    (hm : Compiles L (.fan signs (.cons p (.cons q rest)))) (ht : TapFree (.fan signs (.cons p (.cons q rest)))) :
    ∃ g a b, graphOf L (.fan signs (.cons p (.cons q rest))) n = some g ∧ a ≠ b ∧
      (a, (⟨n + 1, 0⟩ : Port)) ∈ g.edges ∧ (b, (⟨n + 1, 0⟩ : Port)) ∈ g.edges := by
  simp only [Compiles, CompilesPaths] at hm
  obtain ⟨⟨cp, ip, op, cq, iq, oq, cr⟩, _⟩ := hm
  simp only [TapFree, TapFreePaths] at ht
  obtain ⟨a, ga, sa, _⟩ := graph_shows L p cp ht.1 (n + 2)
  obtain ⟨b, gb, sb, _⟩ := graph_shows L q cq ht.2.1 (n + 2 + size p)
  obtain ⟨c, gc, _, _⟩ := paths_shows L rest cr ht.2.2 n 0 (n + 2 + size p + size q)
  have a1 : a.ins[0]? = some (portAt (wiring L p (n + 2)).ins 0) := by
    rw [sa.ins]; exact get_portAt (by rw [ins_length L p cp]; omega)
  have a2 : a.outs[0]? = some (portAt (wiring L p (n + 2)).outs 0) := by
    rw [sa.outs]; exact get_portAt (by rw [outs_length L p cp]; omega)
  have b1 : b.ins[0]? = some (portAt (wiring L q (n + 2 + size p)).ins 0) := by
    rw [sb.ins]; exact get_portAt (by rw [ins_length L q cq]; omega)
  have b2 : b.outs[0]? = some (portAt (wiring L q (n + 2 + size p)).outs 0) := by
    rw [sb.outs]; exact get_portAt (by rw [outs_length L q cq]; omega)
  have wa := (within L p cp (n + 2)).outs _ (portAt_mem (n := 0) (by rw [outs_length L p cp]; omega))
  have wb := (within L q cq (n + 2 + size p)).outs _ (portAt_mem (n := 0) (by rw [outs_length L q cq]; omega))
  refine ⟨_, portAt (wiring L p (n + 2)).outs 0, portAt (wiring L q (n + 2 + size p)).outs 0,
    by simp only [graphOf, graphPaths, ga, gb, gc, a1, a2, b1, b2, Option.bind_eq_bind, Option.bind_some]; rfl,
    ?_, by simp, by simp⟩
  intro h
  rw [h] at wa
  omega

/-- Against the full claim: the list of shown outputs lacks the tap of a feedback loop, so asking
for the graph of a block that takes the tap further reads past the end of that list. The block
itself compiles and works. -/
theorem tap_graph_undefined (L : Lib K S V) (f g r : Blk K S V) (i j : Nat) (z : V) (n : Nat)
    (hm : Compiles L (.merge (.feedback f g i z true) 1 r j)) (hf : TapFree f) :
    graphOf L (.merge (.feedback f g i z true) 1 r j) n = none := by
  simp only [Compiles] at hm
  obtain ⟨⟨cf, cg, _, hi, of, ig, og⟩, cr, _⟩ := hm
  obtain ⟨a, ga, sa, _⟩ := graph_shows L f cf hf n
  have ho : a.outs[1]? = none := by
    rw [sa.outs]
    apply List.getElem?_eq_none
    rw [outs_length L f cf]; omega
  have key : ∀ b, graphOf L (.feedback f g i z true) n = some b → b.outs = a.outs := by
    intro b hb
    simp only [graphOf, ga, Option.bind_eq_bind, Option.bind_some] at hb
    simp only [Option.bind_eq_some_iff] at hb
    obtain ⟨_, _, _, _, _, _, _, _, _, _, h⟩ := hb
    simp only [Option.pure_def, Option.some.injEq] at h
    rw [← h]
  rw [graphOf]
  cases hfb : graphOf L (.feedback f g i z true) n with
  | none => rfl
  | some b =>
    cases hr : graphOf L r (n + size (.feedback f g i z true)) with
    | none => rfl
    | some c =>
      simp only [Option.bind_eq_bind, Option.bind_some, key b hfb, ho]
      rfl

example : Compiles demo (.merge (.feedback (.leaf .adder 0) (.leaf (.scale 2) 0) 1 0 true) 1
    (.leaf (.scale 3) 0) 0) := by
  simp [Compiles, nIn, nOut, demo]

example : (runAll demo (.merge (.feedback (.leaf .adder 0) (.leaf (.scale 2) 0) 1 0 true) 1
    (.leaf (.scale 3) 0) 0) [[1], [1]]).2 = [[1, 6], [3, 18]] := by decide

/-! Restarting. -/

/-- C75: a merged block without feedback loops that is told to reset, started again, gives what
it gives when all parts are reset. -/
theorem restart_partial (L : Lib K S V) (m : Blk K S V) (h : LoopFree m) (xs : List (List V)) :
    (runAll L (notify L m) xs).2 = (runAll L (restarted L m) xs).2 := by
  rw [notify_restarted L m h]

example : LoopFree (.merge (.leaf .split 3) 1 (.leaf .delay 9) 0 : Blk Demo Int Int) := by simp [LoopFree]

example : (runAll demo (notify demo (.merge (.leaf .split 3) 1 (.leaf .delay 9) 0)) [[4], [5]]).2
    = [[4, 0, 0], [5, 1, 5]] := by decide

/-- Against the full claim: the value stored in a feedback loop outlives a reset of the block. -/
theorem restart_keeps_feedback : ∃ (m : Blk Demo Int Int) (xs : List (List Int)), Compiles demo m ∧
    (runAll demo (notify demo (runAll demo m [[8]]).1) xs).2 ≠ (runAll demo (restarted demo m) xs).2 :=
  ⟨.feedback (.leaf .adder 0) (.leaf (.scale 2) 0) 1 0 false, [[0]],
    by simp [Compiles, nIn, nOut, demo], by decide⟩

end Verif.Merge
