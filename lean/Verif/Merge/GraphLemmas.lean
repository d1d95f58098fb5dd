import Verif.Merge.Exist

/- The graph shown for a merged block against its network. -/
namespace Verif.Merge

variable {K S V : Type}

theorem eraseIdx_without (ps : List Port) (n : Nat) : ps.eraseIdx n = without ps n := by
  rw [without, List.eraseIdx_eq_take_drop_succ]

theorem get_portAt {ps : List Port} {n : Nat} (h : n < ps.length) : ps[n]? = some (portAt ps n) := by
  rw [portAt_lt h, List.getElem?_eq_getElem h]

/-- A graph shows a network: same blocks and free ports, connections between the same blocks. -/
def Shows (g : Graph K) (net : Net K S V) : Prop :=
  g = net.shownWith g.edges ∧
  g.edges.map (fun e => (e.1, e.2.node)) = net.wires.map (fun e => (e.src, e.dst.node))

def plain (ws : List (Wire V)) : List (Port × Port) := ws.map (fun e => (e.src, e.dst))

theorem Shows.nodes {g : Graph K} {net : Net K S V} (h : Shows g net) :
    g.nodes = net.nodes.map (fun n => (n.1, n.2.shown)) := by
  have := congrArg Graph.nodes h.1; exact this

theorem Shows.outs {g : Graph K} {net : Net K S V} (h : Shows g net) : g.outs = net.outs := by
  have := congrArg Graph.outs h.1; exact this

theorem Shows.ins {g : Graph K} {net : Net K S V} (h : Shows g net) : g.ins = net.ins := by
  have := congrArg Graph.ins h.1; exact this

theorem Shows.mk {g : Graph K} {net : Net K S V}
    (hn : g.nodes = net.nodes.map (fun n => (n.1, n.2.shown))) (ho : g.outs = net.outs) (hi : g.ins = net.ins)
    (he : g.edges.map (fun e => (e.1, e.2.node)) = net.wires.map (fun e => (e.src, e.dst.node))) : Shows g net := by
  refine ⟨?_, he⟩
  obtain ⟨n, e, o, i⟩ := g
  simp only [Net.shownWith, Graph.mk.injEq]
  exact ⟨hn, trivial, ho, hi⟩

mutual
theorem graph_shows (L : Lib K S V) : ∀ (m : Blk K S V), Compiles L m → TapFree m → ∀ n,
    ∃ g, graphOf L m n = some g ∧ Shows g (wiring L m n) ∧
      (FanFree m → g.edges = plain (wiring L m n).wires)
  | .leaf k s, _, _, n => by
    refine ⟨_, rfl, Shows.mk rfl rfl rfl rfl, fun _ => rfl⟩
  | .merge l o r i, hc, ht, n => by
    simp only [Compiles] at hc
    obtain ⟨cl, cr, ho, hi, _⟩ := hc
    simp only [TapFree] at ht
    obtain ⟨a, ga, sa, ea⟩ := graph_shows L l cl ht.1 n
    obtain ⟨b, gb, sb, eb⟩ := graph_shows L r cr ht.2 (n + size l)
    have q1 : a.outs[o]? = some (portAt (wiring L l n).outs o) := by
      rw [sa.outs]; exact get_portAt (by rw [outs_length L l cl]; exact ho)
    have q2 : b.ins[i]? = some (portAt (wiring L r (n + size l)).ins i) := by
      rw [sb.ins]; exact get_portAt (by rw [ins_length L r cr]; exact hi)
    refine ⟨_, by simp only [graphOf, ga, gb, q1, q2, Option.bind_eq_bind, Option.bind_some]; rfl, ?_, ?_⟩
    · apply Shows.mk
      · simp only [wiring, List.map_append, sa.nodes, sb.nodes]
      · simp only [wiring, sa.outs, sb.outs, eraseIdx_without]
      · simp only [wiring, sa.ins, sb.ins, eraseIdx_without]
      · simp only [wiring, List.map_append, sa.2, sb.2]; rfl
    · intro hf
      simp only [FanFree] at hf
      simp only [wiring, plain, List.map_append, ea hf.1, eb hf.2]; rfl
  | .fan signs ps, hc, ht, n => by
    simp only [Compiles] at hc
    simp only [TapFree] at ht
    obtain ⟨q, gq, hn, he⟩ := paths_shows L ps hc.1 ht n 0 (n + 2)
    refine ⟨_, by simp only [graphOf, gq, Option.bind_eq_bind, Option.bind_some]; rfl, ?_, ?_⟩
    · apply Shows.mk
      · simp only [wiring, List.map_append, hn]; rfl
      · rfl
      · rfl
      · simp only [wiring, he]
    · intro hf; simp only [FanFree] at hf
  | .feedback f g i z tap, hc, ht, n => by
    simp only [Compiles] at hc
    obtain ⟨cf, cg, _, hi, of, ig, og⟩ := hc
    simp only [TapFree] at ht
    obtain ⟨a, ga, sa, ea⟩ := graph_shows L f cf ht.1 n
    obtain ⟨b, gb, sb, eb⟩ := graph_shows L g cg ht.2.1 (n + size f)
    have q1 : a.outs[0]? = some (portAt (wiring L f n).outs 0) := by
      rw [sa.outs]; exact get_portAt (by rw [outs_length L f cf]; omega)
    have q2 : b.ins[0]? = some (portAt (wiring L g (n + size f)).ins 0) := by
      rw [sb.ins]; exact get_portAt (by rw [ins_length L g cg]; omega)
    have q3 : b.outs[0]? = some (portAt (wiring L g (n + size f)).outs 0) := by
      rw [sb.outs]; exact get_portAt (by rw [outs_length L g cg]; omega)
    have q4 : a.ins[i]? = some (portAt (wiring L f n).ins i) := by
      rw [sa.ins]; exact get_portAt (by rw [ins_length L f cf]; exact hi)
    refine ⟨_, by simp only [graphOf, ga, gb, q1, q2, q3, q4, Option.bind_eq_bind, Option.bind_some]; rfl, ?_, ?_⟩
    · apply Shows.mk
      · simp only [wiring, List.map_append, sa.nodes, sb.nodes]
      · simp [wiring, sa.outs, ht.2.2]
      · simp only [wiring, sa.ins, eraseIdx_without]
      · simp only [wiring, List.map_append, sa.2, sb.2]; rfl
    · intro hf
      simp only [FanFree] at hf
      simp only [wiring, plain, List.map_append, ea hf.1, eb hf.2]; rfl
  | .monitored f mon g i z tap, hc, ht, n => by
    simp only [Compiles] at hc
    obtain ⟨cf, cm, cg, _, hi, of, ig, og, im, om⟩ := hc
    simp only [TapFree] at ht
    obtain ⟨a, ga, sa, ea⟩ := graph_shows L f cf ht.1 n
    obtain ⟨b, gb, sb, eb⟩ := graph_shows L g cg ht.2.2.1 (n + size f)
    obtain ⟨c, gc, sc, ec⟩ := graph_shows L mon cm ht.2.1 (n + size f + size g)
    have q1 : a.outs[0]? = some (portAt (wiring L f n).outs 0) := by
      rw [sa.outs]; exact get_portAt (by rw [outs_length L f cf]; omega)
    have q2 : b.ins[0]? = some (portAt (wiring L g (n + size f)).ins 0) := by
      rw [sb.ins]; exact get_portAt (by rw [ins_length L g cg]; omega)
    have q3 : b.outs[0]? = some (portAt (wiring L g (n + size f)).outs 0) := by
      rw [sb.outs]; exact get_portAt (by rw [outs_length L g cg]; omega)
    have q4 : a.ins[i]? = some (portAt (wiring L f n).ins i) := by
      rw [sa.ins]; exact get_portAt (by rw [ins_length L f cf]; exact hi)
    have q5 : c.ins[0]? = some (portAt (wiring L mon (n + size f + size g)).ins 0) := by
      rw [sc.ins]; exact get_portAt (by rw [ins_length L mon cm]; omega)
    have q6 : c.outs[0]? = some (portAt (wiring L mon (n + size f + size g)).outs 0) := by
      rw [sc.outs]; exact get_portAt (by rw [outs_length L mon cm]; omega)
    refine ⟨_, by simp only [graphOf, ga, gb, gc, q1, q2, q3, q4, q5, q6, Option.bind_eq_bind, Option.bind_some]; rfl, ?_, ?_⟩
    · apply Shows.mk
      · simp only [wiring, List.map_append, sa.nodes, sb.nodes, sc.nodes]
      · simp [wiring, sa.outs, ht.2.2.2]
      · simp only [wiring, sa.ins, eraseIdx_without]
      · simp only [wiring, List.map_append, sa.2, sb.2, sc.2]; rfl
    · intro hf
      simp only [FanFree] at hf
      simp only [wiring, plain, List.map_append, ea hf.1, eb hf.2.2, ec hf.2.1]; rfl
theorem paths_shows (L : Lib K S V) : ∀ (ps : Paths K S V), CompilesPaths L ps → TapFreePaths ps → ∀ h j n,
    ∃ q, graphPaths L ps h n = some q ∧
      q.nodes = (wiringPaths L ps h j n).nodes.map (fun n => (n.1, n.2.shown)) ∧
      q.edges.map (fun e => (e.1, e.2.node)) = (wiringPaths L ps h j n).wires.map (fun e => (e.src, e.dst.node))
  | .nil, _, _, h, j, n => ⟨_, rfl, rfl, rfl⟩
  | .cons p rest, hc, ht, h, j, n => by
    simp only [CompilesPaths] at hc
    obtain ⟨cp, ip, op, cr⟩ := hc
    simp only [TapFreePaths] at ht
    obtain ⟨a, ga, sa, _⟩ := graph_shows L p cp ht.1 n
    obtain ⟨q, gq, hn, he⟩ := paths_shows L rest cr ht.2 h (j + 1) (n + size p)
    have q1 : a.ins[0]? = some (portAt (wiring L p n).ins 0) := by
      rw [sa.ins]; exact get_portAt (by rw [ins_length L p cp]; omega)
    have q2 : a.outs[0]? = some (portAt (wiring L p n).outs 0) := by
      rw [sa.outs]; exact get_portAt (by rw [outs_length L p cp]; omega)
    refine ⟨_, by simp only [graphPaths, ga, gq, q1, q2, Option.bind_eq_bind, Option.bind_some]; rfl, ?_, ?_⟩
    · simp only [wiringPaths, List.map_append, sa.nodes, hn]
    · simp only [wiringPaths, List.map_append, sa.2, he]; rfl
end

mutual
theorem notify_restarted (L : Lib K S V) : ∀ (m : Blk K S V), LoopFree m → notify L m = restarted L m
  | .leaf k s, _ => by simp only [notify, restarted]
  | .merge l o r i, h => by
    simp only [LoopFree] at h
    simp only [notify, restarted, notify_restarted L l h.1, notify_restarted L r h.2]
  | .fan signs ps, h => by
    simp only [LoopFree] at h
    simp only [notify, restarted, notify_restartedPaths L ps h]
  | .feedback f g i z tap, h => by simp only [LoopFree] at h
  | .monitored f mon g i z tap, h => by simp only [LoopFree] at h
theorem notify_restartedPaths (L : Lib K S V) : ∀ (ps : Paths K S V), LoopFreePaths ps →
    notifyPaths L ps = restartedPaths L ps
  | .nil, _ => by simp only [notifyPaths, restartedPaths]
  | .cons p rest, h => by
    simp only [LoopFreePaths] at h
    simp only [notifyPaths, restartedPaths, notify_restarted L p h.1, notify_restartedPaths L rest h.2]
end

end Verif.Merge
