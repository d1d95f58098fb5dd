import Verif.Merge.Lemmas

/- The network of a merged block has a solution for all inputs. -/
namespace Verif.Merge

variable {K S V : Type}

theorem Solves.congr {L : Lib K S V} {net : Net K S V} {u w u' w' : Nat → Nat → Signal V}
    (h : Solves L net u w) (hn : ∀ n ∈ net.nodes, u' n.1 = u n.1 ∧ w' n.1 = w n.1)
    (he : ∀ e ∈ net.wires, u' e.dst.node e.dst.port = u e.dst.node e.dst.port
      ∧ w' e.src.node e.src.port = w e.src.node e.src.port) : Solves L net u' w' := by
  constructor
  · intro n hm
    rw [(hn n hm).1, (hn n hm).2]
    exact h.1 n hm
  · intro e hm
    rw [(he e hm).1, (he e hm).2]
    exact h.2 e hm

/-- All nodes and wire ends lie between `lo` and `hi`. -/
structure Within (net : Net K S V) (lo hi : Nat) : Prop where
  nodes : ∀ n ∈ net.nodes, lo ≤ n.1 ∧ n.1 < hi
  srcs : ∀ e ∈ net.wires, lo ≤ e.src.node ∧ e.src.node < hi
  dsts : ∀ e ∈ net.wires, lo ≤ e.dst.node ∧ e.dst.node < hi
  outs : ∀ p ∈ net.outs, lo ≤ p.node ∧ p.node < hi
  ins : ∀ p ∈ net.ins, lo ≤ p.node ∧ p.node < hi

theorem mem_without {ps : List Port} {n : Nat} {p : Port} (h : p ∈ without ps n) : p ∈ ps := by
  simp only [without, List.mem_append] at h
  rcases h with h | h
  · exact List.mem_of_mem_take h
  · exact List.mem_of_mem_drop h

theorem portAt_mem {ps : List Port} {n : Nat} (h : n < ps.length) : portAt ps n ∈ ps := by
  rw [portAt_lt h]; exact List.getElem_mem h

theorem signals_congr {u u' : Nat → Nat → Signal V} {ps : List Port}
    (h : ∀ p ∈ ps, u' p.node p.port = u p.node p.port) : signals u' ps = signals u ps :=
  List.map_congr_left h

mutual
theorem within (L : Lib K S V) : ∀ (m : Blk K S V), Compiles L m → ∀ n,
    Within (wiring L m n) n (n + size m)
  | .leaf k s, _, n => by
    simp only [wiring, size]
    constructor <;> simp
  | .merge l o r i, hc, n => by
    simp only [Compiles] at hc
    obtain ⟨cl, cr, ho, hi, _⟩ := hc
    have hl := within L l cl n
    have hr := within L r cr (n + size l)
    have p1 := hl.outs _ (portAt_mem (n := o) (by rw [outs_length L l cl n]; exact ho))
    have p2 := hr.ins _ (portAt_mem (n := i) (by rw [ins_length L r cr]; exact hi))
    simp only [wiring, size]
    constructor
    · intro x hx
      rcases List.mem_append.1 hx with hx | hx
      · have := hl.nodes x hx; omega
      · have := hr.nodes x hx; omega
    · intro x hx
      simp only [List.mem_append, List.mem_singleton] at hx
      rcases hx with (hx | hx) | rfl
      · have := hl.srcs x hx; omega
      · have := hr.srcs x hx; omega
      · show _ ≤ (portAt _ _).node ∧ (portAt _ _).node < _; omega
    · intro x hx
      simp only [List.mem_append, List.mem_singleton] at hx
      rcases hx with (hx | hx) | rfl
      · have := hl.dsts x hx; omega
      · have := hr.dsts x hx; omega
      · show _ ≤ (portAt _ _).node ∧ (portAt _ _).node < _; omega
    · intro x hx
      rcases List.mem_append.1 hx with hx | hx
      · have := hl.outs x (mem_without hx); omega
      · have := hr.outs x hx; omega
    · intro x hx
      rcases List.mem_append.1 hx with hx | hx
      · have := hl.ins x hx; omega
      · have := hr.ins x (mem_without hx); omega
  | .fan signs ps, hc, n => by
    simp only [Compiles] at hc
    have hp := withinPaths L ps hc.1 n 0 (n + 2) 
    simp only [wiring, size]
    constructor
    · intro x hx
      simp only [List.cons_append, List.nil_append, List.mem_cons] at hx
      rcases hx with rfl | rfl | hx
      · show n ≤ n ∧ _; omega
      · show n ≤ n + 1 ∧ n + 1 < _; omega
      · have := hp.1 x hx; omega
    · intro x hx
      rcases (hp.2 x hx).1 with h | h
      · rw [h]; show n ≤ n ∧ n < _; omega
      · omega
    · intro x hx
      rcases (hp.2 x hx).2 with h | h
      · omega
      · omega
    · intro x hx
      simp only [List.mem_singleton] at hx
      subst hx
      show n ≤ n + 1 ∧ n + 1 < _; omega
    · intro x hx
      simp only [List.mem_singleton] at hx
      subst hx
      show n ≤ n ∧ n < _; omega
  | .feedback f g i z tap, hc, n => by
    simp only [Compiles] at hc
    obtain ⟨cf, cg, _, hi, of, ig, og⟩ := hc
    have hf := within L f cf n
    have hg := within L g cg (n + size f)
    have p1 := hf.outs _ (portAt_mem (n := 0) (by rw [outs_length L f cf n]; omega))
    have p2 := hf.ins _ (portAt_mem (n := i) (by rw [ins_length L f cf]; exact hi))
    have p3 := hg.outs _ (portAt_mem (n := 0) (by rw [outs_length L g cg]; omega))
    have p4 := hg.ins _ (portAt_mem (n := 0) (by rw [ins_length L g cg]; omega))
    simp only [wiring, size]
    constructor
    · intro x hx
      rcases List.mem_append.1 hx with hx | hx
      · have := hf.nodes x hx; omega
      · have := hg.nodes x hx; omega
    · intro x hx
      simp only [List.mem_append, List.mem_cons, List.not_mem_nil, or_false] at hx
      rcases hx with (hx | hx) | rfl | rfl
      · have := hf.srcs x hx; omega
      · have := hg.srcs x hx; omega
      · show _ ≤ (portAt _ _).node ∧ (portAt _ _).node < _; omega
      · show _ ≤ (portAt _ _).node ∧ (portAt _ _).node < _; omega
    · intro x hx
      simp only [List.mem_append, List.mem_cons, List.not_mem_nil, or_false] at hx
      rcases hx with (hx | hx) | rfl | rfl
      · have := hf.dsts x hx; omega
      · have := hg.dsts x hx; omega
      · show _ ≤ (portAt _ _).node ∧ (portAt _ _).node < _; omega
      · show _ ≤ (portAt _ _).node ∧ (portAt _ _).node < _; omega
    · intro x hx
      rcases List.mem_append.1 hx with hx | hx
      · have := hf.outs x hx; omega
      · cases tap with
        | false => simp at hx
        | true => simp only [if_true, List.mem_singleton] at hx; subst hx; omega
    · intro x hx
      have := hf.ins x (mem_without hx); omega
  | .monitored f mon g i z tap, hc, n => by
    simp only [Compiles] at hc
    obtain ⟨cf, cm, cg, _, hi, of, ig, og, im, om⟩ := hc
    have hf := within L f cf n
    have hg := within L g cg (n + size f)
    have hm := within L mon cm (n + size f + size g)
    have p1 := hf.outs _ (portAt_mem (n := 0) (by rw [outs_length L f cf n]; omega))
    have p2 := hf.ins _ (portAt_mem (n := i) (by rw [ins_length L f cf]; exact hi))
    have p3 := hg.outs _ (portAt_mem (n := 0) (by rw [outs_length L g cg]; omega))
    have p4 := hg.ins _ (portAt_mem (n := 0) (by rw [ins_length L g cg]; omega))
    have p5 := hm.outs _ (portAt_mem (n := 0) (by rw [outs_length L mon cm]; omega))
    have p6 := hm.ins _ (portAt_mem (n := 0) (by rw [ins_length L mon cm]; omega))
    simp only [wiring, size]
    constructor
    · intro x hx
      simp only [List.mem_append] at hx
      rcases hx with (hx | hx) | hx
      · have := hf.nodes x hx; omega
      · have := hg.nodes x hx; omega
      · have := hm.nodes x hx; omega
    · intro x hx
      simp only [List.mem_append, List.mem_cons, List.not_mem_nil, or_false] at hx
      rcases hx with ((hx | hx) | hx) | rfl | rfl | rfl
      · have := hf.srcs x hx; omega
      · have := hg.srcs x hx; omega
      · have := hm.srcs x hx; omega
      · show _ ≤ (portAt _ _).node ∧ (portAt _ _).node < _; omega
      · show _ ≤ (portAt _ _).node ∧ (portAt _ _).node < _; omega
      · show _ ≤ (portAt _ _).node ∧ (portAt _ _).node < _; omega
    · intro x hx
      simp only [List.mem_append, List.mem_cons, List.not_mem_nil, or_false] at hx
      rcases hx with ((hx | hx) | hx) | rfl | rfl | rfl
      · have := hf.dsts x hx; omega
      · have := hg.dsts x hx; omega
      · have := hm.dsts x hx; omega
      · show _ ≤ (portAt _ _).node ∧ (portAt _ _).node < _; omega
      · show _ ≤ (portAt _ _).node ∧ (portAt _ _).node < _; omega
      · show _ ≤ (portAt _ _).node ∧ (portAt _ _).node < _; omega
    · intro x hx
      rcases List.mem_append.1 hx with hx | hx
      · have := hf.outs x hx; omega
      · cases tap with
        | false => simp at hx
        | true => simp only [if_true, List.mem_singleton] at hx; subst hx; omega
    · intro x hx
      have := hf.ins x (mem_without hx); omega
theorem withinPaths (L : Lib K S V) : ∀ (ps : Paths K S V), CompilesPaths L ps → ∀ h j n,
    (∀ x ∈ (wiringPaths L ps h j n).nodes, n ≤ x.1 ∧ x.1 < n + sizePaths ps) ∧
    (∀ e ∈ (wiringPaths L ps h j n).wires,
      (e.src = ⟨h, 0⟩ ∨ (n ≤ e.src.node ∧ e.src.node < n + sizePaths ps)) ∧
      ((e.dst.node = h + 1 ∧ j ≤ e.dst.port) ∨ (n ≤ e.dst.node ∧ e.dst.node < n + sizePaths ps)))
  | .nil, _, h, j, n => by simp [wiringPaths]
  | .cons p rest, hc, h, j, n => by
    simp only [CompilesPaths] at hc
    obtain ⟨cp, ip, op, cr⟩ := hc
    have hp := within L p cp n
    have hr := withinPaths L rest cr h (j + 1) (n + size p)
    have p1 := hp.outs _ (portAt_mem (n := 0) (by rw [outs_length L p cp n]; omega))
    have p2 := hp.ins _ (portAt_mem (n := 0) (by rw [ins_length L p cp]; omega))
    simp only [wiringPaths, sizePaths]
    constructor
    · intro x hx
      rcases List.mem_append.1 hx with hx | hx
      · have := hp.nodes x hx; omega
      · have := hr.1 x hx; omega
    · intro e he
      simp only [List.mem_append, List.mem_cons, List.not_mem_nil, or_false] at he
      rcases he with (he | rfl | rfl) | he
      · have := hp.srcs e he; have := hp.dsts e he; omega
      · exact ⟨.inl rfl, .inr (by show _ ≤ (portAt _ _).node ∧ (portAt _ _).node < _; omega)⟩
      · refine ⟨.inr (by show _ ≤ (portAt _ _).node ∧ (portAt _ _).node < _; omega), .inl ⟨rfl, Nat.le_refl _⟩⟩
      · obtain ⟨h1, h2⟩ := hr.2 e he
        refine ⟨?_, by omega⟩
        rcases h1 with h1 | h1
        · exact .inl h1
        · exact .inr (by omega)
end

/-- `a` below `mid`, `b` from `mid` on. -/
def glue (mid : Nat) (a b : Nat → Nat → Signal V) : Nat → Nat → Signal V :=
  fun k => if k < mid then a k else b k

theorem glue_lt {mid k : Nat} (a b : Nat → Nat → Signal V) (h : k < mid) : glue mid a b k = a k := by
  simp [glue, h]

theorem glue_ge {mid k : Nat} (a b : Nat → Nat → Signal V) (h : mid ≤ k) : glue mid a b k = b k := by
  simp only [glue]; rw [if_neg (by omega)]

theorem Solves.glue_left {L : Lib K S V} {net : Net K S V} {lo mid : Nat} (hw : Within net lo mid)
    {u w : Nat → Nat → Signal V} (h : Solves L net u w) (u' w' : Nat → Nat → Signal V) :
    Solves L net (glue mid u u') (glue mid w w') :=
  h.congr (fun n hn => ⟨glue_lt _ _ (hw.nodes n hn).2, glue_lt _ _ (hw.nodes n hn).2⟩)
    (fun e he => ⟨by rw [glue_lt _ _ (hw.dsts e he).2], by rw [glue_lt _ _ (hw.srcs e he).2]⟩)

theorem Solves.glue_right {L : Lib K S V} {net : Net K S V} {mid hi : Nat} (hw : Within net mid hi)
    {u w : Nat → Nat → Signal V} (h : Solves L net u w) (u' w' : Nat → Nat → Signal V) :
    Solves L net (glue mid u' u) (glue mid w' w) :=
  h.congr (fun n hn => ⟨glue_ge _ _ (hw.nodes n hn).1, glue_ge _ _ (hw.nodes n hn).1⟩)
    (fun e he => ⟨by rw [glue_ge _ _ (hw.dsts e he).1], by rw [glue_ge _ _ (hw.srcs e he).1]⟩)

/-- `s` put in at position `i`. -/
def putAt (x : List (Signal V)) (i : Nat) (s : Signal V) : List (Signal V) := x.take i ++ s :: x.drop i

theorem putAt_length (x : List (Signal V)) (i : Nat) (s : Signal V) (h : i ≤ x.length) :
    (putAt x i s).length = x.length + 1 := by
  simp only [putAt, List.length_append, List.length_take, List.length_cons, List.length_drop]
  omega

theorem putAt_get (x : List (Signal V)) (i : Nat) (s : Signal V) (h : i ≤ x.length) :
    (putAt x i s)[i]'(by rw [putAt_length x i s h]; omega) = s := by
  simp only [putAt]
  rw [List.getElem_append_right (by simp; omega)]
  simp [Nat.min_eq_left h]

theorem putAt_without (x : List (Signal V)) (i : Nat) (s : Signal V) (h : i ≤ x.length) :
    (putAt x i s).take i ++ (putAt x i s).drop (i + 1) = x := by
  have e : (List.take i x).length = i := by simp; omega
  have e1 : (putAt x i s).take i = x.take i := by
    rw [putAt, List.take_append_of_le_length (by omega), List.take_take, Nat.min_self]
  have e2 : (putAt x i s).drop (i + 1) = x.drop i := by
    rw [putAt, List.drop_append, e, List.drop_of_length_le (by omega)]
    simp [show i + 1 - i = 1 by omega]
  rw [e1, e2, List.take_append_drop]

theorem signals_get {u : Nat → Nat → Signal V} {ps : List Port} {x : List (Signal V)} {i : Nat}
    (h : signals u ps = x) (hi : i < ps.length) :
    u (portAt ps i).node (portAt ps i).port = x[i]'(by rw [← h, signals_length]; exact hi) := by
  subst h
  simp [signals, portAt_lt hi]

/-- The stored value of a feedback loop. -/
def zOf (L : Lib K S V) : Blk K S V → V
  | .feedback _ _ _ z _ => z
  | .monitored _ _ _ _ z _ => z
  | _ => L.zero

theorem feedback_run {L : Lib K S V} {f g : Blk K S V} {i : Nat} {z : V} {tap : Bool}
    {x : List (Signal V)} {y : Signal V} (hx : x.length = nIn L f - 1) (h2 : 2 ≤ nIn L f) (hi : i < nIn L f)
    (hf : ∀ t, outAt L f (putAt x i (fun t => zOf L (stateAt L (.feedback f g i z tap) x t))) t = [y t]) :
    ∀ t, stateAt L (.feedback f g i z tap) x t
      = .feedback (stateAt L f (putAt x i (fun t => zOf L (stateAt L (.feedback f g i z tap) x t))) t)
          (stateAt L g [y] t) i (zOf L (stateAt L (.feedback f g i z tap) x t)) tap
    ∧ zOf L (stateAt L (.feedback f g i z tap) x (t + 1)) = pick L (outAt L g [y] t) 0 := by
  let zs : Signal V := fun t => zOf L (stateAt L (.feedback f g i z tap) x t)
  have key : ∀ t, step L (.feedback (stateAt L f (putAt x i zs) t) (stateAt L g [y] t) i (zs t) tap) (now x t)
      = (.feedback (stateAt L f (putAt x i zs) (t + 1)) (stateAt L g [y] (t + 1)) i
          (pick L (outAt L g [y] t) 0) tap,
         [y t] ++ (if tap then [pick L (outAt L g [y] t) 0] else [])) := by
    intro t
    have ln : (now (putAt x i zs) t).length = nIn L f := by
      rw [now_length, putAt_length x i zs (by omega)]; omega
    have e0 : now x t = (now (putAt x i zs) t).take i ++ (now (putAt x i zs) t).drop (i + 1) := by
      conv => lhs; rw [← putAt_without x i zs (by omega)]
      simp [now, List.map_take, List.map_drop]
    have ez : zs t = (now (putAt x i zs) t)[i]'(by omega) := by
      have := putAt_get x i zs (by omega)
      simp only [now, List.getElem_map, this]
    have e1 : forwardArgs L (nIn L f - 1) i (now x t) (zs t) = now (putAt x i zs) t := by
      rw [e0, ez, ← ln, forwardArgs_eq]
    simp only [step, nIn_stateAt, e1]
    rw [← outAt_eq, ← stateAt_succ, hf t]
    rfl
  have st : ∀ t, stateAt L (.feedback f g i z tap) x t
      = .feedback (stateAt L f (putAt x i zs) t) (stateAt L g [y] t) i (zs t) tap := by
    intro t
    induction t with
    | zero => rfl
    | succ t ih =>
      have e : stateAt L (.feedback f g i z tap) x (t + 1)
        = .feedback (stateAt L f (putAt x i zs) (t + 1)) (stateAt L g [y] (t + 1)) i
          (pick L (outAt L g [y] t) 0) tap := by rw [stateAt_succ, ih, key t]
      have ez : zs (t + 1) = pick L (outAt L g [y] t) 0 := by
        show zOf L (stateAt L (.feedback f g i z tap) x (t + 1)) = _
        rw [e]; rfl
      rw [e, ez]
  intro t
  refine ⟨st t, ?_⟩
  rw [stateAt_succ, st t, key t]
  rfl

theorem monitored_run {L : Lib K S V} {f mon g : Blk K S V} {i : Nat} {z : V} {tap : Bool}
    {x : List (Signal V)} {y v : Signal V} (hx : x.length = nIn L f - 1) (h2 : 2 ≤ nIn L f) (hi : i < nIn L f)
    (hf : ∀ t, outAt L f (putAt x i (fun t => zOf L (stateAt L (.monitored f mon g i z tap) x t))) t = [y t])
    (hm : ∀ t, outAt L mon [y] t = [v t]) :
    ∀ t, zOf L (stateAt L (.monitored f mon g i z tap) x (t + 1)) = pick L (outAt L g [v] t) 0 := by
  let zs : Signal V := fun t => zOf L (stateAt L (.monitored f mon g i z tap) x t)
  have key : ∀ t, step L (.monitored (stateAt L f (putAt x i zs) t) (stateAt L mon [y] t)
        (stateAt L g [v] t) i (zs t) tap) (now x t)
      = (.monitored (stateAt L f (putAt x i zs) (t + 1)) (stateAt L mon [y] (t + 1))
          (stateAt L g [v] (t + 1)) i (pick L (outAt L g [v] t) 0) tap,
         [y t] ++ (if tap then [pick L (outAt L g [v] t) 0] else [])) := by
    intro t
    have ln : (now (putAt x i zs) t).length = nIn L f := by
      rw [now_length, putAt_length x i zs (by omega)]; omega
    have e0 : now x t = (now (putAt x i zs) t).take i ++ (now (putAt x i zs) t).drop (i + 1) := by
      conv => lhs; rw [← putAt_without x i zs (by omega)]
      simp [now, List.map_take, List.map_drop]
    have ez : zs t = (now (putAt x i zs) t)[i]'(by omega) := by
      have := putAt_get x i zs (by omega)
      simp only [now, List.getElem_map, this]
    have e1 : forwardArgs L (nIn L f - 1) i (now x t) (zs t) = now (putAt x i zs) t := by
      rw [e0, ez, ← ln, forwardArgs_eq]
    have ey : ([y t] : List V) = now [y] t := rfl
    have ev : ([v t] : List V) = now [v] t := rfl
    simp only [step, nIn_stateAt, e1]
    rw [← outAt_eq, ← stateAt_succ, hf t, ey, ← outAt_eq, ← stateAt_succ, hm t, ev]
    rfl
  have st : ∀ t, stateAt L (.monitored f mon g i z tap) x t
      = .monitored (stateAt L f (putAt x i zs) t) (stateAt L mon [y] t) (stateAt L g [v] t) i (zs t) tap := by
    intro t
    induction t with
    | zero => rfl
    | succ t ih =>
      have e : stateAt L (.monitored f mon g i z tap) x (t + 1)
        = .monitored (stateAt L f (putAt x i zs) (t + 1)) (stateAt L mon [y] (t + 1))
          (stateAt L g [v] (t + 1)) i (pick L (outAt L g [v] t) 0) tap := by rw [stateAt_succ, ih, key t]
      have ez : zs (t + 1) = pick L (outAt L g [v] t) 0 := by
        show zOf L (stateAt L (.monitored f mon g i z tap) x (t + 1)) = _
        rw [e]; rfl
      rw [e, ez]
  intro t
  rw [stateAt_succ, st t, key t]
  rfl

theorem single_now {w : Nat → Nat → Signal V} {a : List Port} (h : a.length = 1) (t : Nat) :
    now (signals w a) t = [w (portAt a 0).node (portAt a 0).port t] := by
  rw [single_signals h]; rfl

mutual
theorem exists_solution (L : Lib K S V) (hL : L.Lawful) : ∀ (m : Blk K S V), Compiles L m →
    ∀ (n : Nat) (x : List (Signal V)), x.length = nIn L m →
    ∃ u w, Solves L (wiring L m n) u w ∧ signals u (wiring L m n).ins = x
  | .leaf k s, _, n, x, hx => by
    simp only [nIn] at hx
    let xs : Nat → Signal V := fun p => (x[p]?).getD (fun _ => L.zero)
    let st : Nat → S := fun t => Nat.rec s (fun t q => (L.step k q (now x t)).1) t
    refine ⟨fun _ p => xs p, fun _ p t => pick L (L.step k (st t) (now x t)).2 p, ?_, ?_⟩
    · simp only [wiring, Solves, List.mem_singleton, forall_eq, NodeRuns]
      refine ⟨⟨st, rfl, ?_⟩, by simp⟩
      intro t
      have e1 : atTime (L.nIn k) xs t = now x t := by
        apply List.ext_getElem
        · simp [atTime, now, hx]
        · intro j h1 h2
          simp [atTime] at h1
          simp [atTime, now, xs, hx, h1]
      rw [e1]
      have e2 : atTime (L.nOut k) (fun p t => pick L (L.step k (st t) (now x t)).2 p) t
          = (L.step k (st t) (now x t)).2 := by
        have hlen := hL k (st t) (now x t) (by rw [now_length, hx])
        apply List.ext_getElem
        · simp [atTime, hlen]
        · intro j h1 h2
          simp only [atTime, List.getElem_map, List.getElem_range]
          rw [pick_lt L h2]
      rw [e2]
    · simp only [wiring, signals, List.map_map]
      apply List.ext_getElem
      · simp [hx]
      · intro j h1 h2
        simp [xs, h2]
  | .merge l o r i, hc, n, x, hx => by
    simp only [Compiles] at hc
    obtain ⟨cl, cr, ho, hi, _⟩ := hc
    simp only [nIn] at hx
    obtain ⟨ul, wl, sl, il⟩ := exists_solution L hL l cl n (x.take (nIn L l)) (by simp; omega)
    let y := wl (portAt (wiring L l n).outs o).node (portAt (wiring L l n).outs o).port
    obtain ⟨ur, wr, sr, ir⟩ := exists_solution L hL r cr (n + size l) (putAt (x.drop (nIn L l)) i y)
      (by rw [putAt_length _ _ _ (by simp; omega)]; simp; omega)
    have Wl := within L l cl n
    have Wr := within L r cr (n + size l)
    have lo := outs_length L l cl n
    have li := ins_length L r cr (n + size l)
    have il' : signals (glue (n + size l) ul ur) (wiring L l n).ins = x.take (nIn L l) := by
      rw [← il]
      exact signals_congr (fun p hp => by rw [glue_lt _ _ (Wl.ins p hp).2])
    have ir' : signals (glue (n + size l) ul ur) (wiring L r (n + size l)).ins = putAt (x.drop (nIn L l)) i y := by
      rw [← ir]
      exact signals_congr (fun p hp => by rw [glue_ge _ _ (Wr.ins p hp).1])
    refine ⟨glue (n + size l) ul ur, glue (n + size l) wl wr, ?_, ?_⟩
    · refine (solves_append (a := wiring L l n) (b := wiring L r (n + size l)) rfl rfl).2
        ⟨sl.glue_left Wl ur wr, sr.glue_right Wr ul wl, ?_⟩
      intro e he
      simp only [List.mem_singleton] at he
      subst he
      show glue _ ul ur (portAt _ i).node (portAt _ i).port = glue _ wl wr (portAt _ o).node (portAt _ o).port
      rw [signals_get ir' (by omega), putAt_get _ _ _ (by simp; omega),
        glue_lt _ _ (Wl.outs _ (portAt_mem (n := o) (by omega))).2]
    · simp only [wiring]
      rw [signals_append, signals_without, il', ir', putAt_without _ _ _ (by simp; omega), List.take_append_drop]
  | .fan signs ps, hc, n, x, hx => by
    simp only [Compiles] at hc
    simp only [nIn] at hx
    match x, hx with
    | [c], _ =>
      obtain ⟨u, w, s, hw⟩ := exists_paths L hL ps hc.1 n 0 (n + 2) c (by omega)
      have hW := withinPaths L ps hc.1 n 0 (n + 2)
      let res : Signal V := fun t => total L ((weightsFrom L signs ps.length).mapIdx (fun q a => L.mul a (u (n + 1) q t)))
      refine ⟨fun k => if k = n then fun _ => c else u k, fun k => if k = n + 1 then fun _ => res else w k, ?_, ?_⟩
      · simp only [wiring]
        have s' : Solves L (wiringPaths L ps n 0 (n + 2)) (fun k => if k = n then fun _ => c else u k)
            (fun k => if k = n + 1 then fun _ => res else w k) := by
          refine s.congr (fun m hm => ?_) (fun e he => ?_)
          · have := hW.1 m hm
            exact ⟨if_neg (by omega), if_neg (by omega)⟩
          · have h1 := (hW.2 e he).1
            have h2 := (hW.2 e he).2
            refine ⟨?_, ?_⟩
            · rw [if_neg (by omega)]
            · rw [if_neg]
              rcases h1 with h1 | h1
              · rw [h1]; show n ≠ n + 1; omega
              · omega
        refine ⟨?_, s'.2⟩
        intro m hm
        simp only [List.cons_append, List.nil_append, List.mem_cons] at hm
        rcases hm with rfl | rfl | hm
        · show (if n = n + 1 then _ else w n) 0 = (if n = n then _ else u n) 0
          rw [if_neg (by omega), if_pos rfl]
          exact hw
        · simp only [NodeRuns]
          intro t
          rw [if_pos trivial, if_neg (by omega)]
        · exact s'.1 m hm
      · simp [wiring, signals]
  | .feedback f g i z tap, hc, n, x, hx => by
    simp only [Compiles] at hc
    obtain ⟨cf, cg, h2, hi, of, ig, og⟩ := hc
    simp only [nIn] at hx
    let zs : Signal V := fun t => zOf L (stateAt L (.feedback f g i z tap) x t)
    obtain ⟨uf, wf, sf, jf⟩ := exists_solution L hL f cf n (putAt x i zs)
      (by rw [putAt_length _ _ _ (by omega)]; omega)
    let y := wf (portAt (wiring L f n).outs 0).node (portAt (wiring L f n).outs 0).port
    obtain ⟨ug, wg, sg, jg⟩ := exists_solution L hL g cg (n + size f) [y] (by rw [ig]; rfl)
    have Wf := within L f cf n
    have Wg := within L g cg (n + size f)
    have lof := outs_length L f cf n
    have lif := ins_length L f cf n
    have log := outs_length L g cg (n + size f)
    have lig := ins_length L g cg (n + size f)
    have of' : ∀ t, outAt L f (putAt x i zs) t = [y t] := by
      intro t
      have := solution L f cf n uf wf sf t
      rw [jf, single_now (by omega)] at this
      exact this
    have hz : ∀ t, zs (t + 1) = wg (portAt (wiring L g (n + size f)).outs 0).node
        (portAt (wiring L g (n + size f)).outs 0).port t := by
      intro t
      have := (feedback_run (z := z) (tap := tap) hx h2 hi of' t).2
      have hg := solution L g cg _ ug wg sg t
      rw [jg, single_now (by omega)] at hg
      rw [hg] at this
      exact this
    refine ⟨glue (n + size f) uf ug, glue (n + size f) wf wg, ?_, ?_⟩
    · refine (solves_append (a := wiring L f n) (b := wiring L g (n + size f)) rfl rfl).2
        ⟨sf.glue_left Wf ug wg, sg.glue_right Wg uf wf, ?_⟩
      intro e he
      simp only [List.mem_cons, List.not_mem_nil, or_false] at he
      rcases he with rfl | rfl
      · show glue _ uf ug (portAt _ 0).node (portAt _ 0).port = glue _ wf wg (portAt _ 0).node (portAt _ 0).port
        rw [glue_ge _ _ (Wg.ins _ (portAt_mem (n := 0) (by omega))).1,
          glue_lt _ _ (Wf.outs _ (portAt_mem (n := 0) (by omega))).2, signals_get jg (by omega)]
        rfl
      · show glue _ uf ug (portAt _ i).node (portAt _ i).port
          = carried (some z) (glue _ wf wg (portAt _ 0).node (portAt _ 0).port)
        rw [glue_lt _ _ (Wf.ins _ (portAt_mem (n := i) (by omega))).2,
          glue_ge _ _ (Wg.outs _ (portAt_mem (n := 0) (by omega))).1, signals_get jf (by omega),
          putAt_get _ _ _ (by omega)]
        funext t
        cases t with
        | zero => rfl
        | succ t => rw [hz t]; rfl
    · simp only [wiring]
      rw [signals_without]
      have : signals (glue (n + size f) uf ug) (wiring L f n).ins = putAt x i zs := by
        rw [← jf]
        exact signals_congr (fun p hp => by rw [glue_lt _ _ (Wf.ins p hp).2])
      rw [this, putAt_without _ _ _ (by omega)]
  | .monitored f mon g i z tap, hc, n, x, hx => by
    simp only [Compiles] at hc
    obtain ⟨cf, cm, cg, h2, hi, of, ig, og, im, om⟩ := hc
    simp only [nIn] at hx
    let zs : Signal V := fun t => zOf L (stateAt L (.monitored f mon g i z tap) x t)
    obtain ⟨uf, wf, sf, jf⟩ := exists_solution L hL f cf n (putAt x i zs)
      (by rw [putAt_length _ _ _ (by omega)]; omega)
    let y := wf (portAt (wiring L f n).outs 0).node (portAt (wiring L f n).outs 0).port
    obtain ⟨um, wm, sm, jm⟩ := exists_solution L hL mon cm (n + size f + size g) [y] (by rw [im]; rfl)
    let v := wm (portAt (wiring L mon (n + size f + size g)).outs 0).node
      (portAt (wiring L mon (n + size f + size g)).outs 0).port
    obtain ⟨ug, wg, sg, jg⟩ := exists_solution L hL g cg (n + size f) [v] (by rw [ig]; rfl)
    have Wf := within L f cf n
    have Wg := within L g cg (n + size f)
    have Wm := within L mon cm (n + size f + size g)
    have lof := outs_length L f cf n
    have lif := ins_length L f cf n
    have log := outs_length L g cg (n + size f)
    have lig := ins_length L g cg (n + size f)
    have lom := outs_length L mon cm (n + size f + size g)
    have lim := ins_length L mon cm (n + size f + size g)
    have of' : ∀ t, outAt L f (putAt x i zs) t = [y t] := by
      intro t
      have := solution L f cf n uf wf sf t
      rw [jf, single_now (by omega)] at this
      exact this
    have om' : ∀ t, outAt L mon [y] t = [v t] := by
      intro t
      have := solution L mon cm _ um wm sm t
      rw [jm, single_now (by omega)] at this
      exact this
    have hz : ∀ t, zs (t + 1) = wg (portAt (wiring L g (n + size f)).outs 0).node
        (portAt (wiring L g (n + size f)).outs 0).port t := by
      intro t
      have := monitored_run (z := z) (tap := tap) hx h2 hi of' om' t
      have hg := solution L g cg _ ug wg sg t
      rw [jg, single_now (by omega)] at hg
      rw [hg] at this
      exact this
    have Wfg : ∀ {p : Port}, n ≤ p.node ∧ p.node < n + size f → p.node < n + size f + size g := by
      intro p h; omega
    refine ⟨glue (n + size f) uf (glue (n + size f + size g) ug um),
      glue (n + size f) wf (glue (n + size f + size g) wg wm), ?_, ?_⟩
    · let ab : Net K S V := ⟨(wiring L f n).nodes ++ (wiring L g (n + size f)).nodes,
        (wiring L f n).wires ++ (wiring L g (n + size f)).wires ++ [], [], []⟩
      refine (solves_append (a := ab) (b := wiring L mon (n + size f + size g)) rfl
        (by simp only [ab, List.append_nil]; rfl)).2 ⟨?_, ?_, ?_⟩
      · refine (solves_append (a := wiring L f n) (b := wiring L g (n + size f)) rfl rfl).2 ⟨?_, ?_, by simp⟩
        · exact sf.glue_left Wf _ _
        · exact (sg.glue_left Wg um wm).glue_right Wg uf wf
      · have : Within (wiring L mon (n + size f + size g)) (n + size f) (n + size f + size g + size mon) :=
          ⟨fun a h => by have := Wm.nodes a h; omega, fun a h => by have := Wm.srcs a h; omega,
           fun a h => by have := Wm.dsts a h; omega, fun a h => by have := Wm.outs a h; omega,
           fun a h => by have := Wm.ins a h; omega⟩
        exact (sm.glue_right Wm ug wg).glue_right this uf wf
      · have q1 := Wf.outs _ (portAt_mem (n := 0) (by omega))
        have q2 := Wf.ins _ (portAt_mem (n := i) (by omega))
        have q3 := Wg.outs _ (portAt_mem (n := 0) (by omega))
        have q4 := Wg.ins _ (portAt_mem (n := 0) (by omega))
        have q5 := Wm.outs _ (portAt_mem (n := 0) (by omega))
        have q6 := Wm.ins _ (portAt_mem (n := 0) (by omega))
        have q5' : n + size f ≤ (portAt (wiring L mon (n + size f + size g)).outs 0).node := by omega
        intro e he
        simp only [List.mem_cons, List.not_mem_nil, or_false] at he
        rcases he with rfl | rfl | rfl
        · show glue _ uf _ (portAt _ 0).node (portAt _ 0).port = glue _ wf _ (portAt _ 0).node (portAt _ 0).port
          rw [glue_ge _ _ (by omega), glue_ge _ _ q6.1, glue_lt _ _ q1.2, signals_get jm (by omega)]
          rfl
        · show glue _ uf _ (portAt _ 0).node (portAt _ 0).port = glue _ wf _ (portAt _ 0).node (portAt _ 0).port
          rw [glue_ge _ _ q4.1, glue_lt _ _ q4.2, glue_ge wf _ q5',
            glue_ge _ _ q5.1, signals_get jg (by omega)]
          rfl
        · show glue _ uf _ (portAt _ i).node (portAt _ i).port
            = carried (some z) (glue _ wf _ (portAt _ 0).node (portAt _ 0).port)
          rw [glue_lt _ _ q2.2, glue_ge _ _ q3.1, glue_lt _ _ q3.2, signals_get jf (by omega),
            putAt_get _ _ _ (by omega)]
          funext t
          cases t with
          | zero => rfl
          | succ t => rw [hz t]; rfl
    · simp only [wiring]
      rw [signals_without]
      have : signals (glue (n + size f) uf (glue (n + size f + size g) ug um)) (wiring L f n).ins = putAt x i zs := by
        rw [← jf]
        exact signals_congr (fun p hp => by rw [glue_lt _ _ (Wf.ins p hp).2])
      rw [this, putAt_without _ _ _ (by omega)]
theorem exists_paths (L : Lib K S V) (hL : L.Lawful) : ∀ (ps : Paths K S V), CompilesPaths L ps →
    ∀ (h j n : Nat) (c : Signal V), h + 1 < n →
    ∃ u w, Solves L (wiringPaths L ps h j n) u w ∧ w h 0 = c
  | .nil, _, h, j, n, c, hn => ⟨fun _ _ => c, fun _ _ => c, ⟨by simp [wiringPaths], by simp [wiringPaths]⟩, rfl⟩
  | .cons p rest, hc, h, j, n, c, hn => by
    simp only [CompilesPaths] at hc
    obtain ⟨cp, ip, op, cr⟩ := hc
    obtain ⟨up, wp, sp, jp⟩ := exists_solution L hL p cp n [c] (by rw [ip]; rfl)
    obtain ⟨ur, wr, sr, hr⟩ := exists_paths L hL rest cr h (j + 1) (n + size p) c (by omega)
    have Wp := within L p cp n
    have Wr := withinPaths L rest cr h (j + 1) (n + size p)
    have lop := outs_length L p cp n
    have lip := ins_length L p cp n
    have q1 := Wp.outs _ (portAt_mem (n := 0) (by omega))
    have q2 := Wp.ins _ (portAt_mem (n := 0) (by omega))
    let y := wp (portAt (wiring L p n).outs 0).node (portAt (wiring L p n).outs 0).port
    let u : Nat → Nat → Signal V := fun k q =>
      if n ≤ k ∧ k < n + size p then up k q else if k = h + 1 ∧ q = j then y else ur k q
    let w : Nat → Nat → Signal V := fun k q => if n ≤ k ∧ k < n + size p then wp k q else wr k q
    have up_eq : ∀ k, n ≤ k ∧ k < n + size p → u k = up k := fun k hk => by funext q; exact if_pos hk
    have wp_eq : ∀ k, n ≤ k ∧ k < n + size p → w k = wp k := fun k hk => by funext q; exact if_pos hk
    have ur_eq : ∀ k q, ¬(n ≤ k ∧ k < n + size p) → ¬(k = h + 1 ∧ q = j) → u k q = ur k q :=
      fun k q h1 h2 => by simp only [u]; rw [if_neg h1, if_neg h2]
    have wr_eq : ∀ k, ¬(n ≤ k ∧ k < n + size p) → w k = wr k := fun k hk => by funext q; exact if_neg hk
    have sp' : Solves L (wiring L p n) u w :=
      sp.congr (fun m hm => ⟨up_eq _ (Wp.nodes m hm), wp_eq _ (Wp.nodes m hm)⟩)
        (fun e he => ⟨by rw [up_eq _ (Wp.dsts e he)], by rw [wp_eq _ (Wp.srcs e he)]⟩)
    have sr' : Solves L (wiringPaths L rest h (j + 1) (n + size p)) u w := by
      refine sr.congr (fun m hm => ?_) (fun e he => ?_)
      · have := Wr.1 m hm
        exact ⟨by funext q; exact ur_eq _ q (by omega) (by omega), wr_eq _ (by omega)⟩
      · obtain ⟨h1, h2⟩ := Wr.2 e he
        refine ⟨ur_eq _ _ (by omega) (by omega), ?_⟩
        rw [wr_eq]
        rcases h1 with h1 | h1
        · rw [h1]; show ¬(n ≤ h ∧ h < _); omega
        · omega
    have wh : w h 0 = c := by rw [wr_eq h (by omega), hr]
    refine ⟨u, w, ?_, wh⟩
    simp only [wiringPaths]
    constructor
    · intro m hm
      rcases List.mem_append.1 hm with hm | hm
      · exact sp'.1 m hm
      · exact sr'.1 m hm
    · intro e he
      simp only [List.mem_append, List.mem_cons, List.not_mem_nil, or_false] at he
      rcases he with (he | rfl | rfl) | he
      · exact sp'.2 e he
      · show u (portAt _ 0).node (portAt _ 0).port = w h 0
        rw [up_eq _ q2, wh, signals_get jp (by omega)]
        rfl
      · show u (h + 1) j = w (portAt _ 0).node (portAt _ 0).port
        rw [wp_eq _ q1]
        simp only [u]
        rw [if_neg (by omega), if_pos ⟨trivial, trivial⟩]
      · exact sr'.2 e he
end

end Verif.Merge
