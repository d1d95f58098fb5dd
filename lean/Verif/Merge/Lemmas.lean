import Verif.Merge.Spec

/- Lemmas on merged blocks; the properties are in `Props`. -/
namespace Verif.Merge

variable {K S V : Type}

/-- The block after `t` calls on the samples of the signals `x`. -/
def stateAt (L : Lib K S V) (m : Blk K S V) (x : List (Signal V)) : Nat → Blk K S V
  | 0 => m
  | t + 1 => (step L (stateAt L m x t) (x.map (fun f => f t))).1

/-- The outputs of call number `t`. -/
def outAt (L : Lib K S V) (m : Blk K S V) (x : List (Signal V)) (t : Nat) : List V :=
  (step L (stateAt L m x t) (x.map (fun f => f t))).2

def statePathsAt (L : Lib K S V) (ps : Paths K S V) (x : Signal V) : Nat → Paths K S V
  | 0 => ps
  | t + 1 => (stepPaths L (statePathsAt L ps x t) (x t)).1

def outPathsAt (L : Lib K S V) (ps : Paths K S V) (x : Signal V) (t : Nat) : List V :=
  (stepPaths L (statePathsAt L ps x t) (x t)).2

theorem runAll_append (L : Lib K S V) (xs ys : List (List V)) : ∀ m : Blk K S V,
    runAll L m (xs ++ ys) =
      ((runAll L (runAll L m xs).1 ys).1, (runAll L m xs).2 ++ (runAll L (runAll L m xs).1 ys).2) := by
  induction xs with
  | nil => intro m; rfl
  | cons x xs ih => intro m; simp only [List.cons_append, runAll, ih]

theorem samples_succ (x : List (Signal V)) (t : Nat) :
    samples x (t + 1) = samples x t ++ [x.map (fun f => f t)] := by
  simp [samples, List.range_succ]

theorem runAll_samples (L : Lib K S V) (m : Blk K S V) (x : List (Signal V)) : ∀ t,
    runAll L m (samples x t) = (stateAt L m x t, (List.range t).map (outAt L m x)) := by
  intro t
  induction t with
  | zero => rfl
  | succ t ih =>
    rw [samples_succ, runAll_append, ih, List.range_succ, List.map_append]
    rfl

theorem pick_lt (L : Lib K S V) {xs : List V} {n : Nat} (h : n < xs.length) : pick L xs n = xs[n] := by
  simp [pick, h]

theorem portAt_lt {ps : List Port} {n : Nat} (h : n < ps.length) : portAt ps n = ps[n] := by
  simp [portAt, h]

theorem nIn_step (L : Lib K S V) : ∀ (m : Blk K S V) (xs : List V), nIn L (step L m xs).1 = nIn L m
  | .leaf k s, xs => by simp only [step, nIn]
  | .merge l o r i, xs => by simp only [step, nIn, nIn_step L l, nIn_step L r]
  | .fan signs ps, xs => by simp only [step, nIn]
  | .feedback f g i z tap, xs => by simp only [step, nIn, nIn_step L f]
  | .monitored f mon g i z tap, xs => by simp only [step, nIn, nIn_step L f]

theorem nOut_step (L : Lib K S V) : ∀ (m : Blk K S V) (xs : List V), nOut L (step L m xs).1 = nOut L m
  | .leaf k s, xs => by simp only [step, nOut]
  | .merge l o r i, xs => by simp only [step, nOut, nOut_step L l, nOut_step L r]
  | .fan signs ps, xs => by simp only [step, nOut]
  | .feedback f g i z tap, xs => by simp only [step, nOut, nOut_step L f]
  | .monitored f mon g i z tap, xs => by simp only [step, nOut, nOut_step L f]

theorem nIn_stateAt (L : Lib K S V) (m : Blk K S V) (x : List (Signal V)) (t : Nat) :
    nIn L (stateAt L m x t) = nIn L m := by
  induction t with
  | zero => rfl
  | succ t ih => simp only [stateAt, nIn_step, ih]

theorem nOut_stateAt (L : Lib K S V) (m : Blk K S V) (x : List (Signal V)) (t : Nat) :
    nOut L (stateAt L m x t) = nOut L m := by
  induction t with
  | zero => rfl
  | succ t ih => simp only [stateAt, nOut_step, ih]

/-! Lengths of port lists. -/

theorem without_length {ps : List Port} {n : Nat} (h : n < ps.length) :
    (without ps n).length = ps.length - 1 := by
  simp only [without, List.length_append, List.length_take, List.length_drop]
  omega

mutual
theorem ins_length (L : Lib K S V) : ∀ (m : Blk K S V), Compiles L m → ∀ n,
    (wiring L m n).ins.length = nIn L m
  | .leaf k s, _, n => by simp only [wiring, nIn, List.length_map, List.length_range]
  | .merge l o r i, h, n => by
    simp only [Compiles] at h
    have hl := ins_length L l h.1 n
    have hr := ins_length L r h.2.1 (n + size l)
    simp only [wiring, nIn, List.length_append]
    rw [without_length (by omega)]
    omega
  | .fan signs ps, _, n => by simp only [wiring, nIn, List.length_singleton]
  | .feedback f g i z tap, h, n => by
    simp only [Compiles] at h
    have hf := ins_length L f h.1 n
    simp only [wiring, nIn]
    rw [without_length (by omega)]
    omega
  | .monitored f mon g i z tap, h, n => by
    simp only [Compiles] at h
    have hf := ins_length L f h.1 n
    simp only [wiring, nIn]
    rw [without_length (by omega)]
    omega
end

theorem tap_length {α : Type} (tap : Bool) (a : α) :
    (if tap then [a] else []).length = if tap then 1 else 0 := by
  cases tap <;> rfl

theorem outs_length (L : Lib K S V) : ∀ (m : Blk K S V), Compiles L m → ∀ n,
    (wiring L m n).outs.length = nOut L m
  | .leaf k s, _, n => by simp only [wiring, nOut, List.length_map, List.length_range]
  | .merge l o r i, h, n => by
    simp only [Compiles] at h
    have hl := outs_length L l h.1 n
    have hr := outs_length L r h.2.1 (n + size l)
    simp only [wiring, nOut, List.length_append]
    rw [without_length (by omega)]
    omega
  | .fan signs ps, _, n => by simp only [wiring, nOut, List.length_singleton]
  | .feedback f g i z tap, h, n => by
    simp only [Compiles] at h
    have hf := outs_length L f h.1 n
    simp only [wiring, nOut, List.length_append, tap_length, hf]
  | .monitored f mon g i z tap, h, n => by
    simp only [Compiles] at h
    have hf := outs_length L f h.1 n
    simp only [wiring, nOut, List.length_append, tap_length, hf]

/-! Arguments at the level of signals. -/

theorem range_map_pick (L : Lib K S V) (xs : List V) (a n : Nat) (h : a + n ≤ xs.length) :
    (List.range n).map (fun j => pick L xs (a + j)) = (xs.drop a).take n := by
  apply List.ext_getElem
  · simp; omega
  · intro j h1 h2
    simp at h1
    simp only [List.getElem_map, List.getElem_range, List.getElem_take, List.getElem_drop]
    rw [pick_lt L (by omega)]

theorem leftArgs_eq (L : Lib K S V) (a b : List V) : leftArgs L a.length (a ++ b) = a := by
  have := range_map_pick L (a ++ b) 0 a.length (by simp)
  simp only [Nat.zero_add] at this
  simp [leftArgs, this]

theorem rightArgs_eq (L : Lib K S V) (a b : List V) (i : Nat) (h : i < b.length) :
    rightArgs L a.length b.length i (a ++ (b.take i ++ b.drop (i + 1))) b[i] = b := by
  have h1 := range_map_pick L (a ++ (b.take i ++ b.drop (i + 1))) a.length i (by simp; omega)
  have h2 := range_map_pick L (a ++ (b.take i ++ b.drop (i + 1))) (a.length + i) (b.length - i - 1)
    (by simp; omega)
  rw [rightArgs, h1, h2]
  have e1 : (List.drop a.length (a ++ (List.take i b ++ List.drop (i + 1) b))).take i = b.take i := by
    rw [List.drop_left, List.take_append_of_le_length (by simp; omega), List.take_take]
    simp
  have e2 : List.take (b.length - i - 1) (List.drop (a.length + i) (a ++ (List.take i b ++ List.drop (i + 1) b)))
      = b.drop (i + 1) := by
    rw [← List.drop_drop, List.drop_left]
    have : (List.take i b).length = i := by simp; omega
    conv => lhs; arg 2; arg 1; rw [← this]
    rw [List.drop_left, List.take_of_length_le (by simp; omega)]
  rw [e1, e2, List.append_assoc, List.singleton_append, List.getElem_cons_drop, List.take_append_drop]

theorem forwardArgs_eq (L : Lib K S V) (b : List V) (i : Nat) (h : i < b.length) :
    forwardArgs L (b.length - 1) i (b.take i ++ b.drop (i + 1)) b[i] = b := by
  have := rightArgs_eq L [] b i h
  rw [rightArgs] at this
  simp only [List.length_nil, Nat.zero_add, List.nil_append] at this
  rw [forwardArgs]
  have e : (fun j => pick L (List.take i b ++ List.drop (i + 1) b) (i + 1 + j - 1))
      = (fun j => pick L (List.take i b ++ List.drop (i + 1) b) (i + j)) := by
    funext j; congr 1; omega
  have e' : b.length - 1 - i = b.length - i - 1 := by omega
  rw [e, e']
  exact this

theorem joinOuts_eq (L : Lib K S V) (a b : List V) (o : Nat) (h : o < a.length) :
    joinOuts L a.length o a b = (a.take o ++ a.drop (o + 1)) ++ b := by
  rw [joinOuts]
  split
  · rename_i h1
    have : o = 0 := by omega
    subst this
    match a, h1 with
    | [x], _ => rfl
  · split
    · rename_i _ h2
      match a, h2 with
      | [x, y], _ =>
        have : o = 0 ∨ o = 1 := by simp at h; omega
        rcases this with rfl | rfl <;> rfl
    · have h1 := range_map_pick L a 0 o (by omega)
      simp only [Nat.zero_add, List.drop_zero] at h1
      have h2 := range_map_pick L a (o + 1) (a.length - o - 1) (by omega)
      rw [h1, h2, List.take_of_length_le (l := List.drop (o + 1) a) (by simp; omega)]

theorem signals_append (u : Nat → Nat → Signal V) (a b : List Port) :
    signals u (a ++ b) = signals u a ++ signals u b := List.map_append ..

theorem signals_without (u : Nat → Nat → Signal V) (a : List Port) (n : Nat) :
    signals u (without a n) = (signals u a).take n ++ (signals u a).drop (n + 1) := by
  simp [signals, without]

theorem signals_length (u : Nat → Nat → Signal V) (a : List Port) :
    (signals u a).length = a.length := List.length_map ..

/-- The values of signals at time `t`. -/
def now (x : List (Signal V)) (t : Nat) : List V := x.map (fun f => f t)

theorem now_append (a b : List (Signal V)) (t : Nat) : now (a ++ b) t = now a t ++ now b t :=
  List.map_append ..

theorem now_without (u : Nat → Nat → Signal V) (a : List Port) (n t : Nat) :
    now (signals u (without a n)) t = (now (signals u a) t).take n ++ (now (signals u a) t).drop (n + 1) := by
  simp [now, signals_without, List.map_take, List.map_drop]

theorem now_length (x : List (Signal V)) (t : Nat) : (now x t).length = x.length := List.length_map ..

theorem now_get (u : Nat → Nat → Signal V) (a : List Port) (n t : Nat) (h : n < a.length) :
    (now (signals u a) t)[n]'(by rw [now_length, signals_length]; exact h)
      = u (portAt a n).node (portAt a n).port t := by
  simp [now, signals, portAt_lt h]

theorem pick_now (L : Lib K S V) (u : Nat → Nat → Signal V) (a : List Port) (n t : Nat) (h : n < a.length) :
    pick L (now (signals u a) t) n = u (portAt a n).node (portAt a n).port t := by
  rw [pick_lt L (by rw [now_length, signals_length]; exact h), now_get u a n t h]

theorem stateAt_succ (L : Lib K S V) (m : Blk K S V) (x : List (Signal V)) (t : Nat) :
    stateAt L m x (t + 1) = (step L (stateAt L m x t) (now x t)).1 := rfl

theorem outAt_eq (L : Lib K S V) (m : Blk K S V) (x : List (Signal V)) (t : Nat) :
    outAt L m x t = (step L (stateAt L m x t) (now x t)).2 := rfl

/-! Sums. -/

theorem weightsFrom_length (L : Lib K S V) : ∀ n (signs : List V), (weightsFrom L signs n).length = n
  | 0, _ => rfl
  | n + 1, [] => by simp only [weightsFrom, List.length_cons, weightsFrom_length L n]
  | n + 1, a :: rest => by simp only [weightsFrom, List.length_cons, weightsFrom_length L n]

theorem weightsFrom_get (L : Lib K S V) : ∀ n (signs : List V) (j : Nat) (h : j < n),
    (weightsFrom L signs n)[j]? = some (signOf L signs j)
  | n + 1, [], 0, _ => rfl
  | n + 1, [], j + 1, h => by
    have := weightsFrom_get L n [] j (by omega)
    simp only [weightsFrom, List.getElem?_cons_succ, this, signOf, List.length_nil, Nat.not_lt_zero, if_false]
  | n + 1, a :: rest, 0, _ => by simp [weightsFrom, signOf, pick]
  | n + 1, a :: rest, j + 1, h => by
    have := weightsFrom_get L n rest j (by omega)
    simp only [weightsFrom, List.getElem?_cons_succ, this, signOf, List.length_cons, pick,
      Nat.add_lt_add_iff_right]

theorem foldPlus_total (L : Lib K S V) (signs : List V) : ∀ (ys : List V) (n : Nat),
    foldPlus L signs n ys = total L (ys.mapIdx (fun j y => L.mul (signOf L signs (n + j)) y))
  | [], n => rfl
  | [y], n => rfl
  | y :: y' :: ys, n => by
    have := foldPlus_total L signs (y' :: ys) (n + 1)
    simp only [foldPlus, this, List.mapIdx_cons, total, Nat.add_zero, Nat.add_assoc]
    congr 2
    simp only [Nat.add_comm 1]

/-! Solutions of parts of a network. -/

theorem solves_append {L : Lib K S V} {a b net : Net K S V} {extra : List (Wire V)}
    {u w : Nat → Nat → Signal V} (hn : net.nodes = a.nodes ++ b.nodes)
    (he : net.wires = a.wires ++ b.wires ++ extra) :
    Solves L net u w ↔ Solves L a u w ∧ Solves L b u w ∧
      ∀ e ∈ extra, u e.dst.node e.dst.port = carried e.delay (w e.src.node e.src.port) := by
  simp only [Solves, hn, he, List.mem_append]
  constructor
  · intro h
    exact ⟨⟨fun n m => h.1 n (.inl m), fun e m => h.2 e (.inl (.inl m))⟩,
      ⟨fun n m => h.1 n (.inr m), fun e m => h.2 e (.inl (.inr m))⟩, fun e m => h.2 e (.inr m)⟩
  · rintro ⟨ha, hb, hx⟩
    exact ⟨fun n m => m.elim (ha.1 n) (hb.1 n), fun e m => m.elim (fun m => m.elim (ha.2 e) (hb.2 e)) (hx e)⟩

theorem leaf_state (L : Lib K S V) (k : K) (s : S) (n : Nat) (u w : Nat → Nat → Signal V)
    (st : Nat → S) (h0 : st 0 = s)
    (hs : ∀ t, L.step k (st t) (atTime (L.nIn k) (u n) t) = (st (t + 1), atTime (L.nOut k) (w n) t)) :
    ∀ t, stateAt L (.leaf k s) (signals u ((List.range (L.nIn k)).map (fun p => ⟨n, p⟩))) t = .leaf k (st t) := by
  intro t
  induction t with
  | zero => rw [h0]; rfl
  | succ t ih =>
    rw [stateAt_succ, ih]
    have : now (signals u ((List.range (L.nIn k)).map (fun p => (⟨n, p⟩ : Port)))) t = atTime (L.nIn k) (u n) t := by
      simp [now, signals, atTime]
    rw [this]
    simp only [step, hs t]

/-- The two sides of a merge: `xl` and `xr` are the signals at the inputs of the parts. -/
theorem merge_state {L : Lib K S V} {l r : Blk K S V} {o i : Nat} {a b : List Port}
    {al : List Port} {u w : Nat → Nat → Signal V}
    (ha : a.length = nIn L l) (hb : b.length = nIn L r) (hal : al.length = nOut L l)
    (ho : o < nOut L l) (hi : i < nIn L r)
    (hl : ∀ t, outAt L l (signals u a) t = now (signals w al) t)
    (hw : u (portAt b i).node (portAt b i).port = w (portAt al o).node (portAt al o).port) : ∀ t,
    stateAt L (.merge l o r i) (signals u (a ++ without b i)) t
      = .merge (stateAt L l (signals u a) t) o (stateAt L r (signals u b) t) i
    ∧ outAt L (.merge l o r i) (signals u (a ++ without b i)) t
      = joinOuts L (nOut L l) o (now (signals w al) t) (outAt L r (signals u b) t) := by
  have key : ∀ t, stateAt L (.merge l o r i) (signals u (a ++ without b i)) t
      = .merge (stateAt L l (signals u a) t) o (stateAt L r (signals u b) t) i →
      step L (.merge (stateAt L l (signals u a) t) o (stateAt L r (signals u b) t) i)
        (now (signals u (a ++ without b i)) t)
      = (.merge (stateAt L l (signals u a) (t + 1)) o (stateAt L r (signals u b) (t + 1)) i,
        joinOuts L (nOut L l) o (now (signals w al) t) (outAt L r (signals u b) t)) := by
    intro t _
    have e1 : now (signals u (a ++ without b i)) t = now (signals u a) t
        ++ ((now (signals u b) t).take i ++ (now (signals u b) t).drop (i + 1)) := by
      rw [signals_append, now_append, now_without]
    have la : (now (signals u a) t).length = nIn L l := by rw [now_length, signals_length, ha]
    have lb : (now (signals u b) t).length = nIn L r := by rw [now_length, signals_length, hb]
    have e2 : leftArgs L (nIn L l) (now (signals u (a ++ without b i)) t) = now (signals u a) t := by
      rw [e1, ← la, leftArgs_eq]
    have e3 : pick L (outAt L l (signals u a) t) o = (now (signals u b) t)[i]'(by omega) := by
      rw [hl t, pick_now L w al o t (by omega), ← hw, now_get u b i t (by omega)]
    have e4 : rightArgs L (nIn L l) (nIn L r) i (now (signals u (a ++ without b i)) t)
        (pick L (outAt L l (signals u a) t) o) = now (signals u b) t := by
      rw [e1, e3, ← la, ← lb, rightArgs_eq]
    simp only [step, nIn_stateAt, nOut_stateAt, e2]
    rw [← outAt_eq, ← stateAt_succ, e4, ← outAt_eq, ← stateAt_succ, hl t]
  have st : ∀ t, stateAt L (.merge l o r i) (signals u (a ++ without b i)) t
      = .merge (stateAt L l (signals u a) t) o (stateAt L r (signals u b) t) i := by
    intro t
    induction t with
    | zero => rfl
    | succ t ih => rw [stateAt_succ, ih, key t ih]
  intro t
  exact ⟨st t, by rw [outAt_eq, st t, key t (st t)]⟩

theorem carried_zero (z : V) (s : Signal V) : carried (some z) s 0 = z := rfl
theorem carried_succ (z : V) (s : Signal V) (t : Nat) : carried (some z) s (t + 1) = s t := rfl

theorem feedback_state {L : Lib K S V} {f g : Blk K S V} {i : Nat} {z : V} {tap : Bool}
    {a al b bl : List Port} {u w : Nat → Nat → Signal V}
    (ha : a.length = nIn L f) (hal : al.length = 1) (hb : b.length = 1) (hbl : bl.length = 1)
    (hi : i < nIn L f)
    (hf : ∀ t, outAt L f (signals u a) t = now (signals w al) t)
    (hg : ∀ t, outAt L g (signals u b) t = now (signals w bl) t)
    (hw : u (portAt b 0).node (portAt b 0).port = w (portAt al 0).node (portAt al 0).port)
    (hz : u (portAt a i).node (portAt a i).port
      = carried (some z) (w (portAt bl 0).node (portAt bl 0).port)) : ∀ t,
    stateAt L (.feedback f g i z tap) (signals u (without a i)) t
      = .feedback (stateAt L f (signals u a) t) (stateAt L g (signals u b) t) i
          (u (portAt a i).node (portAt a i).port t) tap
    ∧ outAt L (.feedback f g i z tap) (signals u (without a i)) t
      = now (signals w al) t ++ (if tap then [w (portAt bl 0).node (portAt bl 0).port t] else []) := by
  have key : ∀ t,
      step L (.feedback (stateAt L f (signals u a) t) (stateAt L g (signals u b) t) i
          (u (portAt a i).node (portAt a i).port t) tap) (now (signals u (without a i)) t)
      = (.feedback (stateAt L f (signals u a) (t + 1)) (stateAt L g (signals u b) (t + 1)) i
          (w (portAt bl 0).node (portAt bl 0).port t) tap,
         now (signals w al) t ++ (if tap then [w (portAt bl 0).node (portAt bl 0).port t] else [])) := by
    intro t
    have la : (now (signals u a) t).length = nIn L f := by rw [now_length, signals_length, ha]
    have e1 : forwardArgs L (nIn L f - 1) i (now (signals u (without a i)) t)
        (u (portAt a i).node (portAt a i).port t) = now (signals u a) t := by
      rw [now_without, ← now_get u a i t (by omega), ← la, forwardArgs_eq]
    have e2 : now (signals w al) t = now (signals u b) t := by
      match al, hal, b, hb, hw with
      | [p], _, [q], _, hw =>
        have : u q.node q.port = w p.node p.port := hw
        simp [now, signals, this]
    simp only [step, nIn_stateAt, e1]
    rw [← outAt_eq, ← stateAt_succ, hf t, e2, ← outAt_eq, ← stateAt_succ, hg t,
      pick_now L w bl 0 t (by omega)]
  have st : ∀ t, stateAt L (.feedback f g i z tap) (signals u (without a i)) t
      = .feedback (stateAt L f (signals u a) t) (stateAt L g (signals u b) t) i
          (u (portAt a i).node (portAt a i).port t) tap := by
    intro t
    induction t with
    | zero => rw [hz]; rfl
    | succ t ih => rw [stateAt_succ, ih, key t]; simp only [hz, carried_succ]
  intro t
  exact ⟨st t, by rw [outAt_eq, st t, key t]⟩

theorem monitored_state {L : Lib K S V} {f mon g : Blk K S V} {i : Nat} {z : V} {tap : Bool}
    {a al b bl c cl : List Port} {u w : Nat → Nat → Signal V}
    (ha : a.length = nIn L f) (hal : al.length = 1) (hb : b.length = 1) (hbl : bl.length = 1)
    (hc : c.length = 1) (hcl : cl.length = 1) (hi : i < nIn L f)
    (hf : ∀ t, outAt L f (signals u a) t = now (signals w al) t)
    (hm : ∀ t, outAt L mon (signals u c) t = now (signals w cl) t)
    (hg : ∀ t, outAt L g (signals u b) t = now (signals w bl) t)
    (hw : u (portAt c 0).node (portAt c 0).port = w (portAt al 0).node (portAt al 0).port)
    (hw' : u (portAt b 0).node (portAt b 0).port = w (portAt cl 0).node (portAt cl 0).port)
    (hz : u (portAt a i).node (portAt a i).port
      = carried (some z) (w (portAt bl 0).node (portAt bl 0).port)) : ∀ t,
    stateAt L (.monitored f mon g i z tap) (signals u (without a i)) t
      = .monitored (stateAt L f (signals u a) t) (stateAt L mon (signals u c) t)
          (stateAt L g (signals u b) t) i (u (portAt a i).node (portAt a i).port t) tap
    ∧ outAt L (.monitored f mon g i z tap) (signals u (without a i)) t
      = now (signals w al) t ++ (if tap then [w (portAt bl 0).node (portAt bl 0).port t] else []) := by
  have key : ∀ t,
      step L (.monitored (stateAt L f (signals u a) t) (stateAt L mon (signals u c) t)
          (stateAt L g (signals u b) t) i
          (u (portAt a i).node (portAt a i).port t) tap) (now (signals u (without a i)) t)
      = (.monitored (stateAt L f (signals u a) (t + 1)) (stateAt L mon (signals u c) (t + 1))
          (stateAt L g (signals u b) (t + 1)) i
          (w (portAt bl 0).node (portAt bl 0).port t) tap,
         now (signals w al) t ++ (if tap then [w (portAt bl 0).node (portAt bl 0).port t] else [])) := by
    intro t
    have la : (now (signals u a) t).length = nIn L f := by rw [now_length, signals_length, ha]
    have e1 : forwardArgs L (nIn L f - 1) i (now (signals u (without a i)) t)
        (u (portAt a i).node (portAt a i).port t) = now (signals u a) t := by
      rw [now_without, ← now_get u a i t (by omega), ← la, forwardArgs_eq]
    have e2 : now (signals w al) t = now (signals u c) t := by
      match al, hal, c, hc, hw with
      | [p], _, [q], _, hw =>
        have : u q.node q.port = w p.node p.port := hw
        simp [now, signals, this]
    have e3 : now (signals w cl) t = now (signals u b) t := by
      match cl, hcl, b, hb, hw' with
      | [p], _, [q], _, hw =>
        have : u q.node q.port = w p.node p.port := hw
        simp [now, signals, this]
    simp only [step, nIn_stateAt, e1]
    rw [← outAt_eq, ← stateAt_succ, hf t, e2, ← outAt_eq, ← stateAt_succ, hm t, e3, ← outAt_eq,
      ← stateAt_succ, hg t, pick_now L w bl 0 t (by omega)]
  have st : ∀ t, stateAt L (.monitored f mon g i z tap) (signals u (without a i)) t
      = .monitored (stateAt L f (signals u a) t) (stateAt L mon (signals u c) t)
          (stateAt L g (signals u b) t) i (u (portAt a i).node (portAt a i).port t) tap := by
    intro t
    induction t with
    | zero => rw [hz]; rfl
    | succ t ih => rw [stateAt_succ, ih, key t]; simp only [hz, carried_succ]
  intro t
  exact ⟨st t, by rw [outAt_eq, st t, key t]⟩

theorem fan_state (L : Lib K S V) (signs : List V) (ps : Paths K S V) (u : Nat → Nat → Signal V)
    (n : Nat) : ∀ t,
    stateAt L (.fan signs ps) (signals u [⟨n, 0⟩]) t = .fan signs (statePathsAt L ps (u n 0) t)
    ∧ outAt L (.fan signs ps) (signals u [⟨n, 0⟩]) t = [foldPlus L signs 0 (outPathsAt L ps (u n 0) t)] := by
  have st : ∀ t, stateAt L (.fan signs ps) (signals u [⟨n, 0⟩]) t = .fan signs (statePathsAt L ps (u n 0) t) := by
    intro t
    induction t with
    | zero => rfl
    | succ t ih => rw [stateAt_succ, ih]; rfl
  intro t
  exact ⟨st t, by rw [outAt_eq, st t]; rfl⟩

theorem paths_state (L : Lib K S V) (p : Blk K S V) (rest : Paths K S V) (x : Signal V) : ∀ t,
    statePathsAt L (.cons p rest) x t = .cons (stateAt L p [x] t) (statePathsAt L rest x t)
    ∧ outPathsAt L (.cons p rest) x t = pick L (outAt L p [x] t) 0 :: outPathsAt L rest x t := by
  have st : ∀ t, statePathsAt L (.cons p rest) x t = .cons (stateAt L p [x] t) (statePathsAt L rest x t) := by
    intro t
    induction t with
    | zero => rfl
    | succ t ih => rw [statePathsAt, ih]; rfl
  intro t
  exact ⟨st t, by rw [outPathsAt, st t]; rfl⟩

theorem outPathsAt_length (L : Lib K S V) : ∀ (ps : Paths K S V) (x : Signal V) (t : Nat),
    (outPathsAt L ps x t).length = ps.length
  | .nil, x, t => by
    have : ∀ t, statePathsAt L (.nil : Paths K S V) x t = .nil := by
      intro t
      induction t with
      | zero => rfl
      | succ t ih => rw [statePathsAt, ih]; rfl
    rw [outPathsAt, this]; rfl
  | .cons p rest, x, t => by
    rw [(paths_state L p rest x t).2, List.length_cons, outPathsAt_length L rest x t]; rfl

theorem single_signals {u : Nat → Nat → Signal V} {a : List Port} (h : a.length = 1) :
    signals u a = [u (portAt a 0).node (portAt a 0).port] := by
  match a, h with
  | [p], _ => rfl

mutual
theorem solution (L : Lib K S V) : ∀ (m : Blk K S V), Compiles L m →
    ∀ (n : Nat) (u w : Nat → Nat → Signal V), Solves L (wiring L m n) u w →
    ∀ t, outAt L m (signals u (wiring L m n).ins) t = now (signals w (wiring L m n).outs) t
  | .leaf k s, _, n, u, w, h, t => by
    simp only [wiring, Solves, List.mem_singleton, forall_eq, NodeRuns] at h
    obtain ⟨⟨st, h0, hs⟩, _⟩ := h
    have e1 : now (signals u ((List.range (L.nIn k)).map (fun p => (⟨n, p⟩ : Port)))) t = atTime (L.nIn k) (u n) t := by
      simp [now, signals, atTime]
    have e2 : now (signals w ((List.range (L.nOut k)).map (fun p => (⟨n, p⟩ : Port)))) t = atTime (L.nOut k) (w n) t := by
      simp [now, signals, atTime]
    simp only [wiring, e2]
    rw [outAt_eq, leaf_state L k s n u w st h0 hs t, e1]
    simp only [step, hs t]
  | .merge l o r i, hc, n, u, w, h, t => by
    simp only [Compiles] at hc
    obtain ⟨cl, cr, ho, hi, _⟩ := hc
    obtain ⟨sl, sr, sx⟩ := (solves_append (a := wiring L l n) (b := wiring L r (n + size l)) rfl rfl).1 h
    have hl := solution L l cl n u w sl
    have hr := solution L r cr (n + size l) u w sr
    have hw := sx _ (List.mem_singleton.2 rfl)
    have := (merge_state (ins_length L l cl n) (ins_length L r cr _) (outs_length L l cl n) ho hi hl hw t).2
    simp only [wiring]
    rw [this, hr t, ← outs_length L l cl n]
    have e : (wiring L l n).outs.length = (now (signals w (wiring L l n).outs) t).length := by
      rw [now_length, signals_length]
    rw [e, joinOuts_eq _ _ _ _ (by rw [← e, outs_length L l cl n]; exact ho), signals_append, now_append,
      now_without]
  | .fan signs ps, hc, n, u, w, h, t => by
    simp only [Compiles] at hc
    simp only [wiring] at h ⊢
    have hcopy : w n 0 = u n 0 := h.1 (n, .copy) (by simp)
    have hsum := h.1 (n + 1, .sum (weightsFrom L signs ps.length)) (by simp)
    simp only [NodeRuns] at hsum
    have hp : Solves L (wiringPaths L ps n 0 (n + 2)) u w :=
      ⟨fun m hm => h.1 m (List.mem_append_right _ hm), h.2⟩
    have hout := solutionPaths L ps hc.1 n 0 (n + 2) u w hp
    rw [(fan_state L signs ps u n t).2]
    rw [hcopy] at hout
    simp only [now, signals, List.map_cons, List.map_nil]
    rw [hsum t, foldPlus_total]
    congr 2
    apply List.ext_getElem
    · simp [outPathsAt_length, weightsFrom_length]
    · intro j h1 h2
      simp only [List.length_mapIdx, weightsFrom_length] at h2
      have hw := weightsFrom_get L ps.length signs j h2
      rw [List.getElem?_eq_getElem (by rw [weightsFrom_length]; exact h2)] at hw
      have ho := hout t j h2
      simp only [Nat.zero_add] at ho
      simp only [List.getElem_mapIdx, Nat.zero_add]
      rw [Option.some.inj hw]
      congr 1
      rw [pick_lt L (by rw [outPathsAt_length]; exact h2)] at ho
      exact ho
  | .feedback f g i z tap, hc, n, u, w, h, t => by
    simp only [Compiles] at hc
    obtain ⟨cf, cg, _, hi, of, ig, og⟩ := hc
    obtain ⟨sf, sg, sx⟩ := (solves_append (a := wiring L f n) (b := wiring L g (n + size f)) rfl rfl).1 h
    have hf := solution L f cf n u w sf
    have hg := solution L g cg (n + size f) u w sg
    have hw := sx _ (List.mem_cons_self ..)
    have hz := sx _ (List.mem_cons_of_mem _ (List.mem_cons_self ..))
    have := (feedback_state (z := z) (tap := tap) (ins_length L f cf n) (by rw [outs_length L f cf n, of])
      (by rw [ins_length L g cg, ig]) (by rw [outs_length L g cg, og]) hi hf hg hw hz t).2
    simp only [wiring]
    rw [this, signals_append, now_append]
    cases tap <;> rfl
  | .monitored f mon g i z tap, hc, n, u, w, h, t => by
    simp only [Compiles] at hc
    obtain ⟨cf, cm, cg, _, hi, of, ig, og, im, om⟩ := hc
    let ab : Net K S V := ⟨(wiring L f n).nodes ++ (wiring L g (n + size f)).nodes,
      (wiring L f n).wires ++ (wiring L g (n + size f)).wires ++ [], [], []⟩
    obtain ⟨sab, sm, sx⟩ := (solves_append (a := ab) (b := wiring L mon (n + size f + size g)) rfl
      (by simp only [ab, List.append_nil]; rfl)).1 h
    obtain ⟨sf, sg, _⟩ := (solves_append (a := wiring L f n) (b := wiring L g (n + size f)) rfl rfl).1 sab
    have hf := solution L f cf n u w sf
    have hg := solution L g cg (n + size f) u w sg
    have hm := solution L mon cm _ u w sm
    have hw := sx _ (List.mem_cons_self ..)
    have hw' := sx _ (List.mem_cons_of_mem _ (List.mem_cons_self ..))
    have hz := sx _ (List.mem_cons_of_mem _ (List.mem_cons_of_mem _ (List.mem_cons_self ..)))
    have := (monitored_state (z := z) (tap := tap) (ins_length L f cf n) (by rw [outs_length L f cf n, of])
      (by rw [ins_length L g cg, ig]) (by rw [outs_length L g cg, og])
      (by rw [ins_length L mon cm, im]) (by rw [outs_length L mon cm, om]) hi hf hm hg hw hw' hz t).2
    simp only [wiring]
    rw [this, signals_append, now_append]
    cases tap <;> rfl
theorem solutionPaths (L : Lib K S V) : ∀ (ps : Paths K S V), CompilesPaths L ps →
    ∀ (h j n : Nat) (u w : Nat → Nat → Signal V), Solves L (wiringPaths L ps h j n) u w →
    ∀ t q, q < ps.length → pick L (outPathsAt L ps (w h 0) t) q = u (h + 1) (j + q) t
  | .nil, _, h, j, n, u, w, hs, t, q, hq => by simp only [Paths.length] at hq; omega
  | .cons p rest, hc, h, j, n, u, w, hs, t, q, hq => by
    simp only [CompilesPaths] at hc
    obtain ⟨cp, ip, op, cr⟩ := hc
    simp only [wiringPaths] at hs
    have sp : Solves L (wiring L p n) u w :=
      ⟨fun m hm => hs.1 m (List.mem_append_left _ hm),
        fun e he => hs.2 e (List.mem_append_left _ (List.mem_append_left _ he))⟩
    have sr : Solves L (wiringPaths L rest h (j + 1) (n + size p)) u w :=
      ⟨fun m hm => hs.1 m (List.mem_append_right _ hm),
        fun e he => hs.2 e (List.mem_append_right _ he)⟩
    have hin := hs.2 ⟨⟨h, 0⟩, portAt (wiring L p n).ins 0, none⟩ (by simp)
    have hout := hs.2 ⟨portAt (wiring L p n).outs 0, ⟨h + 1, j⟩, none⟩ (by simp)
    have hp := solution L p cp n u w sp
    rw [single_signals (by rw [ins_length L p cp, ip])] at hp
    have hin' : u (portAt (wiring L p n).ins 0).node (portAt (wiring L p n).ins 0).port = w h 0 := hin
    have hout' : u (h + 1) j = w (portAt (wiring L p n).outs 0).node (portAt (wiring L p n).outs 0).port := hout
    rw [hin'] at hp
    rw [(paths_state L p rest (w h 0) t).2]
    cases q with
    | zero =>
      have := pick_now L w (wiring L p n).outs 0 t (by rw [outs_length L p cp, op]; omega)
      rw [hp t, this]
      show _ = u (h + 1) j t
      rw [hout']
      rfl
    | succ q =>
      simp only [Paths.length] at hq
      have := solutionPaths L rest cr h (j + 1) (n + size p) u w sr t q (by omega)
      rw [show j + (q + 1) = j + 1 + q by omega, ← this]
      simp [pick]
end

end Verif.Merge
