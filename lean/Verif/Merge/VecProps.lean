import Verif.Merge.VecLemmas
import Verif.Merge.Props

/- C76: processing with vectors gives the samples of processing one by one. -/
namespace Verif.Merge

variable {K S V : Type}

/-- C76: whichever loop is chosen for a merged block, and for every vector width (a power of two),
every sample is processed, and block and outputs are those of one call per sample. -/
theorem vectors_do_not_matter (L : VLib K S V) (hL : L.Lawful) (m : Blk K S V) (hm : Compiles L.toLib m)
    (hv : VecCompiles L m) (k : Nat) (rs : List (List V)) (hr : ∀ r ∈ rs, r.length = nIn L.toLib m) :
    dispatch L (2 ^ k) m rs = ((runAll L.toLib m rs).1, (runAll L.toLib m rs).2, []) := by
  simp only [dispatch]
  split
  · rename_i h0
    split
    · rename_i hw
      exact simdRun_eq L hL k m rs ⟨hm, hv, .inr ⟨h0, hw⟩⟩ hr
    · rfl
  · split
    · rename_i hw
      exact simdRun_eq L hL k m rs ⟨hm, hv, .inl hw⟩ hr
    · rfl

/-- C76 and C75 together: with vectors of any width the outputs are those of the network. -/
theorem vectors_compute_network (L : VLib K S V) (hL : L.Lawful) (m : Blk K S V) (hm : Compiles L.toLib m)
    (hv : VecCompiles L m) (k : Nat) (n : Nat) (u w : Nat → Nat → Signal V)
    (hs : Solves L.toLib (wiring L.toLib m n) u w) (t : Nat) :
    (dispatch L (2 ^ k) m (samples (signals u (wiring L.toLib m n).ins) t)).2
      = (samples (signals w (wiring L.toLib m n).outs) t, []) := by
  rw [vectors_do_not_matter L hL m hm hv k]
  · rw [network_determines_outputs L.toLib m hm n u w hs t]
  · intro r hr
    simp only [samples, List.mem_map] at hr
    obtain ⟨s, _, rfl⟩ := hr
    rw [List.length_map, signals_length, ins_length L.toLib m hm]

/-- C76: an ordinary block with a `processOne` that is not `const` is called once per sample up to
and including the first call after which it is shutting down, and not again. -/
theorem stop_ends_calls (L : VLib K S V) (k : K) (rs : List (List V)) : ∀ s, ∃ p, p ≤ rs.length ∧
    ((stopRun L k s rs).2 = (runAll L.toLib (.leaf k s) (rs.take p)).2) ∧
    (runAll L.toLib (.leaf k s) (rs.take p)).1 = .leaf k (stopRun L k s rs).1 ∧
    (p < rs.length → L.stops k (stopRun L k s rs).1 = true) ∧
    ∀ q, 0 < q → q < p → ∀ s', (runAll L.toLib (.leaf k s) (rs.take q)).1 = .leaf k s' → L.stops k s' = false := by
  induction rs with
  | nil =>
    intro s
    exact ⟨0, Nat.le_refl _, rfl, rfl, fun h => absurd h (Nat.lt_irrefl _), fun q _ h => absurd h (Nat.not_lt_zero _)⟩
  | cons x rs ih =>
    intro s
    by_cases h : L.stops k (L.step k s x).1 = true
    · have e : stopRun L k s (x :: rs) = ((L.step k s x).1, [(L.step k s x).2]) := by
        simp only [stopRun]; rw [if_pos h]
      refine ⟨1, by simp, ?_, ?_, ?_, fun q h1 h2 => by omega⟩
      · rw [e]; rfl
      · rw [e]; rfl
      · intro _; rw [e]; exact h
    · obtain ⟨p, h1, h2, h3, h4, h5⟩ := ih (L.step k s x).1
      have e : stopRun L k s (x :: rs) = ((stopRun L k (L.step k s x).1 rs).1,
          (L.step k s x).2 :: (stopRun L k (L.step k s x).1 rs).2) := by
        simp only [stopRun]; rw [if_neg h]
      have er : ∀ q, runAll L.toLib (.leaf k s) ((x :: rs).take (q + 1))
          = ((runAll L.toLib (.leaf k (L.step k s x).1) (rs.take q)).1,
             (L.step k s x).2 :: (runAll L.toLib (.leaf k (L.step k s x).1) (rs.take q)).2) := fun q => rfl
      refine ⟨p + 1, by simp; omega, ?_, ?_, ?_, ?_⟩
      · rw [e, er, h2]
      · rw [e, er, h3]
      · rw [e]; intro hp; exact h4 (by simp at hp; omega)
      · intro q hq hqp s' hs'
        cases q with
        | zero => omega
        | succ q =>
          rw [er] at hs'
          cases q with
          | zero =>
            simp only [List.take_zero, runAll, Blk.leaf.injEq, true_and] at hs'
            subst hs'
            simpa using h
          | succ q => exact h5 (q + 1) (by omega) (by omega) s' hs'

/-! Blocks for the examples. -/

inductive VDemo where
  | scale (c : Int)
  | adder
  | count
  | ramp
deriving DecidableEq

/-- `scale` and `adder` accept vectors, `ramp` counts with `processOne(N)`, `count` counts one by one and
stops after three samples. -/
def vdemo : VLib VDemo Int Int where
  nIn
    | .scale _ => 1
    | .adder => 2
    | _ => 0
  nOut _ := 1
  step
    | .scale c, s, [x] => (s, [c * x])
    | .adder, s, [x, y] => (s, [x + y])
    | .count, s, _ => (s + 1, [s])
    | .ramp, s, _ => (s + 1, [s])
    | _, s, _ => (s, [0])
  reset _ _ := 0
  add := (· + ·)
  mul := (· * ·)
  one := 1
  zero := 0
  simd
    | .scale _ => true
    | .adder => true
    | _ => false
  vec
    | .scale c, _, [x] => [x.map (c * ·)]
    | .adder, _, [x, y] => [List.zipWith (· + ·) x y]
    | _, _, _ => []
  wide
    | .ramp => true
    | _ => false
  gen _ s w := (s + w, [(List.range w).map (fun (j : Nat) => s + (j : Int))])
  stops
    | .count, s => decide (3 ≤ s)
    | _, _ => false

theorem vdemo_ramp : ∀ (w : Nat) (s : Int), runAll vdemo.toLib (.leaf .ramp s) (List.replicate w [])
    = (.leaf .ramp (s + w), rows vdemo.toLib w [(List.range w).map (fun (j : Nat) => s + (j : Int))]) := by
  intro w
  induction w with
  | zero => intro s; simp [runAll, rows]
  | succ w ih =>
    intro s
    have e : (List.range (w + 1)).map (fun (j : Nat) => s + (j : Int)) = s :: (List.range w).map (fun (j : Nat) => s + 1 + (j : Int)) := by
      rw [List.range_succ_eq_map, List.map_cons, List.map_map]
      congr 1
      · simp
      · apply List.map_congr_left; intro j _; simp only [Function.comp]; omega
    have step' : step vdemo.toLib (.leaf .ramp s) [] = (.leaf .ramp (s + 1), [s]) := rfl
    simp only [List.replicate_succ, runAll, step', ih]
    rw [e]
    simp only [Prod.mk.injEq, Blk.leaf.injEq, true_and]
    refine ⟨by omega, ?_⟩
    simp only [rows, List.map_cons, List.map_nil]
    rw [List.range_succ_eq_map, List.map_cons, List.map_map]
    rfl

theorem vdemo_lawful : vdemo.Lawful := by
  constructor
  · intro k s xs h
    cases k with
    | scale c => match xs, h with | [x], _ => rfl
    | adder => match xs, h with | [x, y], _ => rfl
    | count => rfl
    | ramp => rfl
  · intro k s w cs hk hn hl hc
    cases k with
    | scale c =>
      match cs, hl with
      | [x], _ =>
        have hx : x.length = w := hc x (by simp)
        refine ⟨rfl, ?_, ?_⟩
        · intro c' h'; simp only [vdemo, List.mem_singleton] at h'; subst h'; simpa using hx
        · intro j hj
          simp [vdemo, pick, hx, hj]
    | adder =>
      match cs, hl with
      | [x, y], _ =>
        have hx : x.length = w := hc x (by simp)
        have hy : y.length = w := hc y (by simp)
        refine ⟨rfl, ?_, ?_⟩
        · intro c' h'; simp only [vdemo, List.mem_singleton] at h'; subst h'; simp [hx, hy]
        · intro j hj
          simp [vdemo, pick, hx, hy, hj]
    | count => simp [vdemo] at hk
    | ramp => simp [vdemo] at hk
  · intro k s w hk hn
    cases k with
    | ramp =>
      refine ⟨rfl, ?_, vdemo_ramp w s⟩
      intro c hc
      simp only [vdemo, List.mem_singleton] at hc
      subst hc
      simp
    | scale c => simp [vdemo] at hk
    | adder => simp [vdemo] at hk
    | count => simp [vdemo] at hk

/-- A source with `processOne(N)` before a scaling block, and one without. -/
def vsource (k : VDemo) : Blk VDemo Int Int := .merge (.leaf k 0) 0 (.leaf (.scale 10) 0) 0

example : Compiles vdemo.toLib (vsource .ramp) ∧ VecCompiles vdemo (vsource .ramp) := by
  simp [vsource, Compiles, VecCompiles, nIn, nOut, vdemo]

example : (dispatch vdemo (2 ^ 2) (vsource .ramp) (List.replicate 7 [])).2
    = ([[0], [10], [20], [30], [40], [50], [60]], []) := by decide

example : (dispatch vdemo (2 ^ 2) (vsource .count) (List.replicate 7 [])).2
    = ([[0], [10], [20], [30], [40], [50], [60]], []) := by decide

/-- Two vector blocks merged at the second input of the right one. -/
example : (dispatch vdemo (2 ^ 1) (.merge (.leaf (.scale 2) 0) 0 (.leaf .adder 0) 1) [[1, 5], [2, 6], [3, 7]]).2
    = ([[7], [10], [13]], []) := by decide

example : Compiles vdemo.toLib (.merge (.leaf (.scale 2) 0) 0 (.leaf .adder 0) 1) ∧
    VecCompiles vdemo (.merge (.leaf (.scale 2) 0) 0 (.leaf .adder 0) 1) := by
  simp [Compiles, VecCompiles, nIn, nOut, vdemo]

/-- Against the claim that merging does not change what a block does: a source that stops after three
samples puts out three on its own; merged with a scaling block it goes on for ever. -/
theorem merged_ignores_stop :
    (∀ n, 3 ≤ n → (stopRun vdemo .count 0 (List.replicate n [])).2 = [[0], [1], [2]]) ∧
    ∀ n k, (dispatch vdemo (2 ^ k) (vsource .count) (List.replicate n [])).2.1.length = n := by
  constructor
  · intro n hn
    obtain ⟨m, rfl⟩ : ∃ m, n = m + 3 := ⟨n - 3, by omega⟩
    rfl
  · intro n k
    rw [vectors_do_not_matter vdemo vdemo_lawful _ (by simp [vsource, Compiles, nIn, nOut, vdemo])
      (by simp [vsource, VecCompiles, nIn, nOut, vdemo]) k]
    · simp only [runAll_length, List.length_replicate]
    · intro r hr
      rw [List.eq_of_mem_replicate hr]
      rfl

end Verif.Merge
