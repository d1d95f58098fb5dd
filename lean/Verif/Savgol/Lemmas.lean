import Verif.Savgol.Model

namespace Verif.Savgol

theorem reflectIndex_eq (i : Int) (N : Nat) (hN : N ≠ 0) :
    (reflectIndex i N : Int) = if i % (2 * N) < N then i % (2 * N) else 2 * N - 1 - i % (2 * N) := by
  have hp : (0 : Int) < 2 * N := by omega
  have h0 := Int.emod_nonneg i (show (2 * N : Int) ≠ 0 by omega)
  have h1 := Int.emod_lt_of_pos i hp
  have hd := Int.emod_add_mul_ediv i (2 * N)
  unfold reflectIndex
  rw [if_neg hN]
  simp only
  by_cases hi : i < 0
  · have hneg : (-i - 1) % (2 * N : Int) = 2 * N - 1 - i % (2 * N) := by
      have e : -i - 1 = (2 * N - 1 - i % (2 * N)) + (2 * N) * (-(i / (2 * N)) - 1) := by
        rw [Int.mul_sub, Int.mul_neg]; omega
      rw [e, Int.add_mul_emod_self_left]
      exact Int.emod_eq_of_lt (by omega) (by omega)
    rw [if_pos hi, Int.tmod_eq_emod_of_nonneg (by omega : 0 ≤ -i - 1), hneg]
    split <;> split <;> omega
  · rw [if_neg hi, Int.tmod_eq_emod_of_nonneg (by omega : 0 ≤ i)]
    split <;> split <;> omega

theorem reflectIndex_lt (i : Int) (N : Nat) (hN : N ≠ 0) : reflectIndex i N < N := by
  have h := reflectIndex_eq i N hN
  have h0 := Int.emod_nonneg i (show (2 * N : Int) ≠ 0 by omega)
  have h1 := Int.emod_lt_of_pos i (show (0 : Int) < 2 * N by omega)
  split at h <;> omega

theorem replicateIndex_eq (i : Int) (N : Nat) (hN : N ≠ 0) :
    (replicateIndex i N : Int) = max 0 (min i (N - 1)) := by
  unfold replicateIndex
  rw [if_neg hN]
  split
  · omega
  · split <;> omega

theorem boundaryIndex_lt (i : Int) (N : Nat) (p : Policy) (hN : N ≠ 0) : boundaryIndex i N p < N := by
  have := replicateIndex_eq i N hN
  cases p <;> simp only [boundaryIndex] <;> first | exact reflectIndex_lt i N hN | omega

theorem boundaryIndex_inside (i : Int) (N : Nat) (p : Policy) (h0 : 0 ≤ i) (h1 : i < N) :
    boundaryIndex i N p = i.toNat := by
  have hN : N ≠ 0 := by omega
  have a := replicateIndex_eq i N hN
  have b := reflectIndex_eq i N hN
  rw [Int.emod_eq_of_lt h0 (by omega), if_pos (by omega)] at b
  cases p <;> simp only [boundaryIndex] <;> omega

theorem boundaryIndex_mirror (i : Int) (N : Nat) (p : Policy) (hN : N ≠ 0) :
    (boundaryIndex (N - 1 - i) N p : Int) = N - 1 - boundaryIndex i N p := by
  have a := replicateIndex_eq i N hN
  have a' := replicateIndex_eq (N - 1 - i) N hN
  have b := reflectIndex_eq i N hN
  have b' := reflectIndex_eq (N - 1 - i) N hN
  have h0 := Int.emod_nonneg i (show (2 * N : Int) ≠ 0 by omega)
  have h1 := Int.emod_lt_of_pos i (show (0 : Int) < 2 * N by omega)
  have hd := Int.emod_add_mul_ediv i (2 * N)
  have key : ((N : Int) - 1 - i) % (2 * N) =
      if i % (2 * N) < N then N - 1 - i % (2 * N) else 3 * N - 1 - i % (2 * N) := by
    split
    · have e : (N : Int) - 1 - i = (N - 1 - i % (2 * N)) + (2 * N) * (-(i / (2 * N))) := by
        rw [Int.mul_neg]; omega
      rw [e, Int.add_mul_emod_self_left]
      exact Int.emod_eq_of_lt (by omega) (by omega)
    · have e : (N : Int) - 1 - i = (3 * N - 1 - i % (2 * N)) + (2 * N) * (-(i / (2 * N)) - 1) := by
        rw [Int.mul_sub, Int.mul_neg]; omega
      rw [e, Int.add_mul_emod_self_left]
      exact Int.emod_eq_of_lt (by omega) (by omega)
  rw [key] at b'
  cases p <;> simp only [boundaryIndex] <;> first | omega | (split at b <;> split at b' <;> omega)

/-! ### scalar products -/

theorem dot_add (cs : List Rat) (ks : List Nat) (f g : Nat → Rat) :
    dot cs (ks.map fun k => f k + g k) = dot cs (ks.map f) + dot cs (ks.map g) := by
  induction ks generalizing cs with
  | nil => cases cs <;> simp only [List.map_nil, dot] <;> grind
  | cons k ks ih => cases cs <;> simp [dot, ih] <;> grind

theorem dot_smul (cs : List Rat) (ks : List Nat) (a : Rat) (f : Nat → Rat) :
    dot cs (ks.map fun k => a * f k) = a * dot cs (ks.map f) := by
  induction ks generalizing cs with
  | nil => cases cs <;> simp [dot]
  | cons k ks ih => cases cs <;> simp [dot, ih] <;> grind

theorem dot_congr (cs : List Rat) (ks : List Nat) (f g : Nat → Rat) (h : ∀ k ∈ ks, f k = g k) :
    dot cs (ks.map f) = dot cs (ks.map g) := by
  rw [List.map_congr_left h]

theorem dot_comm (a b : List Rat) : dot a b = dot b a := by
  induction a generalizing b with
  | nil => cases b <;> rfl
  | cons x a ih => cases b with
    | nil => rfl
    | cons y b => simp only [dot, ih]; grind

theorem dot_append (a b c d : List Rat) (h : a.length = c.length) :
    dot (a ++ b) (c ++ d) = dot a c + dot b d := by
  induction a generalizing c with
  | nil => cases c with
    | nil => simp only [List.nil_append, dot]; grind
    | cons _ _ => simp at h
  | cons x a ih => cases c with
    | nil => simp at h
    | cons y c =>
      simp only [List.cons_append, dot, ih c (by simpa using h)]; grind

theorem dot_reverse (a b : List Rat) (h : a.length = b.length) : dot a.reverse b.reverse = dot a b := by
  induction a generalizing b with
  | nil => cases b with
    | nil => rfl
    | cons _ _ => simp at h
  | cons x a ih => cases b with
    | nil => simp at h
    | cons y b =>
      have h' : a.length = b.length := by simpa using h
      simp only [List.reverse_cons]
      rw [dot_append _ _ _ _ (by simpa using h'), ih b h']
      simp only [dot]; grind

theorem dot_const (cs : List Rat) (ks : List Nat) (v : Rat) (h : cs.length = ks.length) :
    dot cs (ks.map fun _ => v) = cs.sum * v := by
  induction ks generalizing cs with
  | nil => cases cs with
    | nil => simp [dot]
    | cons _ _ => simp at h
  | cons k ks ih => cases cs with
    | nil => simp at h
    | cons c cs => simp only [List.map_cons, dot, ih cs (by simpa using h), List.sum_cons]; grind

/-! ### the batch filter -/

theorem apply_some {inp : List Rat} {outSize : Nat} {coeffs : List Rat} {cfg : Config} {out : List Rat}
    (h : apply inp outSize coeffs cfg = some out) :
    inp.length ≠ 0 ∧ coeffs.length ≠ 0 ∧ inp.length ≤ outSize ∧ out.length = inp.length ∧
    ∀ n, n < inp.length → out[n]? = some (dot coeffs ((List.range coeffs.length).map fun (k : Nat) =>
      inp.getD (boundaryIndex ((n : Int) + k - shift cfg.align coeffs.length) inp.length cfg.policy) 0)) := by
  unfold apply at h
  simp only at h
  split at h
  · exact absurd h (by simp)
  · rename_i hc
    simp only [Bool.or_eq_true, decide_eq_true_eq, not_or, Nat.not_lt] at hc
    obtain ⟨⟨h1, h2⟩, h3⟩ := hc
    injection h with h
    subst h
    refine ⟨h1, h2, h3, by simp, fun n hn => ?_⟩
    rw [List.getElem?_map, List.getElem?_range hn]
    rfl

theorem apply_isSome (inp : List Rat) (outSize : Nat) (coeffs : List Rat) (cfg : Config)
    (h1 : inp.length ≠ 0) (h2 : coeffs.length ≠ 0) (h3 : inp.length ≤ outSize) :
    ∃ out, apply inp outSize coeffs cfg = some out := by
  unfold apply
  simp only
  rw [if_neg (by simp [h1, h2]; omega)]
  exact ⟨_, rfl⟩

/-! ### the history -/

theorem push_length (W : Nat) (h : List Rat) (x : Rat) (hW : W ≠ 0) (hl : h.length ≤ W) :
    (push W h x).length = min (h.length + 1) W := by
  unfold push
  split <;> simp <;> omega

theorem fill_length (W n : Nat) (h : List Rat) (x : Rat) (hW : W ≠ 0) (hl : h.length ≤ W) :
    (fill W n h x).length = min (h.length + n) W := by
  induction n generalizing h with
  | zero => simp only [fill]; omega
  | succ n ih =>
    have := push_length W h x hW hl
    rw [fill, ih _ (by omega), this]; omega

/-- Filling an empty history. -/
theorem fill_replicate (W n m : Nat) (x : Rat) (h : m + n ≤ W) :
    fill W n (List.replicate m x) x = List.replicate (m + n) x := by
  induction n generalizing m with
  | zero => rfl
  | succ n ih =>
    rw [fill]
    have e : push W (List.replicate m x) x = List.replicate (m + 1) x := by
      unfold push
      rw [if_pos (by simp; omega), List.replicate_succ']
    rw [e, ih (m + 1) (by omega)]
    congr 1; omega

theorem fill_empty (W : Nat) (x : Rat) : fill W W [] x = List.replicate W x := by
  have := fill_replicate W W 0 x (by omega)
  simpa using this

/-- A filter whose history is full sees the window of the last `W` samples. -/
theorem run_full (f : Filter) (xs : List Rat) (hW : f.W ≠ 0) (hi : f.initialized = true) (hl : f.hist.length = f.W)
    (n : Nat) (hn : n < xs.length) :
    (f.run xs)[n]? = some (dot (((f.hist ++ xs).drop (n + 1)).take f.W) f.coeffs) := by
  induction xs generalizing f n with
  | nil => simp at hn
  | cons x xs ih =>
    have hp : push f.W f.hist x = f.hist.drop 1 ++ [x] := by
      unfold push; rw [if_neg (by omega)]
    have hd : (f.hist ++ x :: xs).drop 1 = f.hist.drop 1 ++ x :: xs := by
      rw [List.drop_append_of_le_length (by omega)]
    cases n with
    | zero =>
      simp only [Filter.run, Filter.processOne, hi, if_true, hp, List.getElem?_cons_zero, hd, Nat.zero_add]
      congr 2
      have : f.hist.drop 1 ++ x :: xs = (f.hist.drop 1 ++ [x]) ++ xs := by simp
      rw [this, List.take_append_of_le_length (by simp; omega), List.take_of_length_le (by simp; omega)]
    | succ n =>
      have := ih (f.processOne x).1 hW rfl
        (by simp only [Filter.processOne, hi, if_true, hp]; simp; omega) n (by simpa using hn)
      simp only [Filter.run, List.getElem?_cons_succ]
      rw [this]
      simp only [Filter.processOne, hi, if_true, hp]
      have e : (f.hist ++ x :: xs).drop (n + 1 + 1) = ((f.hist.drop 1 ++ [x]) ++ xs).drop (n + 1) := by
        have : (f.hist.drop 1 ++ [x]) ++ xs = (f.hist ++ x :: xs).drop 1 := by rw [hd]; simp
        rw [this, List.drop_drop]
        congr 1; omega
      rw [e]

theorem run_length (f : Filter) (xs : List Rat) : (f.run xs).length = xs.length := by
  induction xs generalizing f with
  | nil => rfl
  | cons x xs ih => simp [Filter.run, ih]

/-- Windows of a signal continued to the left by a constant. -/
theorem window_padded (W n : Nat) (v : Rat) (xs : List Rat) (hn : n < xs.length) :
    ((List.replicate W v ++ xs).drop (n + 1)).take W =
      (List.range W).map fun (k : Nat) =>
        if (n : Int) + k - (W - 1 : Nat) < 0 then v else xs.getD ((n : Int) + k - (W - 1 : Nat)).toNat 0 := by
  apply List.ext_getElem?
  intro k
  by_cases hk : k < W
  · rw [List.getElem?_take_of_lt hk, List.getElem?_drop, List.getElem?_map, List.getElem?_range hk]
    simp only [Option.map_some]
    by_cases hlt : n + 1 + k < W
    · rw [List.getElem?_append_left (by simpa using hlt), List.getElem?_replicate, if_pos hlt, if_pos (by omega)]
    · rw [List.getElem?_append_right (by simp; omega), if_neg (by omega)]
      have e : ((n : Int) + k - (W - 1 : Nat)).toNat = n + 1 + k - W := by omega
      rw [e, List.length_replicate, List.getD_eq_getElem?_getD, List.getElem?_eq_getElem (by omega)]
      rfl
  · rw [List.getElem?_eq_none (by simp; omega), List.getElem?_eq_none (by simp; omega)]

/-! ### polynomials -/

theorem pos_max (a b : Rat) (h : 0 < b) : 0 < max a b := by
  rw [Rat.max_def]; grind


theorem powers_getElem? (t : Rat) (n j : Nat) (pw : Rat) (h : j < n) :
    (powers t n pw)[j]? = some (pw * t ^ j) := by
  induction n generalizing j pw with
  | zero => omega
  | succ n ih =>
    cases j with
    | zero => simp only [powers, List.getElem?_cons_zero]; congr 1; grind
    | succ j =>
      simp only [powers, List.getElem?_cons_succ]
      rw [ih j _ (by omega)]; congr 1; grind

end Verif.Savgol
