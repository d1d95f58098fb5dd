import Verif.Sel.Spec
/-!
# Lemmas: windows, tags of windows, ranges of a longer stream
-/
namespace Verif.Sel

variable {α τ σ : Type}

/-! ## windows -/

theorem window_eq (lo hi : Nat) (xs : Strm α τ) : window lo hi xs = (xs.drop lo).take (hi - lo) := by
  unfold window
  rw [List.drop_take]

theorem window_length (lo hi : Nat) (xs : Strm α τ) (h : hi ≤ xs.length) : (window lo hi xs).length = hi - lo := by
  unfold window
  rw [List.length_drop, List.length_take, Nat.min_eq_left h]

theorem chunk_length {xs : Strm α τ} {p n : Nat} (h : Chunk xs p n) : (window p (p + n) xs).length = n := by
  rw [window_length _ _ _ h.le]; omega

theorem chunk_cons {xs : Strm α τ} {p n : Nat} (h : Chunk xs p n) :
    ∃ x, xs[p]? = some x ∧ window p (p + n) xs = x :: window (p + 1) (p + n) xs := by
  have hp : p < xs.length := by have := h.pos; have := h.le; omega
  refine ⟨xs[p], List.getElem?_eq_getElem hp, ?_⟩
  rw [window_eq, window_eq, List.drop_eq_getElem_cons hp]
  have : p + n - p = (p + n - (p + 1)) + 1 := by have := h.pos; omega
  rw [this, List.take_succ_cons]

/-! ## tags -/

theorem tagsOf_nil : tagsOf ([] : Strm α τ) = [] := rfl

theorem flatMap_zipIdx_append (xs ys : Strm α τ) (f : (α × List τ) × Nat → List (Nat × τ)) :
    (xs ++ ys).zipIdx.flatMap f = xs.zipIdx.flatMap f ++ (ys.zipIdx xs.length).flatMap f := by
  rw [List.zipIdx_append, List.flatMap_append, Nat.zero_add]

theorem tagsOf_shift (ys : Strm α τ) (k : Nat) :
    (ys.zipIdx k).flatMap (fun x => x.1.2.map (fun t => (x.2, t))) = (tagsOf ys).map (fun t => (k + t.1, t.2)) := by
  induction ys generalizing k with
  | nil => rfl
  | cons y r ih =>
    unfold tagsOf
    rw [List.zipIdx_cons, List.zipIdx_cons, List.flatMap_cons, List.flatMap_cons, ih (k + 1), ih (0 + 1), List.map_append, List.map_map,
      List.map_map]
    congr 1
    apply List.map_congr_left; intro t _; simp only [Function.comp]; congr 1; omega

theorem tagsOf_append (xs ys : Strm α τ) : tagsOf (xs ++ ys) = tagsOf xs ++ (tagsOf ys).map (fun t => (xs.length + t.1, t.2)) := by
  conv => lhs; unfold tagsOf
  rw [flatMap_zipIdx_append, tagsOf_shift ys]
  rfl

theorem tagsOf_lt (xs : Strm α τ) : ∀ t ∈ tagsOf xs, t.1 < xs.length := by
  intro t ht
  unfold tagsOf at ht
  obtain ⟨x, hx, ht⟩ := List.mem_flatMap.mp ht
  obtain ⟨u, _, rfl⟩ := List.mem_map.mp ht
  have := (List.mem_zipIdx hx).2.1
  simpa using this

theorem tagsOf_take (xs : Strm α τ) (k : Nat) : tagsOf (xs.take k) = (tagsOf xs).filter (fun t => t.1 < k) := by
  conv => rhs; rw [← List.take_append_drop k xs]
  rw [tagsOf_append, List.filter_append]
  have h1 : (tagsOf (xs.take k)).filter (fun t => t.1 < k) = tagsOf (xs.take k) := by
    rw [List.filter_eq_self]
    intro t ht
    have := tagsOf_lt _ t ht
    rw [List.length_take] at this
    simp; omega
  have h2 : ((tagsOf (xs.drop k)).map (fun t => ((xs.take k).length + t.1, t.2))).filter (fun t => t.1 < k) = [] := by
    rw [List.filter_eq_nil_iff]
    intro t ht
    obtain ⟨u, hu, rfl⟩ := List.mem_map.mp ht
    have := tagsOf_lt _ u hu
    rw [List.length_drop] at this
    rw [List.length_take]
    simp; omega
  rw [h1, h2, List.append_nil]

theorem tagsOf_untagged (xs : Strm α τ) (h : ∀ x ∈ xs, x.2 = []) : tagsOf xs = [] := by
  unfold tagsOf
  rw [List.flatMap_eq_nil_iff]
  intro x hx
  obtain ⟨⟨a, ts⟩, i⟩ := x
  have := h (a, ts) (List.fst_mem_of_mem_zipIdx hx)
  simp at this
  simp [this]

theorem tagsOf_chunk {xs : Strm α τ} {p n : Nat} (h : Chunk xs p n) {x : α × List τ} (hx : xs[p]? = some x) :
    tagsOf (window p (p + n) xs) = x.2.map (fun t => (0, t)) := by
  obtain ⟨y, hy, hw⟩ := chunk_cons h
  have : x = y := by rw [hx] at hy; exact Option.some.inj hy
  subst this
  rw [hw, show x :: window (p + 1) (p + n) xs = [x] ++ window (p + 1) (p + n) xs from rfl, tagsOf_append, tagsOf_untagged _ h.tags]
  simp [tagsOf]

/-! ## ranges -/

theorem ranges_append (R : Rule τ) (xs ys : Strm α τ) :
    ranges R (xs ++ ys) = (ys.zipIdx xs.length).foldl (fun rs x => judge R rs x.2 x.1.2) (ranges R xs) := by
  unfold ranges
  rw [List.zipIdx_append, List.foldl_append, Nat.zero_add]

theorem judge_nil (R : Rule τ) (rs : List Range) (p : Nat) : judge R rs p [] = rs := rfl

theorem foldl_untagged (R : Rule τ) (ys : Strm α τ) (h : ∀ x ∈ ys, x.2 = []) (k : Nat) (rs : List Range) :
    (ys.zipIdx k).foldl (fun rs x => judge R rs x.2 x.1.2) rs = rs := by
  induction ys generalizing k with
  | nil => rfl
  | cons y r ih =>
    rw [List.zipIdx_cons, List.foldl_cons]
    have hy : y.2 = [] := h y List.mem_cons_self
    rw [show judge R rs (y, k).2 (y, k).1.2 = rs by dsimp only; rw [hy, judge_nil]]
    exact ih (fun x hx => h x (List.mem_cons_of_mem _ hx)) (k + 1)

theorem ranges_chunk (R : Rule τ) {xs : Strm α τ} {p n : Nat} (h : Chunk xs p n) {x : α × List τ} (hx : xs[p]? = some x) :
    ranges R (xs.take (p + n)) = judge R (ranges R (xs.take p)) p x.2 := by
  obtain ⟨y, hy, hw⟩ := chunk_cons h
  have : x = y := by rw [hx] at hy; exact Option.some.inj hy
  subst this
  have hs : xs.take (p + n) = xs.take p ++ window p (p + n) xs := by
    unfold window
    conv => lhs; rw [← List.take_append_drop p (xs.take (p + n))]
    rw [List.take_take, Nat.min_eq_left (by omega)]
  have hl : (xs.take p).length = p := by rw [List.length_take]; have := h.le; omega
  rw [hs, ranges_append, hw, hl, List.zipIdx_cons, List.foldl_cons]
  exact foldl_untagged R _ h.tags _ _

end Verif.Sel
