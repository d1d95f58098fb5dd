import Verif.Tensor.Spec

namespace Verif.Tensor

variable {α : Type}

theorem stridesOf_cons (e : Nat) (es : List Nat) : stridesOf (e :: es) = count es :: stridesOf es := by
  induction es generalizing e with
  | nil => rfl
  | cons f fs ih =>
    rw [stridesOf, ih f]
    simp only [count]
    rw [Nat.mul_comm]

theorem stridesOf_length (es : List Nat) : (stridesOf es).length = es.length := by
  induction es with
  | nil => rfl
  | cons e es ih => rw [stridesOf_cons, List.length_cons, ih, List.length_cons]

theorem Valid.length {s i : List Nat} (h : Valid s i) : i.length = s.length := by
  induction s generalizing i with
  | nil => cases i with
    | nil => rfl
    | cons a b => exact h.elim
  | cons e es ih => cases i with
    | nil => exact h.elim
    | cons a b => rw [List.length_cons, List.length_cons, ih h.2]

theorem dot_cons (i s : Nat) (is ss : List Nat) : dot (i :: is) (s :: ss) = i * s + dot is ss := by
  simp [dot]

theorem dot_strides {s i : List Nat} (h : Valid s i) : dot i (stridesOf s) = place s i := by
  induction s generalizing i with
  | nil => cases i with
    | nil => rfl
    | cons a b => exact h.elim
  | cons e es ih => cases i with
    | nil => exact h.elim
    | cons a b => rw [stridesOf_cons, dot_cons, ih h.2]; rfl

theorem place_lt {s i : List Nat} (h : Valid s i) : place s i < count s := by
  induction s generalizing i with
  | nil => cases i with
    | nil => simp [place, count]
    | cons a b => exact h.elim
  | cons e es ih => cases i with
    | nil => exact h.elim
    | cons a b =>
      have := ih h.2
      have h1 : (a + 1) * count es ≤ e * count es := Nat.mul_le_mul_right _ h.1
      simp only [place, count]
      rw [Nat.add_mul, Nat.one_mul] at h1
      omega

theorem place_inj {s i j : List Nat} (hi : Valid s i) (hj : Valid s j) (h : place s i = place s j) : i = j := by
  induction s generalizing i j with
  | nil => cases i with
    | nil => cases j with
      | nil => rfl
      | cons a b => exact hj.elim
    | cons a b => exact hi.elim
  | cons e es ih => cases i with
    | nil => exact hi.elim
    | cons a b => cases j with
      | nil => exact hj.elim
      | cons c d =>
        simp only [place] at h
        have h1 := place_lt hi.2
        have h2 := place_lt hj.2
        have hp : 0 < count es := by omega
        have ha : a = c := by
          have e1 : (a * count es + place es b) / count es = a := by
            rw [Nat.mul_comm, Nat.mul_add_div hp, Nat.div_eq_of_lt h1, Nat.add_zero]
          have e2 : (c * count es + place es d) / count es = c := by
            rw [Nat.mul_comm, Nat.mul_add_div hp, Nat.div_eq_of_lt h2, Nat.add_zero]
          rw [← e1, ← e2, h]
        subst ha
        rw [ih hi.2 hj.2 (by omega)]

theorem foldl_div (es : List Nat) (n : Nat) : es.foldl (· / ·) n = n / count es := by
  induction es generalizing n with
  | nil => simp [count]
  | cons e es ih => rw [List.foldl_cons, ih, Nat.div_div_eq_div_mul]; rfl

theorem mod_div (n d e m : Nat) : n % (d * e * m) / m % e = n / m % e := by
  rw [Nat.mod_mul_left_div_self]
  rw [Nat.mul_comm d e, Nat.mod_mul_right_mod]

/-- The coordinates depend on the index only modulo the number of indices. -/
theorem coords_mod (es : List Nat) (d n : Nat) : coords es (n % (d * count es)) = coords es n := by
  induction es generalizing d n with
  | nil => rfl
  | cons e es ih =>
    simp only [coords, foldl_div, count]
    have h1 : d * (e * count es) = d * e * count es := (Nat.mul_assoc _ _ _).symm
    rw [h1, mod_div]
    have := ih (d * e) n
    rw [this]

theorem coords_split {e : Nat} {es : List Nat} {i j : Nat} (hi : i < e) (hj : j < count es) :
    coords (e :: es) (i * count es + j) = i :: coords es j := by
  have hp : 0 < count es := by omega
  simp only [coords, foldl_div]
  rw [Nat.mul_comm i, Nat.mul_add_div hp, Nat.div_eq_of_lt hj, Nat.add_zero, Nat.mod_eq_of_lt hi]
  congr 1
  have := coords_mod es 1 (count es * i + j)
  rw [Nat.one_mul, Nat.mul_add_mod, Nat.mod_eq_of_lt hj] at this
  exact this.symm

theorem range_mul (e p : Nat) : List.range (e * p) = (List.range e).flatMap fun i => (List.range p).map (i * p + ·) := by
  induction e with
  | zero => simp
  | succ e ih =>
    rw [Nat.add_mul, Nat.one_mul, List.range_add, ih, List.range_succ, List.flatMap_append]
    simp

/-- The iterator goes through the indices in order. -/
theorem coords_range (es : List Nat) : (List.range (count es)).map (coords es) = indices es := by
  induction es with
  | nil => rfl
  | cons e es ih =>
    rw [show count (e :: es) = e * count es from rfl, range_mul, List.map_flatMap, indices]
    rw [List.flatMap_def, List.flatMap_def]
    congr 1
    apply List.map_congr_left
    intro i hi
    rw [← ih, List.map_map, List.map_map]
    apply List.map_congr_left
    intro j hj
    exact coords_split (List.mem_range.1 hi) (List.mem_range.1 hj)

theorem mem_indices {s i : List Nat} : i ∈ indices s ↔ Valid s i := by
  induction s generalizing i with
  | nil => cases i <;> simp [indices, Valid]
  | cons e es ih =>
    cases i with
    | nil => simp [indices, Valid]
    | cons a b =>
      simp only [indices, List.mem_flatMap, List.mem_range, List.mem_map, Valid]
      constructor
      · rintro ⟨i, hi, l, hl, h⟩
        simp only [List.cons.injEq] at h
        obtain ⟨rfl, rfl⟩ := h
        exact ⟨hi, ih.1 hl⟩
      · rintro ⟨h1, h2⟩
        exact ⟨a, h1, b, ih.2 h2, rfl⟩

theorem coords_place {s i : List Nat} (h : Valid s i) : coords s (place s i) = i := by
  induction s generalizing i with
  | nil => cases i with
    | nil => rfl
    | cons a b => exact h.elim
  | cons e es ih => cases i with
    | nil => exact h.elim
    | cons a b => rw [place, coords_split h.1 (place_lt h.2), ih h.2]

theorem coords_valid {s : List Nat} {n : Nat} (h : n < count s) : Valid s (coords s n) := by
  rw [← mem_indices, ← coords_range]
  exact List.mem_map_of_mem (List.mem_range.2 h)

theorem place_coords {s : List Nat} {n : Nat} (h : n < count s) : place s (coords s n) = n := by
  induction s generalizing n with
  | nil => simp [count] at h; subst h; rfl
  | cons e es ih =>
    have hp : 0 < count es := by
      rcases Nat.eq_zero_or_pos (count es) with h0 | h0
      · simp [count, h0] at h
      · exact h0
    have hd : n / count es < e := Nat.div_lt_of_lt_mul (by rw [Nat.mul_comm]; exact h)
    have hm := Nat.mod_lt n hp
    have hn : n / count es * count es + n % count es = n := by rw [Nat.mul_comm]; exact Nat.div_add_mod n _
    rw [← hn, coords_split hd hm]
    simp only [place]
    rw [ih hm]

theorem indices_place (s : List Nat) : (indices s).map (place s) = List.range (count s) := by
  rw [← coords_range, List.map_map]
  conv => rhs; rw [← List.map_id (List.range (count s))]
  apply List.map_congr_left
  intro n hn
  exact place_coords (List.mem_range.1 hn)

theorem indices_length (s : List Nat) : (indices s).length = count s := by
  rw [← coords_range]; simp

/-- The elements listed by index are the elements. -/
theorem indices_elems {s : List Nat} {xs : List α} (h : xs.length = count s) :
    (indices s).map (fun i => xs[place s i]?) = xs.map some := by
  have : (fun i => xs[place s i]?) = (fun n => xs[n]?) ∘ place s := rfl
  rw [this, ← List.map_map, indices_place, ← h]
  apply List.ext_getElem?
  intro n
  simp only [List.getElem?_map, List.getElem?_range]
  by_cases hn : n < xs.length
  · rw [List.getElem?_range hn]; simp [hn]
  · simp [Nat.le_of_not_lt hn]

theorem count_zero {s : List Nat} : count s = 0 ↔ 0 ∈ s := by
  induction s with
  | nil => simp [count]
  | cons e es ih =>
    simp only [count, Nat.mul_eq_zero, ih, List.mem_cons]
    constructor
    · rintro (h | h)
      · exact .inl h.symm
      · exact .inr h
    · rintro (h | h)
      · exact .inl h.symm
      · exact .inr h

theorem any_zero {s : List Nat} : s.any (· == 0) = decide (count s = 0) := by
  rw [Bool.eq_iff_iff]
  simp [count_zero]

/-! Products -/

theorem productFrom_eq {es : List Nat} {n : Nat} (hn : n < 2 ^ 64) :
    (productFrom n es = some (n * count es) ∧ ∀ k, k ≤ es.length → n * count (es.take k) < 2 ^ 64) ∨
    (productFrom n es = none ∧ ∃ k, k ≤ es.length ∧ 2 ^ 64 ≤ n * count (es.take k)) := by
  induction es generalizing n with
  | nil =>
    left
    refine ⟨by simp [productFrom, count], fun k hk => ?_⟩
    simp [count, hn]
  | cons e es ih =>
    by_cases h : n * e < 2 ^ 64
    · have hc : ¬ (e ≠ 0 ∧ n > (2 ^ 64 - 1) / e) := by
        rintro ⟨h0, h1⟩
        have : (2 ^ 64 - 1) < n * e := by
          have := (Nat.div_lt_iff_lt_mul (Nat.pos_of_ne_zero h0)).1 h1
          exact this
        omega
      rw [productFrom, if_neg hc]
      rcases ih h with ⟨h1, h2⟩ | ⟨h1, k, h2, h3⟩
      · left
        refine ⟨by rw [h1]; simp [count, Nat.mul_assoc], fun k hk => ?_⟩
        cases k with
        | zero => simpa [count] using hn
        | succ k =>
          have := h2 k (by simpa using hk)
          simpa [count, Nat.mul_assoc] using this
      · right
        exact ⟨h1, k + 1, by simpa using h2, by simpa [count, Nat.mul_assoc] using h3⟩
    · have h0 : e ≠ 0 := by rintro rfl; simp at h
      have hc : e ≠ 0 ∧ n > (2 ^ 64 - 1) / e := by
        refine ⟨h0, (Nat.div_lt_iff_lt_mul (Nat.pos_of_ne_zero h0)).2 (by omega)⟩
      right
      refine ⟨by rw [productFrom, if_pos hc], 1, by simp, ?_⟩
      simp [count]
      omega

theorem product_small {es : List Nat} (h : Small es) : product es = some (count es) := by
  rcases productFrom_eq (es := es) (n := 1) (by decide) with ⟨h1, _⟩ | ⟨_, k, h2, h3⟩
  · simpa [product] using h1
  · have := h k h2; omega

theorem product_some {es : List Nat} {n : Nat} (h : product es = some n) : n = count es ∧ Small es := by
  rcases productFrom_eq (es := es) (n := 1) (by decide) with ⟨h1, h2⟩ | ⟨h1, _⟩
  · rw [product, h1] at h
    refine ⟨by simpa using h.symm, fun k hk => ?_⟩
    have := h2 k hk; omega
  · rw [product, h1] at h; cases h

end Verif.Tensor
