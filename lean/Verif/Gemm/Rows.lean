import Verif.Gemm.Spec
/-! Lemmas about loops, loads, stores and the update of one row. -/
namespace Verif.Gemm

open Lean.Grind (CommRing)

variable {α σ : Type}

theorem loop_inv {go : Nat → Bool} {step : Nat} {body : Nat → σ → Option σ} (b : Nat) (I : Nat → σ → Prop)
    (hs : 0 < step) (hgo : ∀ j, go j = true → j < b)
    (hb : ∀ j s, go j = true → I j s → ∃ s', body j s = some s' ∧ I (j + step) s') :
    ∀ f j s, b - j ≤ f → I j s → ∃ j' s', loop go step body f j s = some (j', s') ∧ I j' s' ∧ go j' = false := by
  intro f
  induction f with
  | zero =>
    intro j s hf hI
    cases hg : go j with
    | true => have := hgo j hg; omega
    | false => exact ⟨j, s, by simp [loop, hg], hI, hg⟩
  | succ f ih =>
    intro j s hf hI
    cases hg : go j with
    | true =>
      obtain ⟨s', e, hI'⟩ := hb j s hg hI
      have := hgo j hg
      obtain ⟨j', t, h1, h2, h3⟩ := ih (j + step) s' (by omega) hI'
      exact ⟨j', t, by simp [loop, hg, e, h1], h2, h3⟩
    | false => exact ⟨j, s, by simp [loop, hg], hI, hg⟩

theorem forTo_inv {body : Nat → σ → Option σ} {a b step : Nat} (I : Nat → σ → Prop) (hs : 0 < step)
    (hb : ∀ j s, j < b → I j s → ∃ s', body j s = some s' ∧ I (j + step) s') (s : σ) (hI : I a s) :
    ∃ j' s', forTo a b step body s = some s' ∧ I j' s' ∧ b ≤ j' := by
  obtain ⟨j', s', h1, h2, h3⟩ := loop_inv (go := fun i => decide (i < b)) (body := body) b I hs
    (fun j h => by simpa using h) (fun j s h => hb j s (by simpa using h)) (b - a) a s (Nat.le_refl _) hI
  exact ⟨j', s', by simp [forTo, h1], h2, by simpa using h3⟩

/-- A loop that counts by one ends exactly at its bound. -/
theorem forTo_one {body : Nat → σ → Option σ} {a b : Nat} (I : Nat → σ → Prop) (hab : a ≤ b)
    (hb : ∀ j s, a ≤ j → j < b → I j s → ∃ s', body j s = some s' ∧ I (j + 1) s') (s : σ) (hI : I a s) :
    ∃ s', forTo a b 1 body s = some s' ∧ I b s' := by
  obtain ⟨j', s', h1, ⟨h2, h4, h5⟩, h3⟩ := forTo_inv (a := a) (b := b) (body := body) (fun j s => I j s ∧ a ≤ j ∧ j ≤ b)
    Nat.one_pos
    (fun j s hj ⟨h, h1, _⟩ => by
      obtain ⟨s', e, h'⟩ := hb j s h1 hj h
      exact ⟨s', e, h', by omega, by omega⟩) s ⟨hI, Nat.le_refl _, hab⟩
  obtain rfl : j' = b := by omega
  exact ⟨s', h1, h2⟩

theorem load_some [CommRing α] {m : List α} {i n : Nat} (h : i + n ≤ m.length) :
    ∃ xs, load m i n = some xs ∧ xs.length = n ∧ ∀ t < n, xs.getD t 0 = m.getD (i + t) 0 := by
  refine ⟨(m.drop i).take n, by simp [load, h], by simp; omega, ?_⟩
  intro t ht
  rw [List.getD_eq_getElem?_getD, List.getElem?_take_of_lt ht, List.getElem?_drop, List.getD_eq_getElem?_getD]

theorem store_some [CommRing α] {m : List α} {i : Nat} {xs : List α} (h : i + xs.length ≤ m.length) :
    ∃ m', store m i xs = some m' ∧ m'.length = m.length ∧
      ∀ p, m'.getD p 0 = if i ≤ p ∧ p < i + xs.length then xs.getD (p - i) 0 else m.getD p 0 := by
  refine ⟨_, by rw [store, if_pos h], ?_, ?_⟩
  · simp only [List.length_append, List.length_take, List.length_drop]; omega
  · intro p
    simp only [List.getD_eq_getElem?_getD]
    by_cases h1 : p < i
    · rw [List.getElem?_append_left (by rw [List.length_take]; omega), List.getElem?_take_of_lt h1, if_neg (by omega)]
    · rw [List.getElem?_append_right (by rw [List.length_take]; omega)]
      have e : (m.take i).length = i := by rw [List.length_take]; omega
      rw [e]
      by_cases h2 : p < i + xs.length
      · rw [List.getElem?_append_left (by omega), if_pos (by omega)]
      · rw [List.getElem?_append_right (by omega), List.getElem?_drop, if_neg (by omega)]
        congr 2; omega

theorem getD_zipWith [CommRing α] {f : α → α → α} {x y : List α} {t : Nat} (hx : t < x.length) (hy : t < y.length) :
    (List.zipWith f x y).getD t 0 = f (x.getD t 0) (y.getD t 0) := by
  simp [List.getD_eq_getElem?_getD, List.getElem?_zipWith, List.getElem?_eq_getElem hx, List.getElem?_eq_getElem hy]

theorem getElem?_of_lt [CommRing α] {m : List α} {p : Nat} (h : p < m.length) : m[p]? = some (m.getD p 0) := by
  simp [List.getD_eq_getElem?_getD, List.getElem?_eq_getElem h]

section
variable [CommRing α] [DecidableEq α]

/-- After the first `n` columns of a row have been updated. -/
def Upd (a : α) (b : List α) (bo : Nat) (c : List α) (co n : Nat) (c' : List α) : Prop :=
  c'.length = c.length ∧
    ∀ p, c'.getD p 0 = if co ≤ p ∧ p < co + n then a * b.getD (bo + (p - co)) 0 + c.getD p 0 else c.getD p 0

theorem upd_zero (a : α) (b : List α) (bo : Nat) (c : List α) (co : Nat) : Upd a b bo c co 0 c :=
  ⟨rfl, fun p => by rw [if_neg (by omega)]⟩

theorem zip_store {a : α} {b : List α} {bo : Nat} {c : List α} {co v : Nat} {x y : List α}
    (hx : x.length = v) (hy : y.length = v)
    (hxv : ∀ t < v, x.getD t 0 = b.getD (bo + t) 0) (hyv : ∀ t < v, y.getD t 0 = c.getD (co + t) 0)
    {s : List α} (hs : co + v ≤ s.length) :
    ∃ s', store s co (List.zipWith (fma a) x y) = some s' ∧ s'.length = s.length ∧
      ∀ p, s'.getD p 0 = if co ≤ p ∧ p < co + v then a * b.getD (bo + (p - co)) 0 + c.getD p 0 else s.getD p 0 := by
  have hl : (List.zipWith (fma a) x y).length = v := by rw [List.length_zipWith]; omega
  obtain ⟨s', e, h1, h2⟩ := store_some (m := s) (i := co) (xs := List.zipWith (fma a) x y) (by omega)
  refine ⟨s', e, h1, fun p => ?_⟩
  rw [h2, hl]
  by_cases hp : co ≤ p ∧ p < co + v
  · rw [if_pos hp, if_pos hp, getD_zipWith (by omega) (by omega), hxv _ (by omega), hyv _ (by omega), fma]
    congr 3; omega
  · rw [if_neg hp, if_neg hp]

theorem rowVec_step {v : Nat} {a : α} {b : List α} {bo co j : Nat} {c s : List α} (h : Upd a b bo c co j s)
    (hb : bo + (j + v) ≤ b.length) (hc : co + (j + v) ≤ c.length) :
    ∃ s', rowVec v a b bo co j s = some s' ∧ Upd a b bo c co (j + v) s' := by
  obtain ⟨hl, hv⟩ := h
  obtain ⟨x, ex, hx, hxv⟩ := load_some (m := b) (i := bo + j) (n := v) (by omega)
  obtain ⟨y, ey, hy, hyv⟩ := load_some (m := s) (i := co + j) (n := v) (by omega)
  obtain ⟨s', e, h1, h2⟩ := zip_store (a := a) (b := b) (c := s) hx hy hxv hyv (s := s) (by omega)
  refine ⟨s', by simp [rowVec, ex, ey, e], by omega, fun p => ?_⟩
  rw [h2, hv]
  by_cases h3 : co + j ≤ p ∧ p < co + j + v
  · rw [if_pos h3, if_neg (by omega), if_pos (by omega)]
    congr 3; omega
  · rw [if_neg h3]
    by_cases h4 : co ≤ p ∧ p < co + j
    · rw [if_pos h4, if_pos (by omega)]
    · rw [if_neg h4, if_neg (by omega)]

theorem rowOne_step {a : α} {b : List α} {bo co j : Nat} {c s : List α} (h : Upd a b bo c co j s)
    (hb : bo + (j + 1) ≤ b.length) (hc : co + (j + 1) ≤ c.length) :
    ∃ s', rowOne a b bo co j s = some s' ∧ Upd a b bo c co (j + 1) s' := by
  obtain ⟨hl, hv⟩ := h
  obtain ⟨s', e, h1, h2⟩ := store_some (m := s) (i := co + j)
    (xs := [fma a (b.getD (bo + j) 0) (s.getD (co + j) 0)]) (by simp only [List.length_cons, List.length_nil]; omega)
  refine ⟨s', by
    rw [rowOne, getElem?_of_lt (show bo + j < b.length by omega), getElem?_of_lt (show co + j < s.length by omega)]
    exact e, by omega, fun p => ?_⟩
  rw [h2, hv p]
  simp only [List.length_cons, List.length_nil]
  by_cases h3 : p = co + j
  · subst h3
    rw [if_pos (by omega), if_pos (by omega), hv, if_neg (by omega), Nat.sub_self, show co + j - co = j by omega]
    rfl
  · rw [if_neg (by omega)]
    by_cases h4 : co ≤ p ∧ p < co + j
    · rw [if_pos h4, if_pos (by omega)]
    · rw [if_neg h4, if_neg (by omega)]

theorem rowQuad_step {v : Nat} {a : α} {b : List α} {bo co j : Nat} {c s : List α} (h : Upd a b bo c co j s)
    (hb : bo + (j + 4 * v) ≤ b.length) (hc : co + (j + 4 * v) ≤ c.length) :
    ∃ s', rowQuad v a b bo co j s = some s' ∧ Upd a b bo c co (j + 4 * v) s' := by
  obtain ⟨hl, hv⟩ := h
  obtain ⟨x0, ex0, hx0, hxv0⟩ := load_some (m := b) (i := bo + j) (n := v) (by omega)
  obtain ⟨x1, ex1, hx1, hxv1⟩ := load_some (m := b) (i := bo + (j + v)) (n := v) (by omega)
  obtain ⟨x2, ex2, hx2, hxv2⟩ := load_some (m := b) (i := bo + (j + 2 * v)) (n := v) (by omega)
  obtain ⟨x3, ex3, hx3, hxv3⟩ := load_some (m := b) (i := bo + (j + 3 * v)) (n := v) (by omega)
  obtain ⟨y0, ey0, hy0, hyv0⟩ := load_some (m := s) (i := co + j) (n := v) (by omega)
  obtain ⟨y1, ey1, hy1, hyv1⟩ := load_some (m := s) (i := co + (j + v)) (n := v) (by omega)
  obtain ⟨y2, ey2, hy2, hyv2⟩ := load_some (m := s) (i := co + (j + 2 * v)) (n := v) (by omega)
  obtain ⟨y3, ey3, hy3, hyv3⟩ := load_some (m := s) (i := co + (j + 3 * v)) (n := v) (by omega)
  obtain ⟨s0, e0, l0, g0⟩ := zip_store (a := a) (b := b) (c := s) hx0 hy0 hxv0 hyv0 (s := s) (by omega)
  obtain ⟨s1, e1, l1, g1⟩ := zip_store (a := a) (b := b) (c := s) hx1 hy1 hxv1 hyv1 (s := s0) (by omega)
  obtain ⟨s2, e2, l2, g2⟩ := zip_store (a := a) (b := b) (c := s) hx2 hy2 hxv2 hyv2 (s := s1) (by omega)
  obtain ⟨s3, e3, l3, g3⟩ := zip_store (a := a) (b := b) (c := s) hx3 hy3 hxv3 hyv3 (s := s2) (by omega)
  refine ⟨s3, by simp [rowQuad, ex0, ex1, ex2, ex3, ey0, ey1, ey2, ey3, e0, e1, e2, e3], by omega, fun p => ?_⟩
  rw [g3, g2, g1, g0, hv]
  by_cases h0 : co + j ≤ p ∧ p < co + j + v
  · rw [if_neg (by omega), if_neg (by omega), if_neg (by omega), if_pos h0, if_neg (by omega), if_pos (by omega)]
    congr 3; omega
  by_cases h1 : co + (j + v) ≤ p ∧ p < co + (j + v) + v
  · rw [if_neg (by omega), if_neg (by omega), if_pos h1, if_neg (by omega), if_pos (by omega)]
    congr 3; omega
  by_cases h2 : co + (j + 2 * v) ≤ p ∧ p < co + (j + 2 * v) + v
  · rw [if_neg (by omega), if_pos h2, if_neg (by omega), if_pos (by omega)]
    congr 3; omega
  by_cases h3 : co + (j + 3 * v) ≤ p ∧ p < co + (j + 3 * v) + v
  · rw [if_pos h3, if_neg (by omega), if_pos (by omega)]
    congr 3; omega
  rw [if_neg h3, if_neg h2, if_neg h1, if_neg h0]
  by_cases h4 : co ≤ p ∧ p < co + j
  · rw [if_pos h4, if_pos (by omega)]
  · rw [if_neg h4, if_neg (by omega)]

theorem rowPlain_upd {n : Nat} {a : α} {b : List α} {bo co : Nat} {c : List α}
    (hb : bo + n ≤ b.length) (hc : co + n ≤ c.length) :
    ∃ c', rowPlain n a b bo c co = some c' ∧ Upd a b bo c co n c' := by
  obtain ⟨s', e, h⟩ := rowVec_step (v := n) (upd_zero a b bo c co) (by omega) (by omega)
  rw [Nat.zero_add] at h
  exact ⟨s', by simpa [rowPlain, rowVec] using e, h⟩

theorem rowSimd_upd {v n : Nat} {a : α} {b : List α} {bo co : Nat} {c : List α} (hv : 0 < v)
    (hb : bo + n ≤ b.length) (hc : co + n ≤ c.length) :
    ∃ c', rowSimd v n a b bo c co = some c' ∧ Upd a b bo c co n c' := by
  obtain ⟨j1, s1, e1, ⟨u1, b1⟩, _⟩ := loop_inv (go := fun j => decide (j + 4 * v ≤ n)) (step := 4 * v)
    (body := rowQuad v a b bo co) n (fun j s => Upd a b bo c co j s ∧ j ≤ n) (by omega)
    (fun j h => by have : j + 4 * v ≤ n := by simpa using h
                   omega)
    (fun j s h ⟨u, _⟩ => by
      have h : j + 4 * v ≤ n := by simpa using h
      obtain ⟨s', e, u'⟩ := rowQuad_step (v := v) u (by omega) (by omega)
      exact ⟨s', e, u', h⟩) n 0 c (by omega) ⟨upd_zero _ _ _ _ _, by omega⟩
  obtain ⟨j2, s2, e2, ⟨u2, b2⟩, _⟩ := loop_inv (go := fun j => decide (j + v ≤ n)) (step := v)
    (body := rowVec v a b bo co) n (fun j s => Upd a b bo c co j s ∧ j ≤ n) hv
    (fun j h => by have : j + v ≤ n := by simpa using h
                   omega)
    (fun j s h ⟨u, _⟩ => by
      have h : j + v ≤ n := by simpa using h
      obtain ⟨s', e, u'⟩ := rowVec_step (v := v) u (by omega) (by omega)
      exact ⟨s', e, u', h⟩) n j1 s1 (by omega) ⟨u1, b1⟩
  obtain ⟨j3, s3, e3, ⟨u3, b3⟩, g3⟩ := loop_inv (go := fun j => decide (j < n)) (step := 1)
    (body := rowOne a b bo co) n (fun j s => Upd a b bo c co j s ∧ j ≤ n) Nat.one_pos
    (fun j h => by simpa using h)
    (fun j s h ⟨u, _⟩ => by
      have h : j < n := by simpa using h
      obtain ⟨s', e, u'⟩ := rowOne_step u (by omega) (by omega)
      exact ⟨s', e, u', h⟩) n j2 s2 (by omega) ⟨u2, b2⟩
  have g3 : ¬ j3 < n := by simpa using g3
  obtain rfl : j3 = n := by omega
  exact ⟨s3, by simp [rowSimd, e1, e2, e3], u3⟩

theorem rowUpdate_upd {v n : Nat} {a : α} {b : List α} {bo co : Nat} {c : List α} (hv : 0 < v)
    (hb : bo + n ≤ b.length) (hc : co + n ≤ c.length) :
    ∃ c', rowUpdate v n a b bo c co = some c' ∧ Upd a b bo c co n c' := by
  unfold rowUpdate
  split
  · exact rowSimd_upd hv hb hc
  · exact rowPlain_upd hb hc

end

end Verif.Gemm
