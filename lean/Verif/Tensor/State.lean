import Verif.Tensor.Lemmas

namespace Verif.Tensor

variable {α : Type}

/-- Shape, strides and number of elements agree. -/
structure Good (t : Ten α) : Prop where
  ext8 : t.sh.ext.length = 8
  str8 : t.sh.str.length = 8
  rank8 : t.sh.rank ≤ 8
  strides : t.sh.strides = stridesOf t.sh.extents
  size : if t.sh.rank = 0 then t.items.length ≤ 1 else t.items.length = count t.sh.extents

/-- Shape and elements of a tensor. -/
abbrev Ten.arr (t : Ten α) : Arr α := ⟨t.sh.extents, t.items⟩

theorem extents_length {m : Meta} (h : m.ext.length = 8) (hr : m.rank ≤ 8) : m.extents.length = m.rank := by
  rw [Meta.extents, List.length_take]; omega

theorem Good.length {t : Ten α} (h : Good t) : t.sh.extents.length = t.sh.rank := extents_length h.ext8 h.rank8

theorem Good.rank0 {t : Ten α} (h : Good t) : t.sh.extents = [] ↔ t.sh.rank = 0 := by
  rw [← h.length]; simp

theorem Good.count {t : Ten α} (h : Good t) (h0 : t.sh.rank ≠ 0) : t.items.length = count t.sh.extents := by
  have := h.size; rwa [if_neg h0] at this

theorem recompute_extents (m : Meta) : m.recompute.extents = m.extents := rfl

theorem recompute_str8 {m : Meta} (h : m.ext.length = 8) (hs : m.str.length = 8) (hr : m.rank ≤ 8) :
    m.recompute.str.length = 8 := by
  simp only [Meta.recompute, List.length_append, stridesOf_length, extents_length h hr, List.length_drop]
  omega

theorem recompute_strides {m : Meta} (h : m.ext.length = 8) (hr : m.rank ≤ 8) :
    m.recompute.strides = stridesOf m.recompute.extents := by
  rw [recompute_extents]
  simp only [Meta.strides, Meta.recompute]
  rw [List.take_left' (by rw [stridesOf_length, extents_length h hr])]

theorem good_recompute {m : Meta} {xs : List α} {c : Nat} (h : m.ext.length = 8) (hs : m.str.length = 8) (hr : m.rank ≤ 8)
    (hz : if m.rank = 0 then xs.length ≤ 1 else xs.length = Verif.Tensor.count m.extents) : Good ⟨m.recompute, xs, c⟩ :=
  ⟨h, recompute_str8 h hs hr, hr, recompute_strides h hr, hz⟩

theorem overwrite_take (es arr : List Nat) : (overwrite es arr).take es.length = es := by
  simp [overwrite]

theorem overwrite_length {es arr : List Nat} (h : es.length ≤ 8) (ha : arr.length = 8) : (overwrite es arr).length = 8 := by
  simp [overwrite]; omega

theorem zeros_length : zeros.length = 8 := rfl

theorem good_shape {es ext str : List Nat} {xs : List α} {c : Nat} (h : es.length ≤ 8) (he : ext.length = 8) (hs : str.length = 8)
    (hz : if es = [] then xs.length ≤ 1 else xs.length = Verif.Tensor.count es) :
    Good (⟨(Meta.mk es.length (overwrite es ext) str).recompute, xs, c⟩ : Ten α) ∧
    (⟨(Meta.mk es.length (overwrite es ext) str).recompute, xs, c⟩ : Ten α).arr = ⟨es, xs⟩ := by
  have e : (Meta.mk es.length (overwrite es ext) str).extents = es := overwrite_take es ext
  refine ⟨good_recompute (overwrite_length h he) hs h ?_, ?_⟩
  · rw [e]; simpa using hz
  · show Arr.mk (Meta.mk es.length (overwrite es ext) str).extents xs = _
    rw [e]

theorem Good.new : Good (Ten.new : Ten α) := ⟨rfl, rfl, by simp [Ten.new], rfl, by simp [Ten.new]⟩

theorem valid_iff {s i : List Nat} : Valid s i ↔ i.length = s.length ∧ (i.zip s).all (fun p => decide (p.1 < p.2)) = true := by
  induction s generalizing i with
  | nil => cases i <;> simp [Valid]
  | cons e es ih =>
    cases i with
    | nil => simp [Valid]
    | cons a b => simp [Valid, ih]; constructor <;> (rintro ⟨h1, h2, h3⟩; exact ⟨h2, h1, h3⟩)

/-- Access in bounds, by as many indices as dimensions. -/
theorem inBounds_iff {size : Nat} {s i : List Nat} (hl : i.length = s.length) (hs : size = count s) :
    inBounds size s.length s i = true ↔ Valid s i := by
  unfold inBounds
  split
  · rename_i h1
    match i, s, h1, hl with
    | [a], [e], _, _ => simp [Valid, hs, count]
  · rw [valid_iff]; simp [hl]

theorem indexOf_place {s i : List Nat} (h : Valid s i) : indexOf (stridesOf s) i = place s i := by
  match i, s, h with
  | [], s, h => exact dot_strides h
  | [a], [e], h => simp [indexOf, place, count]
  | a :: b :: c, s, h => exact dot_strides h

theorem fetch_lt {xs : List α} {n : Nat} (h : n < xs.length) : fetch xs n = .val xs[n] := by
  simp [fetch, h]

theorem Good.at {t : Ten α} (h : Good t) (h0 : t.sh.rank ≠ 0) {idx : List Nat} (hv : Valid t.sh.extents idx) :
    ∃ x, t.items[place t.sh.extents idx]? = some x ∧ t.at idx = .val x := by
  have hp := place_lt hv
  rw [← h.count h0] at hp
  refine ⟨t.items[place t.sh.extents idx], by simp [hp], ?_⟩
  have hb := (inBounds_iff hv.length (h.count h0)).2 hv
  rw [h.length] at hb
  rw [Ten.at, if_pos hb, h.strides, indexOf_place hv, fetch_lt hp]

theorem map_fetch (xs : List α) : (List.range xs.length).map (fetch xs) = xs.map .val := by
  apply List.ext_getElem?
  intro n
  by_cases hn : n < xs.length
  · simp [List.getElem?_range hn, fetch_lt hn, hn]
  · simp [Nat.le_of_not_lt hn]

theorem Good.elements {t : Ten α} (h : Good t) : t.view.elements = t.items.map .val := by
  rw [← map_fetch]
  apply List.map_congr_left
  intro n hn
  have hn := List.mem_range.1 hn
  by_cases h0 : t.sh.rank = 0
  · have hs := h.size
    rw [if_pos h0] at hs
    have hn : n < t.items.length := hn
    have e : t.sh.extents = [] := h.rank0.2 h0
    have : n = 0 := by omega
    subst this
    simp [View.deref, Ten.view, e, coords, dot]
  · have hc := h.count h0
    have hn : n < Verif.Tensor.count t.sh.extents := hc ▸ hn
    simp only [View.deref, Ten.view, any_zero]
    rw [if_neg (by simp; omega), h.strides, dot_strides (coords_valid hn), place_coords hn, Nat.zero_add]

theorem Good.shows {t : Ten α} (h : Good t) : Shows t t.arr := by
  refine ⟨rfl, rfl, fun h0 idx hv => ?_, h.elements⟩
  have h0 : t.sh.rank ≠ 0 := fun hr => h0 (h.rank0.2 hr)
  obtain ⟨x, h1, h2⟩ := h.at h0 hv
  have hv' : Valid t.arr.shape idx := hv
  exact ⟨x, by rw [Arr.get?, if_pos hv']; exact h1, h2⟩

/-- Giving the first dimension another extent keeps the places of the elements. -/
theorem grow_first [Inhabited α] {e n : Nat} {es : List Nat} {xs : List α} (h : xs.length = count (e :: es)) (c : Nat) :
    (vecResize xs c (count (n :: es))).1
      = (indices (n :: es)).map fun idx => ((Arr.mk (e :: es) xs).get? idx).getD default := by
  have hv : ∀ idx, Valid (n :: es) idx → ((Arr.mk (e :: es) xs).get? idx) = xs[place (n :: es) idx]? := by
    intro idx hi
    match idx, hi with
    | a :: b, hi =>
      simp only [Arr.get?]
      by_cases ha : a < e
      · rw [if_pos (show Valid (e :: es) (a :: b) from ⟨ha, hi.2⟩)]; rfl
      · rw [if_neg (fun x : Valid (e :: es) (a :: b) => ha x.1), eq_comm]
        apply List.getElem?_eq_none
        rw [h]
        have h1 : e * count es ≤ a * count es := Nat.mul_le_mul_right _ (by omega)
        simp only [place, count]
        omega
  have hm : ((indices (n :: es)).map fun idx => ((Arr.mk (e :: es) xs).get? idx).getD default)
      = (List.range (count (n :: es))).map fun k => xs[k]?.getD default := by
    rw [← indices_place, List.map_map]
    apply List.map_congr_left
    intro idx hi
    rw [hv idx (mem_indices.1 hi)]; rfl
  rw [hm]
  unfold vecResize
  apply List.ext_getElem?
  intro k
  by_cases hk : k < count (n :: es)
  · rw [List.getElem?_map, List.getElem?_range hk]
    split
    · rename_i hle
      have : k < xs.length := by omega
      simp [hk, this]
    · rename_i hle
      simp only [List.getElem?_append, List.getElem?_replicate, Option.map_some]
      by_cases hx : k < xs.length
      · simp [hx]
      · rw [if_neg hx, if_pos (by omega)]
        simp [Nat.le_of_not_lt hx]
  · rw [List.getElem?_map, List.getElem?_eq_none (l := List.range _) (by simp; omega)]
    split
    · simp; omega
    · simp; omega

theorem set_same {l : List Nat} {d n : Nat} (h : l[d]? = some n) : l.set d n = l := by
  apply List.ext_getElem?
  intro i
  rw [List.getElem?_set]
  split
  · rename_i hd; subst hd
    obtain ⟨hl, _⟩ := List.getElem?_eq_some_iff.1 h
    rw [if_pos hl, h]
  · rfl

theorem all_elems [Inhabited α] {s : List Nat} {xs : List α} (h : xs.length = count s) :
    ((indices s).map fun idx => ((Arr.mk s xs).get? idx).getD default) = xs := by
  have : ((indices s).map fun idx => ((Arr.mk s xs).get? idx).getD default)
      = ((indices s).map fun i => xs[place s i]?).map (Option.getD · default) := by
    rw [List.map_map]
    apply List.map_congr_left
    intro i hi
    simp only [Arr.get?, Function.comp]
    rw [if_pos (show Valid s i from mem_indices.1 hi)]
  rw [this, indices_elems h, List.map_map]
  simp [Function.comp_def]

theorem getElem?_extents {m : Meta} {d : Nat} (hd : d < m.rank) : m.extents[d]? = m.ext[d]? := by
  rw [Meta.extents, List.getElem?_take, if_pos hd]

theorem count_take_le {es : List Nat} (h : Small es) : count es < 2 ^ 64 := by
  have := h es.length (Nat.le_refl _)
  rwa [List.take_length] at this

theorem modify_cons (e : Nat) (es : List Nat) (f : Nat → Nat) : (e :: es).modify 0 f = f e :: es := rfl

/-- A sound operation does what it should. -/
theorem step_good [Inhabited α] {t : Ten α} (h : Good t) {o : Op α} (hs : Sound t.arr o) :
    match t.arr.step o with
    | some b => ∃ u, t.step o = .ok u ∧ Good u ∧ u.arr = b
    | none => t.step o = .threw t := by
  have h8 := h.ext8
  have hs8 := h.str8
  have hr8 := h.rank8
  have hlen := h.length
  cases o with
  | fill x =>
    refine ⟨t.fill x, rfl, ⟨h8, hs8, hr8, h.strides, ?_⟩, ?_⟩
    · have := h.size; simpa [Ten.fill] using this
    · simp [Ten.fill, Ten.arr, List.map_const']
  | clear => exact ⟨t.clear, rfl, ⟨rfl, hs8, by simp [Ten.clear], rfl, by simp [Ten.clear]⟩, rfl⟩
  | resizeDim d n =>
    simp only [Arr.step, Ten.arr, Ten.step, Ten.resizeDim]
    by_cases hd : d < t.sh.rank
    · rw [if_pos (by omega : d < t.sh.extents.length), if_neg (by omega : ¬ t.sh.rank ≤ d)]
      have h0 : t.sh.rank ≠ 0 := by omega
      by_cases hn : t.sh.ext[d]? = some n
      · have hn' : t.sh.extents[d]? = some n := by rw [getElem?_extents hd, hn]
        have hc : count t.sh.extents < 2 ^ 64 := by
          rcases hs with ⟨h1, h2⟩ | h1 | ⟨_, h2⟩
          · have := count_take_le h2
            rwa [set_same (by exact hn')] at this
          · have : t.sh.extents.length ≤ d := h1
            omega
          · exact h2
        rw [set_same hn', if_pos hc, if_pos hn]
        exact ⟨t, rfl, h, by rw [all_elems (h.count h0)]⟩
      · have hsm : d = 0 ∧ Small (t.sh.extents.set d n) := by
          rcases hs with h1 | h1 | ⟨h1, _⟩
          · exact h1
          · have : t.sh.extents.length ≤ d := h1
            omega
          · rw [Ten.arr, getElem?_extents hd] at h1
            exact absurd h1 hn
        obtain ⟨rfl, hsm⟩ := hsm
        rw [if_pos (count_take_le hsm), if_neg hn]
        have e : { t.sh with ext := t.sh.ext.set 0 n }.extents = t.sh.extents.set 0 n := by
          simp only [Meta.extents]
          rw [List.take_set]
        rw [e, product_small hsm]
        have hc := h.count h0
        match he : t.sh.extents, hc with
        | [], _ => rw [he] at hlen; simp at hlen; omega
        | f :: fs, hc =>
          rw [he] at e
          refine ⟨_, rfl, good_recompute (by simpa using h8) hs8 hr8 ?_, ?_⟩
          · rw [if_neg h0, e, List.set_cons_zero, grow_first hc, List.length_map, indices_length]
          · simp only [recompute_extents]
            rw [e, List.set_cons_zero, grow_first hc]
    · rw [if_neg (by omega : ¬ d < t.sh.extents.length), if_pos (by omega : t.sh.rank ≤ d)]
  | resize es x =>
    simp only [Arr.step, Ten.arr, Ten.step, Ten.resize]
    by_cases he : es = []
    · rw [if_pos he, if_pos he]
      exact ⟨t.clear, rfl, ⟨rfl, hs8, by simp [Ten.clear], rfl, by simp [Ten.clear]⟩, rfl⟩
    · rw [if_neg he, if_neg he, if_pos (count_take_le hs.2), product_small hs.2]
      dsimp only
      have hl : es.length ≤ 8 := hs.1
      rw [if_neg (by simp [maxRank]; omega)]
      have := good_shape (xs := List.replicate (count es) x)
        (c := if (List.replicate (count es) x).length ≤ t.cap then t.cap else (List.replicate (count es) x).length) hl h8 hs8
        (by rw [if_neg he]; simp)
      exact ⟨_, rfl, this.1, this.2⟩
  | reshape es =>
    simp only [Arr.step, Ten.arr, Ten.step, Ten.reshape, product_small hs.2]
    by_cases hc : count es = t.items.length
    · rw [if_pos hc, if_neg (by simp [hc])]
      have hl : es.length ≤ 8 := hs.1
      rw [if_neg (by simp [maxRank]; omega)]
      have := good_shape (xs := t.items) (c := t.cap) hl h8 hs8 (by
        split
        · rename_i he; subst he; simp [count] at hc; omega
        · exact hc.symm)
      exact ⟨_, rfl, this.1, this.2⟩
    · rw [if_neg hc, if_pos (by simpa using hc)]
  | set xs =>
    simp only [Arr.step, Ten.arr, Ten.step, Ten.set]
    by_cases h0 : t.sh.rank = 0
    · rw [if_pos (h.rank0.2 h0), if_pos h0]
      have := good_shape (es := [xs.length]) (xs := xs) (c := if xs.length ≤ t.cap then t.cap else xs.length) (by simp) h8 hs8
        (by simp [count])
      exact ⟨_, rfl, this.1, this.2⟩
    · rw [if_neg (fun x => h0 (h.rank0.1 x)), if_neg h0]
      by_cases hx : xs.length = t.items.length
      · rw [if_pos hx, if_neg (by simp [hx])]
        refine ⟨_, rfl, ⟨h8, hs8, hr8, h.strides, ?_⟩, rfl⟩
        rw [if_neg h0]
        exact hx.trans (h.count h0)
      · rw [if_neg hx, if_pos hx]
  | assign xs =>
    simp only [Arr.step, Ten.arr, Ten.step, Ten.assign]
    have h0 : t.sh.rank ≠ 0 := fun x => hs (h.rank0.2 x)
    rw [if_neg (fun x => h0 (h.rank0.1 x)), if_neg h0]
    by_cases hx : xs.length = t.items.length
    · rw [if_pos hx, if_neg (by simp [hx])]
      refine ⟨_, rfl, ⟨h8, hs8, hr8, h.strides, ?_⟩, rfl⟩
      rw [if_neg h0]
      exact hx.trans (h.count h0)
    · rw [if_neg hx, if_pos hx]
  | assignN n x =>
    have := good_shape (es := [n]) (xs := List.replicate n x)
      (c := if (List.replicate n x).length ≤ t.cap then t.cap else (List.replicate n x).length) (by simp) h8 hs8
      (by simp [count])
    exact ⟨_, rfl, this.1, this.2⟩
  | pushCopy x =>
    refine ⟨t.pushCopy x, rfl, ?_⟩
    by_cases h1 : 1 < t.sh.rank
    · simp only [Ten.pushCopy, if_pos h1]
      refine ⟨⟨rfl, ?_, by simp [Meta.recompute, Meta.grow], ?_, ?_⟩, ?_⟩
      · exact recompute_str8 (m := ⟨1, t.items.length :: List.replicate (maxRank - 1) 0, t.sh.str⟩) rfl hs8 (by simp)
      · simp [Meta.grow, Meta.recompute, Meta.strides, Meta.extents, stridesOf]
      · simp [Meta.grow, Meta.recompute, Meta.extents, count]
      · simp [Meta.grow, Meta.recompute, Meta.extents, Ten.arr]
    · by_cases h0 : t.sh.rank = 0
      · have hi : t.items = [] := by
          rcases hs with h2 | h2
          · exact absurd (h.rank0.2 h0) h2
          · exact h2
        match he : t.sh.ext, h8 with
        | e :: es, h8 =>
          simp only [Ten.pushCopy, h0, he, hi]
          refine ⟨⟨by simpa [Meta.recompute, Meta.grow] using h8, ?_, by simp [Meta.recompute, Meta.grow], ?_, ?_⟩, ?_⟩
          · exact recompute_str8 (m := ⟨1, 0 :: es, t.sh.str⟩) (by simpa using h8) hs8 (by simp)
          · simp [Meta.grow, Meta.recompute, Meta.strides, Meta.extents, stridesOf]
          · simp [Meta.grow, Meta.recompute, Meta.extents, count]
          · simp [Meta.grow, Meta.recompute, Meta.extents, Ten.arr, hi]
      · have hr : t.sh.rank = 1 := by omega
        match he : t.sh.ext, h8 with
        | e :: es, h8 =>
          have hc := h.count h0
          simp only [Meta.extents, he, hr, List.take_succ_cons, List.take_zero, count, Nat.mul_one] at hc
          have hm : t.sh = ⟨1, e :: es, t.sh.str⟩ := by rw [← hr, ← he]
          simp only [Ten.pushCopy, if_neg h1, if_neg h0]
          rw [hm]
          refine ⟨⟨by simpa [Meta.recompute, Meta.grow] using h8, ?_, by simp [Meta.recompute, Meta.grow], ?_, ?_⟩, ?_⟩
          · exact recompute_str8 (m := ⟨1, e :: es, t.sh.str⟩) (by simpa using h8) hs8 (by simp)
          · simp [Meta.grow, Meta.recompute, Meta.strides, Meta.extents, stridesOf]
          · simp [Meta.grow, Meta.recompute, Meta.extents, count, hc]
          · simp [Meta.grow, Meta.recompute, Meta.extents, Ten.arr, hc]
  | pushMove x =>
    have hr : t.sh.rank = 1 := by rw [← hlen]; exact hs
    match he : t.sh.ext, h8, hst : t.sh.str, hs8 with
    | e :: es, h8, s :: ss, hs8 =>
      have hc := h.count (by omega)
      have hst' := h.strides
      have hm : t.sh = ⟨1, e :: es, s :: ss⟩ := by rw [← hr, ← he, ← hst]
      rw [hm] at hc hst'
      simp [Meta.extents, count] at hc
      simp [Meta.extents, Meta.strides, stridesOf] at hst'
      refine ⟨t.pushMove x, rfl, ?_⟩
      simp only [Ten.pushMove, hm]
      refine ⟨⟨by simpa [Meta.grow] using h8, by simpa [Meta.grow] using hs8, by simp [Meta.grow], ?_, ?_⟩, ?_⟩
      · simp [Meta.grow, Meta.strides, Meta.extents, stridesOf, hst']
      · simp [Meta.grow, Meta.extents, count, hc]
      · simp [Meta.grow, Meta.extents, Ten.arr, hc]
  | emplace x =>
    have hr : t.sh.rank = 1 := by rw [← hlen]; exact hs
    match he : t.sh.ext, h8, hst : t.sh.str, hs8 with
    | e :: es, h8, s :: ss, hs8 =>
      have hc := h.count (by omega)
      have hst' := h.strides
      have hm : t.sh = ⟨1, e :: es, s :: ss⟩ := by rw [← hr, ← he, ← hst]
      rw [hm] at hc hst'
      simp [Meta.extents, count] at hc
      simp [Meta.extents, Meta.strides, stridesOf] at hst'
      refine ⟨t.emplace x, rfl, ?_⟩
      simp only [Ten.emplace, hm, vecEmplace]
      refine ⟨⟨by simpa [Meta.grow] using h8, by simpa [Meta.grow] using hs8, by simp [Meta.grow], ?_, ?_⟩, ?_⟩
      · simp [Meta.grow, Meta.strides, Meta.extents, stridesOf, hst']
      · simp [Meta.grow, Meta.extents, count, hc]
      · simp [Meta.grow, Meta.extents, Ten.arr, hc]
  | pop =>
    simp only [Arr.step, Ten.arr, Ten.step, Ten.pop]
    by_cases hi : t.items = []
    · rw [if_pos hi, if_pos hi]
    · rw [if_neg hi, if_neg hi]
      by_cases h0 : t.sh.rank = 0
      · rw [if_pos h0, h.rank0.2 h0]
        refine ⟨_, rfl, ⟨h8, hs8, hr8, h.strides, ?_⟩, ?_⟩
        · have := h.size
          rw [if_pos h0] at this
          rw [if_pos h0]; simp; omega
        · simp [h.rank0.2 h0]
      · have hr : t.sh.rank = 1 := by
          have : t.sh.extents.length ≤ 1 := hs
          omega
        rw [if_neg h0, if_pos hr, if_neg (fun x => h0 (h.rank0.1 x))]
        match he : t.sh.ext, h8, hst : t.sh.str, hs8 with
        | e :: es, h8, s :: ss, hs8 =>
          have hc := h.count (by omega)
          have hst' := h.strides
          have hm : t.sh = ⟨1, e :: es, s :: ss⟩ := by rw [← hr, ← he, ← hst]
          rw [hm] at hc hst'
          simp [Meta.extents, count] at hc
          simp [Meta.extents, Meta.strides, stridesOf] at hst'
          refine ⟨_, rfl, ?_⟩
          rw [hm]
          dsimp only
          rw [modify_cons]
          by_cases hz : e - 1 = 0
          · have : (((e - 1) :: es)[0]? = some 0) := by simp [hz]
            rw [if_pos this]
            refine ⟨⟨rfl, by simpa using hs8, by simp, ?_, ?_⟩, ?_⟩
            · simp [Meta.strides, Meta.extents, stridesOf, hst', zeros, maxRank]
            · simp [Meta.extents, count, hc, zeros, maxRank]; omega
            · simp [Meta.extents, zeros, maxRank, hc]; omega
          · have : ¬ (((e - 1) :: es)[0]? = some 0) := by simp; omega
            rw [if_neg this]
            refine ⟨⟨by simpa using h8, by simpa using hs8, by simp, ?_, ?_⟩, ?_⟩
            · simp [Meta.strides, Meta.extents, stridesOf, hst']
            · simp [Meta.extents, count, hc]
            · simp [Meta.extents, hc]

end Verif.Tensor
