import Verif.Tensor.ViewLemmas
import Verif.Tensor.Props

/- C79: what a program sees of views. -/
namespace Verif.Tensor

variable {α : Type}

/-- C79: a view of any extents and strides, with as many elements as it has indices, gives the elements of its indices in
order. -/
theorem iteration_order (v : View α) (hs : v.size = count v.ext) :
    v.elements = (indices v.ext).map fun i => fetch v.mem (v.off + dot i v.str) := by
  rw [View.elements, hs, ← coords_range, List.map_map]
  apply List.map_congr_left
  intro n hn
  have hn := List.mem_range.1 hn
  rw [View.deref, any_zero, if_neg (by simp; omega)]; rfl

example : (View.mk [1, 2, 3, 4, 5, 6] 1 [2, 2] [3, 1] 4).elements = [.val 2, .val 3, .val 5, .val 6] := by
  rw [iteration_order _ rfl]; decide

theorem known_at {t : Ten α} (hg : Good t) (h0 : t.sh.extents ≠ []) {v : View α} {s : List Nat} {f : List Nat → List Nat}
    (h : Derived t v s f) {i : List Nat} (hi : Valid s i) :
    v.at i = t.at (f i) ∧ fetch v.mem (v.off + dot i v.str) = t.at (f i) := by
  have k := h.known hg
  obtain ⟨h1, h2⟩ := k.lin i hi
  obtain ⟨x, h3, h4⟩ := hg.at (fun e => h0 (hg.rank0.2 e)) h1
  have hf : fetch v.mem (v.off + dot i v.str) = t.at (f i) := by
    rw [h4, k.mem, h2, fetch, h3]
  refine ⟨?_, hf⟩
  have hb : inBounds v.size v.ext.length v.ext i = true := by
    rw [k.ext]; exact (inBounds_iff hi.length (k.size h0)).2 hi
  have hx : indexOf v.str i = dot i v.str := by
    match i, s, hi, k with
    | [], _, _, _ => rfl
    | [a], [e], _, k => rw [k.one rfl]; simp [indexOf, dot]
    | a :: b :: c, _, _, _ => rfl
  rw [View.at, if_pos hb, hx, hf]

/-- C79: a view obtained from a tensor by slicing and transposing any number of times has the shape it should have; the
element at an index is the tensor's element at the index it stands for, different indices stand for different
elements; and going through the view gives its elements in order. Nothing outside the tensor is read. -/
theorem derived_view [Inhabited α] {os : List (Op α)} (hs : AllSound ⟨[], []⟩ os) {t : Ten α} {fs : List Bool}
    (hr : (Ten.new : Ten α).run os = some (t, fs)) (h0 : ((Arr.mk [] []).run os).1.shape ≠ [])
    {v : View α} {s : List Nat} {f : List Nat → List Nat} (h : Derived t v s f) :
    v.ext = s ∧
    (∀ i, Valid s i → Valid ((Arr.mk [] []).run os).1.shape (f i) ∧ v.at i = t.at (f i) ∧
      ∃ x, ((Arr.mk [] []).run os).1.get? (f i) = some x ∧ v.at i = .val x) ∧
    (∀ i j, Valid s i → Valid s j → f i = f j → i = j) ∧
    v.elements = (indices s).map fun i => t.at (f i) := by
  obtain ⟨hg, ha⟩ := reached_good hs hr
  rw [← ha] at h0 ⊢
  have k := h.known hg
  refine ⟨k.ext, fun i hi => ?_, k.inj, ?_⟩
  · obtain ⟨h1, -⟩ := k.lin i hi
    obtain ⟨e, -⟩ := known_at hg h0 h hi
    obtain ⟨x, h2, h3⟩ := hg.shows.2.2.1 h0 (f i) h1
    exact ⟨h1, e, x, h2, by rw [e, h3]⟩
  · rw [iteration_order v (by rw [k.ext]; exact k.size h0), k.ext]
    apply List.map_congr_left
    intro i hi
    exact (known_at hg h0 h (mem_indices.1 hi)).2

/-- The tensor 1 2 3, 4 5 6. -/
def example2 : List (Op Nat) := [.set [1, 2, 3, 4, 5, 6], .reshape [2, 3]]

/-- The last two columns, transposed: 2 5, 3 6. -/
example : ∃ t v w, (Ten.new : Ten Nat).run example2 = some (t, [false, false]) ∧ AllSound ⟨[], []⟩ example2 ∧
    t.view.slice [(0, 2), (1, 3)] = some v ∧ v.transpose [1, 0] = some w ∧
    Derived t w [2, 2] (fun i => shift [(0, 2), (1, 3)] (unpermute [1, 0] i)) ∧
    w.elements = [.val 2, .val 5, .val 3, .val 6] :=
  ⟨_, _, _, rfl, by decide, rfl, rfl,
    (Derived.whole.slice [(0, 2), (1, 3)] (by simp [RangesOk, Meta.extents, Meta.recompute, overwrite, zeros, maxRank]) rfl).transpose [1, 0]
      (by decide) rfl, by decide⟩

theorem small_of_count {es : List Nat} (h : count es < 2 ^ 64) (h0 : count es ≠ 0) : Small es := by
  have hle : ∀ (es : List Nat) (k : Nat), count es ≠ 0 → count (es.take k) ≤ count es := by
    intro es
    induction es with
    | nil => intro k _; simp
    | cons e es ih =>
      intro k h0
      simp only [count] at h0
      have he : e ≠ 0 := fun h => h0 (by simp [h])
      have hc : count es ≠ 0 := fun h => h0 (by simp [h])
      cases k with
      | zero =>
        have : 0 < e * count es := Nat.pos_of_ne_zero h0
        simp only [List.take_zero, count]; omega
      | succ k =>
        simp only [List.take_succ_cons, count]
        exact Nat.mul_le_mul_left _ (ih k hc)
  intro k _
  exact Nat.lt_of_le_of_lt (hle es k h0) h

theorem make_exists {mem : List α} {off : Nat} {ext str : List Nat} (h : count ext < 2 ^ 64) (h0 : count ext ≠ 0) :
    ∃ w, View.make mem off ext str = some w := by
  unfold View.make
  rw [product_small (small_of_count h h0)]
  exact ⟨_, rfl⟩

theorem count_append (a b : List Nat) : count (a ++ b) = count a * count b := by
  induction a with
  | nil => simp [count]
  | cons e es ih => simp [count, ih, Nat.mul_assoc]

theorem count_perm {a b : List Nat} (h : a.Perm b) : count a = count b := by
  induction h with
  | nil => rfl
  | cons x _ ih => simp [count, ih]
  | swap x y l => simp [count, Nat.mul_left_comm]
  | trans _ _ ih1 ih2 => exact ih1.trans ih2

theorem count_slice_le {rs : List (Nat × Nat)} {es : List Nat} (hr : RangesOk rs es) : count (sliceShape rs es) ≤ count es := by
  induction es generalizing rs with
  | nil => cases rs with
    | nil => exact Nat.le_refl _
    | cons _ _ => exact hr.elim
  | cons e es ih => cases rs with
    | nil => exact Nat.le_refl _
    | cons r rs =>
      simp only [sliceShape, count]
      exact Nat.mul_le_mul (by have := hr.2.1; omega) (ih hr.2.2)

/-- C79: slicing and transposing do not throw as long as the result has elements. -/
theorem views_exist [Inhabited α] {os : List (Op α)} (hs : AllSound ⟨[], []⟩ os) {t : Ten α} {fs : List Bool}
    (hr : (Ten.new : Ten α).run os = some (t, fs)) {v : View α} {s : List Nat} {f : List Nat → List Nat} (h : Derived t v s f)
    (hc : count s < 2 ^ 64) :
    (∀ rs, RangesOk rs s → count (sliceShape rs s) ≠ 0 → ∃ w, v.slice rs = some w) ∧
    (count s ≠ 0 → (∃ w, v.reverse = some w) ∧ ∀ axes, axes.Perm (List.range s.length) → ∃ w, v.transpose axes = some w) := by
  obtain ⟨hg, -⟩ := reached_good hs hr
  have k := h.known hg
  have hl : v.ext.length = v.str.length := by rw [k.ext]; exact k.len
  refine ⟨fun rs hrs h0 => ?_, fun h0 => ⟨?_, fun axes hp => ?_⟩⟩
  · have e := (sliceParts_shape hl (by rw [k.ext]; exact hrs)).1
    rw [k.ext] at e
    apply make_exists
    · rw [k.ext, e]; exact Nat.lt_of_le_of_lt (count_slice_le hrs) hc
    · rw [k.ext, e]; exact h0
  · have e := count_perm (List.reverse_perm s)
    apply make_exists
    · rw [k.ext, e]; exact hc
    · rw [k.ext, e]; exact h0
  · have e : count (axes.map fun a => s.getD a 0) = count s := by
      have h1 := count_perm (hp.map fun a => s.getD a 0)
      have h2 := map_getD_range s id
      simp only [id_eq, List.map_id_fun] at h2
      rw [h1, h2]
    apply make_exists
    · rw [k.ext, e]; exact hc
    · rw [k.ext, e]; exact h0

/-- Against the full claim: a tensor without elements can be made, but transposing it throws. -/
theorem empty_transpose_throws :
    ∃ t : Ten Nat, (Ten.new : Ten Nat).run [.resize [0, 2 ^ 40, 2 ^ 40] 0] = some (t, [false]) ∧ t.view.reverse = none :=
  ⟨_, rfl, rfl⟩

theorem allVals_map (xs : List α) : allVals (xs.map .val) = some xs := by
  induction xs with
  | nil => rfl
  | cons x xs ih => simp [allVals, ih]

theorem view_values {t : Ten α} (hg : Good t) (h0 : t.sh.extents ≠ []) {v : View α} {s : List Nat} {f : List Nat → List Nat}
    (h : Derived t v s f) : ∃ xs : List α, v.elements = xs.map .val ∧ xs.length = count s ∧
      ∀ i, Valid s i → ∃ x, (Arr.mk s xs).get? i = some x ∧ t.at (f i) = .val x := by
  have k := h.known hg
  have hv : v.elements = (indices s).map fun i => t.at (f i) := by
    rw [iteration_order v (by rw [k.ext]; exact k.size h0), k.ext]
    apply List.map_congr_left
    intro i hi
    exact (known_at hg h0 h (mem_indices.1 hi)).2
  let g : List Nat → Option α := fun i => t.items[place t.sh.extents (f i)]?
  have hgs : ∀ i, Valid s i → ∃ x, g i = some x ∧ t.at (f i) = .val x := fun i hi =>
    hg.at (fun e => h0 (hg.rank0.2 e)) (k.lin i hi).1
  refine ⟨(indices s).filterMap g, ?_, ?_, fun i hi => ?_⟩
  · rw [hv]
    have : ∀ l : List (List Nat), (∀ i ∈ l, Valid s i) → (l.map fun i => t.at (f i)) = (l.filterMap g).map .val := by
      intro l
      induction l with
      | nil => intro _; rfl
      | cons a b ih =>
        intro hl
        obtain ⟨x, h1, h2⟩ := hgs a (hl a (by simp))
        rw [List.map_cons, List.filterMap_cons, h1, h2, ih fun i hi => hl i (by simp [hi])]
        rfl
    exact this _ fun i hi => mem_indices.1 hi
  · rw [← indices_length]
    have : ∀ l : List (List Nat), (∀ i ∈ l, Valid s i) → (l.filterMap g).length = l.length := by
      intro l
      induction l with
      | nil => intro _; rfl
      | cons a b ih =>
        intro hl
        obtain ⟨x, h1, -⟩ := hgs a (hl a (by simp))
        rw [List.filterMap_cons, h1]
        simp [ih fun i hi => hl i (by simp [hi])]
    exact this _ fun i hi => mem_indices.1 hi
  · obtain ⟨x, h1, h2⟩ := hgs i hi
    refine ⟨x, ?_, h2⟩
    have hget : ∀ l : List (List Nat), (∀ i ∈ l, Valid s i) → (l.filterMap g).map some = l.map g := by
      intro l
      induction l with
      | nil => intro _; rfl
      | cons a b ih =>
        intro hl
        obtain ⟨x, h1, -⟩ := hgs a (hl a (by simp))
        rw [List.filterMap_cons, h1]
        simp [ih fun i hi => hl i (by simp [hi]), h1]
    have hall := hget (indices s) fun i hi => mem_indices.1 hi
    have hp := place_lt hi
    simp only [Arr.get?]
    rw [if_pos (show Valid s i from hi)]
    have h3 := congrArg (fun l => l[place s i]?) hall
    simp only [List.getElem?_map] at h3
    have h4 : (indices s)[place s i]? = some i := by
      rw [← coords_range, List.getElem?_map, List.getElem?_range hp, Option.map_some, coords_place hi]
    rw [h4, Option.map_some, h1] at h3
    simpa using h3

theorem toTensor_good [Inhabited α] {v : View α} {xs : List α} (hl : v.ext.length ≤ 8) (hsm : Small v.ext)
    (hv : v.elements = xs.map .val) (hx : xs.length = count v.ext) :
    ∃ u, v.toTensor = some u ∧ Good u ∧ u.arr = ⟨v.ext, xs⟩ := by
  unfold View.toTensor Ten.ofExtents
  rw [hv, allVals_map, if_neg (by simp [maxRank]; omega), product_small hsm]
  dsimp only
  rw [if_pos (by simp; omega), List.drop_of_length_le (by simp; omega), List.append_nil]
  have := good_shape (es := v.ext) (ext := zeros) (str := zeros) (xs := xs) (c := nextCap 0 (count v.ext)) hl rfl rfl (by
    split
    · rename_i he; rw [he] at hx; simp [count] at hx; omega
    · exact hx)
  exact ⟨_, rfl, this.1, this.2⟩

/-- C79: a tensor made from a view has the shape of the view and at every index the element the index stands for. -/
theorem view_to_tensor [Inhabited α] {os : List (Op α)} (hs : AllSound ⟨[], []⟩ os) {t : Ten α} {fs : List Bool}
    (hr : (Ten.new : Ten α).run os = some (t, fs)) (h0 : ((Arr.mk [] []).run os).1.shape ≠ [])
    {v : View α} {s : List Nat} {f : List Nat → List Nat} (h : Derived t v s f) (hc : Small s) :
    ∃ u a, v.toTensor = some u ∧ Shows u a ∧ a.shape = s ∧ (∀ i, Valid s i → ∃ x, a.get? i = some x ∧ t.at (f i) = .val x) ∧
      (count s ≠ 0 → ∃ w, v.owned = some w ∧ Shows w a) := by
  obtain ⟨hg, ha⟩ := reached_good hs hr
  rw [← ha] at h0
  have k := h.known hg
  obtain ⟨xs, h1, h2, h3⟩ := view_values hg h0 h
  have hl : s.length ≤ 8 := by rw [k.rank, hg.length]; exact hg.rank8
  have hs0 : s ≠ [] := by
    intro e
    have := k.rank
    rw [e] at this
    exact h0 (List.length_eq_zero_iff.1 this.symm)
  obtain ⟨u, h4, h5, h6⟩ := toTensor_good (v := v) (xs := xs) (by rw [k.ext]; exact hl) (by rw [k.ext]; exact hc) h1 (by rw [k.ext]; exact h2)
  rw [k.ext] at h6
  refine ⟨u, ⟨s, xs⟩, h4, h6 ▸ h5.shows, rfl, h3, fun hne => ?_⟩
  have hsz := k.size h0
  unfold View.owned
  rw [if_neg (by omega), h1, allVals_map, k.ext, if_neg hs0]
  dsimp only
  have hres : (Ten.new : Ten α).resize s default
      = .ok ⟨(Meta.mk s.length (overwrite s zeros) zeros).recompute, List.replicate (count s) default,
        (vecAssign (List.replicate (count s) (default : α)) 0).2⟩ := by
    unfold Ten.resize
    rw [if_neg hs0, product_small hc]
    dsimp only
    rw [if_neg (by simp [maxRank]; omega)]
    rfl
  rw [hres]
  dsimp only
  rw [if_pos (by simp; omega), if_neg hs0, List.drop_of_length_le (by simp; omega), List.append_nil]
  have := good_shape (es := s) (ext := zeros) (str := zeros) (xs := xs)
    (c := (vecAssign (List.replicate (count s) (default : α)) 0).2) hl rfl rfl (by rw [if_neg hs0]; exact h2)
  exact ⟨_, rfl, this.2 ▸ this.1.shows⟩

/-- The second column of the tensor above, as a tensor of two rows and one column. -/
example : ∃ t v u, (Ten.new : Ten Nat).run example2 = some (t, [false, false]) ∧ t.view.slice [(0, 2), (1, 2)] = some v ∧
    v.toTensor = some u ∧ u.sh.extents = [2, 1] ∧ u.items = [2, 5] := ⟨_, _, _, rfl, rfl, rfl, rfl, rfl⟩

/-- Against the full claim for `owned`: a view of three columns without rows becomes a tensor without dimensions. -/
theorem owned_forgets_shape :
    ∃ (t : Ten Nat) (w : Ten Nat), (Ten.new : Ten Nat).run [.resize [0, 3] 0] = some (t, [false]) ∧ t.view.owned = some w ∧
      w.sh.extents = [] := ⟨_, _, rfl, rfl, rfl⟩

/-- C79: two views compare equal if and only if they have the same shape and the same element at every index. -/
theorem equal_iff [Inhabited α] [DecidableEq α] {os ps : List (Op α)} (hs : AllSound ⟨[], []⟩ os) (hp : AllSound ⟨[], []⟩ ps)
    {t u : Ten α} {fs gs : List Bool} (hr : (Ten.new : Ten α).run os = some (t, fs)) (hu : (Ten.new : Ten α).run ps = some (u, gs))
    (h0 : ((Arr.mk [] []).run os).1.shape ≠ []) (h1 : ((Arr.mk [] []).run ps).1.shape ≠ [])
    {v w : View α} {s r : List Nat} {f g : List Nat → List Nat} (hv : Derived t v s f) (hw : Derived u w r g) :
    v.equal w = true ↔ s = r ∧ ∀ i, Valid s i → t.at (f i) = u.at (g i) := by
  obtain ⟨e1, -, -, e2⟩ := derived_view hs hr h0 hv
  obtain ⟨e3, -, -, e4⟩ := derived_view hp hu h1 hw
  unfold View.equal
  rw [e1, e3, e2, e4]
  constructor
  · intro h
    by_cases hl : s.length ≠ r.length
    · rw [if_pos hl] at h; cases h
    · rw [if_neg hl] at h
      by_cases hsr : s ≠ r
      · rw [if_pos hsr] at h; cases h
      · rw [if_neg hsr] at h
        have hsr : s = r := Decidable.not_not.1 hsr
        subst hsr
        refine ⟨rfl, fun i hi => ?_⟩
        have h := of_decide_eq_true h
        exact List.map_inj_left.1 h i (mem_indices.2 hi)
  · rintro ⟨rfl, h⟩
    rw [if_neg (by simp), if_neg (by simp), decide_eq_true_iff]
    exact List.map_congr_left fun i hi => h i (mem_indices.1 hi)

/-- The first column of 1 1, 2 2 equals the second, not the transposed one. -/
example : ∃ (t : Ten Nat) (v w x : View Nat), (Ten.new : Ten Nat).run [.set [1, 1, 2, 2], .reshape [2, 2]] = some (t, [false, false]) ∧
    t.view.slice [(0, 2), (0, 1)] = some v ∧ t.view.slice [(0, 2), (1, 2)] = some w ∧ w.reverse = some x ∧
    v.equal w = true ∧ v.equal x = false := ⟨_, _, _, _, rfl, rfl, rfl, rfl, by decide, by decide⟩

/-- C79: the view of a whole tensor can be given another shape with as many elements. -/
theorem whole_view_reshape_partial [Inhabited α] {os : List (Op α)} (hs : AllSound ⟨[], []⟩ os) {t : Ten α} {fs : List Bool}
    (hr : (Ten.new : Ten α).run os = some (t, fs)) {es : List Nat} (hc : Small es)
    (he : count es = ((Arr.mk [] []).run os).1.elems.length) :
    ∃ w, t.view.reshape es = some w ∧ w.ext = es ∧ w.elements = ((Arr.mk [] []).run os).1.elems.map .val := by
  obtain ⟨hg, ha⟩ := reached_good hs hr
  rw [← ha] at he ⊢
  have he : count es = t.items.length := he
  refine ⟨⟨t.items, 0, es, stridesOf es, t.items.length⟩, ?_, rfl, ?_⟩
  · unfold View.reshape
    rw [product_small hc]
    dsimp only
    rw [if_neg (by simp [Ten.view, he])]; rfl
  · rw [iteration_order _ he.symm]
    dsimp only
    have h1 := map_fetch t.items
    rw [← he, ← indices_place, List.map_map] at h1
    show _ = t.items.map Read.val
    rw [← h1]
    apply List.map_congr_left
    intro i hi
    rw [dot_strides (mem_indices.1 hi), Nat.zero_add]; rfl

/-- C79: and no view can be given a shape with more or fewer elements. -/
theorem reshape_size {v w : View α} {es : List Nat} (h : v.reshape es = some w) : count es = v.size ∧ w.size = v.size ∧ w.ext = es := by
  unfold View.reshape at h
  split at h
  · cases h
  · rename_i n hn
    split at h
    · cases h
    · rename_i hs
      cases h
      exact ⟨by rw [← (product_some hn).1]; exact Decidable.not_not.1 hs, rfl, rfl⟩

example : ∃ (t : Ten Nat) (w : View Nat), (Ten.new : Ten Nat).run example2 = some (t, [false, false]) ∧ t.view.reshape [3, 2] = some w ∧
    w.at [1, 0] = .val 3 := ⟨_, _, rfl, rfl, rfl⟩

/-- Against the full claim: giving a transposed view the shape it has changes its elements. -/
theorem transposed_reshape_changes :
    ∃ (t : Ten Nat) (v w : View Nat), (Ten.new : Ten Nat).run example2 = some (t, [false, false]) ∧ t.view.reverse = some v ∧
      v.reshape [3, 2] = some w ∧ v.ext = [3, 2] ∧ w.ext = [3, 2] ∧
      v.elements = [.val 1, .val 4, .val 2, .val 5, .val 3, .val 6] ∧
      w.elements = [.val 1, .val 2, .val 3, .val 4, .val 5, .val 6] := ⟨_, _, _, rfl, rfl, rfl, rfl, rfl, by decide, by decide⟩

/-- Against the full claim: with a single index, a transposed view gives other elements than going through it does, and a slice
gives elements that are not in it. -/
theorem single_index_differs :
    ∃ (t : Ten Nat) (v w : View Nat), (Ten.new : Ten Nat).run example2 = some (t, [false, false]) ∧ t.view.reverse = some v ∧
      v.elements[1]? = some (.val 4) ∧ v.at [1] = .val 2 ∧
      t.view.slice [(0, 2), (0, 1)] = some w ∧ w.elements = [.val 1, .val 4] ∧ w.at [1] = .val 2 :=
  ⟨_, _, _, rfl, rfl, by decide, rfl, rfl, by decide, rfl⟩

/-- Nor does a single index follow the stride of a view of one dimension. -/
theorem strided_index_differs :
    ∃ v : View Nat, View.make [1, 2, 3, 4, 5, 6] 0 [3] [2] = some v ∧ v.elements = [.val 1, .val 3, .val 5] ∧ v.at [1] = .val 2 :=
  ⟨_, rfl, by decide, rfl⟩

end Verif.Tensor
