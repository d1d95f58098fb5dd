import Verif.Tensor.State

/- C78: what a program sees of a tensor. -/
namespace Verif.Tensor

variable {α : Type}

/-- C78: every index of a shape has its own place among the elements, every place its index, and the places follow the
order of the indices. -/
theorem places (s : List Nat) :
    (∀ i, Valid s i → place s i < count s) ∧
    (∀ i j, Valid s i → Valid s j → place s i = place s j → i = j) ∧
    (∀ n, n < count s → ∃ i, Valid s i ∧ place s i = n) ∧
    (indices s).map (place s) = List.range (count s) ∧ (∀ i, i ∈ indices s ↔ Valid s i) :=
  ⟨fun _ => place_lt, fun _ _ => place_inj, fun _ h => ⟨_, coords_valid h, place_coords h⟩, indices_place s,
    fun _ => mem_indices⟩

example : (indices [2, 3]).map (place [2, 3]) = [0, 1, 2, 3, 4, 5] := by decide

theorem run_good [Inhabited α] {t : Ten α} (h : Good t) {os : List (Op α)} (hs : AllSound t.arr os) :
    ∃ u, t.run os = some (u, (t.arr.run os).2) ∧ Good u ∧ u.arr = (t.arr.run os).1 := by
  induction os generalizing t with
  | nil => exact ⟨t, rfl, h, rfl⟩
  | cons o os ih =>
    have hst := step_good h hs.1
    have hs2 := hs.2
    simp only [Ten.run, Arr.run]
    cases ho : t.arr.step o with
    | some b =>
      rw [ho] at hst hs2
      obtain ⟨u, h1, h2, h3⟩ := hst
      rw [h1]
      have hs2 : AllSound b os := hs2
      rw [← h3] at hs2
      obtain ⟨w, h4, h5, h6⟩ := ih h2 hs2
      rw [h3] at h4 h6
      exact ⟨w, by simp only [h4]; rfl, h5, h6⟩
    | none =>
      rw [ho] at hst hs2
      rw [hst]
      obtain ⟨w, h4, h5, h6⟩ := ih h hs2
      exact ⟨w, by simp only [h4]; rfl, h5, h6⟩

/-- C78: after every program of sound operations on a new tensor, the tensor shows the array that the operations
describe, and exactly those operations have thrown that should. What is missing are the operations that are not `Sound`; see
the witnesses below. -/
theorem programs_partial [Inhabited α] {os : List (Op α)} (hs : AllSound ⟨[], []⟩ os) :
    ∃ u, (Ten.new : Ten α).run os = some (u, ((Arr.mk [] []).run os).2) ∧ Shows u ((Arr.mk [] []).run os).1 := by
  obtain ⟨u, h1, h2, h3⟩ := run_good (Good.new (α := α)) (os := os) hs
  exact ⟨u, h1, h3 ▸ h2.shows⟩

/-- The same from a tensor of given extents, given elements, or both; and a copy of a tensor shows what the tensor shows. -/
theorem programs_from_extents_partial [Inhabited α] {es : List Nat} {t : Ten α} (ht : Ten.ofExtents es = some t)
    {os : List (Op α)} (hs : AllSound ⟨es, List.replicate (count es) default⟩ os) :
    ∃ u, t.run os = some (u, ((Arr.mk es (List.replicate (count es) default)).run os).2) ∧
      Shows u ((Arr.mk es (List.replicate (count es) default)).run os).1 := by
  have hg : Good t ∧ t.arr = ⟨es, List.replicate (count es) default⟩ := by
    unfold Ten.ofExtents at ht
    split at ht
    · cases ht
    · rename_i hl
      cases hp : product es with
      | none => rw [hp] at ht; cases ht
      | some n =>
        rw [hp] at ht
        obtain ⟨rfl, _⟩ := product_some hp
        cases ht
        exact good_shape (by simp [maxRank] at hl; omega) rfl rfl (by split <;> simp [*, count])
  rw [← hg.2] at hs ⊢
  obtain ⟨u, h1, h2, h3⟩ := run_good hg.1 (os := os) hs
  exact ⟨u, h1, h3 ▸ h2.shows⟩

theorem programs_from_elements_partial [Inhabited α] {es : List Nat} {xs : List α} {t : Ten α} (ht : Ten.ofBoth es xs = some t)
    {os : List (Op α)} (hs : AllSound ⟨es, xs⟩ os) :
    ∃ u, t.run os = some (u, ((Arr.mk es xs).run os).2) ∧ Shows u ((Arr.mk es xs).run os).1 := by
  have hg : Good t ∧ t.arr = ⟨es, xs⟩ := by
    unfold Ten.ofBoth at ht
    split at ht
    · cases ht
    · rename_i hl
      cases hp : product es with
      | none => rw [hp] at ht; cases ht
      | some n =>
        rw [hp] at ht
        obtain ⟨rfl, _⟩ := product_some hp
        dsimp only at ht
        split at ht
        · cases ht
        · rename_i hx
          have hx : xs.length = count es := by simpa using hx
          cases ht
          exact good_shape (by simp [maxRank] at hl; omega) rfl rfl (by
            split
            · rename_i he; subst he; simp [count] at hx; omega
            · exact hx)
  rw [← hg.2] at hs ⊢
  obtain ⟨u, h1, h2, h3⟩ := run_good hg.1 (os := os) hs
  exact ⟨u, h1, h3 ▸ h2.shows⟩

theorem programs_from_range_partial [Inhabited α] {xs : List α} {os : List (Op α)} (hs : AllSound ⟨[xs.length], xs⟩ os) :
    ∃ u, (Ten.ofRange xs).run os = some (u, ((Arr.mk [xs.length] xs).run os).2) ∧ Shows u ((Arr.mk [xs.length] xs).run os).1 := by
  have hg : Good (Ten.ofRange xs) ∧ (Ten.ofRange xs).arr = ⟨[xs.length], xs⟩ :=
    good_shape (es := [xs.length]) (by simp) rfl rfl (by simp [count])
  rw [← hg.2] at hs ⊢
  obtain ⟨u, h1, h2, h3⟩ := run_good hg.1 (os := os) hs
  exact ⟨u, h1, h3 ▸ h2.shows⟩

/-- The constructor takes every shape of up to eight dimensions whose number of elements is below 2^64, dimension by
dimension, and no other. -/
theorem extents_accepted [Inhabited α] (es : List Nat) :
    (∃ t : Ten α, Ten.ofExtents es = some t) ↔ es.length ≤ 8 ∧ Small es := by
  unfold Ten.ofExtents
  constructor
  · rintro ⟨t, h⟩
    split at h
    · cases h
    · rename_i hl
      cases hp : product es with
      | none => rw [hp] at h; cases h
      | some n => exact ⟨by simp [maxRank] at hl; omega, (product_some hp).2⟩
  · rintro ⟨h1, h2⟩
    rw [if_neg (by simp [maxRank]; omega), product_small h2]
    exact ⟨_, rfl⟩

theorem reached_good [Inhabited α] {os : List (Op α)} (hs : AllSound ⟨[], []⟩ os) {t : Ten α} {fs : List Bool}
    (h : (Ten.new : Ten α).run os = some (t, fs)) : Good t ∧ t.arr = ((Arr.mk [] []).run os).1 := by
  obtain ⟨u, h1, h2, h3⟩ := run_good (Good.new (α := α)) (os := os) hs
  rw [h] at h1
  cases h1
  exact ⟨h2, h3⟩

/-- A copy of a tensor shows what the tensor shows. -/
theorem copy_shows [Inhabited α] {os : List (Op α)} (hs : AllSound ⟨[], []⟩ os) {t : Ten α} {fs : List Bool}
    (h : (Ten.new : Ten α).run os = some (t, fs)) : Shows t.copy ((Arr.mk [] []).run os).1 := by
  obtain ⟨hg, ha⟩ := reached_good hs h
  have hc : Good t.copy := good_recompute hg.ext8 hg.str8 hg.rank8 hg.size
  rw [← ha]
  exact hc.shows

/-- An assignment through `at` changes the element of that index and no other. -/
theorem put_get [Inhabited α] {os : List (Op α)} (hs : AllSound ⟨[], []⟩ os) {t : Ten α} {fs : List Bool}
    (h : (Ten.new : Ten α).run os = some (t, fs)) {s : List Nat} (hsh : ((Arr.mk [] []).run os).1.shape = s) (h0 : s ≠ [])
    {i : List Nat} (hi : Valid s i) (x : α) :
    ∃ u, t.put i x = .ok u ∧ u.at i = .val x ∧ ∀ j, Valid s j → j ≠ i → u.at j = t.at j := by
  obtain ⟨hg, ha⟩ := reached_good hs h
  have h1 : t.sh.extents = s := by rw [← hsh, ← ha]
  have hr0 : t.sh.rank ≠ 0 := fun e => h0 (by rw [← h1]; exact hg.rank0.2 e)
  have hit : t.items.length = count s := by rw [← h1]; exact hg.count hr0
  have hb : ∀ j, Valid s j → inBounds t.items.length t.sh.rank t.sh.extents j = true := by
    intro j hj
    rw [← hg.length, h1]
    exact (inBounds_iff hj.length hit).2 hj
  have hix : ∀ j, Valid s j → indexOf t.sh.strides j = place s j := fun j hj => by
    rw [hg.strides, h1, indexOf_place hj]
  have hpl : ∀ j, Valid s j → place s j < t.items.length := fun j hj => hit ▸ place_lt hj
  have hput : t.put i x = .ok { t with items := t.items.set (place s i) x } := by
    rw [Ten.put, if_pos (hb i hi), hix i hi, if_pos (hpl i hi)]
  refine ⟨_, hput, ?_, fun j hj hne => ?_⟩
  · have hb' := hb i hi
    rw [← List.length_set (i := place s i) (a := x)] at hb'
    rw [Ten.at]
    dsimp only
    rw [if_pos hb', hix i hi]
    simp [fetch, hpl i hi]
  · have hb' := hb j hj
    rw [← List.length_set (i := place s i) (a := x)] at hb'
    have hpne : place s i ≠ place s j := fun e => hne (place_inj hj hi e.symm)
    rw [Ten.at, Ten.at]
    dsimp only
    rw [if_pos hb', if_pos (hb j hj), hix j hj]
    simp only [fetch]
    rw [List.getElem?_set_ne hpne]

/-- An index out of range, or the wrong number of indices, throws; a single index for more than one dimension counts
the elements in order and throws beyond the last. Where reading throws, so does writing, and nothing changes. -/
theorem out_of_range_throws [Inhabited α] {os : List (Op α)} (hs : AllSound ⟨[], []⟩ os) {t : Ten α} {fs : List Bool}
    (h : (Ten.new : Ten α).run os = some (t, fs)) {a : Arr α} (hsh : ((Arr.mk [] []).run os).1 = a) (h0 : a.shape ≠ []) :
    (∀ i, ¬ Valid a.shape i → a.shape.length = 1 ∨ i.length ≠ 1 → t.at i = .throws) ∧
    (∀ n, (∀ x, a.elems[n]? = some x → t.at [n] = .val x) ∧ (a.elems[n]? = none → t.at [n] = .throws)) ∧
    (∀ i x, t.at i = .throws → t.put i x = .threw t) := by
  obtain ⟨hg, ha⟩ := reached_good hs h
  rw [hsh] at ha
  subst ha
  have hr0 : t.sh.rank ≠ 0 := fun e => h0 (hg.rank0.2 e)
  have hit := hg.count hr0
  have hl := hg.length
  refine ⟨fun i hi h1 => ?_, fun n => ⟨fun x hx => ?_, fun hx => ?_⟩, fun i x hx => ?_⟩
  · rw [Ten.at, if_neg]
    intro hb
    rw [← hl] at hb
    apply hi
    by_cases hlen : i.length = t.sh.extents.length
    · exact (inBounds_iff hlen hit).1 hb
    · exfalso
      have h1 : t.sh.extents.length = 1 ∨ i.length ≠ 1 := h1
      rw [inBounds, if_neg (by omega)] at hb
      simp at hb
      exact hlen hb.1
  · have hx : t.items[n]? = some x := hx
    obtain ⟨hn, rfl⟩ := List.getElem?_eq_some_iff.1 hx
    rw [Ten.at, if_pos (by simp [inBounds, hn])]
    simp [indexOf, fetch, hn]
  · have hx : t.items[n]? = none := hx
    have hn : t.items.length ≤ n := List.getElem?_eq_none_iff.1 hx
    rw [Ten.at, if_neg (by simp [inBounds]; omega)]
  · rw [Ten.at] at hx
    rw [Ten.put]
    split at hx
    · simp only [fetch] at hx
      split at hx <;> cases hx
    · rename_i hb
      rw [if_neg hb]

theorem nextCap_le (c n : Nat) : n ≤ nextCap c n := by
  simp only [nextCap]
  repeat' split
  all_goals omega

theorem step_room [Inhabited α] {t : Ten α} (h : t.items.length ≤ t.cap) (o : Op α) :
    (∀ u, t.step o = .ok u → u.items.length ≤ u.cap) ∧ ∀ u, t.step o = .threw u → u.items.length ≤ u.cap := by
  have hn := nextCap_le
  have hset : ∀ (t : Ten α), t.items.length ≤ t.cap → ∀ xs : List α, xs.length = t.items.length → xs.length ≤ t.cap := by intros; omega
  have hva : ∀ (xs : List α) (c : Nat), (vecAssign xs c).1.length ≤ (vecAssign xs c).2 := by
    intro xs c; simp only [vecAssign]; split <;> omega
  have hvr : ∀ n, (vecResize t.items t.cap n).1.length ≤ (vecResize t.items t.cap n).2 := by
    intro n
    have := hn t.cap n
    simp only [vecResize]
    repeat' split
    all_goals simp
    all_goals omega
  have hve : ∀ x, (vecEmplace t.items t.cap x).1.length ≤ (vecEmplace t.items t.cap x).2 := by
    intro x
    have := hn t.cap (t.items.length + 1)
    simp only [vecEmplace]
    split <;> simp <;> omega
  constructor
  all_goals
    intro u hu
    cases o <;> simp only [Ten.step] at hu
    case fill x => cases hu <;> (simp [Ten.fill]; omega)
    case clear => cases hu <;> simp [Ten.clear]
    case resizeDim d n =>
      simp only [Ten.resizeDim] at hu
      repeat' split at hu
      all_goals cases hu <;> first | exact h | exact hvr _
    case resize es x =>
      simp only [Ten.resize] at hu
      repeat' split at hu
      all_goals cases hu <;> first | exact h | exact hva _ _ | simp [Ten.clear]
    case reshape es =>
      simp only [Ten.reshape] at hu
      repeat' split at hu
      all_goals cases hu <;> exact h
    case set xs =>
      simp only [Ten.set] at hu
      repeat' split at hu
      all_goals cases hu <;> first | exact h | exact hva _ _ | (simp; omega)
    case assign xs =>
      simp only [Ten.assign] at hu
      repeat' split at hu
      all_goals cases hu <;> first | exact h | exact hva _ _ | (simp; omega)
    case assignN n x => cases hu <;> exact hva _ _
    case pushCopy x =>
      have := hn t.cap (t.items.length + 1)
      cases hu <;> simp only [Ten.pushCopy] <;> split <;> simp <;> omega
    case pushMove x =>
      have := hn t.cap (t.items.length + 1)
      cases hu <;> simp only [Ten.pushMove] <;> split <;> simp <;> omega
    case emplace x => cases hu <;> exact hve _
    case pop =>
      simp only [Ten.pop] at hu
      repeat' split at hu
      all_goals cases hu <;> first | exact h | (simp; omega)

theorem run_room [Inhabited α] {os : List (Op α)} : ∀ {t u : Ten α} {fs : List Bool}, t.items.length ≤ t.cap → t.run os = some (u, fs) →
    u.items.length ≤ u.cap := by
  induction os with
  | nil => intro t u fs h hr; simp only [Ten.run] at hr; cases hr; exact h
  | cons o os ih =>
    intro t u fs h hr
    simp only [Ten.run] at hr
    split at hr
    · rename_i v hv
      cases hx : Ten.run v os with
      | none => simp [hx] at hr
      | some p =>
        simp [hx] at hr
        obtain ⟨q, gs⟩ := p
        exact ih ((step_room h o).1 v hv) (by rw [hx]; simp at hr; rw [hr.1])
    · rename_i v hv
      cases hx : Ten.run v os with
      | none => simp [hx] at hr
      | some p =>
        simp [hx] at hr
        obtain ⟨q, gs⟩ := p
        exact ih ((step_room h o).2 v hv) (by rw [hx]; simp at hr; rw [hr.1])
    · cases hr

/-- C78: after every program of operations, sound or not, the tensor has room for its elements. -/
theorem room_for_elements [Inhabited α] {os : List (Op α)} {t : Ten α} {fs : List Bool} (h : (Ten.new : Ten α).run os = some (t, fs)) :
    t.items.length ≤ t.cap := run_room (by simp [Ten.new]) h

/-! Witnesses -/

/-- A program of sound operations on a tensor of numbers. -/
def example1 : List (Op Nat) :=
  [.set [1, 2, 3, 4, 5, 6], .reshape [2, 3], .resize [2 ^ 40, 0] 9, .set [1], .resizeDim 0 5, .resize [2, 2] 7, .resizeDim 0 3,
   .pushCopy 8, .pushMove 9, .emplace 10, .pop, .assign [1, 2], .assign (List.range 8), .reshape [2, 4], .resizeDim 0 1]

example : AllSound ⟨[], []⟩ example1 := by decide

example : (Arr.mk [] []).run example1 = (⟨[1, 4], [0, 1, 2, 3]⟩,
    [false, false, false, true, false, false, false, false, false, false, false, true, false, false, false]) := by decide

/-- The shape after it, and an index to write to. -/
example : ∃ t fs, (Ten.new : Ten Nat).run example1 = some (t, fs) ∧ ((Arr.mk [] []).run example1).1.shape = [1, 4] ∧
    Valid [1, 4] [0, 2] ∧ ¬ Valid [1, 4] [0, 4] ∧ ¬ Valid [1, 4] [0, 0, 0] :=
  ⟨_, _, rfl, by decide, by decide, by decide, by decide⟩

/-- Against the full claim: elements appended to a new tensor by moving are all in it, but the view shows the first one for
each; nor is the tensor contiguous any more. -/
theorem moved_elements_not_shown :
    ∃ u : Ten Nat, (Ten.new : Ten Nat).run [.pushMove 1, .pushMove 2, .pushMove 3] = some (u, [false, false, false]) ∧
      u.items = [1, 2, 3] ∧ u.sh.extents = [3] ∧ u.view.elements = [.val 1, .val 1, .val 1] :=
  ⟨_, rfl, rfl, rfl, by decide⟩

/-- The same with elements made in place. -/
theorem emplaced_elements_not_shown :
    ∃ u : Ten Nat, (Ten.new : Ten Nat).run [.emplace 1, .emplace 2, .emplace 3] = some (u, [false, false, false]) ∧
      u.items = [1, 2, 3] ∧ u.sh.extents = [3] ∧ u.view.elements = [.val 1, .val 1, .val 1] :=
  ⟨_, rfl, rfl, rfl, by decide⟩

/-- The same with elements assigned to a new tensor with `assign`, though not with `operator=`. -/
theorem assigned_elements_not_shown :
    ∃ u : Ten Nat, (Ten.new : Ten Nat).run [.assign [1, 2, 3]] = some (u, [false]) ∧
      u.items = [1, 2, 3] ∧ u.sh.extents = [3] ∧ u.view.elements = [.val 1, .val 1, .val 1] :=
  ⟨_, rfl, rfl, rfl, by decide⟩

/-- A tensor that had two dimensions and is cleared and filled again: the view reads behind the elements. -/
theorem refilled_view_undefined :
    ∃ u : Ten Nat, (Ten.new : Ten Nat).run [.resize [2, 3] 0, .clear, .pushMove 1, .pushMove 2] = some (u, [false, false, false, false]) ∧
      u.items = [1, 2] ∧ u.view.elements = [.val 1, .undefined] :=
  ⟨_, rfl, rfl, by decide⟩

/-- Removing the last element of a tensor of two dimensions: the five left have the shape 5 x 0, none can be reached
by two indices, and a view divides by zero. -/
theorem pop_breaks_shape :
    ∃ u : Ten Nat, (Ten.new : Ten Nat).run [.resize [2, 3] 7, .pop] = some (u, [false, false]) ∧
      u.items = [7, 7, 7, 7, 7] ∧ u.sh.extents = [5, 0] ∧ u.at [0, 0] = .throws ∧ Read.undefined ∈ u.view.elements :=
  ⟨_, rfl, rfl, rfl, rfl, by decide⟩

/-- Giving an inner dimension another extent moves the elements to other indices: of the rows 1 2 3 and 4 5 6 become, with two
columns, 1 2 and 3 4 instead of 1 2 and 4 5. -/
theorem inner_resize_moves :
    ∃ u : Ten Nat, (Ten.new : Ten Nat).run [.set [1, 2, 3, 4, 5, 6], .reshape [2, 3], .resizeDim 1 2] = some (u, [false, false, false]) ∧
      u.at [1, 0] = .val 3 ∧
      ((Arr.mk [] []).run [.set [1, 2, 3, 4, 5, 6], .reshape [2, 3], .resizeDim 1 2]).1.get? [1, 0] = some 4 :=
  ⟨_, rfl, by decide, by decide⟩

/-- A `resize` that throws has changed the rank. -/
theorem failed_resize_changes :
    ∃ u : Ten Nat, (Ten.new : Ten Nat).run [.set [1, 2], .resize [2 ^ 40, 2 ^ 40, 1] 0] = some (u, [false, true]) ∧
      u.items = [1, 2] ∧ u.sh.extents = [2, 0, 0] :=
  ⟨_, rfl, rfl, rfl⟩

/-- A `resize_dim` that throws has changed the extent. -/
theorem failed_resize_dim_changes :
    ∃ u : Ten Nat, (Ten.new : Ten Nat).run [.resize [1, 2] 7, .resizeDim 0 (2 ^ 63)] = some (u, [false, true]) ∧
      u.items = [7, 7] ∧ u.sh.extents = [2 ^ 63, 2] :=
  ⟨_, rfl, rfl, rfl⟩

/-- More than eight dimensions are written past the end of the arrays. -/
theorem ninth_dimension_undefined :
    (Ten.new : Ten Nat).run [.resize [1, 1, 1, 1, 1, 1, 1, 1, 1] 0] = none ∧
    (Ten.new : Ten Nat).run [.set [1], .reshape [1, 1, 1, 1, 1, 1, 1, 1, 1]] = none := ⟨rfl, rfl⟩

/-- An element appended to a tensor without dimensions, which has one element: there are two, the extent is one. -/
theorem scalar_append_loses :
    ∃ (t u : Ten Nat), Ten.ofExtents [] = some t ∧ t.items.length = 1 ∧ t.run [.pushCopy 5] = some (u, [false]) ∧
      u.items = [0, 5] ∧ u.sh.extents = [1] :=
  ⟨_, _, rfl, rfl, rfl, rfl, rfl⟩

/-- A tensor made from a single value does not hold it. -/
theorem value_lost (x : α) : (Ten.ofValue x).items = [] := rfl

/-- No index at all, on a tensor without dimensions and elements: `at` does not throw but reads an element that is not there. -/
theorem no_index_undefined : (Ten.new : Ten α).at [] = .undefined := rfl

/-- A shape without elements is accepted with the zero in front and refused with the zero at the end. -/
theorem empty_shape_order :
    (∃ t : Ten Nat, Ten.ofExtents [0, 2 ^ 40, 2 ^ 40] = some t ∧ t.items = []) ∧
    (Ten.ofExtents [2 ^ 40, 2 ^ 40, 0] : Option (Ten Nat)) = none := ⟨⟨_, rfl, rfl⟩, rfl⟩

/-- C78: an element of the tensor itself is appended as any other, as long as there is room. -/
theorem own_element_partial (t : Ten α) (i : Nat) (x : α) (hi : t.items[i]? = some x) (hc : t.items.length < t.cap) :
    t.pushRef (.own i) = .ok (t.pushCopy x) ∧ (t.pushCopy x).items = t.items ++ [x] := by
  refine ⟨?_, rfl⟩
  have : ¬ t.reallocates = true := by simp [Ten.reallocates]; omega
  simp only [Ten.pushRef, hi]
  rw [if_neg this]

/-- Against the full claim: without room, the element is read after its storage has been given back. -/
theorem own_element_undefined (t : Ten α) (i : Nat) (hc : t.cap ≤ t.items.length) : t.pushRef (.own i) = .undefined := by
  simp only [Ten.pushRef, Ten.reallocates]
  cases t.items[i]? with
  | none => rfl
  | some x => simp [hc]

example : (Ten.ofRange [1, 2, 3]).pushRef (.own 0) = .undefined := own_element_undefined _ _ (by decide)

end Verif.Tensor
