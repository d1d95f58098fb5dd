import Verif.Tensor.State
import Verif.Tensor.ViewSpec

namespace Verif.Tensor

variable {α : Type}

theorem dot_nil_left (s : List Nat) : dot [] s = 0 := by simp [dot]

theorem sliceParts_shape {rs : List (Nat × Nat)} {es ss : List Nat} (h : es.length = ss.length) (hr : RangesOk rs es) :
    (sliceParts rs es ss).1 = sliceShape rs es ∧ (sliceParts rs es ss).2.1 = ss := by
  induction es generalizing rs ss with
  | nil => cases rs with
    | nil => cases ss with
      | nil => exact ⟨rfl, rfl⟩
      | cons _ _ => simp at h
    | cons _ _ => exact hr.elim
  | cons e es ih =>
    match ss, h with
    | s :: ss, h =>
      have h : es.length = ss.length := by simpa using h
      cases rs with
      | nil =>
        have := ih (rs := []) h trivial
        have e0 : sliceShape [] es = es := by cases es <;> rfl
        rw [e0] at this
        simp only [sliceParts, this, sliceShape, and_self]
      | cons r rs =>
        have := ih h hr.2.2
        simp only [sliceParts, this, sliceShape, and_self]

theorem shift_nil (i : List Nat) : shift [] i = i := by cases i <;> rfl

theorem sliceShape_nil (i : List Nat) : sliceShape [] i = i := by cases i <;> rfl

theorem sliceShape_length {rs : List (Nat × Nat)} {es : List Nat} (hr : RangesOk rs es) :
    (sliceShape rs es).length = es.length := by
  induction es generalizing rs with
  | nil => cases rs with
    | nil => rfl
    | cons _ _ => exact hr.elim
  | cons e es ih => cases rs with
    | nil => rfl
    | cons r rs => simp [sliceShape, ih hr.2.2]

theorem valid_shift {rs : List (Nat × Nat)} {es i : List Nat} (hr : RangesOk rs es) (h : Valid (sliceShape rs es) i) :
    Valid es (shift rs i) := by
  induction es generalizing rs i with
  | nil => cases rs with
    | nil => rw [shift_nil]; exact h
    | cons _ _ => exact hr.elim
  | cons e es ih => cases rs with
    | nil => rw [shift_nil]; exact h
    | cons r rs => cases i with
      | nil => exact h.elim
      | cons a b =>
        have h1 : a < r.2 - r.1 := h.1
        exact ⟨by have := hr.2.1; omega, ih hr.2.2 h.2⟩

theorem shift_inj {rs : List (Nat × Nat)} {i j : List Nat} (h : shift rs i = shift rs j) : i = j := by
  induction rs generalizing i j with
  | nil => rwa [shift_nil, shift_nil] at h
  | cons r rs ih =>
    cases i with
    | nil => cases j with
      | nil => rfl
      | cons _ _ => simp [shift] at h
    | cons a b => cases j with
      | nil => simp [shift] at h
      | cons c d =>
        simp only [shift, List.cons.injEq] at h
        rw [ih h.2, show a = c by omega]

theorem slice_dot {rs : List (Nat × Nat)} {es ss i : List Nat} (hl : es.length = ss.length) (hr : RangesOk rs es)
    (h : Valid (sliceShape rs es) i) : (sliceParts rs es ss).2.2 + dot i ss = dot (shift rs i) ss := by
  induction es generalizing rs ss i with
  | nil =>
    cases rs with
    | nil => simp [sliceParts, shift_nil]
    | cons _ _ => exact hr.elim
  | cons e es ih =>
    match ss, hl with
    | s :: ss, hl =>
      have hl : es.length = ss.length := by simpa using hl
      cases rs with
      | nil => match i, h with
        | a :: b, h =>
          have := ih (rs := []) (i := b) hl trivial (by rw [sliceShape_nil]; exact h.2)
          rw [shift_nil] at this ⊢
          simp only [sliceParts, dot_cons]
          omega
      | cons r rs => match i, h with
        | a :: b, h =>
          have := ih hl hr.2.2 h.2
          simp only [sliceParts, dot_cons, shift, Nat.add_mul]
          omega

/-! Transposing -/

theorem dot_append {a b c d : List Nat} (h : a.length = c.length) : dot (a ++ b) (c ++ d) = dot a c + dot b d := by
  simp only [dot]
  rw [List.zipWith_append h, List.sum_append_nat]

theorem dot_reverse {i s : List Nat} (h : i.length = s.length) : dot i.reverse s.reverse = dot i s := by
  induction i generalizing s with
  | nil => cases s with
    | nil => rfl
    | cons _ _ => simp at h
  | cons a b ih =>
    match s, h with
    | c :: d, h =>
      have h : b.length = d.length := by simpa using h
      rw [List.reverse_cons, List.reverse_cons, dot_append (by simpa using h), ih h, dot_cons, dot_cons, dot_nil_left]
      omega

theorem valid_iff_get {s i : List Nat} : Valid s i ↔ i.length = s.length ∧ ∀ k, k < s.length → i.getD k 0 < s.getD k 0 := by
  induction s generalizing i with
  | nil => cases i <;> simp [Valid]
  | cons e es ih =>
    cases i with
    | nil => simp [Valid]
    | cons a b =>
      simp only [Valid, ih, List.length_cons, Nat.add_right_cancel_iff]
      constructor
      · rintro ⟨h1, h2, h3⟩
        refine ⟨h2, fun k hk => ?_⟩
        cases k with
        | zero => simpa using h1
        | succ k => simpa using h3 k (by omega)
      · rintro ⟨h2, h3⟩
        refine ⟨by simpa using h3 0 (by omega), h2, fun k hk => ?_⟩
        simpa using h3 (k + 1) (by omega)

theorem valid_reverse {s i : List Nat} (h : Valid s.reverse i) : Valid s i.reverse := by
  rw [valid_iff_get] at *
  obtain ⟨h1, h2⟩ := h
  simp only [List.length_reverse] at h1 h2 ⊢
  refine ⟨h1, fun k hk => ?_⟩
  have := h2 (s.length - 1 - k) (by omega)
  simp only [List.getD_eq_getElem?_getD] at this ⊢
  rw [List.getElem?_reverse (by omega)] at this ⊢
  rw [h1]
  rwa [show s.length - 1 - (s.length - 1 - k) = k by omega] at this

theorem perm_facts {axes : List Nat} {r : Nat} (h : axes.Perm (List.range r)) :
    axes.length = r ∧ axes.Nodup ∧ (∀ a, a ∈ axes ↔ a < r) := by
  refine ⟨by have := h.length_eq; simpa using this, h.nodup_iff.2 List.nodup_range, fun a => ?_⟩
  rw [h.mem_iff, List.mem_range]

theorem valid_unpermute {axes s i : List Nat} (hp : axes.Perm (List.range s.length))
    (h : Valid (axes.map fun a => s.getD a 0) i) : Valid s (unpermute axes i) := by
  obtain ⟨hl, hn, hm⟩ := perm_facts hp
  rw [valid_iff_get] at *
  obtain ⟨h1, h2⟩ := h
  refine ⟨by simp [unpermute, hl], fun k hk => ?_⟩
  have hk' := (hm k).2 hk
  have hi := List.idxOf_lt_length_of_mem hk'
  have := h2 (axes.idxOf k) (by simpa using hi)
  simp only [unpermute, List.getD_eq_getElem?_getD, List.getElem?_map] at this ⊢
  rw [List.getElem?_range (by omega)]
  rw [List.getElem?_eq_getElem hi] at this
  simpa [List.getElem_idxOf] using this

theorem dot_eq_sum {i s : List Nat} (h : i.length = s.length) :
    dot i s = ((List.range s.length).map fun k => i.getD k 0 * s.getD k 0).sum := by
  induction i generalizing s with
  | nil => cases s with
    | nil => rfl
    | cons _ _ => simp at h
  | cons a b ih =>
    match s, h with
    | c :: d, h =>
      have h : b.length = d.length := by simpa using h
      rw [dot_cons, ih h, List.length_cons, List.range_succ_eq_map, List.map_cons, List.sum_cons, List.map_map]
      rfl

theorem map_getD_range (l : List Nat) (g : Nat → Nat) :
    (List.range l.length).map (fun k => g (l.getD k 0)) = l.map g := by
  apply List.ext_getElem?
  intro k
  by_cases hk : k < l.length
  · simp [List.getElem?_range hk, hk]
  · simp [Nat.le_of_not_lt hk]

theorem sum_perm {a b : List Nat} (h : a.Perm b) : a.sum = b.sum := by
  induction h with
  | nil => rfl
  | cons x _ ih => simp [ih]
  | swap x y l => simp; omega
  | trans _ _ ih1 ih2 => exact ih1.trans ih2

theorem dot_unpermute {axes s i : List Nat} (hp : axes.Perm (List.range s.length)) (hl : i.length = axes.length) :
    dot i (axes.map fun a => s.getD a 0) = dot (unpermute axes i) s := by
  obtain ⟨hal, hn, hm⟩ := perm_facts hp
  rw [dot_eq_sum (by simpa using hl), dot_eq_sum (by simp [unpermute, hal]), List.length_map]
  have e1 : ((List.range axes.length).map fun k => i.getD k 0 * (axes.map fun a => s.getD a 0).getD k 0)
      = axes.map fun a => i.getD (axes.idxOf a) 0 * s.getD a 0 := by
    rw [← map_getD_range axes (fun a => i.getD (axes.idxOf a) 0 * s.getD a 0)]
    apply List.map_congr_left
    intro k hk
    have hk := List.mem_range.1 hk
    have e2 : axes.getD k 0 = axes[k] := by simp [hk]
    have e3 : (axes.map fun a => s.getD a 0).getD k 0 = s.getD axes[k] 0 := by simp [hk]
    rw [e2, e3, hn.idxOf_getElem k hk]
  have e2 : ((List.range s.length).map fun k => (unpermute axes i).getD k 0 * s.getD k 0)
      = (List.range s.length).map fun a => i.getD (axes.idxOf a) 0 * s.getD a 0 := by
    apply List.map_congr_left
    intro k hk
    have hk := List.mem_range.1 hk
    have : (unpermute axes i).getD k 0 = i.getD (axes.idxOf k) 0 := by
      simp [unpermute, List.getElem?_range (show k < axes.length by omega)]
    rw [this]
  rw [e1, e2]
  exact sum_perm (hp.map _)

theorem unpermute_inj {axes i j : List Nat} {r : Nat} (hp : axes.Perm (List.range r)) (hi : i.length = r) (hj : j.length = r)
    (h : unpermute axes i = unpermute axes j) : i = j := by
  obtain ⟨hal, hn, hm⟩ := perm_facts hp
  apply List.ext_getElem (by omega)
  intro k hk hk'
  have hka : k < axes.length := by omega
  have ha := (hm axes[k]).1 (List.getElem_mem hka)
  have := congrArg (fun l => l.getD axes[k] 0) h
  have hg : ∀ l : List Nat, (unpermute axes l).getD axes[k] 0 = l.getD k 0 := by
    intro l
    have : (unpermute axes l).getD axes[k] 0 = l.getD (axes.idxOf axes[k]) 0 := by
      simp [unpermute, List.getElem?_range (show axes[k] < axes.length by omega)]
    rw [this, hn.idxOf_getElem k hka]
  simp only [hg] at this
  simpa [hk, hk'] using this

/-! Derived views -/

/-- What is known of a view derived from a tensor. -/
structure Known (t : Ten α) (v : View α) (s : List Nat) (f : List Nat → List Nat) : Prop where
  mem : v.mem = t.items
  ext : v.ext = s
  len : s.length = v.str.length
  rank : s.length = t.sh.extents.length
  size : t.sh.extents ≠ [] → v.size = count s
  size0 : t.sh.extents = [] → v.size = t.items.length ∨ v.size = 1
  one : s.length = 1 → v.str = [1]
  inj : ∀ i j, Valid s i → Valid s j → f i = f j → i = j
  lin : ∀ i, Valid s i → Valid t.sh.extents (f i) ∧ v.off + dot i v.str = place t.sh.extents (f i)

theorem make_some {mem : List α} {off : Nat} {ext str : List Nat} {w : View α} (h : View.make mem off ext str = some w) :
    w = ⟨mem, off, ext, str, count ext⟩ := by
  unfold View.make at h
  cases hp : product ext with
  | none => rw [hp] at h; cases h
  | some n => rw [hp] at h; cases h; rw [(product_some hp).1]

theorem Derived.known {t : Ten α} (hg : Good t) {v : View α} {s : List Nat} {f : List Nat → List Nat} (h : Derived t v s f) :
    Known t v s f := by
  induction h with
  | whole =>
    refine ⟨rfl, rfl, ?_, rfl, fun h0 => ?_, fun _ => .inl rfl, fun h1 => ?_, fun i j _ _ h => h, fun i hi => ⟨hi, ?_⟩⟩
    · show t.sh.extents.length = t.sh.strides.length
      rw [hg.strides, stridesOf_length]
    · exact hg.count (fun e => h0 (hg.rank0.2 e))
    · show t.sh.strides = [1]
      rw [hg.strides]
      match t.sh.extents, h1 with
      | [e], _ => rfl
    · show 0 + dot i t.sh.strides = _
      rw [hg.strides, dot_strides hi, Nat.zero_add]; rfl
  | @slice v w s f rs hd hr hw ih =>
    have hl : v.ext.length = v.str.length := by rw [ih.ext]; exact ih.len
    have hr' : RangesOk rs v.ext := by rw [ih.ext]; exact hr
    have hw := make_some hw
    obtain ⟨p1, p2⟩ := sliceParts_shape hl hr'
    rw [p1, p2] at hw
    subst hw
    refine ⟨ih.mem, by rw [ih.ext], by rw [sliceShape_length hr]; exact ih.len, by rw [sliceShape_length hr]; exact ih.rank,
      fun _ => by rw [ih.ext], fun h0 => .inr ?_, fun h1 => ih.one (by rwa [sliceShape_length hr] at h1),
      fun i j hi hj h => shift_inj (ih.inj _ _ (valid_shift hr hi) (valid_shift hr hj) h), fun i hi => ?_⟩
    · have : v.ext = [] := by
        have h1 := ih.rank
        rw [h0] at h1
        rw [ih.ext]; exact List.length_eq_zero_iff.1 h1
      rw [this] at hr' ⊢
      cases rs with
      | nil => rfl
      | cons _ _ => exact hr'.elim
    · obtain ⟨h1, h2⟩ := ih.lin _ (valid_shift hr hi)
      refine ⟨h1, ?_⟩
      rw [← h2, ← slice_dot hl hr' (by rw [ih.ext]; exact hi)]
      dsimp only
      omega
  | @reverse v w s f hd hw ih =>
    have hw := make_some hw
    subst hw
    refine ⟨ih.mem, by rw [ih.ext], by simpa using ih.len, by simpa using ih.rank, fun _ => by rw [ih.ext],
      fun h0 => .inr ?_, fun h1 => ?_, fun i j hi hj h => ?_, fun i hi => ?_⟩
    · have h1 := ih.rank
      rw [h0] at h1
      rw [ih.ext, List.length_eq_zero_iff.1 h1]; rfl
    · simp only [ih.one (by simpa using h1)]; rfl
    · exact List.reverse_inj.1 (ih.inj _ _ (valid_reverse hi) (valid_reverse hj) h)
    · obtain ⟨h1, h2⟩ := ih.lin _ (valid_reverse hi)
      refine ⟨h1, ?_⟩
      rw [← h2]
      dsimp only
      have hil : i.length = v.str.length := by rw [hi.length, List.length_reverse]; exact ih.len
      have := dot_reverse (i := i.reverse) (s := v.str) (by simpa using hil)
      rw [List.reverse_reverse] at this
      rw [this]
  | @transpose v w s f axes hd hp hw ih =>
    have hw := make_some hw
    subst hw
    obtain ⟨hal, hn, hm⟩ := perm_facts hp
    have hps : axes.Perm (List.range v.str.length) := by rw [← ih.len]; exact hp
    refine ⟨ih.mem, by rw [ih.ext], by simp, by rw [List.length_map, hal]; exact ih.rank, fun _ => by rw [ih.ext],
      fun h0 => .inr ?_, fun h1 => ?_, fun i j hi hj h => ?_, fun i hi => ?_⟩
    · have h1 := ih.rank
      rw [h0] at h1
      rw [h1] at hal
      have : axes = [] := List.length_eq_zero_iff.1 hal
      subst this; rfl
    · have h1 : s.length = 1 := by rw [List.length_map] at h1; omega
      have hs := ih.one h1
      rw [h1] at hal
      match axes, hal with
      | [a], _ =>
        have := (hm a).1 (by simp)
        have : a = 0 := by omega
        subst this
        simp [hs]
    · exact unpermute_inj hp (by rw [hi.length]; simpa using hal) (by rw [hj.length]; simpa using hal)
        (ih.inj _ _ (valid_unpermute hp hi) (valid_unpermute hp hj) h)
    · obtain ⟨h1, h2⟩ := ih.lin _ (valid_unpermute hp hi)
      refine ⟨h1, ?_⟩
      rw [← h2]
      dsimp only
      rw [dot_unpermute hps (by rw [hi.length]; simp)]

end Verif.Tensor
