import Verif.Sync.Spec

/-!
One pair of ports of the synchronising block.
-/
namespace Verif.Sync

def Sorted (l : List Tag) : Prop := l.Pairwise fun a b => a.index ≤ b.index

theorem takeWhile_sorted {l : List Tag} (h : Sorted l) (m : Nat) :
    l.takeWhile (fun t => decide (t.index < m)) = l.filter (fun t => decide (t.index < m)) := by
  induction l with
  | nil => rfl
  | cons a l ih =>
    have h' := List.pairwise_cons.1 h
    by_cases ha : a.index < m
    · simp [ha, ih h'.2]
    · have : l.filter (fun t => decide (t.index < m)) = [] := by
        simp only [List.filter_eq_nil_iff, decide_eq_true_eq]
        intro b hb
        have := h'.1 b hb
        omega
      simp [ha, this]

theorem dropWhile_sorted {l : List Tag} (h : Sorted l) (m : Nat) :
    l.drop (l.filter (fun t => decide (t.index < m))).length = l.filter (fun t => decide (m ≤ t.index)) := by
  induction l with
  | nil => rfl
  | cons a l ih =>
    have h' := List.pairwise_cons.1 h
    by_cases ha : a.index < m
    · simp [ha, ih h'.2, Nat.not_le.2 ha]
    · have e : l.filter (fun t => decide (t.index < m)) = [] := by
        simp only [List.filter_eq_nil_iff, decide_eq_true_eq]
        intro b hb
        have := h'.1 b hb
        omega
      have e2 : l.filter (fun t => decide (m ≤ t.index)) = l := by
        simp only [List.filter_eq_self, decide_eq_true_eq]
        intro b hb
        have := h'.1 b hb
        omega
      simp [ha, e, e2, Nat.not_lt.1 ha]

theorem sorted_filter {l : List Tag} (h : Sorted l) (q : Tag → Bool) : Sorted (l.filter q) := List.Pairwise.filter _ h

/-- What holds of a pair of ports between calls; `d` samples were dropped since the last that were published. -/
structure Port.Ok {α} (p : Port α) (d : Nat) : Prop where
  sorted : Sorted p.tags
  bits : ∀ t ∈ p.tags, ∀ n, t.time = some (.u64 n) → n < 2 ^ 64
  left : p.left = p.tags.filter fun t => decide (p.pos ≤ t.index)
  short : p.stream.length < 2 ^ 32
  pos : p.pos = p.out.length + droppedUpTo p.outTags p.out.length + d
  posle : p.pos ≤ p.stream.length
  offs : ∀ t ∈ p.outTags, t.at ≤ p.out.length
  inOffs : ∀ o t, OTag.input o t ∈ p.outTags → o < p.out.length
  samples : ∀ k, k < p.out.length → p.out[k]? = p.stream[k + droppedUpTo p.outTags k]?
  kept : ∀ k, k < p.out.length → tagsAt p.outTags k = p.tags.filter fun t => decide (t.index = k + droppedUpTo p.outTags k)
  order : p.outTags.Pairwise fun a b => a.at ≤ b.at

theorem view_tags {α} {p : Port α} {d : Nat} (h : p.Ok d) (n : Nat) :
    (p.view n).tags = p.tags.filter fun t => decide (p.pos ≤ t.index ∧ t.index < p.pos + (p.view n).samples.length) := by
  have e : (p.view n).tags = p.left.takeWhile fun t => decide (t.index < p.pos + (p.view n).samples.length) := rfl
  rw [e, h.left, takeWhile_sorted (sorted_filter h.sorted _), List.filter_filter]
  congr 1
  funext t
  by_cases h1 : p.pos ≤ t.index <;> by_cases h2 : t.index < p.pos + (p.view n).samples.length <;> simp [h1, h2]

theorem view_ok {α} {p : Port α} {d : Nat} (h : p.Ok d) (n : Nat) : (p.view n).Ok where
  sorted := by rw [view_tags h]; exact sorted_filter h.sorted _
  inside := by
    intro t ht
    rw [view_tags h] at ht
    have h2 := (List.mem_filter.1 ht).2
    exact of_decide_eq_true h2
  bits := by
    intro t ht
    rw [view_tags h] at ht
    exact h.bits t (List.mem_filter.1 ht).1

theorem apply_left {α} {p : Port α} {d : Nat} (h : p.Ok d) (n : Nat) {r : Res α} (hc : r.consumed ≤ (p.view n).samples.length) :
    (p.apply n r).left = p.tags.filter fun t => decide (p.pos + r.consumed ≤ t.index) := by
  have e : (p.apply n r).left = p.left.drop ((p.view n).tags.takeWhile fun t => decide (t.index < p.pos + r.consumed)).length := rfl
  have e2 : (p.view n).tags.takeWhile (fun t => decide (t.index < p.pos + r.consumed)) =
      p.left.filter fun t => decide (t.index < p.pos + r.consumed) := by
    rw [takeWhile_sorted (view_ok h n).sorted, view_tags h, h.left, List.filter_filter, List.filter_filter]
    congr 1
    funext t
    rw [Bool.eq_iff_iff]
    simp only [Bool.and_eq_true, decide_eq_true_eq]
    omega
  have hs : Sorted p.left := by rw [h.left]; exact sorted_filter h.sorted _
  rw [e, e2, dropWhile_sorted hs, h.left, List.filter_filter]
  congr 1
  funext t
  rw [Bool.eq_iff_iff]
  simp only [Bool.and_eq_true, decide_eq_true_eq]
  omega

theorem dropped_append (a b : List OTag) (k : Nat) : droppedUpTo (a ++ b) k = droppedUpTo a k + droppedUpTo b k := by
  simp [droppedUpTo]

theorem tagsAt_append (a b : List OTag) (k : Nat) : tagsAt (a ++ b) k = tagsAt a k ++ tagsAt b k := by
  simp [tagsAt]

theorem dropped_late {ts : List OTag} {k : Nat} (h : ∀ t ∈ ts, k < t.at) : droppedUpTo ts k = 0 := by
  induction ts with
  | nil => rfl
  | cons a l ih =>
    have h1 := h a (List.mem_cons_self ..)
    have h2 := ih fun t ht => h t (List.mem_cons_of_mem _ ht)
    unfold droppedUpTo at h2 ⊢
    simp only [List.map_cons, List.sum_cons, h2]
    cases a with
    | dropped o n => simp only [OTag.at] at h1; simp; omega
    | input o t => rfl

theorem dropped_early {ts : List OTag} {k m : Nat} (h : ∀ t ∈ ts, t.at ≤ m) (hk : m ≤ k) : droppedUpTo ts k = droppedUpTo ts m := by
  induction ts with
  | nil => rfl
  | cons a l ih =>
    have h1 := h a (List.mem_cons_self ..)
    have h2 := ih fun t ht => h t (List.mem_cons_of_mem _ ht)
    unfold droppedUpTo at h2 ⊢
    simp only [List.map_cons, List.sum_cons, h2]
    cases a with
    | dropped o n => simp only [OTag.at] at h1; dsimp only; rw [if_pos (by omega), if_pos h1]
    | input o t => rfl

theorem tagsAt_none {ts : List OTag} {k : Nat} (h : ∀ o t, OTag.input o t ∈ ts → o ≠ k) : tagsAt ts k = [] := by
  simp only [tagsAt, List.filterMap_eq_nil_iff]
  intro a ha
  cases a with
  | dropped o n => rfl
  | input o t => simp [h o t ha]

/-- Samples dropped without being reported yet. -/
theorem skip_ok {α} {p : Port α} {d : Nat} (h : p.Ok d) (n : Nat) {e : Nat} (he : e ≤ (p.view n).samples.length) :
    (p.apply n ⟨e, [], []⟩).Ok (d + e) := by
  have hlen : (p.view n).samples.length ≤ p.stream.length - p.pos := by
    simp [Port.view, List.length_take]
    omega
  have hp := h.posle
  have e1 : (p.apply n ⟨e, [], []⟩).out = p.out := by simp [Port.apply]
  have e2 : (p.apply n ⟨e, [], []⟩).outTags = p.outTags := by simp [Port.apply]
  have e3 : (p.apply n ⟨e, [], []⟩).pos = p.pos + e := rfl
  have e4 : (p.apply n ⟨e, [], []⟩).tags = p.tags := rfl
  have e5 : (p.apply n ⟨e, [], []⟩).stream = p.stream := rfl
  constructor
  · rw [e4]; exact h.sorted
  · rw [e4]; exact h.bits
  · rw [apply_left h n he, e4, e3]
  · rw [e5]; exact h.short
  · rw [e1, e2, e3, h.pos]; omega
  · rw [e3, e5]; omega
  · rw [e1, e2]; exact h.offs
  · rw [e1, e2]; exact h.inOffs
  · rw [e1, e2, e5]; exact h.samples
  · rw [e1, e2, e4]; exact h.kept
  · rw [e2]; exact h.order

theorem shift_at (m : Nat) (t : OTag) : (shift m t).at = m + t.at := by cases t <;> rfl

theorem mem_inputTags {α} {i : In α} {drop publish : Nat} {x : OTag} (h : x ∈ inputTags i drop publish) :
    ∃ t ∈ i.tags, i.start + drop ≤ t.index ∧ t.index < i.start + drop + publish ∧ x = .input (t.index - i.start - drop) t := by
  simp only [inputTags, List.mem_filterMap, relIndex] at h
  obtain ⟨t, ht, hx⟩ := h
  refine ⟨t, ht, ?_⟩
  split at hx
  · rename_i r hr
    split at hr
    · cases hr
      split at hx
      · cases hx; refine ⟨?_, ?_, rfl⟩ <;> omega
      · cases hx
    · cases hr
  · cases hx

theorem inputTags_sorted {α} {i : In α} (h : Sorted i.tags) (drop publish : Nat) :
    (inputTags i drop publish).Pairwise fun a b => a.at ≤ b.at := by
  unfold inputTags
  rw [List.pairwise_filterMap]
  refine List.Pairwise.imp ?_ h
  intro a b hab x hx y hy
  simp only [relIndex] at hx hy
  split at hx
  · rename_i r hr
    split at hr
    · cases hr
      split at hx
      · cases hx
        split at hy
        · rename_i r hr
          split at hr
          · cases hr
            split at hy
            · cases hy; simp only [OTag.at]; omega
            · cases hy
          · cases hr
        · cases hy
      · cases hx
    · cases hr
  · cases hx

theorem tagsAt_input {α} (i : In α) (drop publish m j : Nat) (hj : j < publish) :
    tagsAt ((inputTags i drop publish).map (shift m)) (m + j) = i.tags.filter fun t => decide (t.index = i.start + drop + j) := by
  unfold tagsAt inputTags
  rw [List.filterMap_map, List.filterMap_filterMap, ← List.filterMap_eq_filter]
  congr 1
  funext t
  simp only [relIndex, Option.guard]
  by_cases h1 : t.index = i.start + drop + j
  · have h2 : i.start ≤ t.index := by omega
    have h3 : t.index - i.start ≥ drop ∧ t.index - i.start < publish + drop := by omega
    have h4 : m + (t.index - i.start - drop) = m + j := by omega
    rw [if_pos h2]
    dsimp only
    rw [if_pos h3]
    simp only [Option.bind_some, Function.comp, shift, h4, if_true]
    simp [h1]
  · have hr : (if decide (t.index = i.start + drop + j) = true then some t else none) = none := by simp [h1]
    rw [hr]
    by_cases h2 : i.start ≤ t.index
    · rw [if_pos h2]
      dsimp only
      split
      · rename_i h3
        simp only [Option.bind_some, Function.comp, shift]
        rw [if_neg (by omega)]
      · rfl
    · rw [if_neg h2]
      rfl

/-- Samples dropped and samples published. -/
theorem emit_ok {α} {p : Port α} {d : Nat} (h : p.Ok d) (n : Nat) {drop publish : Nat} (he : drop + publish ≤ (p.view n).samples.length) :
    (p.apply n (emit (p.view n) d drop publish)).Ok 0 := by
  have hlen : (p.view n).samples.length ≤ p.stream.length - p.pos := by
    simp [Port.view, List.length_take]
    omega
  have hp := h.posle
  have hpos := h.pos
  have hshort := h.short
  have hl : ((p.view n).samples.drop drop).take publish = (p.stream.drop (p.pos + drop)).take publish := by
    have e : (p.view n).samples = (p.stream.drop p.pos).take n := rfl
    have hn : drop + publish ≤ n := by
      have : (p.view n).samples.length ≤ n := by rw [e]; simp [List.length_take]; omega
      omega
    rw [e, List.drop_take, List.take_take, List.drop_drop, Nat.min_eq_left (by omega)]
  have hll : ((p.view n).samples.drop drop |>.take publish).length = publish := by
    simp only [List.length_take, List.length_drop]; omega
  generalize hr : emit (p.view n) d drop publish = r
  have r1 : r.consumed = drop + publish := by rw [← hr]; rfl
  have r2 : r.samples = ((p.view n).samples.drop drop).take publish := by rw [← hr]; rfl
  have r3 : r.tags = dropTag (d + drop) ++ inputTags (p.view n) drop publish := by rw [← hr]; rfl
  have e1 : (p.apply n r).out = p.out ++ r.samples := rfl
  have e2 : (p.apply n r).outTags = p.outTags ++ r.tags.map (shift p.out.length) := rfl
  have e3 : (p.apply n r).pos = p.pos + r.consumed := rfl
  have e4 : (p.apply n r).tags = p.tags := rfl
  have e5 : (p.apply n r).stream = p.stream := rfl
  have hol : (p.apply n r).out.length = p.out.length + publish := by rw [e1, List.length_append, r2, hll]
  -- the number of dropped samples reported
  have hd : ∀ k, p.out.length ≤ k → droppedUpTo (r.tags.map (shift p.out.length)) k = d + drop := by
    intro k hk
    rw [r3, List.map_append, dropped_append]
    have h1 : droppedUpTo ((dropTag (d + drop)).map (shift p.out.length)) k = d + drop := by
      unfold dropTag
      split
      · have : (d + drop) % 2 ^ 32 = d + drop := Nat.mod_eq_of_lt (by omega)
        simp [droppedUpTo, shift, this, hk]
      · simp [droppedUpTo]; omega
    have h2 : droppedUpTo ((inputTags (p.view n) drop publish).map (shift p.out.length)) k = 0 := by
      have : ∀ l : List OTag, (∀ x ∈ l, ∃ o t, x = .input o t) → droppedUpTo l k = 0 := by
        intro l
        induction l with
        | nil => intro _; rfl
        | cons a l ih =>
          intro hl
          obtain ⟨o, t, rfl⟩ := hl a (List.mem_cons_self ..)
          have := ih fun x hx => hl x (List.mem_cons_of_mem _ hx)
          unfold droppedUpTo at this ⊢
          simpa using this
      apply this
      intro x hx
      obtain ⟨y, hy, rfl⟩ := List.mem_map.1 hx
      obtain ⟨t, -, -, -, rfl⟩ := mem_inputTags hy
      exact ⟨_, _, rfl⟩
    omega
  have hat : ∀ x ∈ r.tags.map (shift p.out.length), p.out.length ≤ x.at := by
    intro x hx
    obtain ⟨y, -, rfl⟩ := List.mem_map.1 hx
    rw [shift_at]; omega
  have hold : ∀ k, k < p.out.length → droppedUpTo (p.apply n r).outTags k = droppedUpTo p.outTags k := by
    intro k hk
    rw [e2, dropped_append, dropped_late (ts := r.tags.map _)]
    · rfl
    · intro x hx; have := hat x hx; omega
  have hnew : ∀ k, p.out.length ≤ k → k + droppedUpTo (p.apply n r).outTags k = p.pos + drop + (k - p.out.length) := by
    intro k hk
    rw [e2, dropped_append, hd k hk, dropped_early h.offs hk]
    omega
  constructor
  · rw [e4]; exact h.sorted
  · rw [e4]; exact h.bits
  · rw [apply_left h n (by omega), e4, e3]
  · rw [e5]; exact hshort
  · have := hnew (p.out.length + publish) (by omega)
    rw [hol, e3, r1]
    omega
  · rw [e3, e5]; omega
  · rw [hol, e2]
    intro t ht
    rcases List.mem_append.1 ht with ht | ht
    · have := h.offs t ht; omega
    · obtain ⟨y, hy, rfl⟩ := List.mem_map.1 ht
      rw [shift_at]
      rw [r3] at hy
      rcases List.mem_append.1 hy with hy | hy
      · unfold dropTag at hy
        split at hy
        · simp at hy; subst hy; simp only [OTag.at]; omega
        · cases hy
      · obtain ⟨t, ht, h1, h2, rfl⟩ := mem_inputTags hy
        simp only [OTag.at]
        omega
  · rw [hol, e2]
    intro o t ht
    rcases List.mem_append.1 ht with ht | ht
    · have := h.inOffs o t ht; omega
    · obtain ⟨y, hy, hx⟩ := List.mem_map.1 ht
      rw [r3] at hy
      rcases List.mem_append.1 hy with hy | hy
      · unfold dropTag at hy
        split at hy
        · simp at hy; subst hy; cases hx
        · cases hy
      · obtain ⟨t', ht, h1, h2, rfl⟩ := mem_inputTags hy
        simp only [shift, OTag.input.injEq] at hx
        omega
  · rw [hol]
    intro k hk
    by_cases hk' : k < p.out.length
    · rw [hold k hk', e1, List.getElem?_append_left hk', e5]
      exact h.samples k hk'
    · rw [hnew k (by omega), e1, List.getElem?_append_right (by omega), r2, hl, e5,
        List.getElem?_take_of_lt (by omega), List.getElem?_drop]
  · rw [hol]
    intro k hk
    by_cases hk' : k < p.out.length
    · rw [hold k hk', e2, tagsAt_append, tagsAt_none (ts := r.tags.map _), List.append_nil, e4]
      · exact h.kept k hk'
      · intro o t ht
        have := hat _ ht
        simp only [OTag.at] at this
        omega
    · rw [hnew k (by omega), e2, tagsAt_append, tagsAt_none (ts := p.outTags), List.nil_append, r3, List.map_append, tagsAt_append,
        tagsAt_none (ts := (dropTag _).map _), List.nil_append, e4]
      · have ek : k = p.out.length + (k - p.out.length) := by omega
        have := tagsAt_input (p.view n) drop publish p.out.length (k - p.out.length) (by omega)
        rw [← ek] at this
        rw [this, view_tags h, List.filter_filter]
        congr 1
        funext t
        have es : (p.view n).start = p.pos := rfl
        rw [Bool.eq_iff_iff, es]
        simp only [Bool.and_eq_true, decide_eq_true_eq]
        omega
      · intro o t ht
        obtain ⟨y, hy, hx⟩ := List.mem_map.1 ht
        unfold dropTag at hy
        split at hy
        · simp at hy; subst hy; cases hx
        · cases hy
      · intro o t ht
        have := h.inOffs o t ht
        omega
  · rw [e2, List.pairwise_append]
    refine ⟨h.order, ?_, ?_⟩
    · rw [List.pairwise_map, r3, List.pairwise_append]
      refine ⟨?_, ?_, ?_⟩
      · unfold dropTag
        split
        · exact List.pairwise_singleton ..
        · exact List.Pairwise.nil
      · refine List.Pairwise.imp ?_ (inputTags_sorted (view_ok h n).sorted drop publish)
        intro a b hab
        rw [shift_at, shift_at]; omega
      · intro a ha b hb
        rw [shift_at, shift_at]
        unfold dropTag at ha
        split at ha
        · simp at ha; subst ha; simp only [OTag.at]; omega
        · cases ha
    · intro a ha b hb
      have := h.offs a ha
      have := hat b hb
      omega

end Verif.Sync
