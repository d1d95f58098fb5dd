import Verif.Sync.Lemmas

/-!
What `processBulk` does in each of its branches.
-/
namespace Verif.Sync

theorem isSyncTag_iff (c : Cfg) (t : Tag) : isSyncTag c t = true ↔ ∃ T, SyncTag c t T := by
  unfold isSyncTag SyncTag
  cases hn : t.name with
  | none => simp
  | some n =>
    by_cases h : c.filter ≠ "" ∧ n ≠ c.filter
    · dsimp only
      rw [if_pos h]
      simp only [Bool.false_eq_true, false_iff]
      rintro ⟨T, m, hm, h', -⟩
      cases hm
      simp_all
    · have h2 : c.filter = "" ∨ n = c.filter := by
        by_cases h1 : c.filter = ""
        · exact .inl h1
        · by_cases h3 : n = c.filter
          · exact .inr h3
          · exact absurd ⟨h1, h3⟩ h
      simp only [h, if_false]
      constructor
      · intro hx
        split at hx
        · rename_i T hT; exact ⟨T, n, rfl, h2, hT⟩
        · cases hx
      · rintro ⟨T, m, hm, -, hT⟩
        rw [hT]

theorem SyncTag.time {c : Cfg} {t : Tag} {T : Nat} (h : SyncTag c t T) : getTime t = T := by
  obtain ⟨n, -, -, ht⟩ := h
  simp [getTime, ht]

theorem SyncTag.of {c : Cfg} {t : Tag} {T : Nat} (h : SyncTag c t T) : isSyncTag c t = true := (isSyncTag_iff c t).2 ⟨T, h⟩

theorem syncTag_getTime {c : Cfg} {t : Tag} (h : isSyncTag c t = true) : SyncTag c t (getTime t) := by
  obtain ⟨T, hT⟩ := (isSyncTag_iff c t).1 h
  rw [hT.time]
  exact hT

theorem getTime_eq (t : Tag) : getTime t = timeOf t := rfl

theorem within_iff (c : Cfg) (a b : Nat) : within c a b = true ↔ Near c a b := by
  unfold within Near
  rw [decide_eq_true_eq]
  split <;> omega

theorem near_comm {c : Cfg} {a b : Nat} (h : Near c a b) : Near c b a := ⟨h.2, h.1⟩

theorem mem_syncTimes {α} {c : Cfg} {i : In α} (h : i.Ok) {T : Nat} : T ∈ syncTimes c i ↔ ∃ t ∈ i.tags, SyncTag c t T := by
  unfold syncTimes
  rw [List.mem_map]
  constructor
  · rintro ⟨t, ht, rfl⟩
    have := List.mem_filter.1 ht
    simp only [Bool.and_eq_true] at this
    exact ⟨t, this.1, syncTag_getTime this.2.1⟩
  · rintro ⟨t, ht, hT⟩
    refine ⟨t, List.mem_filter.2 ⟨ht, ?_⟩, hT.time⟩
    have h1 := h.inside t ht
    simp only [hT.of, relIndex, h1.1, if_true, Bool.true_and, decide_eq_true_eq]
    omega

theorem mem_insertSet {t u : Nat} {l : List Nat} : u ∈ insertSet t l ↔ u = t ∨ u ∈ l := by
  induction l with
  | nil => simp [insertSet]
  | cons a l ih =>
    unfold insertSet
    split
    · simp
    · split
      · rename_i h; subst h; simp
      · simp only [List.mem_cons, ih]
        constructor <;> rintro (h | h | h) <;> simp [h]

theorem insertSet_sorted {t : Nat} {l : List Nat} (h : l.Pairwise (· < ·)) : (insertSet t l).Pairwise (· < ·) := by
  induction l with
  | nil => exact List.pairwise_singleton ..
  | cons a l ih =>
    have h' := List.pairwise_cons.1 h
    unfold insertSet
    split
    · rename_i hlt
      refine List.pairwise_cons.2 ⟨?_, h⟩
      intro b hb
      rcases List.mem_cons.1 hb with rfl | hb
      · exact hlt
      · have := h'.1 b hb; omega
    · split
      · exact h
      · refine List.pairwise_cons.2 ⟨?_, ih h'.2⟩
        intro b hb
        rcases mem_insertSet.1 hb with rfl | hb
        · omega
        · exact h'.1 b hb

theorem fold_set (l : List Nat) : ∀ s : List Nat, s.Pairwise (· < ·) →
    (l.foldl (fun s t => insertSet t s) s).Pairwise (· < ·) ∧ ∀ u, u ∈ l.foldl (fun s t => insertSet t s) s ↔ u ∈ l ∨ u ∈ s := by
  induction l with
  | nil => intro s hs; exact ⟨hs, by simp⟩
  | cons a l ih =>
    intro s hs
    obtain ⟨h1, h2⟩ := ih (insertSet a s) (insertSet_sorted hs)
    refine ⟨h1, fun u => ?_⟩
    rw [List.foldl_cons, h2, mem_insertSet, List.mem_cons]
    constructor
    · rintro (h | h | h) <;> simp [h]
    · rintro ((h | h) | h) <;> simp [h]

theorem find_least {l : List Nat} {q : Nat → Bool} {T : Nat} (hs : l.Pairwise (· < ·)) (h : l.find? q = some T) :
    T ∈ l ∧ q T = true ∧ ∀ u ∈ l, q u = true → T ≤ u := by
  induction l with
  | nil => cases h
  | cons a l ih =>
    have hs' := List.pairwise_cons.1 hs
    rw [List.find?_cons] at h
    split at h
    · rename_i hq
      cases h
      refine ⟨List.mem_cons_self .., hq, ?_⟩
      intro u hu _
      rcases List.mem_cons.1 hu with rfl | hu
      · exact Nat.le_refl _
      · have := hs'.1 u hu; omega
    · rename_i hq
      obtain ⟨h1, h2, h3⟩ := ih hs'.2 h
      refine ⟨List.mem_cons_of_mem _ h1, h2, ?_⟩
      intro u hu hqu
      rcases List.mem_cons.1 hu with rfl | hu
      · rw [hqu] at hq; cases hq
      · exact h3 u hu hqu

theorem findSyncTime_spec {α} {c : Cfg} {ins : List (In α)} (hi : ∀ i ∈ ins, i.Ok) :
    Earliest c ins (findSyncTime c ins) ∨ (findSyncTime c ins = noTime ∧ ∀ T, ¬ Common c ins T) := by
  have hcomm : ∀ T, Common c ins T ↔
      T ∈ ((ins.map (syncTimes c)).flatten.foldl (fun s t => insertSet t s) []) ∧
        ((ins.map (syncTimes c)).all fun ts => ts.any fun t => within c T t) = true := by
    intro T
    rw [(fold_set _ [] List.Pairwise.nil).2]
    constructor
    · rintro ⟨⟨i, hi', t, ht, hT⟩, h2⟩
      refine ⟨.inl ?_, ?_⟩
      · exact List.mem_flatten.2 ⟨_, List.mem_map.2 ⟨i, hi', rfl⟩, (mem_syncTimes (hi i hi')).2 ⟨t, ht, hT⟩⟩
      · rw [List.all_eq_true]
        intro ts hts
        obtain ⟨j, hj, rfl⟩ := List.mem_map.1 hts
        obtain ⟨t, ht, u, hu, hn⟩ := h2 j hj
        exact List.any_eq_true.2 ⟨u, (mem_syncTimes (hi j hj)).2 ⟨t, ht, hu⟩, (within_iff c T u).2 hn⟩
    · rintro ⟨h1, h2⟩
      have h1 : T ∈ (ins.map (syncTimes c)).flatten := by
        rcases h1 with h1 | h1
        · exact h1
        · cases h1
      obtain ⟨ts, hts, hT⟩ := List.mem_flatten.1 h1
      obtain ⟨i, hi', rfl⟩ := List.mem_map.1 hts
      obtain ⟨t, ht, hs⟩ := (mem_syncTimes (hi i hi')).1 hT
      refine ⟨⟨i, hi', t, ht, hs⟩, ?_⟩
      intro j hj
      have := List.all_eq_true.1 h2 _ (List.mem_map.2 ⟨j, hj, rfl⟩)
      obtain ⟨u, hu, hw⟩ := List.any_eq_true.1 this
      obtain ⟨t, ht, hs⟩ := (mem_syncTimes (hi j hj)).1 hu
      exact ⟨t, ht, u, hs, (within_iff c T u).1 hw⟩
  simp only [findSyncTime]
  cases hf : (((ins.map (syncTimes c)).flatten.foldl (fun s t => insertSet t s) []).find?
      fun cur => (ins.map (syncTimes c)).all fun ts => ts.any fun t => within c cur t) with
  | some T =>
    left
    obtain ⟨h1, h2, h3⟩ := find_least (fold_set _ [] List.Pairwise.nil).1 hf
    refine ⟨(hcomm T).2 ⟨h1, h2⟩, fun S hS => ?_⟩
    exact h3 S ((hcomm S).1 hS).1 ((hcomm S).1 hS).2
  | none =>
    right
    refine ⟨rfl, fun T hT => ?_⟩
    have h := (hcomm T).1 hT
    exact List.find?_eq_none.1 hf T h.1 h.2

theorem common_bits {α} {c : Cfg} {ins : List (In α)} (hi : ∀ i ∈ ins, i.Ok) {T : Nat} (h : Common c ins T) : T ≤ noTime := by
  obtain ⟨⟨i, hi', t, ht, n, -, -, hT⟩, -⟩ := h
  have := (hi i hi').bits t ht T hT
  unfold noTime
  omega

theorem filterMap_some {β γ} {f : β → Option γ} {l : List β} (h : ∀ x ∈ l, (f x).isSome) : (l.filterMap f).map some = l.map f := by
  induction l with
  | nil => rfl
  | cons a l ih =>
    have h1 := h a (List.mem_cons_self ..)
    have h2 := ih fun x hx => h x (List.mem_cons_of_mem _ hx)
    cases ha : f a with
    | none => rw [ha] at h1; cases h1
    | some y => simp [ha, h2]

theorem minOf_le {l : List Nat} {n : Nat} (h : n ∈ l) : minOf l ≤ n := by
  induction l with
  | nil => cases h
  | cons a l ih =>
    cases l with
    | nil => simp at h; subst h; exact Nat.le_refl _
    | cons b l =>
      unfold minOf
      rcases List.mem_cons.1 h with rfl | h
      · exact Nat.min_le_left ..
      · exact Nat.le_trans (Nat.min_le_right ..) (ih h)

theorem minOf_mem {l : List Nat} (h : l ≠ []) : minOf l ∈ l := by
  induction l with
  | nil => exact absurd rfl h
  | cons a l ih =>
    cases l with
    | nil => simp [minOf]
    | cons b l =>
      unfold minOf
      have := ih (by simp)
      rcases Nat.le_total a (minOf (b :: l)) with hab | hab
      · rw [Nat.min_eq_left hab]; exact List.mem_cons_self ..
      · rw [Nat.min_eq_right hab]; exact List.mem_cons_of_mem _ this

/-- What is known of the tag an input is aligned by. -/
structure DataOk {α} (c : Cfg) (T : Nat) (i : In α) (t : Tag) (d : Data) : Prop where
  mem : t ∈ i.tags
  near : Near c (timeOf t) T
  index : d.index = t.index - i.start
  pre : d.pre ≤ d.index
  preAll : (∀ u ∈ i.tags, u.index < t.index → ∀ S, ¬ SyncTag c u S) → d.pre = d.index
  inside : i.start ≤ t.index ∧ d.index + 1 + d.post ≤ i.samples.length
  post : ∀ u ∈ i.tags, t.index < u.index → u.index < t.index + 1 + d.post → ∀ S, ¬ SyncTag c u S
  postEnd : d.index + 1 + d.post = i.samples.length ∨ ∃ u ∈ i.tags, u.index = t.index + 1 + d.post ∧ ∃ S, SyncTag c u S

theorem syncData_ok {α} {c : Cfg} {T : Nat} {i : In α} (hi : i.Ok) {d : Data} (h : syncData c T i = some d) :
    ∃ t, DataOk c T i t d := by
  unfold syncData at h
  cases hf : i.tags.find? fun t => within c (getTime t) T && (relIndex i t).isSome with
  | none => rw [hf] at h; cases h
  | some t =>
    rw [hf] at h
    simp only [Option.some.injEq] at h
    subst h
    have hm := List.mem_of_find?_eq_some hf
    have hq := List.find?_some hf
    simp only [Bool.and_eq_true] at hq
    have hin := hi.inside t hm
    refine ⟨t, hm, (within_iff _ _ _).1 hq.1, rfl, ?_, ?_, ⟨hin.1, ?_⟩, ?_, ?_⟩
    · simp only [preSamples]
      split <;> omega
    · intro hno
      simp only [preSamples]
      split
      · rename_i u hu
        have hum := List.mem_of_find?_eq_some hu
        have huq := List.find?_some hu
        have huin := hi.inside u hum
        simp only [relIndex, huin.1, if_true, Bool.and_eq_true, decide_eq_true_eq] at huq
        exact absurd (syncTag_getTime huq.2) (hno u hum (by omega) _)
      · rfl
    · simp only [postSamples]
      split
      · rename_i u hu
        have hum := List.mem_of_find?_eq_some hu
        have huin := hi.inside u hum
        omega
      · omega
    · intro u hum h1 h2 S hS
      have huin := hi.inside u hum
      simp only [postSamples] at h2
      split at h2
      · rename_i v hv
        -- the first later synchronisation tag comes no later than `u`
        have hvq := List.find?_some hv
        obtain ⟨as, bs, hab, hno⟩ := (List.find?_eq_some_iff_append.1 hv).2
        have hvm := List.mem_of_find?_eq_some hv
        have hvin := hi.inside v hvm
        simp only [relIndex, hvin.1, if_true, Bool.and_eq_true, decide_eq_true_eq] at hvq
        rw [hab] at hum
        rcases List.mem_append.1 hum with hu | hu
        · have := hno u hu
          simp only [relIndex, huin.1, if_true, hS.of, Bool.and_true, Bool.not_eq_true', decide_eq_false_iff_not] at this
          omega
        · have hs := hi.sorted
          rw [hab] at hs
          have := (List.pairwise_append.1 hs).2.1
          rcases List.mem_cons.1 hu with rfl | hu
          · omega
          · have := (List.pairwise_cons.1 this).1 u hu
            omega
      · rename_i hv
        have := List.find?_eq_none.1 hv u hum
        simp only [relIndex, huin.1, if_true, hS.of, Bool.and_true, decide_eq_true_eq] at this
        omega
    · simp only [postSamples]
      split
      · rename_i u hu
        right
        have hum := List.mem_of_find?_eq_some hu
        have huq := List.find?_some hu
        have huin := hi.inside u hum
        simp only [relIndex, huin.1, if_true, Bool.and_eq_true, decide_eq_true_eq] at huq
        exact ⟨u, hum, by omega, _, syncTag_getTime huq.2⟩
      · left; omega

theorem syncData_some {α} {c : Cfg} {T : Nat} {i : In α} (hi : i.Ok) {t : Tag} (ht : t ∈ i.tags) {u : Nat} (hu : SyncTag c t u)
    (hn : Near c T u) : (syncData c T i).isSome := by
  unfold syncData
  cases hf : i.tags.find? fun t => within c (getTime t) T && (relIndex i t).isSome with
  | some t => rfl
  | none =>
    have := List.find?_eq_none.1 hf t ht
    have hin := hi.inside t ht
    simp only [hu.time, relIndex, hin.1, if_true, Option.isSome_some, Bool.and_true] at this
    exact absurd ((within_iff _ _ _).2 (near_comm hn)) this

theorem synchronize_some {α} {c : Cfg} {ins : List (In α)} (hi : ∀ i ∈ ins, i.Ok) (h : CanSync c ins) :
    ∃ T, Earliest c ins T ∧ T ≠ noTime ∧ (synchronize c ins).map some = ins.map (syncData c T) := by
  obtain ⟨S, hS, hcom⟩ := h
  rcases findSyncTime_spec hi with he | ⟨-, he⟩
  · have hne : findSyncTime c ins ≠ noTime := by
      have h1 := he.2 S hcom
      have h2 := common_bits hi hcom
      have h3 : S ≠ noTime := hS
      omega
    refine ⟨_, he, hne, ?_⟩
    simp only [synchronize, hne, if_false]
    apply filterMap_some
    intro i hi'
    obtain ⟨t, ht, u, hu, hn⟩ := he.1.2 i hi'
    exact syncData_some (hi i hi') ht hu hn
  · exact absurd hcom (he S)

theorem synchronize_iff {α} {c : Cfg} {ins : List (In α)} (hi : ∀ i ∈ ins, i.Ok) (hne : ins ≠ []) :
    (synchronize c ins).length = ins.length ↔ CanSync c ins := by
  constructor
  · intro h
    rcases findSyncTime_spec hi with he | ⟨he, -⟩
    · refine ⟨findSyncTime c ins, ?_, he.1⟩
      intro ht
      have ht : findSyncTime c ins = noTime := ht
      simp only [synchronize, ht, if_true, List.length_nil] at h
      exact hne (List.length_eq_zero_iff.1 h.symm)
    · simp only [synchronize, he, if_true, List.length_nil] at h
      exact absurd (List.length_eq_zero_iff.1 h.symm) hne
  · intro h
    obtain ⟨T, -, -, hm⟩ := synchronize_some hi h
    have := congrArg List.length hm
    simpa using this

/-- What is known of the number of samples before the first synchronisation tag. -/
theorem samplesBefore_ok {α} {c : Cfg} {i : In α} (hi : i.Ok) :
    samplesBefore c i ≤ i.samples.length ∧
    (∀ u ∈ i.tags, u.index < i.start + samplesBefore c i → ∀ S, ¬ SyncTag c u S) ∧
    (samplesBefore c i = i.samples.length ∨ ∃ u ∈ i.tags, u.index = i.start + samplesBefore c i ∧ ∃ S, SyncTag c u S) := by
  unfold samplesBefore
  cases hf : i.tags.find? fun t => isSyncTag c t && (relIndex i t).isSome with
  | none =>
    refine ⟨Nat.le_refl _, ?_, .inl rfl⟩
    intro u hu _ S hS
    have := List.find?_eq_none.1 hf u hu
    simp [hS.of, relIndex, (hi.inside u hu).1] at this
  | some t =>
    have hm := List.mem_of_find?_eq_some hf
    have hq := List.find?_some hf
    simp only [Bool.and_eq_true] at hq
    have hin := hi.inside t hm
    have hmin : min (t.index - i.start) i.samples.length = t.index - i.start := by omega
    dsimp only
    rw [hmin]
    refine ⟨by omega, ?_, .inr ⟨t, hm, by omega, _, syncTag_getTime hq.1⟩⟩
    intro u hu hlt S hS
    obtain ⟨as, bs, hab, hno⟩ := (List.find?_eq_some_iff_append.1 hf).2
    have huin := hi.inside u hu
    rw [hab] at hu
    rcases List.mem_append.1 hu with hu | hu
    · have := hno u hu
      simp [hS.of, relIndex, huin.1] at this
    · have hs := hi.sorted
      rw [hab] at hs
      have := (List.pairwise_append.1 hs).2.1
      rcases List.mem_cons.1 hu with rfl | hu
      · omega
      · have := (List.pairwise_cons.1 this).1 u hu
        omega

end Verif.Sync
