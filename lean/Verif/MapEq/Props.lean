import Verif.MapEq.Model

/-!
# Property C169: maps and lists of tags are equal exactly if they have the same content
-/

namespace Verif.MapEq

variable {V : Type}

/-- No key twice. -/
def Keys (m : List (String × V)) : Prop := (m.map (·.1)).Nodup

/-- The value of a key, as a specification: the entries with the key. -/
def Has (m : List (String × V)) (k : String) (v : V) : Prop := (k, v) ∈ m

/-- The same keys, with values that compare equal. -/
def Same (veq : V → V → Bool) (ignore : List String) (a b : List (String × V)) : Prop :=
  ∀ k, k ∉ ignore → (∀ v, Has a k v → ∃ w, Has b k w ∧ veq v w = true) ∧ (∀ w, Has b k w → ∃ v, Has a k v ∧ veq v w = true)

theorem find_has (m : List (String × V)) (h : Keys m) (k : String) (v : V) : find m k = some v ↔ Has m k v := by
  unfold Has
  induction m with
  | nil => simp [find]
  | cons e es ih =>
    unfold Keys at h
    rw [List.map_cons, List.nodup_cons] at h
    unfold find
    by_cases he : e.1 = k
    · rw [if_pos he]
      constructor
      · intro hv
        cases hv
        rw [← he]; simp
      · intro hm
        simp only [List.mem_cons] at hm
        rcases hm with hm | hm
        · rw [← hm]
        · exact absurd (List.mem_map.mpr ⟨_, hm, he.symm⟩) h.1
    · rw [if_neg he, ih h.2]
      simp only [List.mem_cons]
      constructor
      · exact Or.inr
      · rintro (hm | hm)
        · rw [← hm] at he; exact absurd rfl he
        · exact hm

theorem find_none (m : List (String × V)) (k : String) : find m k = none ↔ k ∉ m.map (·.1) := by
  induction m with
  | nil => simp [find]
  | cons e es ih =>
    unfold find
    by_cases he : e.1 = k
    · simp [he]
    · simp only [he, if_false, List.map_cons, List.mem_cons, ih]
      constructor
      · rintro h (h' | h')
        · exact he h'.symm
        · exact h h'
      · intro h h'
        exact h (Or.inr h')

theorem back {a b : List String} (ha : a.Nodup) (hb : b.Nodup) (hs : ∀ x ∈ a, x ∈ b) (hl : b.length ≤ a.length) : ∀ x ∈ b, x ∈ a := by
  induction a generalizing b with
  | nil =>
    intro x hx
    have : b = [] := List.length_eq_zero_iff.mp (by simpa using hl)
    rw [this] at hx; cases hx
  | cons y ys ih =>
    rw [List.nodup_cons] at ha
    have hy := hs y (by simp)
    have hlen := List.length_erase_of_mem hy
    intro x hx
    by_cases hxy : x = y
    · simp [hxy]
    · have := ih (b := b.erase y) ha.2 (hb.erase y) (fun z hz => by
        have hzy : z ≠ y := fun h => ha.1 (h ▸ hz)
        exact (List.mem_erase_of_ne hzy).mpr (hs z (by simp [hz]))) (by rw [hlen]; simp at hl; omega) x ((List.mem_erase_of_ne hxy).mpr hx)
      simp [this]

theorem nodup_le {a b : List String} (ha : a.Nodup) (hs : ∀ x ∈ a, x ∈ b) : a.length ≤ b.length := by
  induction a generalizing b with
  | nil => simp
  | cons y ys ih =>
    rw [List.nodup_cons] at ha
    have hy := hs y (by simp)
    have hlen := List.length_erase_of_mem hy
    have := ih (b := b.erase y) ha.2 (fun z hz => by
      have hzy : z ≠ y := fun h => ha.1 (h ▸ hz)
      exact (List.mem_erase_of_ne hzy).mpr (hs z (by simp [hz])))
    have hpos := List.length_pos_of_mem hy
    simp only [List.length_cons]
    omega

theorem has_key {m : List (String × V)} {k : String} {v : V} (h : Has m k v) : k ∈ m.map (·.1) := List.mem_map.mpr ⟨_, h, rfl⟩
theorem key_has {m : List (String × V)} {k : String} (h : k ∈ m.map (·.1)) : ∃ v, Has m k v := by
  obtain ⟨e, he, rfl⟩ := List.mem_map.mp h
  exact ⟨e.2, he⟩
theorem has_unique {m : List (String × V)} (hm : Keys m) {k : String} {v w : V} (h1 : Has m k v) (h2 : Has m k w) : v = w := by
  have := ((find_has m hm k v).mpr h1).symm.trans ((find_has m hm k w).mpr h2)
  exact Option.some.inj this

theorem content_eq (veq : V → V → Bool) (a b : List (String × V)) (ha : Keys a) (hb : Keys b) :
    (a.length = b.length ∧ matches_ veq a b = true) ↔ Same veq [] a b := by
  have hm : matches_ veq a b = true ↔ ∀ k v, Has a k v → ∃ w, Has b k w ∧ veq v w = true := by
    unfold matches_
    rw [List.all_eq_true]
    constructor
    · intro h k v hv
      have := h (k, v) hv
      dsimp only at this
      cases hf : find b k with
      | none => rw [hf] at this; cases this
      | some w => rw [hf] at this; exact ⟨w, (find_has b hb k w).mp hf, this⟩
    · intro h e he
      obtain ⟨w, hw, hv⟩ := h e.1 e.2 he
      rw [(find_has b hb e.1 w).mpr hw]
      exact hv
  rw [hm]
  constructor
  · rintro ⟨hl, h⟩ k _
    refine ⟨h k, fun w hw => ?_⟩
    have hk := back ha hb (fun x hx => by
      obtain ⟨v, hv⟩ := key_has hx
      obtain ⟨w, hw, _⟩ := h x v hv
      exact has_key hw) (by simp [hl]) k (has_key hw)
    obtain ⟨v, hv⟩ := key_has hk
    obtain ⟨w', hw', he⟩ := h k v hv
    have := has_unique hb hw hw'
    subst this
    exact ⟨v, hv, he⟩
  · intro h
    refine ⟨?_, fun k v hv => (h k (by simp)).1 v hv⟩
    have h1 : ∀ x ∈ a.map (·.1), x ∈ b.map (·.1) := fun x hx => by
      obtain ⟨v, hv⟩ := key_has hx
      obtain ⟨w, hw, _⟩ := (h x (by simp)).1 v hv
      exact has_key hw
    have h2 : ∀ x ∈ b.map (·.1), x ∈ a.map (·.1) := fun x hx => by
      obtain ⟨w, hw⟩ := key_has hx
      obtain ⟨v, hv, _⟩ := (h x (by simp)).2 w hw
      exact has_key hv
    have e1 := (nodup_le ha h1)
    have e2 := (nodup_le hb h2)
    simpa using Nat.le_antisymm e1 e2

/-- Maps that do not share their memory are equal exactly if they have the same keys with equal values, in any order. -/
theorem map_equal (veq : V → V → Bool) (a b : Map V) (ha : Keys a.entries) (hb : Keys b.entries) (h1 : a.addr ≠ b.addr)
    (h2 : a.blob = none ∨ a.blob ≠ b.blob) : mapEq veq a b = true ↔ Same veq [] a.entries b.entries := by
  unfold mapEq
  rw [if_neg h1, if_neg (by rintro ⟨h, h'⟩; rcases h2 with h2 | h2; exact h' h2; exact h2 h), ← content_eq veq _ _ ha hb]
  by_cases hl : a.entries.length = b.entries.length
  · simp [hl]
  · simp [hl]

/-- Maps at one address, or with one memory, are equal without a look at the values. -/
theorem shared_equal (veq : V → V → Bool) (a b : Map V) (h : a.addr = b.addr ∨ a.blob = b.blob ∧ a.blob ≠ none) : mapEq veq a b = true := by
  unfold mapEq
  rcases h with h | h
  · rw [if_pos h]
  · by_cases ha : a.addr = b.addr
    · rw [if_pos ha]
    · rw [if_neg ha, if_pos h]

/-- The finding: with a value that is not equal to itself (NaN), a map is equal to itself and not equal to a copy. -/
theorem copy_unequal (veq : V → V → Bool) (v : V) (hv : veq v v = false) (k : String) :
    let m : Map V := ⟨0, some 0, [(k, v)]⟩
    let copy : Map V := ⟨1, some 1, [(k, v)]⟩
    mapEq veq m m = true ∧ mapEq veq m copy = false := by
  simp [mapEq, matches_, find, hv]

theorem erase_has (m : List (String × V)) (ks : List String) (k : String) (v : V) : Has (ks.foldl erase m) k v ↔ Has m k v ∧ k ∉ ks := by
  induction ks generalizing m with
  | nil => simp
  | cons x xs ih =>
    rw [List.foldl_cons, ih]
    unfold Has erase
    rw [List.mem_filter]
    simp only [List.mem_cons, not_or, decide_eq_true_eq, ne_eq]
    constructor
    · rintro ⟨⟨h1, h2⟩, h3⟩; exact ⟨h1, h2, h3⟩
    · rintro ⟨h1, h2, h3⟩; exact ⟨⟨h1, h2⟩, h3⟩

theorem erase_keys (m : List (String × V)) (ks : List String) (h : Keys m) : Keys (ks.foldl erase m) := by
  induction ks generalizing m with
  | nil => exact h
  | cons x xs ih =>
    rw [List.foldl_cons]
    apply ih
    unfold Keys erase at *
    exact List.Nodup.sublist (List.Sublist.map _ List.filter_sublist) h

theorem same_erase (veq : V → V → Bool) (ks : List String) (a b : List (String × V)) :
    Same veq [] (ks.foldl erase a) (ks.foldl erase b) ↔ Same veq ks a b := by
  unfold Same
  constructor
  · intro h k hk
    obtain ⟨h1, h2⟩ := h k (by simp)
    refine ⟨fun v hv => ?_, fun w hw => ?_⟩
    · obtain ⟨w, hw, he⟩ := h1 v ((erase_has a ks k v).mpr ⟨hv, hk⟩)
      exact ⟨w, ((erase_has b ks k w).mp hw).1, he⟩
    · obtain ⟨v, hv, he⟩ := h2 w ((erase_has b ks k w).mpr ⟨hw, hk⟩)
      exact ⟨v, ((erase_has a ks k v).mp hv).1, he⟩
  · intro h k _
    refine ⟨fun v hv => ?_, fun w hw => ?_⟩
    · obtain ⟨h1, h2⟩ := (erase_has a ks k v).mp hv
      obtain ⟨w, hw, he⟩ := (h k h2).1 v h1
      exact ⟨w, (erase_has b ks k w).mpr ⟨hw, h2⟩, he⟩
    · obtain ⟨h1, h2⟩ := (erase_has b ks k w).mp hw
      obtain ⟨v, hv, he⟩ := (h k h2).2 w h1
      exact ⟨v, (erase_has a ks k v).mpr ⟨hv, h2⟩, he⟩

/-- Two maps that share address or memory have the same entries. -/
def Sharing (a b : Map V) : Prop := (a.addr = b.addr ∨ a.blob = b.blob ∧ a.blob ≠ none) → a.entries = b.entries

theorem map_same (veq : V → V → Bool) (hv : ∀ v, veq v v = true) (a b : Map V) (ha : Keys a.entries) (hb : Keys b.entries) (hs : Sharing a b) :
    mapEq veq a b = true ↔ Same veq [] a.entries b.entries := by
  by_cases h : a.addr = b.addr ∨ a.blob = b.blob ∧ a.blob ≠ none
  · have he := hs h
    have : Same veq [] a.entries b.entries := by
      rw [he]
      exact fun k _ => ⟨fun v h => ⟨v, h, hv v⟩, fun v h => ⟨v, h, hv v⟩⟩
    simp [shared_equal veq a b h, this]
  · refine map_equal veq a b ha hb (fun h' => h (Or.inl h')) ?_
    by_cases hn : a.blob = none
    · exact Or.inl hn
    · exact Or.inr fun h' => h (Or.inr ⟨h', hn⟩)

theorem tag_same (veq : V → V → Bool) (hv : ∀ v, veq v v = true) (ignore : Option (List String)) (tol : Int) (ht : 0 ≤ tol) (n : Nat) (a b : Tag V)
    (ha : Keys a.map.entries) (hb : Keys b.map.entries) (hs : Sharing a.map b.map) :
    tagEq veq ignore tol n a b = true ↔
      a.index - b.index ≤ tol ∧ b.index - a.index ≤ tol ∧ Same veq (ignore.getD []) a.map.entries b.map.entries := by
  have hidx : (if tol = 0 then decide (a.index = b.index) else decide (a.index - b.index ≥ -tol ∧ a.index - b.index ≤ tol)) = true ↔
      a.index - b.index ≤ tol ∧ b.index - a.index ≤ tol := by
    split <;> simp only [decide_eq_true_eq] <;> omega
  have hmap : (match ignore with
      | none => mapEq veq a.map b.map
      | some [] => mapEq veq a.map b.map
      | some ks => mapEq veq ⟨n, some n, ks.foldl erase a.map.entries⟩ ⟨n + 1, some (n + 1), ks.foldl erase b.map.entries⟩) = true ↔
      Same veq (ignore.getD []) a.map.entries b.map.entries := by
    cases ignore with
    | none => exact map_same veq hv _ _ ha hb hs
    | some ks =>
      cases ks with
      | nil => exact map_same veq hv _ _ ha hb hs
      | cons x xs =>
        dsimp only [Option.getD]
        rw [map_equal veq _ _ (erase_keys _ _ ha) (erase_keys _ _ hb) (by simp) (Or.inr (by simp)), same_erase]
  unfold tagEq
  dsimp only
  rw [Bool.and_eq_true, hidx]
  constructor
  · rintro ⟨⟨h1, h2⟩, h3⟩
    exact ⟨h1, h2, hmap.mp h3⟩
  · rintro ⟨h1, h2, h3⟩
    exact ⟨⟨h1, h2⟩, hmap.mpr h3⟩

/-- Two lists of tags are equal exactly if they have the same length, the indices at each place differ by the tolerance at most, and the
maps have the same keys with the same values but for the keys that are ignored. -/
theorem tags_equal (veq : V → V → Bool) (hv : ∀ v, veq v v = true) (ignore : Option (List String)) (tol : Int) (ht : 0 ≤ tol) (n : Nat)
    (as bs : List (Tag V)) (ha : ∀ a ∈ as, Keys a.map.entries) (hb : ∀ b ∈ bs, Keys b.map.entries)
    (hs : ∀ a ∈ as, ∀ b ∈ bs, Sharing a.map b.map) :
    tagsEq veq ignore tol n as bs = true ↔ as.length = bs.length ∧ ∀ (i : Nat) (a b : Tag V), as[i]? = some a → bs[i]? = some b →
      a.index - b.index ≤ tol ∧ b.index - a.index ≤ tol ∧ Same veq (ignore.getD []) a.map.entries b.map.entries := by
  have key : ∀ (as bs : List (Tag V)), as.length = bs.length → (∀ a ∈ as, Keys a.map.entries) → (∀ b ∈ bs, Keys b.map.entries) →
      (∀ a ∈ as, ∀ b ∈ bs, Sharing a.map b.map) →
      (noMismatch (tagEq veq ignore tol n) as bs = true ↔ ∀ (i : Nat) (a b : Tag V), as[i]? = some a → bs[i]? = some b →
        a.index - b.index ≤ tol ∧ b.index - a.index ≤ tol ∧ Same veq (ignore.getD []) a.map.entries b.map.entries) := by
    intro as
    induction as with
    | nil => intro bs _ _ _ _; simp [noMismatch]
    | cons x xs ih =>
      intro bs hl ha hb hs
      cases bs with
      | nil => simp at hl
      | cons y ys =>
        unfold noMismatch
        rw [Bool.and_eq_true, tag_same veq hv ignore tol ht n x y (ha x (by simp)) (hb y (by simp)) (hs x (by simp) y (by simp)),
          ih ys (by simpa using hl) (fun a h => ha a (by simp [h])) (fun b h => hb b (by simp [h])) (fun a h b h' => hs a (by simp [h]) b (by simp [h']))]
        constructor
        · rintro ⟨h1, h2⟩ i a b hia hib
          cases i with
          | zero => simp at hia hib; subst hia; subst hib; exact h1
          | succ i => exact h2 i a b (by simpa using hia) (by simpa using hib)
        · intro h
          exact ⟨h 0 x y rfl rfl, fun i a b hia hib => h (i + 1) a b (by simpa using hia) (by simpa using hib)⟩
  unfold tagsEq
  by_cases hl : as.length = bs.length
  · rw [if_neg (by simpa using hl), key as bs hl ha hb hs]
    simp [hl]
  · rw [if_pos hl]
    simp [hl]

example : tagsEq (fun (a b : Nat) => a == b) (some ["t"]) 2 9 [⟨5, ⟨0, some 0, [("a", 1), ("b", 2), ("t", 3)]⟩⟩] [⟨7, ⟨1, some 1, [("b", 2), ("a", 1)]⟩⟩] = true ∧
    tagsEq (fun (a b : Nat) => a == b) none 2 9 [⟨5, ⟨0, some 0, [("a", 1), ("b", 2), ("t", 3)]⟩⟩] [⟨7, ⟨1, some 1, [("b", 2), ("a", 1)]⟩⟩] = false ∧
    tagsEq (fun (a b : Nat) => a == b) none 1 9 [⟨5, ⟨0, none, [("a", 1)]⟩⟩] [⟨7, ⟨1, none, [("a", 1)]⟩⟩] = false := by
  decide

end Verif.MapEq
