import Verif.Devices.Model

/-!
# Property C165: each id of the device registry belongs to the first device registered under it
-/

namespace Verif.Devices

/-- `d` is the first in `ds` with its id. -/
def FirstOf (ds : List Dev) (id : String) (d : Dev) : Prop :=
  ∃ before after, ds = before ++ d :: after ∧ d.id = id ∧ ∀ e ∈ before, e.id ≠ id

theorem find_none (r : List Dev) (id : String) : find r id = none ↔ ∀ d ∈ r, d.id ≠ id := by
  induction r with
  | nil => simp [find]
  | cons e es ih =>
    unfold find
    by_cases h : e.id = id
    · simp [h]
    · simp [h, ih]

theorem find_append (a b : List Dev) (id : String) : find (a ++ b) id = (find a id).or (find b id) := by
  induction a with
  | nil => simp [find]
  | cons e es ih =>
    simp only [List.cons_append, find]
    by_cases h : e.id = id
    · simp [h]
    · simp [h, ih]

theorem find_first (r : List Dev) (id : String) (d : Dev) : find r id = some d ↔ FirstOf r id d := by
  induction r with
  | nil => simp [find, FirstOf]
  | cons e es ih =>
    unfold find
    by_cases h : e.id = id
    · rw [if_pos h]
      constructor
      · intro he
        cases he
        exact ⟨[], es, rfl, h, by simp⟩
      · rintro ⟨b, a, hb, hd, hall⟩
        cases b with
        | nil => simp at hb; rw [hb.1]
        | cons x xs =>
          simp at hb
          exact absurd (hb.1 ▸ h) (hall x (by simp))
    · rw [if_neg h, ih]
      constructor
      · rintro ⟨b, a, hb, hd, hall⟩
        exact ⟨e :: b, a, by simp [hb], hd, by simp; exact ⟨h, hall⟩⟩
      · rintro ⟨b, a, hb, hd, hall⟩
        cases b with
        | nil => simp at hb; exact absurd (hb.1 ▸ hd) h
        | cons x xs =>
          simp at hb
          exact ⟨xs, a, hb.2, hd, fun y hy => hall y (by simp [hy])⟩

theorem find_add (r : List Dev) (d : Dev) (id : String) : find (add r d) id = (find r id).or (if d.id = id then some d else none) := by
  unfold add
  split
  · rename_i h
    by_cases hid : d.id = id
    · have : find r id ≠ none := by
        rw [Ne, find_none]
        intro hall
        rw [List.any_eq_true] at h
        obtain ⟨e, he, hee⟩ := h
        exact hall e he ((by simpa using hee : e.id = d.id).trans hid)
      cases hf : find r id with
      | none => exact absurd hf this
      | some x => simp
    · simp [hid]
  · rw [find_append]
    simp [find]

theorem find_fold (ds r : List Dev) (id : String) : find (ds.foldl add r) id = (find r id).or (find ds id) := by
  induction ds generalizing r with
  | nil => simp [find]
  | cons d ds ih =>
    rw [List.foldl_cons, ih, find_add, Option.or_assoc]
    congr 1
    rw [find]
    by_cases h : d.id = id <;> simp [h]

/-- After any registrations an id finds the first device registered under it, and nothing exactly if there was none. -/
theorem find_registered (ds : List Dev) (id : String) :
    (∀ d, find (registered ds) id = some d ↔ FirstOf ds id d) ∧ (find (registered ds) id = none ↔ ∀ d ∈ ds, d.id ≠ id) := by
  have h : find (registered ds) id = find ds id := by
    unfold registered
    rw [find_fold]
    simp [find]
  rw [h]
  exact ⟨fun d => find_first ds id d, find_none ds id⟩

theorem add_pairwise (r : List Dev) (d : Dev) (h : r.Pairwise fun a b => a.id ≠ b.id) : (add r d).Pairwise fun a b => a.id ≠ b.id := by
  unfold add
  split
  · exact h
  · rename_i hn
    rw [List.pairwise_append]
    refine ⟨h, by simp, fun a ha b hb => ?_⟩
    simp at hb
    subst hb
    intro hc
    exact hn (List.any_eq_true.mpr ⟨a, ha, by simpa using hc⟩)

/-- No id is in the registry twice, and all its devices were registered. -/
theorem registered_unique (ds : List Dev) :
    (registered ds).Pairwise (fun a b => a.id ≠ b.id) ∧ ∀ d ∈ registered ds, d ∈ ds := by
  have key : ∀ (ds r : List Dev), r.Pairwise (fun a b => a.id ≠ b.id) → (ds.foldl add r).Pairwise (fun a b => a.id ≠ b.id) ∧
      ∀ d ∈ ds.foldl add r, d ∈ r ∨ d ∈ ds := by
    intro ds
    induction ds with
    | nil => intro r h; exact ⟨h, fun d hd => Or.inl hd⟩
    | cons x xs ih =>
      intro r h
      obtain ⟨h1, h2⟩ := ih (add r x) (add_pairwise r x h)
      refine ⟨h1, fun d hd => ?_⟩
      rcases h2 d hd with h3 | h3
      · unfold add at h3
        split at h3
        · exact Or.inl h3
        · rw [List.mem_append] at h3
          rcases h3 with h4 | h4
          · exact Or.inl h4
          · simp at h4; right; simp [h4]
      · right; simp [h3]
  obtain ⟨h1, h2⟩ := key ds [] List.Pairwise.nil
  exact ⟨h1, fun d hd => by simpa using h2 d hd⟩

/-- If ids belong to one type each, as the comment in the code asks, a search with a type never gives an object of another type, and it
finds the device exactly if it is asked for the id of the type. -/
theorem findAs_safe (ds : List Dev) (t : Nat) (kId id : String) (hu : ∀ d ∈ ds, d.id = kId → d.type = t) :
    findAs (registered ds) t kId id ≠ .wrongType ∧
    ∀ d, findAs (registered ds) t kId id = .ok d ↔ id = kId ∧ FirstOf ds id d := by
  unfold findAs
  by_cases hid : id = kId
  · subst hid
    rw [if_neg (by simp)]
    cases hf : find (registered ds) id with
    | none =>
      refine ⟨by simp, fun d => ⟨fun h => by simp at h, fun h => ?_⟩⟩
      have := ((find_registered ds id).1 d).mpr h.2
      rw [hf] at this; cases this
    | some e =>
      have hfo := ((find_registered ds id).1 e).mp hf
      obtain ⟨b, a, hb, hd, _⟩ := hfo
      have ht := hu e (by rw [hb]; simp) hd
      dsimp only
      rw [if_pos ht]
      refine ⟨by simp, fun d => ⟨fun h => ?_, fun h => ?_⟩⟩
      · cases h
        exact ⟨rfl, ((find_registered ds id).1 e).mp hf⟩
      · have := ((find_registered ds id).1 d).mpr h.2
        rw [hf] at this; cases this; rfl
  · rw [if_pos hid]
    exact ⟨by simp, fun d => ⟨fun h => by simp at h, fun h => absurd h.1 hid⟩⟩

/-- Without that convention it may: the registry does not check it. -/
theorem findAs_unsafe : ∃ ds : List Dev, findAs (registered ds) 2 "usb" "usb" = .wrongType :=
  ⟨[⟨0, "usb", 1, true, 0⟩, ⟨1, "usb", 2, true, 1⟩], by decide⟩

/-- Permission is asked once for each device that has its interface and no permission yet; an id is granted exactly if its device has a
permission, and the number is that of the device or 0. -/
theorem permissions (ds : List Dev) (id : String) :
    (∀ d, d ∈ asked (registered ds) ↔ d ∈ registered ds ∧ d.api = true ∧ d.granted ≤ 0) ∧
    (isGranted (registered ds) id = true ↔ ∃ d, FirstOf ds id d ∧ 0 < d.granted) ∧
    (∀ d, FirstOf ds id d → grantedCount (registered ds) id = d.granted) ∧
    ((∀ d ∈ ds, d.id ≠ id) → grantedCount (registered ds) id = 0) := by
  refine ⟨fun d => ?_, ?_, fun d hd => ?_, fun h => ?_⟩
  · simp [asked, Dev.isGranted, Int.not_lt]
  · unfold isGranted
    cases hf : find (registered ds) id with
    | none =>
      simp only [Bool.false_eq_true, false_iff]
      rintro ⟨d, hd, _⟩
      have := ((find_registered ds id).1 d).mpr hd
      rw [hf] at this; cases this
    | some e =>
      simp only [Dev.isGranted, decide_eq_true_eq]
      constructor
      · intro h
        exact ⟨e, ((find_registered ds id).1 e).mp hf, h⟩
      · rintro ⟨d, hd, h⟩
        have := ((find_registered ds id).1 d).mpr hd
        rw [hf] at this; cases this; exact h
  · unfold grantedCount
    rw [((find_registered ds id).1 d).mpr hd]
  · unfold grantedCount
    rw [((find_registered ds id).2).mpr h]

example : registered [⟨0, "usb", 1, true, 0⟩, ⟨1, "serial", 2, true, 3⟩, ⟨2, "usb", 1, false, 7⟩] = [⟨0, "usb", 1, true, 0⟩, ⟨1, "serial", 2, true, 3⟩] ∧
    asked (registered [⟨0, "usb", 1, true, 0⟩, ⟨1, "serial", 2, true, 3⟩, ⟨2, "usb", 1, false, 7⟩]) = [⟨0, "usb", 1, true, 0⟩] := by decide

end Verif.Devices
