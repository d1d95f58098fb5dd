import Verif.Meta.Model

/-!
# Property C162: meta-information of ports follows the tags

The six pieces of information a tag can change, by their names; a tag may write the name with or without "gr:" in front.
-/

namespace Verif.Meta

/-- What a tag can change. -/
inductive Field where
  | rate | signal | quantity | unit | min | max
deriving DecidableEq

/-- The name of the piece of information. -/
def Field.label : Field → String
  | .rate => "sample_rate"
  | .signal => "signal_name"
  | .quantity => "signal_quantity"
  | .unit => "signal_unit"
  | .min => "signal_min"
  | .max => "signal_max"

/-- What a port says about it. -/
def Field.read {F : Type} (i : Info F) : Field → Val F
  | .rate => .float i.sampleRate
  | .signal => .text i.signalName
  | .quantity => .text i.signalQuantity
  | .unit => .text i.signalUnit
  | .min => .float i.signalMin
  | .max => .float i.signalMax

/-- A value of the type the piece of information has. -/
def Field.Fits {F : Type} (f : Field) : Val F → Bool
  | .text _ => f == .signal || f == .quantity || f == .unit
  | .float _ => f == .rate || f == .min || f == .max
  | .other => false

/-- The key names the piece of information. -/
def Field.Named (f : Field) (k : List Char) : Bool := k == f.label.toList || k == ("gr:" ++ f.label).toList

theorem settingsKey_iff (f : Field) (k : List Char) : settingsKey k = f.label.toList ↔ f.Named k = true := by
  unfold settingsKey Field.Named
  rw [Bool.or_eq_true, beq_iff_eq, beq_iff_eq, String.toList_append]
  by_cases h : "gr:".toList.isPrefixOf k = true
  · rw [if_pos h]
    obtain ⟨t, ht⟩ := List.isPrefixOf_iff_prefix.1 h
    subst ht
    have hd : ("gr:".toList ++ t).drop 3 = t := by
      rw [show (3 : Nat) = "gr:".toList.length by rfl, List.drop_left]
    rw [hd]
    constructor
    · rintro rfl; exact .inr rfl
    · rintro (h1 | h1)
      · cases f <;> simp [Field.label] at h1
      · exact List.append_cancel_left h1
  · rw [if_neg h]
    constructor
    · exact .inl
    · rintro (h1 | h1)
      · exact h1
      · exact absurd (List.isPrefixOf_iff_prefix.2 ⟨_, h1.symm⟩) h

theorem label_mem (f : Field) : f.label.toList ∈ defaultTags := by cases f <;> decide

theorem label_inj {f g : Field} (h : f.label.toList = g.label.toList) : f = g := by
  cases f <;> cases g <;> first | rfl | exact absurd h (by decide)

/-- A key that names none of the six changes nothing. -/
theorem step_other {F : Type} (s : Info F × Bool) (e : List Char × Val F) (h : ∀ f : Field, f.Named e.1 = false) : step s e = s := by
  have hk : ∀ f : Field, settingsKey e.1 ≠ f.label.toList := fun f hf => by
    rw [settingsKey_iff, h f] at hf; cases hf
  unfold step
  dsimp only
  by_cases hm : settingsKey e.1 ∈ defaultTags
  · rw [if_pos hm]
    have d1 : settingsKey e.1 ≠ "data_type".toList := fun hd => absurd (hd ▸ hm) (by decide)
    have d2 : settingsKey e.1 ≠ "name".toList := fun hd => absurd (hd ▸ hm) (by decide)
    have : setMember s.1 (settingsKey e.1) e.2 = some s.1 := by
      unfold setMember
      have k1 : settingsKey e.1 ≠ "sample_rate".toList := hk .rate
      have k2 : settingsKey e.1 ≠ "signal_name".toList := hk .signal
      have k3 : settingsKey e.1 ≠ "signal_quantity".toList := hk .quantity
      have k4 : settingsKey e.1 ≠ "signal_unit".toList := hk .unit
      have k5 : settingsKey e.1 ≠ "signal_min".toList := hk .min
      have k6 : settingsKey e.1 ≠ "signal_max".toList := hk .max
      rw [if_neg d1, if_neg d2, if_neg k1, if_neg k2, if_neg k3, if_neg k4, if_neg k5, if_neg k6]
    rw [this]
  · rw [if_neg hm]

/-- A key that names one of the six changes it, and nothing else, if the value fits; otherwise there is an error and no change. -/
theorem step_named {F : Type} (s : Info F × Bool) (e : List Char × Val F) (f : Field) (h : f.Named e.1 = true) :
    (f.Fits e.2 = true → f.read (step s e).1 = e.2 ∧ (step s e).2 = s.2 ∧ (∀ g, g ≠ f → g.read (step s e).1 = g.read s.1)) ∧
    (f.Fits e.2 = false → step s e = (s.1, true)) ∧
    (step s e).1.dataType = s.1.dataType ∧ (step s e).1.name = s.1.name := by
  have hk := (settingsKey_iff f e.1).2 h
  have hstep : step s e = match setMember s.1 f.label.toList e.2 with
      | some i => (i, s.2)
      | none => (s.1, true) := by
    unfold step
    dsimp only
    rw [hk, if_pos (label_mem f)]
    rfl
  rw [hstep]
  obtain ⟨k, v⟩ := e
  cases f <;> cases v <;>
    simp [setMember, Field.label, Field.Fits, Field.read, asText, asFloat] <;>
    (intro g; cases g <;> simp)

theorem foldl_spec {F : Type} (m : List (List Char × Val F)) : ∀ (s : Info F × Bool),
    (∀ f : Field, f.read (m.foldl step s).1 = ((m.filter fun e => f.Named e.1 && f.Fits e.2).map (·.2)).getLastD (f.read s.1)) ∧
    ((m.foldl step s).2 = true ↔ s.2 = true ∨ ∃ e ∈ m, ∃ f : Field, f.Named e.1 = true ∧ f.Fits e.2 = false) ∧
    (m.foldl step s).1.dataType = s.1.dataType ∧ (m.foldl step s).1.name = s.1.name := by
  induction m with
  | nil => intro s; simp
  | cons e m ih =>
    intro s
    obtain ⟨h1, h2, h3, h4⟩ := ih (step s e)
    rw [List.foldl_cons]
    by_cases hn : ∃ f : Field, f.Named e.1 = true
    · obtain ⟨f, hf⟩ := hn
      obtain ⟨n1, n2, n3, n4⟩ := step_named s e f hf
      have huniq : ∀ g : Field, g.Named e.1 = true → g = f := fun g hg =>
        label_inj (((settingsKey_iff g e.1).2 hg).symm.trans ((settingsKey_iff f e.1).2 hf))
      have hg' : ∀ g : Field, g ≠ f → g.Named e.1 = false := fun g hg => by
        cases hq : g.Named e.1 with
        | false => rfl
        | true => exact absurd (huniq g hq) hg
      refine ⟨fun g => ?_, ?_, h3.trans n3, h4.trans n4⟩
      · rw [h1 g]
        by_cases hgf : g = f
        · subst hgf
          cases hq : g.Fits e.2 with
          | true =>
            rw [(n1 hq).1, List.filter_cons_of_pos (by simp [hf, hq]), List.map_cons, List.getLastD_cons]
          | false =>
            rw [n2 hq, List.filter_cons_of_neg (by simp [hq])]
        · rw [List.filter_cons_of_neg (by simp [hg' g hgf])]
          cases hq : f.Fits e.2 with
          | true => rw [(n1 hq).2.2 g hgf]
          | false => rw [n2 hq]
      · rw [h2]
        cases hq : f.Fits e.2 with
        | true =>
          rw [(n1 hq).2.1]
          refine or_congr Iff.rfl ⟨fun ⟨e', h, x⟩ => ⟨e', List.mem_cons_of_mem _ h, x⟩, ?_⟩
          rintro ⟨e', h, g, hg1, hg2⟩
          rcases List.mem_cons.1 h with rfl | h
          · have := huniq g hg1
            subst this
            rw [hq] at hg2; cases hg2
          · exact ⟨e', h, g, hg1, hg2⟩
        | false =>
          rw [n2 hq]
          exact ⟨fun _ => .inr ⟨e, List.mem_cons_self, f, hf, hq⟩, fun _ => .inl rfl⟩
    · have hno : ∀ f : Field, f.Named e.1 = false := fun f => by
        cases hq : f.Named e.1 with
        | false => rfl
        | true => exact absurd ⟨f, hq⟩ hn
      rw [step_other s e hno] at h1 h2 h3 h4 ⊢
      refine ⟨fun g => ?_, ?_, h3, h4⟩
      · rw [h1 g, List.filter_cons_of_neg (by simp [hno g])]
      · rw [h2]
        refine or_congr Iff.rfl ⟨fun ⟨e', h, x⟩ => ⟨e', List.mem_cons_of_mem _ h, x⟩, ?_⟩
        rintro ⟨e', h, g, hg1, hg2⟩
        rcases List.mem_cons.1 h with rfl | h
        · rw [hno g] at hg1; cases hg1
        · exact ⟨e', h, g, hg1, hg2⟩

/-- After a tag each of the six pieces of information is the last value of the right type the tag has for it, or what it was. -/
theorem update_read {F : Type} (i : Info F) (m : List (List Char × Val F)) (f : Field) :
    f.read (update i m).1 = ((m.filter fun e => f.Named e.1 && f.Fits e.2).map (·.2)).getLastD (f.read i) :=
  (foldl_spec m (i, false)).1 f

/-- There is an error exactly if the tag has a value of the wrong type for one of the six. -/
theorem update_error {F : Type} (i : Info F) (m : List (List Char × Val F)) :
    (update i m).2 = true ↔ ∃ e ∈ m, ∃ f : Field, f.Named e.1 = true ∧ f.Fits e.2 = false := by
  rw [update, (foldl_spec m (i, false)).2.1]
  simp

/-- A tag never changes the type of the data nor the name of the port. -/
theorem update_fixed {F : Type} (i : Info F) (m : List (List Char × Val F)) :
    (update i m).1.dataType = i.dataType ∧ (update i m).1.name = i.name := (foldl_spec m (i, false)).2.2

/-- What a port says of itself can be read back into another port, without an error, but for the type of the data and the name. -/
theorem get_update {F : Type} (i j : Info F) : update j (get i) = ({ i with dataType := j.dataType, name := j.name }, false) := by
  rfl

/-- The finding: an error does not undo the rest of the tag, and the name and type given by `get` are not read back. -/
theorem findings :
    (update (F := Nat) ⟨[], [], 1, [], [], [], 0, 9⟩ [("gr:sample_rate".toList, .float 5), ("signal_min".toList, .other)]) =
      (⟨[], [], 5, [], [], [], 0, 9⟩, true) ∧
    (update (F := Nat) ⟨[], [], 1, [], [], [], 0, 9⟩ (get ⟨['f'], ['x'], 1, [], [], [], 0, 9⟩)).1.name = [] := by
  decide

/-- Non-trivial case: both ways to write a name in one tag. -/
example : (update (F := Nat) ⟨[], [], 1, [], [], [], 0, 9⟩
    [("gr:sample_rate".toList, .float 5), ("sample_rate".toList, .float 6), ("signal_unit".toList, .text ['V']), ("foo".toList, .other)]) =
    (⟨[], [], 6, [], [], ['V'], 0, 9⟩, false) := by decide

end Verif.Meta
