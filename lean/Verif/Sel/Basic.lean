import Verif.Sel.Run
import Verif.Trigger.Lemmas
/-!
# The standard matcher follows the rule of its expression
-/
namespace Verif.Sel

open Verif.Trigger

/-- the rule of a two-sided expression without `^` -/
def ruleOf (a b : Part) : Rule Tag where
  opens := fun t => decide (t ≠ [] ∧ Meets a t)
  closes := fun t => decide (t ≠ [] ∧ Meets b t)
  single := false

/-- the rule of a one-sided expression as it is implemented (C29: the context test is the wrong way round) -/
def ruleOne (p : Part) : Rule Tag where
  opens := fun t => decide (t ≠ [] ∧ (p.name = [] ∨ tagName t = p.name) ∧ (p.ctx = [] ∨ tagCtx t <:+: p.ctx))
  closes := fun _ => false
  single := true

theorem filterRange_single (s : St) (t : Tag) : (filterRange s t).1.single = s.single := by
  unfold filterRange St.reset
  dsimp only
  repeat' split
  all_goals rfl

theorem filterBody_single' (s : St) (t : Tag) : (filterBody s t).1.single = s.single := by
  unfold filterBody
  split
  · rfl
  · split
    · rfl
    · split
      · exact filterRange_single s t
      · rfl

theorem verify_single (text : Str) (s s' : St) (hs : s.filter ≠ some text) (hne : text ≠ []) (h : verify text s = (s', false)) :
    s'.single = some s'.isSingle := by
  unfold verify at h
  rw [if_neg hs] at h
  dsimp only at h
  rw [if_neg hne] at h
  revert h
  cases strip text with
  | none => intro h; simp at h
  | some c =>
    dsimp only
    cases setStart (s.defaults text) (sides c).1 with
    | none => intro h; simp at h
    | some s1 =>
      dsimp only
      cases setStop s1 (sides c).2 with
      | none => intro h; simp at h
      | some s2 =>
        intro h
        have := (Prod.mk.inj h).1
        rw [← this]
        rfl

theorem text_ne (e : Expr) (text : Str) (h : IsText e text) : text ≠ [] := by
  cases h <;> exact List.cons_ne_nil _ _

/-- answers of the matcher in terms of the prepared state -/
theorem basic_m (nPre nPost nMax : Nat) (text : Str) (t : Tag) (s s1 : St) (h : verify text s = (s1, false)) :
    (basic nPre nPost nMax text).m t s = ((filterBody s1 t).1, (filterBody s1 t).2, (filterBody s1 t).1.single.getD false) := by
  unfold basic
  dsimp only
  rw [filter_of _ _ _ _ h]
  rfl

def TwoOn (text : Str) (a b : Part) (s : St) : Prop := Rel text a b .on s ∧ s.single = some false
def TwoOff (text : Str) (a b : Part) (s : St) : Prop := s = St.fresh ∨ (Rel text a b .off s ∧ s.single = some false)

theorem two_follows (nPre nPost nMax : Nat) (a b : Part) (ha : a.Ok) (hb : b.Ok) (hab : ¬ (a.name = b.name ∧ a.ctx = b.ctx))
    (hae : a.ends = false) (hbe : b.ends = false) (text : Str) (ht : IsText (.two a b) text) :
    Follows (basic nPre nPost nMax text) (ruleOf a b) (TwoOn text a b) (TwoOff text a b) := by
  have prep : ∀ s, TwoOff text a b s → ∃ s1, verify text s = (s1, false) ∧ Rel text a b .off s1 ∧ s1.single = some false := by
    intro s hs
    rcases hs with rfl | ⟨h, hsg⟩
    · obtain ⟨s1, hv, h1, h2, h3, _, h5⟩ := verify_two a b ha hb text ht St.fresh nofun
      obtain ⟨g1, g2, g3, g4, g5⟩ := h5 hab
      refine ⟨s1, hv, ⟨h1, h3, g1, h2, g2, by rw [g3, g4, g5], nofun, nofun⟩, ?_⟩
      rw [verify_single text St.fresh _ (show St.fresh.filter ≠ some text from nofun) (text_ne _ _ ht) hv]
      unfold St.isSingle
      rw [h3, g1]; rfl
    · exact ⟨s, verify_same _ _ h.filter, h, hsg⟩
  have hopen : ∀ t s, Rel text a b .off s → t ≠ [] → Meets a t →
      (filterBody s t).2 = .matching ∧ Rel text a b .on (filterBody s t).1 := by
    intro t s h h0 hm
    have := rel_step text a b .off s h t h0
    simpa [ruleTwo, hm, hae] using this
  have hwait : ∀ t s, Rel text a b .off s → ¬ (t ≠ [] ∧ Meets a t) →
      (filterBody s t).2 = .ignore ∧ Rel text a b .off (filterBody s t).1 := by
    intro t s h hm
    by_cases h0 : t = []
    · subst h0; rw [filterBody_nil]; exact ⟨rfl, h⟩
    · have hm' : ¬ Meets a t := fun h' => hm ⟨h0, h'⟩
      have := rel_step text a b .off s h t h0
      simpa [ruleTwo, hm'] using this
  have hclose : ∀ t s, Rel text a b .on s → t ≠ [] → Meets b t →
      (filterBody s t).2 = .notMatching ∧ Rel text a b .off (filterBody s t).1 := by
    intro t s h h0 hm
    have := rel_step text a b .on s h t h0
    simpa [ruleTwo, hm, hbe] using this
  have hstay : ∀ t s, Rel text a b .on s → ¬ (t ≠ [] ∧ Meets b t) →
      (filterBody s t).2 = .ignore ∧ Rel text a b .on (filterBody s t).1 := by
    intro t s h hm
    by_cases h0 : t = []
    · subst h0; rw [filterBody_nil]; exact ⟨rfl, h⟩
    · have hm' : ¬ Meets b t := fun h' => hm ⟨h0, h'⟩
      have := rel_step text a b .on s h t h0
      simpa [ruleTwo, hm'] using this
  refine ⟨Or.inl rfl, ?_, ?_, ?_, ?_, ?_, nofun⟩
  · intro t s hs ho
    obtain ⟨s1, hv, hr, hsg⟩ := prep s hs
    have ho' : t ≠ [] ∧ Meets a t := by simpa [ruleOf] using ho
    obtain ⟨h1, h2⟩ := hopen t s1 hr ho'.1 ho'.2
    rw [basic_m _ _ _ _ _ _ _ hv]
    refine ⟨?_, ?_⟩
    · dsimp only; rw [h1, filterBody_single', hsg]; rfl
    · rw [if_neg (by simp [ruleOf])]
      exact ⟨h2, by rw [filterBody_single', hsg]⟩
  · intro t s hs ho
    obtain ⟨s1, hv, hr, hsg⟩ := prep s hs
    obtain ⟨h1, h2⟩ := hwait t s1 hr (by simpa only [ruleOf, decide_eq_true_eq] using ho)
    rw [basic_m _ _ _ _ _ _ _ hv]
    exact ⟨h1, Or.inr ⟨h2, by rw [filterBody_single', hsg]⟩⟩
  · intro t s hs ho
    have ho' : t ≠ [] ∧ Meets b t := by simpa [ruleOf] using ho
    obtain ⟨h1, h2⟩ := hclose t s hs.1 ho'.1 ho'.2
    rw [basic_m _ _ _ _ _ _ _ (verify_same _ _ hs.1.filter)]
    exact ⟨h1, Or.inr ⟨h2, by rw [filterBody_single', hs.2]⟩⟩
  · intro t s hs ho
    obtain ⟨h1, h2⟩ := hstay t s hs.1 (by simpa only [ruleOf, decide_eq_true_eq] using ho)
    rw [basic_m _ _ _ _ _ _ _ (verify_same _ _ hs.1.filter)]
    exact ⟨h1, ⟨h2, by rw [filterBody_single', hs.2]⟩⟩
  · unfold basic ruleOf; simp

def OneOff (text : Str) (p : Part) (s : St) : Prop :=
  s = St.fresh ∨ (s.filter = some text ∧ (s.startDef = true ∧ s.stopDef = false ∨ s.startDef = false ∧ s.stopDef = true) ∧
    s.start.name = p.name ∧ s.start.ctx = p.ctx ∧ s.single = some true)

theorem one_follows (nPre nPost nMax : Nat) (p : Part) (hp : p.Ok) (text : Str) (ht : IsText (.one p) text) :
    Follows (basic nPre nPost nMax text) (ruleOne p) (fun _ => False) (OneOff text p) := by
  have prep : ∀ s, OneOff text p s → ∃ s1, verify text s = (s1, false) ∧ s1.filter = some text ∧
      (s1.startDef = true ∧ s1.stopDef = false ∨ s1.startDef = false ∧ s1.stopDef = true) ∧
      s1.start.name = p.name ∧ s1.start.ctx = p.ctx ∧ s1.single = some true := by
    intro s hs
    rcases hs with rfl | h
    · obtain ⟨s1, hv, h1, h2, h3, h4⟩ := verify_one p hp text ht St.fresh nofun
      refine ⟨s1, hv, h1, h2, h3, h4, ?_⟩
      rw [verify_single text St.fresh _ (show St.fresh.filter ≠ some text from nofun) (text_ne _ _ ht) hv]
      unfold St.isSingle
      rcases h2 with ⟨e1, e2⟩ | ⟨e1, e2⟩ <;> rw [e1, e2] <;> rfl
    · exact ⟨s, verify_same _ _ h.1, h⟩
  have step : ∀ t s, OneOff text p s →
      ((basic nPre nPost nMax text).m t s).2 = (if (ruleOne p).opens t then .matching else .ignore, true) ∧
      OneOff text p ((basic nPre nPost nMax text).m t s).1 := by
    intro t s hs
    obtain ⟨s1, hv, h1, h2, h3, h4, h5⟩ := prep s hs
    obtain ⟨g1, g2, g3, g4, g5⟩ := filterBody_single s1 t h2
    rw [basic_m _ _ _ _ _ _ _ hv]
    refine ⟨?_, Or.inr ⟨g2.trans h1, by rw [g4, g5]; exact h2, by rw [g3]; exact h3, by rw [g3]; exact h4,
      by rw [filterBody_single', h5]⟩⟩
    dsimp only
    rw [g1, filterBody_single', h5, h3, h4]
    simp only [ruleOne, decide_eq_true_eq]
    rfl
  refine ⟨Or.inl rfl, ?_, ?_, nofun, nofun, ?_, fun _ _ => nofun⟩
  · intro t s hs ho
    obtain ⟨h1, h2⟩ := step t s hs
    rw [h1, if_pos ho]
    exact ⟨rfl, by rw [if_pos (show (ruleOne p).single = true from rfl)]; exact h2⟩
  · intro t s hs ho
    obtain ⟨h1, h2⟩ := step t s hs
    rw [h1, if_neg ho]
    exact ⟨rfl, h2⟩
  · unfold basic ruleOne; simp

end Verif.Sel
