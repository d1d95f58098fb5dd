import Verif.Tone.WaveProps
import Mathlib.Analysis.SpecialFunctions.Trigonometric.Basic
/-!
# C134 with real numbers: the fast tones are the slow ones
-/
namespace Verif.Tone

/-- The real numbers with the functions of analysis. -/
noncomputable def real : Arith ℝ where
  sin := Real.sin
  cos := Real.cos
  twoPi := 2 * Real.pi
  div := (· / ·)
  floor x := (⌊x⌋ : ℝ)
  abs x := |x|
  sqrt := Real.sqrt
  less a b := open Classical in decide (a < b)

theorem real_exact : real.Exact := ⟨by simp [real], by simp [real]⟩

theorem real_trig : real.Trig := fun x => by
  have := Real.cos_sq_add_sin_sq x
  simp only [real]
  nlinarith [this]

/-- The phasor of an angle. -/
noncomputable def atAngle (x : ℝ) : Cx ℝ := ⟨Real.cos x, Real.sin x⟩

theorem mul_atAngle (x y : ℝ) : (atAngle x).mul (atAngle y) = atAngle (x + y) := by
  unfold atAngle Cx.mul
  simp only [Cx.mk.injEq]
  exact ⟨by rw [Real.cos_add], by rw [Real.sin_add]; ring⟩

theorem turned_atAngle (x y : ℝ) (n : Nat) : turned (atAngle y) n (atAngle x) = atAngle (x + n * y) := by
  induction n generalizing x with
  | zero => simp [turned]
  | succ n ih =>
    rw [turned, mul_atAngle, ih]
    congr 1
    push_cast
    ring

theorem shown_get {α β : Type} [Lean.Grind.CommRing α] (r : Cx α) (f : Cx α → β) (n i : Nat) (hi : i < n) (a : Cx α) :
    (shown r f n a)[i]? = some (f (turned r i a)) := by
  induction n generalizing i a with
  | zero => omega
  | succ n ih =>
    cases i with
    | zero => rfl
    | succ i => rw [shown, List.getElem?_cons_succ, ih i (by omega)]; rfl

/-- **Sample `i` of a tone after a reset is `a sin (2 pi f i / r + p) + o`**, for the sine that is computed anew for
each sample and for the one that turns a phasor; and the same with cosines. -/
theorem tone_exact (g : Tone ℝ) (f r p a o : ℝ) (hf : 0 < f) (n i : Nat) (hi : i < n) :
    let theta := 2 * Real.pi * f * (i / r) + p
    (samples real n ((g.configure real .sin f r p a o).reset real)).1[i]? = some (a * Real.sin theta + o) ∧
    (samples real n ((g.configure real .fastSin f r p a o).reset real)).1[i]? = some (a * Real.sin theta + o) ∧
    (samples real n ((g.configure real .cos f r p a o).reset real)).1[i]? = some (a * Real.cos theta + o) ∧
    (samples real n ((g.configure real .fastCos f r p a o).reset real)).1[i]? = some (a * Real.cos theta + o) := by
  intro theta
  have hl : real.less 0 f = true := by simp [real, hf]
  have hk : ∀ k, ((g.configure real k f r p a o).reset real).kind = k := by
    intro k
    simp only [Tone.configure, Tone.reset, Tone.initPhasor, hl]
    simp
  have slow : ∀ k, k ≠ .fastSin ∧ k ≠ .fastCos →
      (samples real n ((g.configure real k f r p a o).reset real)).1[i]? =
        some (({ ((g.configure real k f r p a o).reset real) with time := 0 + 1 / r * (i : ℝ) } : Tone ℝ).compute real) := by
    intro k hkk
    rw [samples_slow real n i hi _ (by rw [hk]; exact hkk)]
    rfl
  have hth : 2 * Real.pi * f * (0 + 1 / r * (i : ℝ)) + p = theta := by
    show _ = 2 * Real.pi * f * (i / r) + p
    ring
  have fast : ∀ k (fn : Cx ℝ → ℝ), (k = .fastSin ∨ k = .fastCos) →
      (∀ g' : Tone ℝ, g'.kind = k → g'.amplitude = a → g'.offset = o → g'.sample real = (fn g'.phasor, g'.advance real)) →
      (samples real n ((g.configure real k f r p a o).reset real)).1[i]? = some (fn (atAngle theta)) := by
    intro k fn hkk hs
    have hp : ((g.configure real k f r p a o).reset real).phasor = atAngle p := rfl
    have hr : ((g.configure real k f r p a o).reset real).rotation = atAngle (2 * Real.pi * f * (1 / r)) := rfl
    rw [samples_each, each_fast real_exact (Tone.sample real) fn k a o hkk hs n _ (hk k) rfl rfl (real_trig _) (real_trig _)]
    simp only
    rw [shown_get _ _ _ _ hi, hp, hr, turned_atAngle]
    congr 3
    show p + i * (2 * Real.pi * f * (1 / r)) = 2 * Real.pi * f * (i / r) + p
    ring
  refine ⟨?_, ?_, ?_, ?_⟩
  · rw [slow .sin (by decide), ← hth]
    unfold Tone.compute
    simp only [hk]
    rfl
  · exact fast .fastSin (fun q => a * q.im + o) (.inl rfl)
      (fun g' h1 h2 h3 => by unfold Tone.sample Tone.compute; simp only [h1, h2, h3])
  · rw [slow .cos (by decide), ← hth]
    unfold Tone.compute
    simp only [hk]
    rfl
  · exact fast .fastCos (fun q => a * q.re + o) (.inr rfl)
      (fun g' h1 h2 h3 => by unfold Tone.sample Tone.compute; simp only [h1, h2, h3])

/-- Second sample of four per turn. -/
example : (samples real 4 ((Tone.new.configure real .fastSin 1 4 0 3 2).reset real)).1[1]? = some 5 := by
  rw [(tone_exact Tone.new 1 4 0 3 2 (by norm_num) 4 1 (by norm_num)).2.1]
  rw [show (2 * Real.pi * 1 * (((1 : Nat) : ℝ) / 4) + 0 : ℝ) = Real.pi / 2 by push_cast; ring, Real.sin_pi_div_two]
  norm_num

/-- A chunk of a fast sine holds these samples too. -/
theorem fast_chunk_exact (g : Tone ℝ) (hg : Sound g) (f r p a o : ℝ) (hf : 0 < f) (n i : Nat) (hi : i < n) :
    (((g.configure real .fastSin f r p a o).reset real).fill real n).1[i]? =
      some (a * Real.sin (2 * Real.pi * f * (i / r) + p) + o) := by
  have h1 : Sound ((g.configure real .fastSin f r p a o).reset real) :=
    op_sound real_exact real_trig (op_sound real_exact real_trig hg (.configure .fastSin f r p a o)) .reset
  rw [fill_each real_exact n h1, ← samples_each]
  exact (tone_exact g f r p a o hf n i hi).2.1

/-- **A change of settings separates them**: the fast sine starts again at its phase, the slow one goes on. -/
theorem change_separates (g : Tone ℝ) :
    let fast := ((g.configure real .fastSin 1 4 0 1 0).reset real).sample real
    let slow := ((g.configure real .sin 1 4 0 1 0).reset real).sample real
    ((fast.2.configure real .fastSin 1 4 0 1 0).sample real).1 = 0 ∧
    ((slow.2.configure real .sin 1 4 0 1 0).sample real).1 = 1 := by
  have hl : real.less 0 1 = true := by simp [real]
  constructor
  · simp only [Tone.sample, Tone.configure, Tone.initPhasor, Tone.compute, hl]
    simp [real]
  · simp only [Tone.sample, Tone.configure, Tone.reset, Tone.initPhasor, Tone.compute, Tone.advance, hl,
      Bool.true_eq_false, false_and, if_false, reduceCtorEq, or_self]
    simp only [real]
    rw [show (2 * Real.pi * 1 * (0 + 1 / 4) + 0 : ℝ) = Real.pi / 2 by ring, Real.sin_pi_div_two]
    norm_num

end Verif.Tone
