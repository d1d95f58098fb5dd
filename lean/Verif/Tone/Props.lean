import Verif.Tone.Lemmas
/-!
# C133: tones do not depend on how they are asked for

`Arith.Exact` and `Arith.Trig` say that the functions that the code calls are exact; the rationals with a
table of angles (below) and the reals (`Verif.Tone.RealProps`) are instances.
-/
namespace Verif.Tone
open Lean.Grind (CommRing)

attribute [local instance] Lean.Grind.Semiring.natCast

variable {α β : Type} [CommRing α]

/-- Sine and cosine are the coordinates of a point on the unit circle. -/
def Arith.Trig (A : Arith α) : Prop := ∀ x, A.cos x * A.cos x + A.sin x * A.sin x = 1

/-- What can be done with a tone generator. -/
inductive Op (α : Type) where
  | configure (kind : Kind) (frequency sampleRate phase amplitude offset : α)
  | reset
  | sample
  | complexSample
  | fill (n : Nat)
  | fillComplex (n : Nat)

/-- The generator after one call. -/
def Tone.op (A : Arith α) (g : Tone α) : Op α → Tone α
  | .configure k f r p a o => g.configure A k f r p a o
  | .reset => g.reset A
  | .sample => (g.sample A).2
  | .complexSample => (g.complexSample A).2
  | .fill n => (g.fill A n).2
  | .fillComplex n => (g.fillComplex A n).2

/-- The generator after some calls. -/
def Tone.ops (A : Arith α) (g : Tone α) (os : List (Op α)) : Tone α := os.foldl (Tone.op A) g

/-- Phasor and rotation have absolute value one. -/
def Sound (g : Tone α) : Prop := g.phasor.IsUnit ∧ g.rotation.IsUnit

theorem advance_sound {A : Arith α} (h : A.Exact) {g : Tone α} (hg : Sound g) : Sound (g.advance A) := by
  by_cases hk : g.kind = .fastSin ∨ g.kind = .fastCos
  · rw [advance_fast h g hk hg.1 hg.2]
    exact ⟨mul_unit hg.1 hg.2, hg.2⟩
  · unfold Tone.advance
    simp only
    rw [if_neg hk]
    exact hg

theorem each_sound {A : Arith α} (h : A.Exact) (s : Tone α → β × Tone α) (hs : ∀ g, (s g).2 = g.advance A) (n : Nat)
    {g : Tone α} (hg : Sound g) : Sound (Tone.each s n g).2 := by
  induction n generalizing g with
  | zero => exact hg
  | succ n ih =>
    have : Sound (s g).2 := by rw [hs]; exact advance_sound h hg
    exact ih this

theorem fillPhasor_sound {A : Arith α} (h : A.Exact) (f : Cx α → β) (n : Nat) {g : Tone α} (hg : Sound g) :
    Sound (g.fillPhasor A f n).2 := by
  rw [fillPhasor_eq h f n g hg.1 hg.2]
  exact ⟨turned_unit hg.2 n hg.1, hg.2⟩

theorem op_sound {A : Arith α} (h : A.Exact) (ht : A.Trig) {g : Tone α} (hg : Sound g) (o : Op α) : Sound (g.op A o) := by
  cases o with
  | configure k f r p a off => exact ⟨ht _, ht _⟩
  | reset => exact ⟨ht _, ht _⟩
  | sample => exact advance_sound h hg
  | complexSample => exact advance_sound h hg
  | fill n =>
    show Sound (g.fill A n).2
    unfold Tone.fill
    split
    · exact fillPhasor_sound h _ n hg
    · exact fillPhasor_sound h _ n hg
    · exact each_sound h _ (fun _ => rfl) n hg
  | fillComplex n =>
    show Sound (g.fillComplex A n).2
    unfold Tone.fillComplex
    split
    · exact fillPhasor_sound h _ n hg
    · exact fillPhasor_sound h _ n hg
    · exact each_sound h _ (fun _ => rfl) n hg

theorem ops_sound {A : Arith α} (h : A.Exact) (ht : A.Trig) (os : List (Op α)) : Sound (Tone.new.ops A os) := by
  have : ∀ (os : List (Op α)) (g : Tone α), Sound g → Sound (g.ops A os) := by
    intro os
    induction os with
    | nil => intro g hg; exact hg
    | cons o os ih => intro g hg; exact ih _ (op_sound h ht hg o)
  refine this os _ ?_
  constructor <;> (unfold Cx.IsUnit Tone.new; simp only; grind)

theorem fill_each {A : Arith α} (h : A.Exact) (n : Nat) {g : Tone α} (hg : Sound g) :
    g.fill A n = Tone.each (Tone.sample A) n g := by
  unfold Tone.fill
  split
  · rename_i hk
    rw [fillPhasor_eq h _ n g hg.1 hg.2]
    exact (each_fast h (Tone.sample A) (fun p => g.amplitude * p.im + g.offset) .fastSin g.amplitude g.offset (.inl rfl)
      (fun g' h1 h2 h3 => by unfold Tone.sample Tone.compute; simp only [h1, h2, h3]) n g hk rfl rfl hg.1 hg.2).symm
  · rename_i hk
    rw [fillPhasor_eq h _ n g hg.1 hg.2]
    exact (each_fast h (Tone.sample A) (fun p => g.amplitude * p.re + g.offset) .fastCos g.amplitude g.offset (.inr rfl)
      (fun g' h1 h2 h3 => by unfold Tone.sample Tone.compute; simp only [h1, h2, h3]) n g hk rfl rfl hg.1 hg.2).symm
  · rfl

theorem fillComplex_each {A : Arith α} (h : A.Exact) (n : Nat) {g : Tone α} (hg : Sound g) :
    g.fillComplex A n = Tone.each (Tone.complexSample A) n g := by
  unfold Tone.fillComplex
  split
  · rename_i hk
    rw [fillPhasor_eq h _ n g hg.1 hg.2]
    refine (each_fast h (Tone.complexSample A) (fun p => ⟨g.amplitude * p.im + g.offset, g.amplitude * -p.re⟩)
      .fastSin g.amplitude g.offset (.inl rfl) (fun g' h1 h2 h3 => ?_) n g hk rfl rfl hg.1 hg.2).symm
    unfold Tone.complexSample
    simp only [h1, h2, h3, Prod.mk.injEq, Cx.mk.injEq, and_true, true_and]
    grind
  · rename_i hk
    rw [fillPhasor_eq h _ n g hg.1 hg.2]
    exact (each_fast h (Tone.complexSample A) (fun p => ⟨g.amplitude * p.re + g.offset, g.amplitude * p.im⟩)
      .fastCos g.amplitude g.offset (.inr rfl)
      (fun g' h1 h2 h3 => by unfold Tone.complexSample; simp only [h1, h2, h3]) n g hk rfl rfl hg.1 hg.2).symm
  · rfl

/-! ## The property -/

/-- `n` samples one by one. -/
def samples (A : Arith α) : Nat → Tone α → List α × Tone α
  | 0, g => ([], g)
  | n + 1, g =>
    let r := g.sample A
    let rest := samples A n r.2
    (r.1 :: rest.1, rest.2)

/-- `n` complex samples one by one. -/
def complexSamples (A : Arith α) : Nat → Tone α → List (Cx α) × Tone α
  | 0, g => ([], g)
  | n + 1, g =>
    let r := g.complexSample A
    let rest := complexSamples A n r.2
    (r.1 :: rest.1, rest.2)

theorem samples_each (A : Arith α) (n : Nat) (g : Tone α) : samples A n g = Tone.each (Tone.sample A) n g := by
  induction n generalizing g with
  | zero => rfl
  | succ n ih => simp only [samples, Tone.each, ih]

theorem complexSamples_each (A : Arith α) (n : Nat) (g : Tone α) :
    complexSamples A n g = Tone.each (Tone.complexSample A) n g := by
  induction n generalizing g with
  | zero => rfl
  | succ n ih => simp only [complexSamples, Tone.each, ih]

/-- **A chunk holds the samples that would have come one by one**, whatever was done before, and leaves the
generator in the same state. The two interleaved phasors and the moments of normalising make no difference. -/
theorem fill_is_samples {A : Arith α} (h : A.Exact) (ht : A.Trig) (os : List (Op α)) (n : Nat) :
    (Tone.new.ops A os).fill A n = samples A n (Tone.new.ops A os) := by
  rw [samples_each]
  exact fill_each h n (ops_sound h ht os)

/-- **So does a chunk of complex samples.** -/
theorem complex_is_samples {A : Arith α} (h : A.Exact) (ht : A.Trig) (os : List (Op α)) (n : Nat) :
    (Tone.new.ops A os).fillComplex A n = complexSamples A n (Tone.new.ops A os) := by
  rw [complexSamples_each]
  exact fillComplex_each h n (ops_sound h ht os)

/-- **How the output is cut into chunks does not matter.** -/
theorem chunks_do_not_matter {A : Arith α} (h : A.Exact) (ht : A.Trig) (os : List (Op α)) (n m : Nat) :
    let g := Tone.new.ops A os
    g.fill A (n + m) = ((g.fill A n).1 ++ ((g.fill A n).2.fill A m).1, ((g.fill A n).2.fill A m).2) ∧
    g.fillComplex A (n + m) = ((g.fillComplex A n).1 ++ ((g.fillComplex A n).2.fillComplex A m).1,
      ((g.fillComplex A n).2.fillComplex A m).2) := by
  intro g
  have hg := ops_sound h ht os
  have h1 : Sound (g.fill A n).2 := op_sound h ht hg (.fill n)
  have h2 : Sound (g.fillComplex A n).2 := op_sound h ht hg (.fillComplex n)
  constructor
  · rw [fill_each h _ h1, fill_each h _ hg, each_add]
    rw [fill_each h n hg]
  · rw [fillComplex_each h _ h2, fillComplex_each h _ hg, each_add]
    rw [fillComplex_each h n hg]

/-- **The real part of the complex signal is the real signal**, for every kind of tone. -/
theorem real_part (A : Arith α) (n : Nat) (g : Tone α) :
    (complexSamples A n g).1.map Cx.re = (samples A n g).1 ∧ (complexSamples A n g).2 = (samples A n g).2 := by
  induction n generalizing g with
  | zero => exact ⟨rfl, rfl⟩
  | succ n ih =>
    have hs : (g.complexSample A).2 = (g.sample A).2 := rfl
    have hv : (g.complexSample A).1.re = (g.sample A).1 := by
      unfold Tone.complexSample Tone.sample
      cases hk : g.kind <;> simp only [hk, Tone.compute]
    simp only [complexSamples, samples, List.map_cons, hv, hs]
    exact ⟨by rw [(ih _).1], (ih _).2⟩

/-- **A frequency that is not positive gives a constant.** -/
theorem constant_when_still (A : Arith α) (g : Tone α) (k : Kind) (f r p a o : α) (hf : A.less 0 f = false) (n : Nat) :
    (samples A n (g.configure A k f r p a o)).1 = List.replicate n (a + o) := by
  have : ∀ (n : Nat) (g : Tone α), g.kind = .const → (samples A n g).1 = List.replicate n (g.amplitude + g.offset) := by
    intro n
    induction n with
    | zero => intro g _; rfl
    | succ n ih =>
      intro g hk
      have e1 : (g.sample A).1 = g.amplitude + g.offset := by simp only [Tone.sample, Tone.compute, hk]
      have e2 : (g.sample A).2.kind = .const ∧ (g.sample A).2.amplitude = g.amplitude ∧
          (g.sample A).2.offset = g.offset := by
        simp only [Tone.sample, Tone.advance, hk, reduceCtorEq, or_self, if_false, and_self]
      simp only [samples, List.replicate_succ, e1]
      rw [ih _ e2.1, e2.2.1, e2.2.2]
  refine this n _ ?_
  unfold Tone.configure Tone.initPhasor
  simp only
  by_cases hk : k = .const
  · simp [hk]
  · simp [hk, hf]

/-! ## Exact instances -/

/-- Rational arithmetic with the sines and cosines of quarter turns: angles are counted in quarters. -/
def quarters : Arith Rat where
  sin x := if x.floor % 4 = 1 then 1 else if x.floor % 4 = 3 then -1 else 0
  cos x := if x.floor % 4 = 0 then 1 else if x.floor % 4 = 2 then -1 else 0
  twoPi := 4
  div := (· / ·)
  floor x := (x.floor : Rat)
  abs x := if x < 0 then -x else x
  sqrt x := x
  less a b := decide (a < b)

theorem quarters_exact : quarters.Exact := ⟨by decide +kernel, rfl⟩

theorem quarters_trig : quarters.Trig := by
  intro x
  have h : x.floor % 4 = 0 ∨ x.floor % 4 = 1 ∨ x.floor % 4 = 2 ∨ x.floor % 4 = 3 := by omega
  unfold quarters
  simp only
  rcases h with h | h | h | h <;> rw [h] <;> decide +kernel

/-- A fast sine at a quarter of the sample rate, in chunks of three and two. -/
example : let g := Tone.new.ops quarters [.configure .fastSin 1 4 0 2 1, .sample]
    (g.fill quarters 3).1 = [3, 1, -1] ∧ ((g.fill quarters 3).2.fill quarters 2).1 = [1, 3] ∧
    (g.fill quarters 5).1 = [3, 1, -1, 1, 3] ∧
    (g.fillComplex quarters 2).1 = [⟨3, 0⟩, ⟨1, 2⟩] := by decide +kernel

/-- The case of `fill_is_samples`. -/
example (n : Nat) : (Tone.new.ops quarters [.configure .fastSin 1 4 0 2 1, .sample]).fill quarters n =
    samples quarters n (Tone.new.ops quarters [.configure .fastSin 1 4 0 2 1, .sample]) :=
  fill_is_samples quarters_exact quarters_trig _ n

end Verif.Tone
