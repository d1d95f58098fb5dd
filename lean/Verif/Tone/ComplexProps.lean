import Verif.Tone.RealProps
import Verif.Tone.CoreProps
/-!
# C133, C134, C135: complex tones, and starting over
-/
namespace Verif.Tone
open Verif.Rng (many)

/-- **A complex sine is the real one with minus the cosine beside it, a complex cosine has the sine beside it**; the offset
is added to the real part only. The fast ones take both from the phasor. -/
theorem complex_sample (g : Tone ℝ) :
    (g.kind = .sin → (g.complexSample real).1 =
      ⟨g.amplitude * Real.sin (g.omega * g.time + g.phase) + g.offset, -(g.amplitude * Real.cos (g.omega * g.time + g.phase))⟩) ∧
    (g.kind = .cos → (g.complexSample real).1 =
      ⟨g.amplitude * Real.cos (g.omega * g.time + g.phase) + g.offset, g.amplitude * Real.sin (g.omega * g.time + g.phase)⟩) ∧
    (g.kind = .fastSin → (g.complexSample real).1 =
      ⟨g.amplitude * g.phasor.im + g.offset, -(g.amplitude * g.phasor.re)⟩) ∧
    (g.kind = .fastCos → (g.complexSample real).1 = ⟨g.amplitude * g.phasor.re + g.offset, g.amplitude * g.phasor.im⟩) ∧
    (g.kind ≠ .sin → g.kind ≠ .cos → g.kind ≠ .fastSin → g.kind ≠ .fastCos → (g.complexSample real).1.im = 0) := by
  refine ⟨fun h => ?_, fun h => ?_, fun h => ?_, fun h => ?_, fun h1 h2 h3 h4 => ?_⟩
  · simp only [Tone.complexSample, h, neg_mul]; rfl
  · simp only [Tone.complexSample, h]; rfl
  · simp only [Tone.complexSample, h, neg_mul]
  · simp only [Tone.complexSample, h]
  · cases hk : g.kind <;> simp_all [Tone.complexSample]

/-- **A complex tone turns counterclockwise around its offset**: the sample is the amplitude times the point of the unit circle
at its angle for a cosine, and a quarter turn behind it for a sine. -/
theorem complex_on_circle (g : Tone ℝ) (h : g.kind = .sin ∨ g.kind = .cos) :
    ((g.complexSample real).1.re - g.offset) ^ 2 + (g.complexSample real).1.im ^ 2 = g.amplitude ^ 2 := by
  obtain ⟨h1, h2, -⟩ := complex_sample g
  cases h with
  | inl h =>
    rw [h1 h]
    have := Real.sin_sq_add_cos_sq (g.omega * g.time + g.phase)
    linear_combination g.amplitude ^ 2 * this
  | inr h =>
    rw [h2 h]
    have := Real.sin_sq_add_cos_sq (g.omega * g.time + g.phase)
    linear_combination g.amplitude ^ 2 * this

example : (((Tone.new : Tone ℝ).configure real .sin 1 4 0 3 2).complexSample real).1 = ⟨2, -3⟩ := by
  have hk : ((Tone.new : Tone ℝ).configure real .sin 1 4 0 3 2).kind = .sin := by
    simp [Tone.configure, Tone.initPhasor, real]
  rw [(complex_sample _).1 hk]
  simp [Tone.configure, Tone.initPhasor, Tone.new]

theorem noise_reset_reset (g : Verif.Rng.Gen) (x : BitVec 64) : (g.reset x).reset x = g.reset x := by
  unfold Verif.Rng.Gen.reset
  generalize Verif.Rng.seed x = y
  cases g
  rfl

theorem tone_reset_reset {α : Type} [Lean.Grind.CommRing α] (A : Arith α) (g : Tone α) :
    (g.reset A).reset A = g.reset A := by
  cases g
  rfl

theorem reset_reset (A : Arith Rat) (c : Core) : (c.reset A).reset A = c.reset A := by
  have h1 := tone_reset_reset A c.tone
  have h2 := noise_reset_reset c.noise c.seed
  unfold Core.reset
  dsimp only
  rw [h1, h2]

/-- **`reset` starts over**: after any number of samples it leads back to the samples of the start. -/
theorem reset_starts_over (A : Arith Rat) (e : Verif.Rng.Env) (c d : Core) (type : Signal) (f r p a o : Rat)
    (seed : BitVec 64) (m n : Nat) (xs : List Rat)
    (h : many (Core.sample A e) m ((c.configure A type f r p a o seed).reset A) = some (xs, d)) :
    (many (Core.sample A e) n (d.reset A)).map Prod.fst =
      (many (Core.sample A e) n ((c.configure A type f r p a o seed).reset A)).map Prod.fst := by
  -- what the samples leave alone
  have keep : ∀ (m : Nat) (c d : Core) (xs : List Rat), many (Core.sample A e) m c = some (xs, d) →
      d.reset A = c.reset A := by
    intro m
    induction m with
    | zero => intro c d xs h; simp only [many] at h; cases h; rfl
    | succ m ih =>
      intro c d xs h
      simp only [many] at h
      cases hs : Core.sample A e c with
      | none => rw [hs] at h; cases h
      | some q =>
        obtain ⟨x, c1⟩ := q
        rw [hs] at h
        dsimp only at h
        cases hm : many (Core.sample A e) m c1 with
        | none => rw [hm] at h; cases h
        | some w =>
          rw [hm] at h
          obtain ⟨ys, d'⟩ := w
          cases h
          rw [ih c1 _ _ hm]
          cases ht : c.type with
          | tone k =>
            have hs' : some ((c.tone.sample A).1, { c with tone := (c.tone.sample A).2 }) = some (x, c1) := by
              rw [← hs]
              unfold Core.sample
              rw [ht]
            have hc : { c with tone := (c.tone.sample A).2 } = c1 := (Prod.mk.inj (Option.some.inj hs')).2
            rw [← hc]
            have hr : (c.tone.sample A).2.reset A = c.tone.reset A := by
              unfold Tone.sample Tone.advance
              dsimp only
              split
              · generalize (if (c.tone.count + 1) % 0x10000 = 0 then (c.tone.phasor.mul c.tone.rotation).unit A
                  else c.tone.phasor.mul c.tone.rotation) = q
                rfl
              · rfl
            unfold Core.reset
            dsimp only
            rw [hr]
          | noise t =>
            unfold Core.sample at hs
            rw [ht] at hs
            dsimp only at hs
            cases hn : c.noise.sample e with
            | none => rw [hn] at hs; cases hs
            | some w =>
              rw [hn] at hs
              obtain ⟨y, n'⟩ := w
              have hc : { c with noise := n' } = c1 := by
                rw [← (Prod.mk.inj (Option.some.inj hs)).2, ht]
              rw [← hc]
              obtain ⟨k1, k2, k3⟩ := Verif.Rng.sample_keeps e _ _ _ hn
              have hr : n'.reset c.seed = c.noise.reset c.seed := by
                unfold Verif.Rng.Gen.reset
                rw [k1, k2, k3]
              unfold Core.reset
              dsimp only
              rw [hr]
  rw [keep m _ _ _ h, reset_reset]

end Verif.Tone
