import Verif.Tone.WaveProps
/-!
# C135: the signal generator
-/
namespace Verif.Tone
open Verif.Rng (many)

/-! ## Conversion to integers -/

/-- **Samples for integer types are cut to integers and limited to the type**, also for the 64-bit types, whose
largest number is rounded up as a floating point number. -/
theorem clamp_exact (lo hi : Int) (hiF v : Rat) (hlo : lo ≤ 0) (hhi : 0 ≤ hi) (h1 : (hi : Rat) ≤ hiF)
    (h2 : hiF ≤ (hi : Rat) + 1) : clampToInt lo hi hiF v = max lo (min hi (trunc v)) := by
  have f1 := Rat.floor_le v
  have f2 := Rat.lt_floor_add_one v
  have c1 : (hi : Rat) ≤ v → 0 ≤ v → hi ≤ v.floor := fun h _ => Rat.le_floor_iff.2 h
  have hhiR : (0 : Rat) ≤ (hi : Rat) := by
    have : ((0 : Int) : Rat) ≤ (hi : Rat) := Rat.intCast_le_intCast.2 hhi
    simpa using this
  have hloR : (lo : Rat) ≤ 0 := by
    have : (lo : Rat) ≤ ((0 : Int) : Rat) := Rat.intCast_le_intCast.2 hlo
    simpa using this
  unfold clampToInt trunc
  by_cases ha : hiF ≤ v
  · rw [if_pos ha, if_neg (by grind)]
    have : hi ≤ v.floor := c1 (by grind) (by grind)
    omega
  · rw [if_neg ha]
    by_cases hb : v ≤ (lo : Rat)
    · rw [if_pos hb]
      by_cases hn : v < 0
      · rw [if_pos hn]
        have : v.ceil ≤ lo := Rat.ceil_le_iff.2 hb
        omega
      · rw [if_neg hn]
        have hv : v = 0 := by grind
        have hl0 : lo = 0 := by
          have : ((0 : Int) : Rat) ≤ (lo : Rat) := by
            have : (0 : Rat) ≤ (lo : Rat) := by grind
            simpa using this
          have := Rat.intCast_le_intCast.1 this
          omega
        have : v.floor = 0 := by rw [hv]; rfl
        omega
    · rw [if_neg hb]
      by_cases hn : v < 0
      · rw [if_pos hn]
        have a : lo ≤ v.ceil := by
          have h3 : v ≤ (v.ceil : Rat) := Rat.le_ceil
          have : (lo : Rat) ≤ (v.ceil : Rat) := by grind
          exact Rat.intCast_le_intCast.1 this
        have b : v.ceil ≤ 0 := Rat.ceil_le_iff.2 (by
          have : ((0 : Int) : Rat) = 0 := by simp
          rw [this]; grind)
        omega
      · rw [if_neg hn]
        have a : v.floor < hi + 1 := Rat.floor_lt_iff.2 (by
          have : ((hi + 1 : Int) : Rat) = (hi : Rat) + 1 := by simp
          rw [this]; grind)
        have b : 0 ≤ v.floor := Rat.le_floor_iff.2 (by
          have : ((0 : Int) : Rat) = 0 := by simp
          rw [this]; grind)
        omega

/-- Bytes, and the largest 64-bit number. -/
example : clampToInt 0 255 255 (254 + 9 / 10) = 254 ∧ clampToInt 0 255 255 (-7) = 0 ∧
    clampToInt (-128) 127 127 (-3 / 2) = -1 ∧
    clampToInt (-9223372036854775808) 9223372036854775807 9223372036854775808 9223372036854775808 =
      9223372036854775807 := by decide +kernel

/-! ## What decides the signal -/

/-- The part of a generator that its samples depend on. -/
def Same (c d : Core) : Prop :=
  c.type = d.type ∧ (∀ k, c.type = .tone k → c.tone = d.tone) ∧ (∀ t, c.type = .noise t → c.noise = d.noise)

theorem same_samples (A : Arith Rat) (e : Verif.Rng.Env) (n : Nat) (c d : Core) (h : Same c d) :
    (many (Core.sample A e) n c).map Prod.fst = (many (Core.sample A e) n d).map Prod.fst := by
  induction n generalizing c d with
  | zero => rfl
  | succ n ih =>
    obtain ⟨h1, h2, h3⟩ := h
    simp only [many]
    cases ht : c.type with
    | tone k =>
      have hd : d.type = .tone k := by rw [← h1]; exact ht
      have he := h2 k ht
      simp only [Core.sample, ht, hd]
      have := ih { c with tone := (c.tone.sample A).2 } { d with tone := (d.tone.sample A).2 }
        ⟨h1, fun k' _ => by simp only [he], fun t hh => by simp only [ht] at hh; cases hh⟩
      simp only [Core.sample, ht, hd] at this
      revert this
      rw [he]
      generalize many _ n _ = x
      generalize many _ n _ = y
      intro this
      cases x <;> cases y <;> simp_all
    | noise t =>
      have hd : d.type = .noise t := by rw [← h1]; exact ht
      have he := h3 t ht
      have hc : Core.sample A e c = (c.noise.sample e).map (fun r => (r.1, { c with noise := r.2 })) := by
        simp only [Core.sample, ht]; cases c.noise.sample e <;> rfl
      have hdd : Core.sample A e d = (d.noise.sample e).map (fun r => (r.1, { d with noise := r.2 })) := by
        simp only [Core.sample, hd]; cases d.noise.sample e <;> rfl
      rw [hc, hdd, he]
      cases hs : d.noise.sample e with
      | none => rfl
      | some r =>
        have := ih { c with noise := r.2 } { d with noise := r.2 }
          ⟨h1, fun k hh => (by simp only [ht] at hh; cases hh), fun _ _ => rfl⟩
        simp only [Option.map_some]
        revert this
        generalize many _ n _ = x
        generalize many _ n _ = y
        intro this
        cases x <;> cases y <;> simp_all

/-- **The settings decide**: after `start` the samples are the same, whatever was done before. -/
theorem start_decides (A : Arith Rat) (e : Verif.Rng.Env) (c d : Core) (type : Signal) (f r p a o : Rat)
    (seed : BitVec 64) (n : Nat) :
    (many (Core.sample A e) n ((c.configure A type f r p a o seed).reset A)).map Prod.fst =
      (many (Core.sample A e) n ((d.configure A type f r p a o seed).reset A)).map Prod.fst := by
  refine same_samples A e n _ _ ?_
  cases type with
  | tone k => exact ⟨rfl, fun _ _ => rfl, fun t h => by cases h⟩
  | noise t => exact ⟨rfl, fun k h => (by cases h), fun _ _ => rfl⟩

/-- **Noise starts over with every change of a setting**: what follows is what came after the start with these
settings, however many samples there were in between. -/
theorem change_restarts_noise (A : Arith Rat) (e : Verif.Rng.Env) (c : Core) (t : Verif.Rng.Noise) (f r p a o : Rat)
    (seed : BitVec 64) (n : Nat) :
    (many (Core.sample A e) n (c.configure A (.noise t) f r p a o seed)).map Prod.fst =
      (many (Core.sample A e) n ((c.configure A (.noise t) f r p a o seed).reset A)).map Prod.fst :=
  same_samples A e n _ _ ⟨rfl, fun k h => (by cases h), fun _ _ => rfl⟩

/-- **The phase of a slow tone runs on over a change of its amplitude or offset**: sample `i` after the change
is the one that the new settings would have given at that time. -/
theorem change_keeps_time (A : Arith Rat) (g : Tone Rat) (k : Kind) (f r p a o a' o' : Rat) (m : Nat)
    (hk : k ≠ .fastSin ∧ k ≠ .fastCos) :
    ((samples A m (g.configure A k f r p a o)).2.configure A k f r p a' o') =
      (samples A m (g.configure A k f r p a' o')).2 := by
  have key : ∀ (m : Nat) (g : Tone Rat), g.kind ≠ .fastSin ∧ g.kind ≠ .fastCos →
      (samples A m g).2 = { g with time := g.time + g.tick * (m : Rat) } := by
    intro m
    induction m with
    | zero =>
      intro g _
      have : g.time + g.tick * ((0 : Nat) : Rat) = g.time := by simp; grind
      rw [this]; rfl
    | succ m ih =>
      intro g hg
      simp only [samples, sample_slow A g hg]
      rw [ih { g with time := g.time + g.tick } hg]
      simp only
      have e : ((m + 1 : Nat) : Rat) = (m : Rat) + 1 := by simp
      rw [e, show g.time + g.tick + g.tick * (m : Rat) = g.time + g.tick * ((m : Rat) + 1) by grind]
  have hkk : ∀ a o, (g.configure A k f r p a o).kind ≠ .fastSin ∧ (g.configure A k f r p a o).kind ≠ .fastCos := by
    intro a o
    simp only [Tone.configure, Tone.initPhasor]
    split
    · simp
    · exact hk
  rw [key m _ (hkk a o), key m _ (hkk a' o')]
  rfl

/-- **A fast tone jumps back to its start instead**: a change of the amplitude in the middle of a cycle sets
the phasor back, while the slow tone of the same name goes on. -/
theorem change_resets_fast_tone : ∃ (f r p a o a' o' : Rat),
    let fast := (samples quarters 1 ((Tone.new.configure quarters .fastSin f r p a o).reset quarters))
    let slow := (samples quarters 1 ((Tone.new.configure quarters .sin f r p a o).reset quarters))
    fast.1 = slow.1 ∧
    (fast.2.sample quarters).1 = (slow.2.sample quarters).1 ∧
    ((fast.2.configure quarters .fastSin f r p a' o').sample quarters).1 ≠
      ((slow.2.configure quarters .sin f r p a' o').sample quarters).1 :=
  ⟨1, 4, 0, 1, 0, 2, 0, by decide +kernel⟩

end Verif.Tone
