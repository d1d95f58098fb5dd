import Verif.Tone.Props
import Verif.Rng.NoiseProps
/-!
# C134: the shapes of tones; C135: the signal generator
-/
namespace Verif.Tone
open Lean.Grind (CommRing)

attribute [local instance] Lean.Grind.Semiring.natCast

/-! ## Samples and times -/

section
variable {α : Type} [CommRing α]

theorem sample_slow (A : Arith α) (g : Tone α) (hk : g.kind ≠ .fastSin ∧ g.kind ≠ .fastCos) :
    g.sample A = (g.compute A, { g with time := g.time + g.tick }) := by
  unfold Tone.sample Tone.advance
  simp only
  rw [if_neg (by simp [hk.1, hk.2])]

theorem samples_slow (A : Arith α) (n i : Nat) (hi : i < n) (g : Tone α) (hk : g.kind ≠ .fastSin ∧ g.kind ≠ .fastCos) :
    (samples A n g).1[i]? = some (({ g with time := g.time + g.tick * (i : α) } : Tone α).compute A) := by
  induction n generalizing i g with
  | zero => omega
  | succ n ih =>
    simp only [samples, sample_slow A g hk]
    cases i with
    | zero =>
      rw [List.getElem?_cons_zero]
      have : g.time + g.tick * ((0 : Nat) : α) = g.time := by
        have : ((0 : Nat) : α) = 0 := Lean.Grind.Semiring.natCast_zero
        rw [this]; grind
      rw [this]
    | succ i =>
      rw [List.getElem?_cons_succ, ih i (by omega) { g with time := g.time + g.tick } hk]
      simp only
      have e : ((i + 1 : Nat) : α) = (i : α) + 1 := Lean.Grind.Semiring.natCast_succ i
      rw [e, show g.time + g.tick + g.tick * (i : α) = g.time + g.tick * ((i : α) + 1) by grind]

end

/-! ## C134: shapes -/

/-- Division, rounding down, absolute values and comparisons are those of the rationals. -/
structure Arith.Ordinary (A : Arith Rat) : Prop where
  div : ∀ a b, A.div a b = a / b
  floor : ∀ a, A.floor a = (a.floor : Rat)
  abs : ∀ a, A.abs a = if a < 0 then -a else a
  less : ∀ a b, A.less a b = decide (a < b)

theorem floor_unique {x : Rat} {n : Int} (h1 : (n : Rat) ≤ x) (h2 : x < (n : Rat) + 1) : x.floor = n := by
  have a : n ≤ x.floor := Rat.le_floor_iff.2 h1
  have b : x.floor < n + 1 := Rat.floor_lt_iff.2 (by
    have : ((n + 1 : Int) : Rat) = (n : Rat) + 1 := by simp
    rw [this]; exact h2)
  omega

theorem floor_add_one (x : Rat) : ((x + 1).floor : Rat) = (x.floor : Rat) + 1 := by
  have h : (x + 1).floor = x.floor + 1 := by
    have h1 := Rat.floor_le x
    have h2 := Rat.lt_floor_add_one x
    refine floor_unique ?_ ?_
    · have : ((x.floor + 1 : Int) : Rat) = (x.floor : Rat) + 1 := by simp
      rw [this]; grind
    · have : ((x.floor + 1 : Int) : Rat) = (x.floor : Rat) + 1 := by simp
      have h3 : ((x.floor + 1 : Int) : Rat) = (x.floor : Rat) + 1 := by simp
      rw [h3]
      rw [h3] at h2
      grind
  rw [h]
  simp

/-- **The square wave** is high for the first half of each cycle and low for the second. -/
theorem square_shape {A : Arith Rat} (h : A.Ordinary) (c : Rat) :
    square A (c + 1) = square A c ∧ (0 ≤ c → c < 1 / 2 → square A c = 1) ∧ (1 / 2 ≤ c → c < 1 → square A c = -1) := by
  unfold square
  simp only [h.less, h.floor, h.div]
  refine ⟨?_, fun h1 h2 => ?_, fun h1 h2 => ?_⟩
  · rw [floor_add_one, show c + 1 - ((c.floor : Rat) + 1) = c - c.floor by grind]
  · rw [floor_unique (n := 0) (x := c) (by simpa using h1) (by simp; grind)]
    rw [if_pos]
    simp only [decide_eq_true_eq]
    simp
    grind
  · rw [floor_unique (n := 0) (x := c) (by simp; grind) (by simp; grind)]
    rw [if_neg]
    simp only [decide_eq_true_eq]
    simp
    grind

/-- **The saw** rises from minus one to one in each cycle and is zero at its start. -/
theorem saw_shape {A : Arith Rat} (h : A.Ordinary) (c : Rat) :
    saw A (c + 1) = saw A c ∧ (-(1 / 2) ≤ c → c < 1 / 2 → saw A c = 2 * c) := by
  unfold saw
  simp only [h.floor, h.div]
  refine ⟨?_, fun h1 h2 => ?_⟩
  · rw [show c + 1 + 1 / 2 = c + 1 / 2 + 1 by grind, floor_add_one]
    grind
  · rw [floor_unique (n := 0) (x := c + 1 / 2) (by simp; grind) (by simp; grind)]
    simp
    grind

/-- **The triangle** rises through zero to one in the first quarter of a cycle, falls to minus one in the next
two and rises to zero in the last. -/
theorem triangle_shape {A : Arith Rat} (h : A.Ordinary) (c : Rat) :
    triangle A (c + 1) = triangle A c ∧ (-(1 / 4) ≤ c → c ≤ 1 / 4 → triangle A c = 4 * c) ∧
    (1 / 4 ≤ c → c ≤ 3 / 4 → triangle A c = 2 - 4 * c) := by
  unfold triangle
  simp only [h.floor, h.div, h.abs]
  refine ⟨?_, fun h1 h2 => ?_, fun h1 h2 => ?_⟩
  · rw [show c + 1 + 3 / 4 = c + 3 / 4 + 1 by grind, floor_add_one,
      show c + 1 - (((c + 3 / 4).floor : Rat) + 1) = c - ((c + 3 / 4).floor : Rat) by grind]
  · by_cases he : c = 1 / 4
    · subst he
      decide +kernel
    · rw [floor_unique (n := 0) (x := c + 3 / 4) (by simp; grind) (by simp; grind)]
      rw [if_neg (by simp; grind)]
      simp
      grind
  · rw [floor_unique (n := 1) (x := c + 3 / 4) (by simp; grind) (by simp; grind)]
    by_cases he : c - ((1 : Int) : Rat) + 1 / 4 < 0
    · rw [if_pos he]; simp; grind
    · rw [if_neg he]; simp at he ⊢; grind

/-- The shapes stay between minus one and one. -/
theorem shapes_bounded {A : Arith Rat} (h : A.Ordinary) (c : Rat) :
    (square A c = 1 ∨ square A c = -1) ∧ (-1 ≤ saw A c ∧ saw A c < 1) ∧ (-1 ≤ triangle A c ∧ triangle A c ≤ 1) := by
  refine ⟨?_, ?_, ?_⟩
  · unfold square
    split
    · exact .inl rfl
    · exact .inr rfl
  · unfold saw
    simp only [h.floor, h.div]
    have h1 := Rat.floor_le (c + 1 / 2)
    have h2 := Rat.lt_floor_add_one (c + 1 / 2)
    have h3 : (((c + 1 / 2).floor + 1 : Int) : Rat) = ((c + 1 / 2).floor : Rat) + 1 := by simp
    rw [h3] at h2
    constructor <;> grind
  · unfold triangle
    simp only [h.floor, h.div, h.abs]
    have h1 := Rat.floor_le (c + 3 / 4)
    have h2 := Rat.lt_floor_add_one (c + 3 / 4)
    have h3 : (((c + 3 / 4).floor + 1 : Int) : Rat) = ((c + 3 / 4).floor : Rat) + 1 := by simp
    rw [h3] at h2
    split <;> constructor <;> grind

theorem quarters_ordinary : quarters.Ordinary := ⟨fun _ _ => rfl, fun _ => rfl, fun _ => rfl, fun _ _ => rfl⟩

/-- The triangle at eighths of a cycle. -/
example : (List.range 9).map (fun i : Nat => triangle quarters ((i : Rat) / 8)) =
    [0, 1 / 2, 1, 1 / 2, 0, -1 / 2, -1, -1 / 2, 0] := by decide +kernel

/-- **After a reset, sample `i` is the shape at time `i / sampleRate`.** -/
theorem samples_at_times {A : Arith Rat} (h : A.Ordinary) (g : Tone Rat) (k : Kind) (f r p a o : Rat) (hf : 0 < f)
    (n i : Nat) (hi : i < n) :
    let out := (samples A n ((g.configure A k f r p a o).reset A)).1[i]?
    let t := (i : Rat) / r
    (k = .sin → out = some (a * A.sin (A.twoPi * f * t + p) + o)) ∧
    (k = .cos → out = some (a * A.cos (A.twoPi * f * t + p) + o)) ∧
    (k = .square → out = some (a * square A (f * t + p / A.twoPi) + o)) ∧
    (k = .saw → out = some (a * saw A (f * t + p / A.twoPi) + o)) ∧
    (k = .triangle → out = some (a * triangle A (f * t + p / A.twoPi) + o)) ∧
    (k = .const → out = some (a + o)) := by
  have hl : A.less 0 f = true := by rw [h.less]; exact decide_eq_true hf
  have ht : (0 : Rat) + 1 / r * (i : Rat) = (i : Rat) / r := by grind
  have key : ∀ k, k ≠ .fastSin ∧ k ≠ .fastCos →
      (samples A n ((g.configure A k f r p a o).reset A)).1[i]? =
        some ((⟨k, f, a, o, p, (i : Rat) / r, 1 / r, A.twoPi * f, p / A.twoPi, ⟨1, 0⟩, ⟨1, 0⟩, 0⟩ : Tone Rat).compute A) := by
    intro k hk
    have hkk : ((g.configure A k f r p a o).reset A).kind = k := by
      simp only [Tone.configure, Tone.reset, Tone.initPhasor, hl]
      simp
    rw [samples_slow A n i hi _ (by rw [hkk]; exact hk)]
    congr 1
    have e1 : (((g.configure A k f r p a o).reset A)).tick = 1 / r := by
      simp only [Tone.configure, Tone.reset, Tone.initPhasor, h.div]
    have e2 : (((g.configure A k f r p a o).reset A)).phaseInCycles = p / A.twoPi := by
      simp only [Tone.configure, Tone.reset, Tone.initPhasor, h.div]
    have e3 : (((g.configure A k f r p a o).reset A)).time = 0 := rfl
    have e4 : (0 : Rat) + 1 / r * ((i : Nat) : Rat) = (i : Rat) / r := ht
    unfold Tone.compute
    simp only [hkk, e1, e2, e3]
    rw [show @Nat.cast Rat Lean.Grind.Semiring.natCast i = (i : Rat) from rfl, e4]
    cases k <;> simp_all [Tone.configure, Tone.reset, Tone.initPhasor]
  refine ⟨?_, ?_, ?_, ?_, ?_, ?_⟩ <;> intro hk <;> subst hk <;>
    (show (samples A n _).1[i]? = _; rw [key _ (by decide)]; rfl)

/-- A saw of four samples per cycle. -/
example : (samples quarters 6 ((Tone.new.configure quarters .saw 1 4 0 2 1).reset quarters)).1 = [1, 2, -1, 0, 1, 2] := by
  decide +kernel

end Verif.Tone
