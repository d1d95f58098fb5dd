import Verif.Tone.Model
/-!
# Helper lemmas for the tone generator
-/
namespace Verif.Tone
open Lean.Grind (CommRing)

attribute [local instance] Lean.Grind.Semiring.natCast

variable {α β : Type} [CommRing α]

/-- A complex number of absolute value one. -/
def Cx.IsUnit (a : Cx α) : Prop := a.re * a.re + a.im * a.im = 1

/-- Dividing by one and the root of one do nothing. -/
structure Arith.Exact (A : Arith α) : Prop where
  div_one : A.div 1 1 = 1
  sqrt_one : A.sqrt 1 = 1

theorem unit_id {A : Arith α} (h : A.Exact) {a : Cx α} (ha : a.IsUnit) : a.unit A = a := by
  unfold Cx.unit
  rw [ha, h.sqrt_one, h.div_one]
  cases a
  simp only [Cx.mk.injEq]
  constructor <;> grind

theorem mul_unit {a b : Cx α} (ha : a.IsUnit) (hb : b.IsUnit) : (a.mul b).IsUnit := by
  unfold Cx.IsUnit Cx.mul at *
  simp only
  grind

theorem mul_square (a r : Cx α) :
    a.mul ⟨r.re * r.re - r.im * r.im, 2 * r.re * r.im⟩ = (a.mul r).mul r := by
  unfold Cx.mul
  simp only [Cx.mk.injEq]
  constructor <;> grind

/-- A number turned `n` times. -/
def turned (r : Cx α) : Nat → Cx α → Cx α
  | 0, a => a
  | n + 1, a => turned r n (a.mul r)

theorem turned_unit {r : Cx α} (hr : r.IsUnit) (n : Nat) {a : Cx α} (ha : a.IsUnit) : (turned r n a).IsUnit := by
  induction n generalizing a with
  | zero => exact ha
  | succ n ih => exact ih (mul_unit ha hr)

theorem turned_succ (r : Cx α) (n : Nat) (a : Cx α) : turned r (n + 1) a = (turned r n a).mul r := by
  induction n generalizing a with
  | zero => rfl
  | succ n ih => exact ih (a.mul r)

/-- What the phasor shows, one after the other. -/
def shown (r : Cx α) (f : Cx α → β) : Nat → Cx α → List β
  | 0, _ => []
  | n + 1, a => f a :: shown r f n (a.mul r)

theorem shown_snoc (r : Cx α) (f : Cx α → β) (n : Nat) (a : Cx α) :
    shown r f (n + 1) a = shown r f n a ++ [f (turned r n a)] := by
  induction n generalizing a with
  | zero => rfl
  | succ n ih => rw [shown, ih]; rfl

theorem pairs_eq {A : Arith α} (h : A.Exact) (f : Cx α → β) {r : Cx α} (hr : r.IsUnit) (k : Nat) :
    ∀ (p : Nat) (a : Cx α), a.IsUnit →
      pairs A ⟨r.re * r.re - r.im * r.im, 2 * r.re * r.im⟩ f k p a (a.mul r) =
        (shown r f (2 * k) a, turned r (2 * k) a) := by
  induction k with
  | zero => intro p a _; rfl
  | succ k ih =>
    intro p a ha
    have h2 : ((a.mul r).mul r).IsUnit := mul_unit (mul_unit ha hr) hr
    rw [pairs]
    simp only [mul_square]
    rw [unit_id h h2, unit_id h (mul_unit h2 hr), ite_self, ih (p + 1) _ h2]
    rfl

theorem fillPhasor_eq {A : Arith α} (h : A.Exact) (f : Cx α → β) (n : Nat) (g : Tone α) (hp : g.phasor.IsUnit)
    (hr : g.rotation.IsUnit) :
    g.fillPhasor A f n = (shown g.rotation f n g.phasor,
      { g with phasor := turned g.rotation n g.phasor, count := g.count + n, time := g.time + g.tick * (n : α) }) := by
  unfold Tone.fillPhasor
  simp only [pairs_eq h f hr (n / 2) 0 g.phasor hp]
  by_cases ho : n % 2 = 1
  · rw [if_pos ho]
    simp only
    have hn : 2 * (n / 2) + 1 = n := by omega
    rw [← shown_snoc, ← turned_succ, hn]
  · rw [if_neg ho]
    simp only [List.append_nil]
    have hn : 2 * (n / 2) = n := by omega
    rw [hn]

theorem advance_fast {A : Arith α} (h : A.Exact) (g : Tone α) (hk : g.kind = .fastSin ∨ g.kind = .fastCos)
    (hp : g.phasor.IsUnit) (hr : g.rotation.IsUnit) :
    g.advance A = { g with phasor := g.phasor.mul g.rotation, count := g.count + 1, time := g.time + g.tick } := by
  unfold Tone.advance
  simp only
  rw [if_pos hk, unit_id h (mul_unit hp hr), ite_self]

/-- The samples of a phasor one by one. -/
theorem each_fast {A : Arith α} (h : A.Exact) (s : Tone α → β × Tone α) (f : Cx α → β)
    (kind : Kind) (amplitude offset : α) (hk : kind = .fastSin ∨ kind = .fastCos)
    (hs : ∀ g : Tone α, g.kind = kind → g.amplitude = amplitude → g.offset = offset → s g = (f g.phasor, g.advance A))
    (n : Nat) (g : Tone α) (h1 : g.kind = kind) (h2 : g.amplitude = amplitude) (h3 : g.offset = offset)
    (hp : g.phasor.IsUnit) (hr : g.rotation.IsUnit) :
    Tone.each s n g = (shown g.rotation f n g.phasor,
      { g with phasor := turned g.rotation n g.phasor, count := g.count + n, time := g.time + g.tick * (n : α) }) := by
  induction n generalizing g with
  | zero =>
    obtain ⟨_, _, _, _, _, time, tick, _, _, _, _, _⟩ := g
    simp only [Tone.each, shown, turned, Nat.add_zero, Prod.mk.injEq, Tone.mk.injEq, true_and, and_true]
    grind
  | succ n ih =>
    rw [Tone.each, hs g h1 h2 h3, advance_fast h g (by rw [h1]; exact hk) hp hr]
    dsimp only
    rw [ih { g with phasor := g.phasor.mul g.rotation, count := g.count + 1, time := g.time + g.tick } h1 h2 h3
      (mul_unit hp hr) hr]
    simp only [shown, turned, Prod.mk.injEq, Tone.mk.injEq, true_and, and_true]
    refine ⟨?_, by omega⟩
    have : ((n + 1 : Nat) : α) = (n : α) + 1 := Lean.Grind.Semiring.natCast_succ n
    rw [this]
    grind

theorem each_add (s : Tone α → β × Tone α) (n m : Nat) (g : Tone α) :
    Tone.each s (n + m) g =
      ((Tone.each s n g).1 ++ (Tone.each s m (Tone.each s n g).2).1, (Tone.each s m (Tone.each s n g).2).2) := by
  induction n generalizing g with
  | zero => rw [Nat.zero_add]; rfl
  | succ n ih =>
    rw [Nat.succ_add]
    simp only [Tone.each, ih, List.cons_append]

theorem each_length (s : Tone α → β × Tone α) (n : Nat) (g : Tone α) : (Tone.each s n g).1.length = n := by
  induction n generalizing g with
  | zero => rfl
  | succ n ih => simp [Tone.each, ih]

end Verif.Tone
