import Verif.Taper.Envelope
/-! # Properties of the burst taper (C112-C114) -/
namespace Verif.Taper
open Spec

variable {α : Type} [Lean.Grind.CommRing α]

/-! ## C112: the envelope -/

/-- No sequence of calls reads outside the coefficients or does not end. -/
theorem calls_safe (rise fall : List α) (h : fall.length = rise.length) (os : List (Op α)) (ho : ∀ o ∈ os, EvenOp o) :
    ((fresh rise fall).ops os).isSome := by
  obtain ⟨t, e, _⟩ := ops_sound os ho (fresh_sound rise fall h)
  rw [e]; rfl

example : ((fresh [0, 1] [1, 0]).ops [.set true false, .apply [5, 6, 7], .set false true, .one] : Option (Taper Int)).isSome := by decide

/-- Requests without force never cut a ramp short: what comes out is zeros, a whole rise, ones, a whole fall, and
so on, up to the end of the observation. -/
theorem whole_ramps (rise fall : List α) (h : fall.length = rise.length) (rs : List (Bool × Nat)) :
    ∃ vs t, (fresh rise fall).requests rs = some (vs, t) ∧ FromOff rise fall vs := by
  obtain ⟨vs, t, e, hf⟩ := requests_from rs (fresh_sound rise fall h) (fun h => by simp [fresh, Taper.ramping] at h)
  exact ⟨vs, t, e, hf⟩

example : ((fresh [0, 5, 1] [1, 7, 0]).requests [(true, 1), (false, 3), (false, 4), (true, 4)] : Option (List Int × Taper Int)).map (·.1)
    = some [0, 5, 1, 1, 7, 0, 0, 0, 0, 5, 1, 1] := by decide

/-- A pulse: from 0, ask for 1, wait, ask for 0: the rise, ones, the fall, zeros. -/
theorem pulse (rise fall : List α) (h : fall.length = rise.length) (hp : 0 < rise.length) (k j : Nat) :
    ((fresh rise fall).requests [(true, rise.length + k), (false, rise.length + j)]).map (·.1) =
      some (rise ++ List.replicate k 1 ++ fall ++ List.replicate j 0) := by
  have split : ∀ (t : Taper α) (a b : Nat), t.values (a + b) = match t.values a with
      | none => none
      | some (us, t) => (t.values b).map fun r => (us ++ r.1, r.2) := by
    intro t a b
    rw [values_eq, ← List.replicate_append_replicate, oneByOne_append, ← values_eq]
    cases t.values a with
    | none => rfl
    | some p => simp only [values_eq]
  have hl : rise.length ≠ 0 := by omega
  have s1 : ((fresh rise fall).setTarget true false).1 = ⟨.up, 0, true, rise, fall⟩ := by
    simp [Taper.setTarget, fresh, Taper.startRamp, Taper.len, hl]
  have s2 : ((⟨.on, 0, true, rise, fall⟩ : Taper α).setTarget false false).1 = ⟨.down, 0, false, rise, fall⟩ := by
    simp [Taper.setTarget, Taper.startRamp, Taper.len, hl]
  have u : Sound (⟨.up, 0, true, rise, fall⟩ : Taper α) := ⟨h, Nat.zero_le _, fun _ => hp, nofun, nofun⟩
  have d : Sound (⟨.down, 0, false, rise, fall⟩ : Taper α) := ⟨h, Nat.zero_le _, fun _ => hp, nofun, nofun⟩
  have r1 := ramp_values u rfl hp
  have r2 := ramp_values d rfl hp
  simp only [Nat.sub_zero, List.drop_zero, coeffs, if_true, reduceCtorEq, if_false, Taper.transition, Bool.false_eq_true] at r1 r2
  have on : (⟨.on, 0, true, rise, fall⟩ : Taper α).values k = some (List.replicate k 1, ⟨.on, 0, true, rise, fall⟩) := by
    rw [values_eq, oneByOne_on rfl]
  have off : (⟨.off, 0, false, rise, fall⟩ : Taper α).values j = some (List.replicate j 0, ⟨.off, 0, false, rise, fall⟩) := by
    rw [values_eq, oneByOne_off rfl, List.map_replicate]
  simp only [Taper.requests, s1, split, r1, on, Option.map_some, s2, r2, off]
  simp

example : ((fresh [0, 5, 1] [1, 7, 0]).requests [(true, 4), (false, 4)] : Option (List Int × Taper Int)).map (·.1)
    = some [0, 5, 1, 1, 1, 7, 0, 0] := by decide

/-- Whatever was called before, twice the length of a ramp after the last request the envelope is where it was
asked to be, and it stays there. -/
theorem settles (rise fall : List α) (h : fall.length = rise.length) (os : List (Op α)) (ho : ∀ o ∈ os, EvenOp o)
    (t : Taper α) (ht : (fresh rise fall).ops os = some t) (on force : Bool) (n : Nat) (hn : 2 * t.rise.length ≤ n) :
    ∃ vs t', (t.setTarget on force).1.values n = some (vs, t') ∧ t'.phase = if on then .on else .off := by
  obtain ⟨t1, e, hs⟩ := ops_sound os ho (fresh_sound rise fall h)
  rw [ht] at e; injection e with e; subst e
  obtain ⟨hs1, htg, hr, _⟩ := set_sound hs on force
  obtain ⟨vs, t', e, hs', ht', hg⟩ := values_toGo n hs1
  have hb := toGo_le hs1
  rw [hr] at hb
  refine ⟨vs, t', e, ?_⟩
  rw [toGo_zero hs' (by omega), ht', htg]

example : ((fresh [0, 1] [1, 0]).ops [.set true false, .one, .set false false] : Option (Taper Int)) =
    some ⟨.up, 1, false, [0, 1], [1, 0]⟩ := by decide

/-- Turning back with force in a ramp with `fall` the mirror image of `rise` walks the values that came out
backwards, from the last one on, and ends at 0. -/
theorem turns_back (t : Taper α) (h : t.fall = t.rise.reverse) (hu : t.phase = .up) (h1 : 0 < t.pos) (h2 : t.pos ≤ t.rise.length) :
    ∃ t', (t.setTarget false true).1.values t.pos = some ((t.rise.take t.pos).reverse, t') ∧ t'.phase = .off := by
  obtain ⟨ph, pos, tg, r, f⟩ := t
  simp only at h hu h1 h2 ⊢
  subst hu; subst h
  have hs : Sound (⟨.down, r.length - pos, false, r, r.reverse⟩ : Taper α) :=
    ⟨List.length_reverse, Nat.sub_le _ _, fun _ => by show 0 < r.length; omega, nofun, nofun⟩
  have hset : ((⟨.up, pos, tg, r, r.reverse⟩ : Taper α).setTarget false true).1 = ⟨.down, r.length - pos, false, r, r.reverse⟩ := by
    simp [Taper.setTarget, Taper.turn, Taper.len, Nat.min_eq_left h2]
  have hv := ramp_values hs rfl (by show r.length - pos < r.length; omega)
  have hp : r.length - (r.length - pos) = pos := by omega
  simp only [hp, coeffs, reduceCtorEq, if_false] at hv
  refine ⟨_, by rw [hset, hv, List.drop_reverse, hp], ?_⟩
  simp [Taper.transition]

example : ((⟨.up, 2, true, [0, 3, 6, 9], [9, 6, 3, 0]⟩ : Taper Int).setTarget false true).1.values 3
    = some ([3, 0, 0], ⟨.off, 0, false, [0, 3, 6, 9], [9, 6, 3, 0]⟩) := by decide

/-- The same the other way round: it ends at 1. -/
theorem turns_up (t : Taper α) (h : t.fall = t.rise.reverse) (hu : t.phase = .down) (h1 : 0 < t.pos) (h2 : t.pos ≤ t.rise.length) :
    ∃ t', (t.setTarget true true).1.values t.pos = some ((t.fall.take t.pos).reverse, t') ∧ t'.phase = .on := by
  obtain ⟨ph, pos, tg, r, f⟩ := t
  simp only at h hu h1 h2 ⊢
  subst hu; subst h
  have hs : Sound (⟨.up, r.length - pos, true, r, r.reverse⟩ : Taper α) :=
    ⟨List.length_reverse, Nat.sub_le _ _, fun _ => by show 0 < r.length; omega, nofun, nofun⟩
  have hset : ((⟨.down, pos, tg, r, r.reverse⟩ : Taper α).setTarget true true).1 = ⟨.up, r.length - pos, true, r, r.reverse⟩ := by
    simp [Taper.setTarget, Taper.turn, Taper.len, Nat.min_eq_left h2]
  have hv := ramp_values hs rfl (by show r.length - pos < r.length; omega)
  have hp : r.length - (r.length - pos) = pos := by omega
  simp only [hp, coeffs, if_true] at hv
  refine ⟨_, by rw [hset, hv, List.take_reverse, List.reverse_reverse], ?_⟩
  simp [Taper.transition]

example : ((⟨.down, 2, false, [0, 3, 6, 9], [9, 6, 3, 0]⟩ : Taper Int).setTarget true true).1.values 3
    = some ([6, 9, 1], ⟨.on, 0, true, [0, 3, 6, 9], [9, 6, 3, 0]⟩) := by decide

/-- A request says yes exactly if it is against the direction the envelope is going, and then it holds. -/
theorem set_result (t : Taper α) (on force : Bool) :
    (t.setTarget on force).2 = (on != (t.phase == .up || t.phase == .on)) ∧ (t.setTarget on force).1.target = on := by
  obtain ⟨ph, pos, tg, r, f⟩ := t
  by_cases hl : r.length = 0 <;> cases ph <;> cases on <;> cases force <;> simp [Taper.setTarget, Taper.turn, Taper.startRamp, Taper.len, hl]

example : ((⟨.up, 2, false, [0, 3, 6], [6, 3, 0]⟩ : Taper Int).setTarget true false).2 = false := by decide

/-- In a ramp, the samples that are said to remain are those until it is over. -/
theorem remaining_exact (rise fall : List α) (h : fall.length = rise.length) (os : List (Op α)) (ho : ∀ o ∈ os, EvenOp o)
    (t : Taper α) (ht : (fresh rise fall).ops os = some t) :
    ((t.phase = .off ∨ t.phase = .on) → t.remaining = 0) ∧
    (t.phase = .up → t.pos < t.rise.length → t.values t.remaining = some (t.rise.drop t.pos, t.transition)) ∧
    (t.phase = .down → t.pos < t.rise.length → t.values t.remaining = some (t.fall.drop t.pos, t.transition)) := by
  obtain ⟨t1, e, hs⟩ := ops_sound os ho (fresh_sound rise fall h)
  rw [ht] at e; injection e with e; subst e
  have hrem : t.ramping = true → t.pos < t.rise.length → t.remaining = t.rise.length - t.pos := by
    intro hr hp
    unfold Taper.remaining
    rw [if_pos hr, Taper.len, Nat.min_eq_left (by omega)]
  refine ⟨fun hp => ?_, fun hp h2 => ?_, fun hp h2 => ?_⟩
  · unfold Taper.remaining Taper.ramping
    rcases hp with hp | hp <;> simp [hp]
  · have hr : t.ramping = true := by simp [Taper.ramping, hp]
    rw [hrem hr h2, ramp_values hs hr h2, coeffs, if_pos hp]
  · have hr : t.ramping = true := by simp [Taper.ramping, hp]
    rw [hrem hr h2, ramp_values hs hr h2, coeffs, if_neg (by rw [hp]; decide)]

example : (⟨.up, 1, true, [0, 3, 6], [6, 3, 0]⟩ : Taper Int).remaining = 2 := by decide

/-- With force the envelope can jump: from 1, asked for 0, forced back to 1 at once and asked for 0 again, a 0 comes
out before the fall begins at 1. -/
theorem forced_jump : ∃ t : Taper Int, (fresh [0, 0, 1] [1, 0, 0]).ops
      [.set true false, .one, .one, .one, .set false false, .set true true, .set false false] = some t ∧
    (t.values 4).map (·.1) = some [0, 1, 0, 0] :=
  ⟨⟨.up, 3, false, [0, 0, 1], [1, 0, 0]⟩, by decide, by decide⟩

/-! ## C113: samples in blocks -/

/-- However a stream is cut into blocks, the same comes out. -/
theorem blocks_do_not_matter (rise fall : List α) (h : fall.length = rise.length) (os : List (Op α)) (ho : ∀ o ∈ os, EvenOp o)
    (t : Taper α) (ht : (fresh rise fall).ops os = some t) (xs ys : List α) :
    t.apply (xs ++ ys) = match t.apply xs with
      | none => none
      | some (us, t) => (t.apply ys).map fun r => (us ++ r.1, r.2) := by
  obtain ⟨t1, e, hs⟩ := ops_sound os ho (fresh_sound rise fall h)
  rw [ht] at e; injection e with e; subst e
  by_cases hx : xs = []
  · subst hx
    have : t.apply ([] : List α) = some ([], t) := rfl
    rw [this, List.nil_append]
    show t.apply ys = (t.apply ys).map fun r => ([] ++ r.1, r.2)
    cases t.apply ys <;> rfl
  · rw [apply_eq hs hx, apply_eq hs (by simp [hx]), oneByOne_append]
    obtain ⟨us, t', e, hs', hi, _⟩ := oneByOne_sound xs (settle_sound hs).1
    rw [e]
    simp only
    by_cases hy : ys = []
    · subst hy; rfl
    · rw [apply_eq hs' hy]
      have : settle t' = t' := if_neg fun hc => Nat.lt_irrefl _ (hc.2 ▸ hi (.inl (settle_sound hs).2) hc.1)
      rw [this]

example : ((⟨.up, 0, false, [0, 2, 3], [3, 2, 0]⟩ : Taper Int).apply [5, 6, 7, 8, 9]).map (·.1) = some [0, 12, 21, 24, 18] := by decide

/-- Away from the very end of a ramp, applying the envelope to a block multiplies each sample with the value
`processOne` would have given.  Missing: the end of a ramp reached by turning back, see `block_differs`. -/
theorem block_is_samples_partial (rise fall : List α) (h : fall.length = rise.length) (os : List (Op α)) (ho : ∀ o ∈ os, EvenOp o)
    (t : Taper α) (ht : (fresh rise fall).ops os = some t) (hi : t.ramping = true → t.pos < t.rise.length) (xs : List α) :
    ∃ vs t', t.values xs.length = some (vs, t') ∧ t.apply xs = some (List.zipWith (· * ·) xs vs, t') := by
  obtain ⟨t1, e, hs⟩ := ops_sound os ho (fresh_sound rise fall h)
  rw [ht] at e; injection e with e; subst e
  have key : ∀ (xs : List α) (t : Taper α), Sound t → ∃ vs t', t.values xs.length = some (vs, t') ∧
      oneByOne t xs = some (List.zipWith (· * ·) xs vs, t') := by
    intro xs
    induction xs with
    | nil => intro t _; exact ⟨[], t, rfl, rfl⟩
    | cons x xs ih =>
      intro t h
      obtain ⟨v, t1, e1, hs1, _⟩ := one_sound h
      obtain ⟨vs, t2, e2, e3⟩ := ih t1 hs1
      refine ⟨v :: vs, t2, ?_, ?_⟩
      · rw [List.length_cons, Taper.values, e1]; simp only [e2]; rfl
      · rw [oneByOne, e1]; simp only [e3]; rfl
  by_cases hx : xs = []
  · subst hx; exact ⟨[], t, rfl, rfl⟩
  · obtain ⟨vs, t', a, b⟩ := key xs t hs
    refine ⟨vs, t', a, ?_⟩
    rw [apply_eq hs hx, settle, if_neg, b]
    intro hc
    exact Nat.lt_irrefl _ (hc.2 ▸ hi hc.1)

example : (⟨.up, 1, true, [0, 2, 3], [3, 2, 0]⟩ : Taper Int).values 3 = some ([2, 3, 1], ⟨.on, 0, true, [0, 2, 3], [3, 2, 0]⟩) := by decide

/-- Without that the two differ: `processOne` gives a sample more there. -/
theorem block_differs : ∃ (os : List (Op Int)) (t : Taper Int), (fresh [0, 0, 1] [1, 0, 0]).ops os = some t ∧
    (t.apply [1, 1, 1]).map (·.1) ≠ (t.values 3).map (·.1) :=
  ⟨[.set true false, .one, .one, .one, .set false false, .set true true, .set false false],
    ⟨.up, 3, false, [0, 0, 1], [1, 0, 0]⟩, by decide, by decide⟩

/-! ## C114: edges -/

theorem edge_length (g : Rat → Rat) (n : Nat) (rising : Bool) : (edge g n rising).length = n := by
  unfold edge; cases rising <;> simp

/-- For two or more samples, an edge starts where the shape does, ends where it does, and the falling edge is the
rising one backwards. -/
theorem edge_shape (g : Rat → Rat) (n : Nat) (hn : 1 < n) :
    (edge g n true)[0]? = some (g 0) ∧ (edge g n true)[n - 1]? = some (g 1) ∧ edge g n false = (edge g n true).reverse := by
  have hne : ((n - 1 : Nat) : Rat) ≠ 0 := by
    intro h
    have : n - 1 = 0 := by exact_mod_cast h
    omega
  have hinv : ((n - 1 : Nat) : Rat) * (1 / ((n - 1 : Nat) : Rat)) = 1 := by grind
  refine ⟨?_, ?_, ?_⟩
  · unfold edge
    rw [if_pos hn]
    simp only [if_true, List.getElem?_map, List.getElem?_range (show 0 < n by omega), Option.map_some]
    congr 2
    grind
  · unfold edge
    rw [if_pos hn]
    simp only [if_true, List.getElem?_map, List.getElem?_range (show n - 1 < n by omega), Option.map_some, hinv]
  · apply List.ext_getElem
    · rw [List.length_reverse, edge_length, edge_length]
    · intro i h1 h2
      rw [edge_length] at h1
      rw [List.getElem_reverse]
      simp only [edge, if_pos hn, if_true, Bool.false_eq_true, if_false, List.getElem_map, List.getElem_range, List.length_map, List.length_range]
      congr 1
      have : ((n - 1 - i : Nat) : Rat) = ((n - 1 : Nat) : Rat) - (i : Rat) := by
        have : n - 1 = (n - 1 - i) + i := by omega
        have h : ((n - 1 : Nat) : Rat) = ((n - 1 - i : Nat) : Rat) + (i : Rat) := by
          conv => lhs; rw [this]
          exact_mod_cast rfl
        grind
      rw [this]
      grind

example : edge riseLinear 3 true = [0, 1 / 2, 1] := by
  simp only [edge, riseLinear, List.range, List.range.loop, List.map_cons, List.map_nil, if_true]
  simp; grind

/-- A single sample is another matter: the falling edge is then where the shape ends, the rising one where it
starts, so with a ramp of one sample a burst is switched on late and off late. -/
theorem edge_single (g : Rat → Rat) : edge g 1 true = [g 0] ∧ edge g 1 false = [g 1] := by
  constructor
  · simp only [edge, List.range, List.range.loop, List.map_cons, List.map_nil, if_true]
    congr 2; grind
  · simp only [edge, List.range, List.range.loop, List.map_cons, List.map_nil, Bool.false_eq_true, if_false]
    congr 2; grind

example : edge riseLinear 1 true = [0] ∧ edge riseLinear 1 false = [1] := edge_single _

/-- Rise, flat, fall, of the lengths asked for. -/
theorem taper_layout (g : Rat → Rat) (a b c i : Nat) :
    (taper g a b c).length = a + b + c ∧
    (i < a → (taper g a b c)[i]? = (edge g a true)[i]?) ∧
    (a ≤ i → i < a + b → (taper g a b c)[i]? = some 1) ∧
    (a + b ≤ i → (taper g a b c)[i]? = (edge g c false)[i - (a + b)]?) := by
  unfold taper
  refine ⟨by simp [edge_length, Nat.add_assoc], fun h => ?_, fun h1 h2 => ?_, fun h => ?_⟩
  · rw [List.append_assoc, List.getElem?_append_left (by rw [edge_length]; exact h)]
  · rw [List.getElem?_append_left (by simp [edge_length]; omega), List.getElem?_append_right (by rw [edge_length]; exact h1),
      edge_length, List.getElem?_replicate, if_pos (by omega)]
  · rw [List.getElem?_append_right (by simp [edge_length]; omega)]
    simp [edge_length]

example : (taper riseNone 2 1 2).length = 5 := (taper_layout _ _ _ _ 0).1

/-- Without a shape, the taper leaves the samples alone: it is all ones. -/
theorem none_all_ones (a b c : Nat) : taper riseNone a b c = List.replicate (a + b + c) 1 := by
  have he : ∀ n r, edge riseNone n r = List.replicate n 1 := by
    intro n r
    rw [List.eq_replicate_iff]
    refine ⟨edge_length _ _ _, fun x hx => ?_⟩
    cases r <;> simp [edge, riseNone] at hx <;> exact hx.2.symm
  rw [taper, he, he, List.replicate_append_replicate, List.replicate_append_replicate]

example : taper riseNone 2 0 2 = [1, 1, 1, 1] := none_all_ones 2 0 2

/-- A linear rise never falls, and stays between 0 and 1. -/
theorem linear_monotone (n : Nat) (i j : Nat) (hij : i ≤ j) (x y : Rat) (hx : (edge riseLinear n true)[i]? = some x)
    (hy : (edge riseLinear n true)[j]? = some y) : 0 ≤ x ∧ x ≤ y ∧ y ≤ 1 := by
  have hj : j < n := by
    have := (List.getElem?_eq_some_iff.1 hy).1
    rwa [edge_length] at this
  have hi : i < n := by omega
  simp only [edge, if_true, List.getElem?_map, List.getElem?_range hi, List.getElem?_range hj, Option.map_some, riseLinear,
    Option.some.injEq] at hx hy
  subst hx hy
  have h0 : (0 : Rat) ≤ (i : Rat) := by exact_mod_cast Nat.zero_le i
  have h1 : (i : Rat) ≤ (j : Rat) := by exact_mod_cast hij
  by_cases hn : n > 1
  · rw [if_pos hn]
    have hm : (0 : Rat) < ((n - 1 : Nat) : Rat) := by exact_mod_cast (show 0 < n - 1 by omega)
    have h2 : (j : Rat) ≤ ((n - 1 : Nat) : Rat) := by exact_mod_cast (show j ≤ n - 1 by omega)
    have hinv : (0 : Rat) < 1 / ((n - 1 : Nat) : Rat) := by
      rw [Rat.div_def, Rat.one_mul]; exact Rat.inv_pos.2 hm
    have he : ((n - 1 : Nat) : Rat) * (1 / ((n - 1 : Nat) : Rat)) = 1 := by
      have := Rat.ne_of_gt hm
      grind
    refine ⟨Rat.mul_nonneg h0 (Rat.le_of_lt hinv), Rat.mul_le_mul_of_nonneg_right h1 (Rat.le_of_lt hinv), ?_⟩
    have := Rat.mul_le_mul_of_nonneg_right h2 (Rat.le_of_lt hinv)
    rwa [he] at this
  · rw [if_neg hn]
    have : j = 0 := by omega
    have : i = 0 := by omega
    subst i j
    exact ⟨by grind, by grind, by grind⟩

example : (edge riseLinear 3 true)[0]? = some 0 := (edge_shape riseLinear 3 (by decide)).1

/-- The mushroom shape goes from 0 to 1 and its integral, here as the polynomial with that derivative, is 0. -/
theorem mushroom_integral : riseMushroom 0 = 0 ∧ riseMushroom 1 = 1 ∧
    ∃ c3 c4 c5 : Rat, (∀ u, riseMushroom u = 3 * c3 * u ^ 2 + 4 * c4 * u ^ 3 + 5 * c5 * u ^ 4) ∧ c3 + c4 + c5 = 0 := by
  refine ⟨by simp only [riseMushroom]; grind, by simp only [riseMushroom]; grind, -4, 7, -3, fun u => ?_, by grind⟩
  simp only [riseMushroom]; grind

example : riseMushroom 1 = 1 := mushroom_integral.2.1

/-- Of the samples as generated, the trapezoidal sum is not exactly 0 but `1 / (2 m³)` for `m + 1` samples. -/
theorem mushroom_sum (n : Nat) (hn : 1 < n) :
    2 * ((n - 1 : Nat) : Rat) ^ 3 * ((edge riseMushroom n true).sum - (riseMushroom 0 + riseMushroom 1) / 2) = 1 := by
  have hm : ((n - 1 : Nat) : Rat) ≠ 0 := by
    intro h
    have : n - 1 = 0 := by exact_mod_cast h
    omega
  have hp := mushroom_partial_sum _ hm n
  have e : (n : Rat) = ((n - 1 : Nat) : Rat) + 1 := by
    have : n = n - 1 + 1 := by omega
    conv => lhs; rw [this]
    exact_mod_cast rfl
  rw [mushroom_integral.1, mushroom_integral.2.1]
  simp only [edge, if_pos hn, if_true]
  rw [e] at hp
  generalize ((n - 1 : Nat) : Rat) = m at *
  generalize ((List.range n).map fun (i : Nat) => riseMushroom ((i : Rat) * (1 / m))).sum = S at *
  have : 2 * m ^ 4 * S = m ^ 4 + m := by rw [hp]; grind
  grind

example : 2 * ((2 - 1 : Nat) : Rat) ^ 3 * ((edge riseMushroom 2 true).sum - (riseMushroom 0 + riseMushroom 1) / 2) = 1 :=
  mushroom_sum 2 (by decide)

end Verif.Taper
