import Verif.Rng.Props
/-!
# C132: noise does not depend on the sizes of the chunks it is asked for in
-/
namespace Verif.Rng

/-! ## Specification: one sample after the other -/

/-- `n` results of a generator, one after the other. -/
def many {σ α : Type} (f : σ → Option (α × σ)) : Nat → σ → Option (List α × σ)
  | 0, s => some ([], s)
  | n + 1, s =>
    match f s with
    | none => none
    | some (a, s) =>
      match many f n s with
      | none => none
      | some (as, s) => some (a :: as, s)

/-- Chunks of given sizes, one after the other; what they hold together. -/
def chunks {σ α : Type} (f : Nat → σ → Option (List α × σ)) : List Nat → σ → Option (List α × σ)
  | [], s => some ([], s)
  | n :: ns, s =>
    match f n s with
    | none => none
    | some (as, s) =>
      match chunks f ns s with
      | none => none
      | some (bs, s) => some (as ++ bs, s)

theorem many_add {σ α : Type} (f : σ → Option (α × σ)) (n m : Nat) (s : σ) :
    many f (n + m) s =
      match many f n s with
      | none => none
      | some (as, s) =>
        match many f m s with
        | none => none
        | some (bs, s) => some (as ++ bs, s) := by
  induction n generalizing s with
  | zero =>
    rw [Nat.zero_add]
    simp only [many, List.nil_append]
    cases many f m s with
    | none => rfl
    | some x => rfl
  | succ n ih =>
    rw [Nat.succ_add]
    simp only [many]
    cases f s with
    | none => rfl
    | some x =>
      obtain ⟨a, s1⟩ := x
      dsimp only
      rw [ih]
      cases many f n s1 with
      | none => rfl
      | some y =>
        obtain ⟨as, s2⟩ := y
        dsimp only
        cases many f m s2 with
        | none => rfl
        | some z => rfl

/-! ## Real samples -/

theorem fillUniform_many (e : Env) (n : Nat) (g : Gen) (h : g.type = .uniform) :
    many (Gen.sample e) n g = some ((fillUniform e.F g.amp g.off n g.gauss.rng).1,
      { g with gauss := { g.gauss with rng := (fillUniform e.F g.amp g.off n g.gauss.rng).2 } }) := by
  induction n generalizing g with
  | zero => rfl
  | succ n ih =>
    have hs : Gen.sample e g = some (g.amp * uniformM11 e.F (next g.gauss.rng).1 + g.off,
        { g with gauss := { g.gauss with rng := (next g.gauss.rng).2 } }) := by
      simp only [Gen.sample, Gen.raw, h]
    simp only [many, hs]
    rw [ih { g with gauss := { g.gauss with rng := (next g.gauss.rng).2 } } h]
    rfl

theorem fillTriangular_many (e : Env) (n : Nat) (g : Gen) (h : g.type = .triangular) :
    many (Gen.sample e) n g = some ((fillTriangular e.F g.amp g.off n g.gauss.rng).1,
      { g with gauss := { g.gauss with rng := (fillTriangular e.F g.amp g.off n g.gauss.rng).2 } }) := by
  induction n generalizing g with
  | zero => rfl
  | succ n ih =>
    have hs : Gen.sample e g = some (g.amp * (triangular e.F g.gauss.rng).1 + g.off,
        { g with gauss := { g.gauss with rng := (triangular e.F g.gauss.rng).2 } }) := by
      simp only [Gen.sample, Gen.raw, h]
    simp only [many, hs]
    rw [ih { g with gauss := { g.gauss with rng := (triangular e.F g.gauss.rng).2 } } h]
    rfl

theorem fillLoop_many (e : Env) (n : Nat) (g : Gen) (h : g.type = .gaussian) :
    many (Gen.sample e) n g =
      match Gauss.fillLoop e.F e.factor e.fuel g.amp g.off n g.gauss.rng g.gauss.spare with
      | none => none
      | some (xs, s, spare) => some (xs, { g with gauss := ⟨s, spare⟩ }) := by
  induction n generalizing g with
  | zero => rfl
  | succ n ih =>
    obtain ⟨ty, amp, off, rng, spare⟩ := g
    simp only at h
    subst h
    cases spare with
    | some x =>
      simp only [many, Gen.sample, Gen.raw, Gauss.sample, Gauss.fillLoop]
      rw [ih ⟨.gaussian, amp, off, rng, none⟩ rfl]
      dsimp only
      cases Gauss.fillLoop e.F e.factor e.fuel amp off n rng none with
      | none => rfl
      | some z => rfl
    | none =>
      simp only [many, Gen.sample, Gen.raw, Gauss.sample, Gauss.fillLoop]
      cases hp : polarPair e.F e.factor e.fuel rng with
      | none => rfl
      | some z =>
        obtain ⟨⟨a, b⟩, s⟩ := z
        dsimp only
        rw [ih ⟨.gaussian, amp, off, s, some b⟩ rfl]
        dsimp only
        cases Gauss.fillLoop e.F e.factor e.fuel amp off n s (some b) with
        | none => rfl
        | some z => rfl

/-- **A chunk holds the samples that would have come one by one**, if nothing is left over from an odd
number of normally distributed samples before. -/
theorem fill_is_samples_partial (e : Env) (n : Nat) (g : Gen) (h : g.type = .gaussian → g.gauss.spare = none) :
    g.fill e n = many (Gen.sample e) n g := by
  cases ht : g.type with
  | uniform => rw [fillUniform_many e n g ht]; simp only [Gen.fill, ht]
  | triangular => rw [fillTriangular_many e n g ht]; simp only [Gen.fill, ht]
  | gaussian =>
    rw [fillLoop_many e n g ht, h ht]
    simp only [Gen.fill, ht, Gauss.fill]
    cases Gauss.fillLoop e.F e.factor e.fuel g.amp g.off n g.gauss.rng none with
    | none => rfl
    | some z => rfl

theorem sample_keeps (e : Env) (g g' : Gen) (x : Rat) (h : g.sample e = some (x, g')) :
    g'.type = g.type ∧ g'.amp = g.amp ∧ g'.off = g.off := by
  unfold Gen.sample Gen.raw at h
  cases ht : g.type <;> simp only [ht] at h
  · cases h; exact ⟨rfl, rfl, rfl⟩
  · cases h; exact ⟨rfl, rfl, rfl⟩
  · cases hs : g.gauss.sample e.F e.factor e.fuel with
    | none => rw [hs] at h; cases h
    | some z => rw [hs] at h; cases h; exact ⟨rfl, rfl, rfl⟩

theorem many_keeps (e : Env) (n : Nat) (g g' : Gen) (xs : List Rat) (h : many (Gen.sample e) n g = some (xs, g')) :
    g'.type = g.type := by
  induction n generalizing g xs with
  | zero => cases h; rfl
  | succ n ih =>
    simp only [many] at h
    cases hs : g.sample e with
    | none => rw [hs] at h; cases h
    | some z =>
      obtain ⟨x, g1⟩ := z
      rw [hs] at h
      dsimp only at h
      cases hm : many (Gen.sample e) n g1 with
      | none => rw [hm] at h; cases h
      | some y =>
        obtain ⟨ys, g2⟩ := y
        rw [hm] at h
        cases h
        exact (ih g1 ys hm).trans (sample_keeps e g g1 x hs).1

/-- Two more samples leave as much over as before. -/
theorem spare_even (e : Env) (n : Nat) (g g' : Gen) (xs : List Rat) (ht : g.type = .gaussian)
    (hn : g.gauss.spare = none) (h : many (Gen.sample e) (2 * n) g = some (xs, g')) : g'.gauss.spare = none := by
  induction n generalizing g xs with
  | zero => cases h; exact hn
  | succ n ih =>
    obtain ⟨ty, amp, off, rng, spare⟩ := g
    simp only at ht hn
    subst ht hn
    rw [show 2 * (n + 1) = 2 + 2 * n by omega, many_add] at h
    cases hp : polarPair e.F e.factor e.fuel rng with
    | none =>
      have h2 : many (Gen.sample e) 2 ⟨.gaussian, amp, off, rng, none⟩ = none := by
        simp only [many, Gen.sample, Gen.raw, Gauss.sample, hp]
      rw [h2] at h
      cases h
    | some z =>
      obtain ⟨⟨a, b⟩, s⟩ := z
      have h2 : many (Gen.sample e) 2 ⟨.gaussian, amp, off, rng, none⟩ =
          some ([amp * a + off, amp * b + off], ⟨.gaussian, amp, off, s, none⟩) := by
        simp only [many, Gen.sample, Gen.raw, Gauss.sample, hp]
      rw [h2] at h
      dsimp only at h
      cases hm : many (Gen.sample e) (2 * n) ⟨.gaussian, amp, off, s, none⟩ with
      | none => rw [hm] at h; cases h
      | some y =>
        obtain ⟨ys, g2⟩ := y
        rw [hm] at h
        cases h
        exact ih _ ys rfl rfl hm

/-- **How the output is cut into chunks does not matter** for noise that is not normally distributed. -/
theorem chunks_of_any_size (e : Env) (ns : List Nat) (g : Gen) (h : g.type ≠ .gaussian) :
    chunks (fun n g => g.fill e n) ns g = g.fill e ns.sum := by
  rw [fill_is_samples_partial e ns.sum g (fun ht => absurd ht h)]
  induction ns generalizing g with
  | nil => rfl
  | cons n ns ih =>
    rw [List.sum_cons, many_add]
    simp only [chunks]
    rw [fill_is_samples_partial e n g (fun ht => absurd ht h)]
    cases hm : many (Gen.sample e) n g with
    | none => rfl
    | some y =>
      obtain ⟨as, g1⟩ := y
      dsimp only
      rw [ih g1 (by rw [many_keeps e n g g1 as hm]; exact h)]

/-- **Nor for normally distributed noise, if every chunk but the last is of an even size** and nothing was
left over before. -/
theorem chunks_of_even_size_partial (e : Env) (ns : List Nat) (k : Nat) (g : Gen) (ht : g.type = .gaussian)
    (hn : g.gauss.spare = none) :
    chunks (fun n g => g.fill e n) (ns.map (2 * ·) ++ [k]) g = g.fill e (2 * ns.sum + k) := by
  rw [fill_is_samples_partial e _ g (fun _ => hn)]
  induction ns generalizing g with
  | nil =>
    simp only [List.map_nil, List.nil_append, chunks, List.sum_nil, Nat.mul_zero, Nat.zero_add]
    rw [fill_is_samples_partial e _ g (fun _ => hn)]
    cases many (Gen.sample e) k g with
    | none => rfl
    | some y => simp
  | cons n ns ih =>
    rw [List.sum_cons, show 2 * (n + ns.sum) + k = 2 * n + (2 * ns.sum + k) by omega, many_add]
    simp only [List.map_cons, List.cons_append, chunks]
    rw [fill_is_samples_partial e _ g (fun _ => hn)]
    cases hm : many (Gen.sample e) (2 * n) g with
    | none => rfl
    | some y =>
      obtain ⟨as, g1⟩ := y
      dsimp only
      rw [ih g1 (by rw [many_keeps e _ g g1 as hm]; exact ht) (spare_even e n g g1 as ht hn hm)]

/-- A double precision generator of normally distributed noise without the root and the logarithm. -/
def plain : Env := ⟨.double, fun _ => 1, 1, 20⟩

/-- A freshly configured generator of normally distributed noise. -/
def fresh : Gen := Gen.configure {} .gaussian 2 1 7

/-- **Chunks of odd sizes change normally distributed noise**: the second number of a pair is dropped at
the end of the first chunk, so two chunks of one sample are not the chunk of two. -/
theorem odd_chunks_differ : ∃ a b c g1 g2, fresh.fill plain 2 = some ([a, b], g1) ∧
    chunks (fun n g => g.fill plain n) [1, 1] fresh = some ([a, c], g2) ∧ b ≠ c ∧ g1 ≠ g2 := by
  refine ⟨(match fresh.fill plain 2 with | some (x :: _, _) => x | _ => 0),
    (match fresh.fill plain 2 with | some (_ :: x :: _, _) => x | _ => 0),
    (match chunks (fun n g => g.fill plain n) [1, 1] fresh with | some (_ :: x :: _, _) => x | _ => 0),
    (match fresh.fill plain 2 with | some (_, g) => g | _ => {}),
    (match chunks (fun n g => g.fill plain n) [1, 1] fresh with | some (_, g) => g | _ => {}), ?_⟩
  decide +kernel

/-- Chunks of even sizes and a last one of three samples. -/
example : chunks (fun n g => g.fill plain n) [2, 4, 3] fresh = fresh.fill plain 9 ∧ (fresh.fill plain 9).isSome :=
  ⟨chunks_of_even_size_partial plain [1, 2] 3 fresh rfl rfl, by decide +kernel⟩

/-- Uniform noise in chunks of any size. -/
example : chunks (fun n g => g.fill plain n) [1, 3, 0, 5] (Gen.configure fresh .uniform 1 0 7) =
    (Gen.configure fresh .uniform 1 0 7).fill plain 9 :=
  chunks_of_any_size plain [1, 3, 0, 5] _ (by decide)

/-! ## Complex samples -/

theorem complexUniform_many (e : Env) (n : Nat) (g : Gen) (h : g.type = .uniform) :
    many (Gen.complexSample e) n g = some ((complexUniform e.F g.amp g.off n g.gauss.rng).1,
      { g with gauss := { g.gauss with rng := (complexUniform e.F g.amp g.off n g.gauss.rng).2 } }) := by
  induction n generalizing g with
  | zero => rfl
  | succ n ih =>
    have hs : Gen.complexSample e g = some ((g.amp * uniformM11 e.F (next g.gauss.rng).1 + g.off,
        g.amp * uniformM11 e.F (next (next g.gauss.rng).2).1),
        { g with gauss := { g.gauss with rng := (next (next g.gauss.rng).2).2 } }) := by
      simp only [Gen.complexSample, Gen.raw, h]
    simp only [many, hs]
    rw [ih { g with gauss := { g.gauss with rng := (next (next g.gauss.rng).2).2 } } h]
    rfl

theorem complexTriangular_many (e : Env) (n : Nat) (g : Gen) (h : g.type = .triangular) :
    many (Gen.complexSample e) n g = some ((complexTriangular e.F g.amp g.off n g.gauss.rng).1,
      { g with gauss := { g.gauss with rng := (complexTriangular e.F g.amp g.off n g.gauss.rng).2 } }) := by
  induction n generalizing g with
  | zero => rfl
  | succ n ih =>
    have hs : Gen.complexSample e g = some ((g.amp * (triangular e.F g.gauss.rng).1 + g.off,
        g.amp * (triangular e.F (triangular e.F g.gauss.rng).2).1),
        { g with gauss := { g.gauss with rng := (triangular e.F (triangular e.F g.gauss.rng).2).2 } }) := by
      simp only [Gen.complexSample, Gen.raw, h]
    simp only [many, hs]
    rw [ih { g with gauss := { g.gauss with rng := (triangular e.F (triangular e.F g.gauss.rng).2).2 } } h]
    rfl

theorem complexLoop_many (e : Env) (n : Nat) (amp off : Rat) (s : Xo) :
    many (Gen.complexSample e) n ⟨.gaussian, amp, off, s, none⟩ =
      match Gauss.complexLoop e.F e.factor e.scale e.fuel amp off n s with
      | none => none
      | some (xs, s) => some (xs, ⟨.gaussian, amp, off, s, none⟩) := by
  induction n generalizing s with
  | zero => rfl
  | succ n ih =>
    cases hp : polarPair e.F e.factor e.fuel s with
    | none => simp only [many, Gen.complexSample, Gauss.complexSample, Gauss.sample, Gauss.complexLoop, hp]
    | some z =>
      obtain ⟨⟨a, b⟩, s'⟩ := z
      have hs : Gen.complexSample e ⟨.gaussian, amp, off, s, none⟩ =
          some ((amp * e.scale * a + off, amp * e.scale * b), ⟨.gaussian, amp, off, s', none⟩) := by
        simp only [Gen.complexSample, Gauss.complexSample, Gauss.sample, hp]
        rw [show amp * (a * e.scale) = amp * e.scale * a by grind,
          show amp * (b * e.scale) = amp * e.scale * b by grind]
      simp only [many, hs, ih, Gauss.complexLoop, hp]
      cases Gauss.complexLoop e.F e.factor e.scale e.fuel amp off n s' with
      | none => rfl
      | some z => rfl

/-- **A chunk of complex samples holds the samples that would have come one by one**, with the same
condition. -/
theorem complex_is_samples_partial (e : Env) (n : Nat) (g : Gen)
    (h : g.type = .gaussian → g.gauss.spare = none) :
    g.fillComplex e n = many (Gen.complexSample e) n g := by
  cases ht : g.type with
  | uniform => rw [complexUniform_many e n g ht]; simp only [Gen.fillComplex, ht]
  | triangular => rw [complexTriangular_many e n g ht]; simp only [Gen.fillComplex, ht]
  | gaussian =>
    obtain ⟨ty, amp, off, rng, spare⟩ := g
    have hs := h ht
    simp only at ht hs
    subst ht hs
    rw [complexLoop_many]
    simp only [Gen.fillComplex, Gauss.fillComplex]
    cases Gauss.complexLoop e.F e.factor e.scale e.fuel amp off n rng with
    | none => rfl
    | some z => rfl

/-- Nothing is left over after complex samples, so **how complex noise is cut into chunks never matters**. -/
theorem complex_chunks (e : Env) (ns : List Nat) (g : Gen) (h : g.type = .gaussian → g.gauss.spare = none) :
    chunks (fun n g => g.fillComplex e n) ns g = g.fillComplex e ns.sum := by
  have hk : ∀ n (g g' : Gen) xs, g.fillComplex e n = some (xs, g') →
      (g.type = .gaussian → g.gauss.spare = none) → (g'.type = .gaussian → g'.gauss.spare = none) := by
    intro n g g' xs hf hg
    unfold Gen.fillComplex at hf
    cases ht : g.type with
    | uniform => simp only [ht] at hf; cases hf; intro hh; cases hh
    | triangular => simp only [ht] at hf; cases hf; intro hh; cases hh
    | gaussian =>
      simp only [ht, Gauss.fillComplex] at hf
      cases hc : Gauss.complexLoop e.F e.factor e.scale e.fuel g.amp g.off n g.gauss.rng with
      | none => rw [hc] at hf; cases hf
      | some z => rw [hc] at hf; cases hf; intro _; rfl
  rw [complex_is_samples_partial e ns.sum g h]
  induction ns generalizing g with
  | nil => rfl
  | cons n ns ih =>
    rw [List.sum_cons, many_add]
    simp only [chunks]
    rw [complex_is_samples_partial e n g h]
    cases hm : many (Gen.complexSample e) n g with
    | none => rfl
    | some y =>
      obtain ⟨as, g1⟩ := y
      dsimp only
      rw [ih g1 (hk n g g1 as (by rw [complex_is_samples_partial e n g h]; exact hm) h)]

/-- Complex samples after an odd number of real ones: one by one the first takes what was left over, a
chunk does not. -/
theorem leftover_differs : ∃ x g, fresh.sample plain = some (x, g) ∧
    g.fillComplex plain 1 ≠ many (Gen.complexSample plain) 1 g := by
  refine ⟨(match fresh.sample plain with | some (x, _) => x | _ => 0),
    (match fresh.sample plain with | some (_, g) => g | _ => {}), ?_⟩
  decide +kernel

example : chunks (fun n g => g.fillComplex plain n) [1, 2] fresh = fresh.fillComplex plain 3 ∧
    (fresh.fillComplex plain 3).isSome :=
  ⟨complex_chunks plain [1, 2] fresh (fun _ => rfl), by decide +kernel⟩

/-! ## What the samples are -/

/-- **Samples of bounded noise lie within the amplitude around the offset.** -/
theorem samples_bounded (e : Env) (n : Nat) (g g' : Gen) (xs : List Rat) (ht : g.type ≠ .gaussian)
    (ha : 0 < g.amp) (h : g.fill e n = some (xs, g')) :
    xs.length = n ∧ ∀ x ∈ xs, g.off - g.amp ≤ x ∧ x < g.off + g.amp := by
  rw [fill_is_samples_partial e n g (fun hh => absurd hh ht)] at h
  induction n generalizing g xs with
  | zero => cases h; exact ⟨rfl, fun _ hx => by cases hx⟩
  | succ n ih =>
    simp only [many] at h
    cases hs : g.sample e with
    | none => rw [hs] at h; cases h
    | some z =>
      obtain ⟨x, g1⟩ := z
      rw [hs] at h
      dsimp only at h
      cases hm : many (Gen.sample e) n g1 with
      | none => rw [hm] at h; cases h
      | some y =>
        obtain ⟨ys, g2⟩ := y
        rw [hm] at h
        cases h
        obtain ⟨k1, k2, k3⟩ := sample_keeps e g g1 x hs
        obtain ⟨h1, h2⟩ := ih g1 ys (by rw [k1]; exact ht) (by rw [k2]; exact ha) hm
        refine ⟨by simp [h1], fun y hy => ?_⟩
        rcases List.mem_cons.1 hy with rfl | hy
        · have key : ∀ v : Rat, -1 ≤ v → v < 1 → g.off - g.amp ≤ g.amp * v + g.off ∧
              g.amp * v + g.off < g.off + g.amp := by
            intro v hv1 hv2
            have e1 := Rat.mul_le_mul_of_nonneg_left hv1 (Rat.le_of_lt ha)
            have e2 := Rat.mul_lt_mul_of_pos_left hv2 ha
            constructor <;> grind
          unfold Gen.sample Gen.raw at hs
          cases hty : g.type with
          | uniform =>
            simp only [hty] at hs
            cases hs
            exact key _ (uniformM11_range e.F _).1 (uniformM11_range e.F _).2
          | triangular =>
            simp only [hty] at hs
            cases hs
            exact key _ (triangular_range e.F _).1 (triangular_range e.F _).2
          | gaussian => exact absurd hty ht
        · have := h2 y hy
          rw [k2, k3] at this
          exact this

/-- **The seed decides**: configured or reset with the same seed, two generators with the same settings give
the same noise, whatever they did before. -/
theorem seed_decides (e : Env) (g g' : Gen) (t : Noise) (amp off : Rat) (x : BitVec 64) (n : Nat) :
    (g.configure t amp off x).fill e n = (g'.configure t amp off x).fill e n ∧
    (g.type = g'.type → g.amp = g'.amp → g.off = g'.off → (g.reset x).fill e n = (g'.reset x).fill e n) := by
  refine ⟨rfl, fun h1 h2 h3 => ?_⟩
  unfold Gen.reset
  rw [h1, h2, h3]

/-- **Different seeds give generators in different states.** -/
theorem seeds_differ (g : Gen) (x y : BitVec 64) (h : x ≠ y) : g.reset x ≠ g.reset y := by
  intro hh
  have := congrArg (fun g : Gen => g.gauss.rng) hh
  exact h (seed_injective this)

end Verif.Rng
