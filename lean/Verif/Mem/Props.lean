import Verif.Mem.Spec
/-!
# Theorems about the memory resources

C123: the arena. C124: counting, sizes, moving blocks. C125: scopes.
-/
namespace Verif.Mem

/-! ## C123: the arena -/

theorem alignUp_dvd (p align : Nat) : align ∣ alignUp p align := ⟨_, Nat.mul_comm ..⟩

theorem alignUp_ge {p align : Nat} (h : 0 < align) : p ≤ alignUp p align := by
  unfold alignUp
  have h1 := Nat.div_add_mod (p + (align - 1)) align
  have h2 := Nat.mod_lt (p + (align - 1)) h
  rw [Nat.mul_comm] at h1
  omega

theorem alignUp_le {p q align : Nat} (h : 0 < align) (hq : align ∣ q) (hpq : p ≤ q) :
    alignUp p align ≤ q := by
  obtain ⟨k, rfl⟩ := hq
  unfold alignUp
  rw [Nat.mul_comm align k]
  apply Nat.mul_le_mul_right
  rw [Nat.mul_comm] at hpq
  have : (p + (align - 1)) / align < k + 1 := by
    rw [Nat.div_lt_iff_lt_mul h, Nat.add_mul]
    omega
  omega

/-- What an allocation does: it succeeds exactly if the bytes fit somewhere in the unused part, and
then takes the first place where they fit and nothing more. -/
theorem arena_allocate (a : Arena) (bytes align : Nat) (hb : 0 < bytes) (ha : 0 < align)
    (hu : a.used ≤ a.capacity) :
    (a.allocate bytes align = none ↔ ∀ p, ¬ a.fitsAt bytes align p) ∧
    (∀ p a', a.allocate bytes align = some (p, a') →
      a.fitsAt bytes align p ∧ (∀ q, a.fitsAt bytes align q → p ≤ q) ∧
      a'.data = a.data ∧ a'.capacity = a.capacity ∧ a'.data + a'.used = p + bytes) := by
  have hge := alignUp_ge (p := a.data + a.used) ha
  have hdv := alignUp_dvd (a.data + a.used) align
  have hle := fun q hq hp => alignUp_le (p := a.data + a.used) (q := q) ha hq hp
  unfold Arena.allocate stdAlign
  rw [if_neg (by omega)]
  by_cases h1 : a.capacity - a.used < bytes
  · simp only [if_pos h1]
    refine ⟨⟨fun _ p hp => ?_, fun _ => trivial⟩, fun p a' h => by cases h⟩
    obtain ⟨q1, q2, q3⟩ := hp
    omega
  · simp only [if_neg h1]
    by_cases h2 : alignUp (a.data + a.used) align - (a.data + a.used) > a.capacity - a.used - bytes
    · simp only [if_pos h2]
      refine ⟨⟨fun _ p hp => ?_, fun _ => trivial⟩, fun p a' h => by cases h⟩
      obtain ⟨q1, q2, q3⟩ := hp
      have := hle p q2 q1
      omega
    · simp only [if_neg h2]
      refine ⟨⟨fun h => (by cases h), fun h => ?_⟩, ?_⟩
      · exact absurd ⟨hge, hdv, by omega⟩ (h (alignUp (a.data + a.used) align))
      · intro p a' h
        cases h
        refine ⟨⟨hge, hdv, by omega⟩, fun q ⟨q1, q2, _⟩ => hle q q2 q1, rfl, rfl, ?_⟩
        simp only
        omega

/-- The arena's own invariant. -/
def ArenaInv (a0 : Arena) (s : Arena × List Block) : Prop :=
  s.1.data = a0.data ∧ s.1.capacity = a0.capacity ∧ s.1.used ≤ s.1.capacity ∧
  (∀ b ∈ s.2, 0 < b.bytes ∧ b.align ∣ b.ptr ∧ a0.data ≤ b.ptr ∧
    b.ptr + b.bytes ≤ a0.data + s.1.used) ∧
  s.2.Pairwise Block.apart

theorem arenaInv_step {a0 : Arena} {s : Arena × List Block} (h : ArenaInv a0 s) (op : ArenaOp)
    (ho : op.sound) : ArenaInv a0 (arenaStep s op) := by
  obtain ⟨h1, h2, h3, h4, h5⟩ := h
  cases op with
  | deallocate p b al => exact ⟨h1, h2, h3, h4, h5⟩
  | reset =>
    refine ⟨h1, h2, Nat.zero_le _, ?_, List.Pairwise.nil⟩
    intro b hb
    cases hb
  | allocate bytes align =>
    simp only [arenaStep]
    by_cases hb : bytes = 0
    · subst hb
      simp only [Arena.allocate, if_true]
      exact ⟨h1, h2, h3, h4, h5⟩
    · have hpos : 0 < bytes := by omega
      obtain ⟨_, hs⟩ := arena_allocate s.1 bytes align hpos ho h3
      cases he : s.1.allocate bytes align with
      | none => exact ⟨h1, h2, h3, h4, h5⟩
      | some x =>
        obtain ⟨p, a'⟩ := x
        obtain ⟨⟨f1, f2, f3⟩, _, g1, g2, g3⟩ := hs p a' he
        simp only [if_neg hb]
        refine ⟨g1.trans h1, g2.trans h2, (by simp only; omega), ?_, ?_⟩
        · intro b hm
          rw [List.mem_append, List.mem_singleton] at hm
          rcases hm with hm | rfl
          · obtain ⟨b1, b2, b3, b4⟩ := h4 b hm
            exact ⟨b1, b2, b3, by simp only; omega⟩
          · exact ⟨hpos, f2, by simp only; omega, by simp only; omega⟩
        · rw [List.pairwise_append]
          refine ⟨h5, List.pairwise_singleton _ _, ?_⟩
          intro x hx y hy
          rw [List.mem_singleton] at hy
          subst hy
          obtain ⟨_, _, _, b4⟩ := h4 x hx
          exact .inl (by simp only; omega)

/-- However an arena is used, the blocks it has handed out since the last reset lie inside the
given storage, are aligned as asked and share no byte, and `used` never exceeds the capacity. -/
theorem arena_blocks (data capacity : Nat) (ops : List ArenaOp) (ho : ∀ op ∈ ops, op.sound) :
    let s := arenaRun { data := data, capacity := capacity } ops
    s.1.data = data ∧ s.1.capacity = capacity ∧ s.1.used ≤ capacity ∧
    (∀ b ∈ s.2, b.align ∣ b.ptr ∧ data ≤ b.ptr ∧ b.ptr + b.bytes ≤ data + s.1.used) ∧
    s.2.Pairwise Block.apart := by
  have key : ∀ (ops : List ArenaOp) (s : Arena × List Block), (∀ op ∈ ops, op.sound) →
      ArenaInv { data := data, capacity := capacity } s →
      ArenaInv { data := data, capacity := capacity } (ops.foldl arenaStep s) := by
    intro ops
    induction ops with
    | nil => intro s _ h; exact h
    | cons op ops ih =>
      intro s ho h
      exact ih _ (fun o hm => ho o (List.mem_cons_of_mem _ hm))
        (arenaInv_step h op (ho op (List.mem_cons_self ..)))
  obtain ⟨h1, h2, h3, h4, h5⟩ := key ops ({ data := data, capacity := capacity }, []) ho
    ⟨rfl, rfl, Nat.zero_le _, fun b hb => (by cases hb), List.Pairwise.nil⟩
  refine ⟨h1, h2, ?_, fun b hb => (h4 b hb).2, h5⟩
  exact Nat.le_trans h3 (Nat.le_of_eq h2)

/-- Giving a block back frees nothing, and a failed request changes nothing: only a reset makes
room, and it makes all of it. -/
theorem arena_monotonic (a : Arena) (bs : List Block) (p b al : Nat) :
    arenaStep (a, bs) (.deallocate p b al) = (a, bs) ∧
    (a.allocate b al = none → arenaStep (a, bs) (.allocate b al) = (a, bs)) ∧
    (a.reset).available = a.capacity := by
  refine ⟨rfl, fun h => ?_, rfl⟩
  simp only [arenaStep, h]

/-- `available` says how many bytes can still be had: a request without alignment succeeds if and only if
it asks for no more. -/
theorem arena_available (a : Arena) (bytes : Nat) (hb : 0 < bytes) (hu : a.used ≤ a.capacity) :
    (∃ p a', a.allocate bytes 1 = some (p, a') ∧ a'.available + bytes = a.available) ↔ bytes ≤ a.available := by
  obtain ⟨h1, h2⟩ := arena_allocate a bytes 1 hb (by decide) hu
  constructor
  · rintro ⟨p, a', _, h⟩
    omega
  · intro h
    unfold Arena.available at h
    cases he : a.allocate bytes 1 with
    | none =>
      refine absurd ?_ (h1.1 he (a.data + a.used))
      unfold Arena.fitsAt
      refine ⟨?_, ?_, ?_⟩ <;> first | exact Nat.one_dvd _ | omega
    | some r =>
      obtain ⟨p, a'⟩ := r
      refine ⟨p, a', rfl, ?_⟩
      obtain ⟨hf, hmin, e1, e2, e3⟩ := h2 p a' he
      have hp : p ≤ a.data + a.used := by
        refine hmin _ ?_
        unfold Arena.fitsAt
        refine ⟨?_, ?_, ?_⟩ <;> first | exact Nat.one_dvd _ | omega
      have hp2 : a.data + a.used ≤ p := by
        unfold Arena.fitsAt at hf
        omega
      unfold Arena.available
      omega

example : ({ data := 64, capacity := 16, used := 5 } : Arena).available = 11 := rfl

/-- A request for no bytes always succeeds and takes nothing. -/
theorem arena_empty_request (a : Arena) (align : Nat) :
    a.allocate 0 align = some (a.data + a.used, a) := rfl

/-- But its pointer need not be aligned as asked. -/
theorem arena_empty_unaligned : ∃ (a a' : Arena) (align p : Nat),
    0 < align ∧ a.used ≤ a.capacity ∧ a.allocate 0 align = some (p, a') ∧ ¬ align ∣ p :=
  ⟨{ data := 64, capacity := 16, used := 1 }, { data := 64, capacity := 16, used := 1 }, 8, 65,
    by decide, by decide, rfl, by decide⟩

example : (arenaRun { data := 4096, capacity := 64 } [.allocate 3 1, .allocate 8 8, .allocate 0 4,
    .allocate 100 1, .deallocate 4096 3 1, .allocate 16 16]) =
    ({ data := 4096, capacity := 64, used := 32 }, [⟨4096, 3, 1⟩, ⟨4104, 8, 8⟩, ⟨4112, 16, 16⟩]) := by
  decide

/-! ## C124: counting, sizes, moving blocks -/

/-- When every request is granted and no more is given back than was asked for, `liveBytes` is the
number of bytes outstanding (modulo 2^64) and the counts are those of the calls. -/
theorem counting_exact (ops : List CountOp) :
    (countRun {} ops).liveBytes = ((askedBytes ops : Int) - (givenBack ops : Int)) % (2 : Int) ^ 64 ∧
    (countRun {} ops).allocCount + (countRun {} ops).deallocCount = ops.length := by
  have key : ∀ (ops : List CountOp) (c : Counting),
      ((countRun c ops).liveBytes : Int) % (2 : Int) ^ 64 =
        ((c.liveBytes : Int) + (askedBytes ops : Int) - (givenBack ops : Int)) % (2 : Int) ^ 64 ∧
      (countRun c ops).allocCount + (countRun c ops).deallocCount =
        c.allocCount + c.deallocCount + ops.length := by
    intro ops
    induction ops with
    | nil => intro c; simp [countRun, askedBytes, givenBack]
    | cons op ops ih =>
      intro c
      cases op with
      | allocate b =>
        obtain ⟨h1, h2⟩ := ih (c.allocate b true).1
        refine ⟨h1.trans ?_, h2.trans ?_⟩
        · simp only [Counting.allocate, askedBytes, givenBack]
          omega
        · simp only [Counting.allocate, List.length_cons]; omega
      | deallocate b =>
        obtain ⟨h1, h2⟩ := ih (c.deallocate b)
        refine ⟨h1.trans ?_, h2.trans ?_⟩
        · simp only [Counting.deallocate, askedBytes, givenBack]
          omega
        · simp only [Counting.deallocate, List.length_cons]; omega
  have hlt : (countRun {} ops).liveBytes < 2 ^ 64 := by
    have : ∀ (ops : List CountOp) (c : Counting), c.liveBytes < 2 ^ 64 →
        (countRun c ops).liveBytes < 2 ^ 64 := by
      intro ops
      induction ops with
      | nil => intro c h; exact h
      | cons op ops ih =>
        intro c _
        cases op with
        | allocate b => exact ih _ (Nat.mod_lt _ (by decide))
        | deallocate b => exact ih _ (Nat.mod_lt _ (by decide))
    exact this ops {} (by decide)
  obtain ⟨h1, h2⟩ := key ops {}
  refine ⟨?_, by simpa using h2⟩
  simp only at h1
  omega

/-- A request that the upstream refuses is counted as if its bytes were in use. -/
theorem refused_request_counted (c : Counting) (bytes : Nat) (h : c.liveBytes + bytes < 2 ^ 64) :
    (c.allocate bytes false).2 = false ∧
    (c.allocate bytes false).1.liveBytes = c.liveBytes + bytes ∧
    (c.allocate bytes false).1.allocCount = c.allocCount + 1 := by
  refine ⟨rfl, ?_, rfl⟩
  simp only [Counting.allocate]
  exact Nat.mod_eq_of_lt h

/-- As long as the size does not overflow, exactly the bytes of the elements are requested. -/
theorem aligned_request_partial (n sizeofT : Nat) (hs : 0 < sizeofT) (h : n * sizeofT < 2 ^ 64) :
    alignedRequest n sizeofT = if n = 0 then none else some (n * sizeofT) := by
  simp only [alignedRequest, Nat.mod_eq_of_lt h]
  by_cases hn : n = 0
  · simp [hn]
  · have hne : n * sizeofT ≠ 0 := Nat.mul_ne_zero hn (by omega)
    rw [if_neg hne, if_neg hn]

/-- Otherwise too little is requested, without an error: for 2^61 + 1 eight-byte elements, eight
bytes, and for 2^61 of them a null pointer. -/
theorem aligned_request_overflows :
    alignedRequest (2 ^ 61 + 1) 8 = some 8 ∧ alignedRequest (2 ^ 61) 8 = none := by
  decide

theorem copyLoop_spec {α : Type} (throwsAt : Option Nat) (vs : List α) : ∀ i,
    ((copyLoop throwsAt i vs).2 = true ↔ ∃ k, throwsAt = some k ∧ i ≤ k ∧ k < i + vs.length) ∧
    ((copyLoop throwsAt i vs).2 = false → (copyLoop throwsAt i vs).1 = vs) := by
  induction vs with
  | nil =>
    intro i
    refine ⟨⟨fun h => (by cases h), fun ⟨k, _, h1, h2⟩ => ?_⟩, fun _ => rfl⟩
    simp at h2
    omega
  | cons x xs ih =>
    intro i
    obtain ⟨h1, h2⟩ := ih (i + 1)
    simp only [copyLoop]
    by_cases h : throwsAt = some i
    · rw [if_pos h]
      refine ⟨⟨fun _ => ⟨i, h, Nat.le_refl _, by simp⟩, fun _ => rfl⟩, fun h => by cases h⟩
    · rw [if_neg h]
      refine ⟨⟨fun hc => ?_, fun ⟨k, hk, h3, h4⟩ => ?_⟩, fun hc => by rw [h2 hc]⟩
      · obtain ⟨k, hk, h3, h4⟩ := h1.1 hc
        exact ⟨k, hk, by omega, by simp only [List.length_cons]; omega⟩
      · refine h1.2 ⟨k, hk, ?_, by simp only [List.length_cons] at h4; omega⟩
        have : k ≠ i := fun he => h (by rw [hk, he])
        omega

/-- Moving a non-empty block to another resource: either the new block holds the same elements and
the old one is gone, or copying an element threw, the old block is as it was and nothing of the new
one is left. -/
theorem migrate_all_or_nothing {α : Type} (how : Transfer) (vs : List α) (hne : vs ≠ []) :
    let m := migrate false how (some vs)
    (m.threw = false ∧ m.returned = some true ∧ m.target = some vs ∧ m.source = none) ∨
    (m.threw = true ∧ m.returned = none ∧ m.target = none ∧ m.source = some vs ∧
      ∃ k, k < vs.length ∧ how = .copy (some k)) := by
  have hl : vs.length ≠ 0 := fun h => hne (List.length_eq_zero_iff.1 h)
  simp only [migrate, if_neg hl, Bool.false_eq_true, if_false]
  cases how with
  | bytes => exact .inl ⟨rfl, rfl, rfl, rfl⟩
  | move => exact .inl ⟨rfl, rfl, rfl, rfl⟩
  | copy throwsAt =>
    obtain ⟨h1, h2⟩ := copyLoop_spec throwsAt vs 0
    cases hc : (copyLoop throwsAt 0 vs).2 with
    | false => simp [h2 hc]
    | true =>
      obtain ⟨k, hk, _, h4⟩ := h1.1 hc
      refine .inr ⟨by simp, by simp, by simp, by simp, k, by omega, by rw [hk]⟩

/-- Within one resource nothing happens: the block stays where it is. -/
theorem migrate_same {α : Type} (how : Transfer) (vs : List α) (hne : vs ≠ []) :
    migrate true how (some vs) =
      { returned := some false, threw := false, target := none, source := some vs } := by
  have hl : vs.length ≠ 0 := fun h => hne (List.length_eq_zero_iff.1 h)
  simp only [migrate, if_neg hl, if_true]

/-- A block for no elements is neither moved nor given back: a null pointer is returned and the
block is left for nobody. -/
theorem migrate_leaks_empty {α : Type} (how : Transfer) :
    (migrate false how (some ([] : List α))).returned = none ∧
    (migrate false how (some ([] : List α))).source = some [] := ⟨rfl, rfl⟩

example : (migrate false (.copy (some 2)) (some [1, 2, 3])).threw = true := by decide
example : (migrate false (.copy (some 5)) (some [1, 2, 3])).target = some [1, 2, 3] := by decide
example : countRun {} [.allocate 5, .allocate 7, .deallocate 5] = ⟨2, 1, 7⟩ := by decide

/-! ## C125: scopes -/

theorem scopeRun_append (s : Scopes) (a b : List ScopeOp) :
    scopeRun s (a ++ b) = scopeRun (scopeRun s a) b := List.foldl_append ..

theorem previous_kept (id : Nat) (ops : List ScopeOp) : ∀ s : Scopes,
    (∀ r, ScopeOp.enter id r ∉ ops) → (scopeRun s ops).previous id = s.previous id := by
  induction ops with
  | nil => intro s _; rfl
  | cons op ops ih =>
    intro s h
    show (scopeRun (scopeStep s op) ops).previous id = _
    rw [ih _ fun r hm => h r (List.mem_cons_of_mem _ hm)]
    cases op with
    | enter i r =>
      have : id ≠ i := fun he => h r (by rw [he]; exact List.mem_cons_self ..)
      simp only [scopeStep, if_neg this]
    | leave i => rfl

/-- Nested scopes restore what was there before, however deep they are nested. -/
theorem scopes_restore {ops : List ScopeOp} (h : Nested ops) (s : Scopes) :
    (scopeRun s ops).current = s.current := by
  induction h generalizing s with
  | nil => rfl
  | scope id r hb hr hno ihb ihr =>
    rename_i body rest
    show (scopeRun (scopeStep s (.enter id r)) (body ++ .leave id :: rest)).current = _
    rw [scopeRun_append]
    show (scopeRun (scopeStep (scopeRun (scopeStep s (.enter id r)) body) (.leave id)) rest).current = _
    rw [ihr]
    show (scopeRun (scopeStep s (.enter id r)) body).previous id = _
    rw [previous_kept id body _ hno]
    simp [scopeStep]

/-- Inside a scope, after any scopes nested in it have ended, its own resource is the current one. -/
theorem scope_in_force (id r : Nat) {body : List ScopeOp} (h : Nested body) (s : Scopes) :
    (scopeRun s (.enter id r :: body)).current = r :=
  (scopes_restore h (scopeStep s (.enter id r))).trans rfl

theorem threadsRun_own (ops : List (Nat × ScopeOp)) (t : Nat) : ∀ s : Nat → Scopes,
    threadsRun s ops t = scopeRun (s t) (ofThread t ops) := by
  induction ops with
  | nil => intro s; rfl
  | cons op ops ih =>
    intro s
    show threadsRun (threadsStep s op) ops t = _
    rw [ih]
    simp only [threadsStep, ofThread, List.filterMap_cons]
    by_cases h : t = op.1
    · simp only [if_pos h, if_pos h.symm]
      rfl
    · simp only [if_neg h, if_neg (fun e : op.1 = t => h e.symm)]

/-- Profile scopes are per thread: however the threads interleave, a thread whose own scopes are
nested ends with the profile it began with. -/
theorem profile_scopes_independent (s : Nat → Scopes) (ops : List (Nat × ScopeOp)) (t : Nat)
    (h : Nested (ofThread t ops)) : (threadsRun s ops t).current = (s t).current := by
  rw [threadsRun_own]
  exact scopes_restore h _

/-- The default resource is shared: two threads whose scopes overlap, each properly nested in its
own thread, can leave the default resource of the whole program at the first thread's resource
after both scopes have ended. -/
theorem default_scope_may_stick : ∃ (ops : List (Nat × ScopeOp)),
    (∀ t, Nested (ofThread t ops)) ∧ (sharedRun { current := 0 } ops).current = 7 := by
  refine ⟨[(1, .enter 1 7), (2, .enter 2 8), (1, .leave 1), (2, .leave 2)], ?_, rfl⟩
  intro t
  by_cases h1 : t = 1
  · subst h1
    exact Nested.scope 1 7 (body := []) (rest := []) .nil .nil (by simp)
  · by_cases h2 : t = 2
    · subst h2
      exact Nested.scope 2 8 (body := []) (rest := []) .nil .nil (by simp)
    · have h1' : ¬ 1 = t := fun h => h1 h.symm
      have h2' : ¬ 2 = t := fun h => h2 h.symm
      simp only [ofThread, List.filterMap_cons, List.filterMap_nil, if_neg h1', if_neg h2']
      exact .nil

/-- A resource of the profile that is not set stands for the default resource. -/
theorem profile_fallback (own : Option Nat) (d : Nat) :
    resourceOr own d = own.getD d := by
  cases own <;> rfl

example : Nested [.enter 1 5, .enter 2 6, .leave 2, .leave 1, .enter 3 9, .leave 3] :=
  .scope 1 5 (body := [.enter 2 6, .leave 2]) (.scope 2 6 (body := []) (rest := []) .nil .nil (by simp))
    (.scope 3 9 (body := []) (rest := []) .nil .nil (by simp)) (by simp)

example : (scopeRun { current := 4 } [.enter 1 5, .enter 2 6, .leave 2]).current = 5 := rfl

end Verif.Mem
