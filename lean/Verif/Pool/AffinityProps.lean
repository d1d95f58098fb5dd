import Verif.Pool.Affinity
/-!
# C62, C63 — threads are spread evenly over the allowed cores; the default pools fit into the thread limit
-/
namespace Verif.Pool.Affinity

/-- number of allowed cores before core `i`. -/
def rankOf (mask : Mask) (i : Nat) : Nat := (mask.take i).count true

theorem stripes_get (stripe tid : Nat) (mask : Mask) (n i : Nat) :
    (stripes stripe tid n mask)[i]? = mask[i]?.map (fun b => b && ((n + rankOf mask i) % stripe == tid)) := by
  induction mask generalizing n i with
  | nil => simp [stripes]
  | cons b m ih =>
    cases i with
    | zero => cases b <;> simp [stripes, rankOf]
    | succ i =>
      cases b
      · simp only [stripes, List.getElem?_cons_succ, ih, rankOf, List.take_succ_cons, List.count_cons]; simp
      · simp only [stripes, List.getElem?_cons_succ, ih, rankOf, List.take_succ_cons, List.count_cons]
        simp only [beq_self_eq_true, if_true]
        rw [show n + 1 + List.count true (m.take i) = n + (List.count true (m.take i) + 1) by omega]

/-- **C62.** Every allowed core belongs to the mask of exactly one of the thread numbers below the minimum (0 counts as 1), and
a core that is not allowed belongs to none. -/
theorem each_core_one_thread (minThreads : Nat) (mask : Mask) (core : Nat) :
    (mask[core]? = some true → ∃ tid, tid < Nat.max minThreads 1 ∧ ∀ t, (distribute minThreads mask t)[core]? = some true ↔ t = tid) ∧
      (mask[core]? ≠ some true → ∀ t, (distribute minThreads mask t)[core]? ≠ some true) := by
  unfold distribute
  constructor
  · intro h
    refine ⟨rankOf mask core % Nat.max minThreads 1, Nat.mod_lt _ (Nat.le_trans (Nat.le_refl 1) (Nat.le_max_right minThreads 1)), ?_⟩
    intro t
    rw [stripes_get, h]
    simp only [Option.map_some, Bool.true_and, Nat.zero_add, Option.some.injEq, beq_iff_eq]
    exact eq_comm
  · intro h t
    rw [stripes_get]
    cases hm : mask[core]? with
    | none => simp
    | some b => cases b <;> simp_all

/-- how many numbers below `x` leave remainder `t`. -/
def hits (s t x : Nat) : Nat := x / s + if t < x % s then 1 else 0

theorem hits_succ {s t : Nat} (hs : 0 < s) (ht : t < s) (x : Nat) : hits s t (x + 1) = hits s t x + if x % s = t then 1 else 0 := by
  have hx := Nat.div_add_mod x s
  have hlt := Nat.mod_lt x hs
  unfold hits
  by_cases hc : x % s + 1 < s
  · have e1 : (x + 1) / s = x / s := by
      rw [show x + 1 = s * (x / s) + (x % s + 1) by omega, Nat.mul_add_div hs, Nat.div_eq_of_lt hc, Nat.add_zero]
    have e2 : (x + 1) % s = x % s + 1 := by
      rw [show x + 1 = s * (x / s) + (x % s + 1) by omega, Nat.mul_add_mod, Nat.mod_eq_of_lt hc]
    rw [e1, e2]
    split <;> split <;> split <;> omega
  · have he : x % s + 1 = s := by omega
    have e1 : (x + 1) / s = x / s + 1 := by
      rw [show x + 1 = s * (x / s) + s by omega, Nat.mul_add_div hs, Nat.div_self hs]
    have e2 : (x + 1) % s = 0 := by
      rw [show x + 1 = s * (x / s) + s by omega, Nat.mul_add_mod, Nat.mod_self]
    rw [e1, e2]
    split <;> split <;> split <;> omega

theorem stripes_count {s t : Nat} (hs : 0 < s) (ht : t < s) (mask : Mask) (n : Nat) :
    (stripes s t n mask).count true + hits s t n = hits s t (n + mask.count true) := by
  induction mask generalizing n with
  | nil => simp [stripes]
  | cons b m ih =>
    cases b
    · simp only [stripes, List.count_cons]; simpa using ih n
    · have h := ih (n + 1)
      rw [hits_succ hs ht n] at h
      simp only [stripes, List.count_cons, beq_self_eq_true, if_true]
      rw [show n + (List.count true m + 1) = n + 1 + List.count true m by omega, ← h]
      by_cases hm : n % s = t
      · simp only [hm, beq_self_eq_true, if_true]; omega
      · have : ((n % s == t) == true) = false := by simpa using hm
        simp only [hm, this, if_false, Bool.false_eq_true]; omega

/-- **C62, evenly.** The numbers of cores of two threads differ by at most one. -/
theorem spread_even (minThreads : Nat) (mask : Mask) {t u : Nat} (ht : t < Nat.max minThreads 1) (hu : u < Nat.max minThreads 1) :
    (distribute minThreads mask t).count true ≤ (distribute minThreads mask u).count true + 1 := by
  have hs : 0 < Nat.max minThreads 1 := by omega
  have h1 := stripes_count hs ht mask 0
  have h2 := stripes_count hs hu mask 0
  unfold distribute
  have z : ∀ x, hits (Nat.max minThreads 1) x 0 = 0 := by intro x; simp [hits]
  rw [z] at h1 h2
  have e1 : hits (Nat.max minThreads 1) t (0 + mask.count true) ≤ (0 + mask.count true) / Nat.max minThreads 1 + 1 := by
    unfold hits; split <;> omega
  have e2 : (0 + mask.count true) / Nat.max minThreads 1 ≤ hits (Nat.max minThreads 1) u (0 + mask.count true) := by
    unfold hits; omega
  omega

/-- non-vacuity: five of six cores, two threads. -/
example : distribute 2 [true, true, false, true, true, true] 0 = [true, false, false, true, false, true] ∧
    distribute 2 [true, true, false, true, true, true] 1 = [false, true, false, false, true, false] := by decide

/-- **Finding**: a thread whose number is not below the minimum gets no core at all. New threads are numbered from 1
(thread_pool.hpp:555), so this is the last of the initial threads and every thread the pool grows by. -/
theorem surplus_thread_has_no_core (minThreads : Nat) (mask : Mask) {t : Nat} (ht : Nat.max minThreads 1 ≤ t) :
    true ∉ distribute minThreads mask t := by
  intro h
  obtain ⟨i, hi, he⟩ := List.getElem_of_mem h
  have h2 : (distribute minThreads mask t)[i]? = some true := by rw [List.getElem?_eq_getElem hi, he]
  unfold distribute at h2
  rw [stripes_get] at h2
  cases hm : mask[i]? with
  | none => simp [hm] at h2
  | some b =>
    simp [hm] at h2
    have := Nat.mod_lt (rankOf mask i) (show 0 < Nat.max minThreads 1 from Nat.le_trans (Nat.le_refl 1) (Nat.le_max_right minThreads 1))
    omega

theorem updateThread_threads {hw : Nat} {k : Kind} {m : Nat} {mask : Mask} {c d : Cpus} {tid : Nat}
    (h : updateThread hw k m mask c tid = some d) : d.threads = c.threads := by
  unfold updateThread setThreadAffinity at h
  split at h
  · cases h; rfl
  · cases k <;> dsimp only at h <;> split at h <;> cases h <;> rfl

theorem foldlM_threads {hw : Nat} {k : Kind} {m : Nat} {mask : Mask} (l : List Nat) : ∀ {c d : Cpus},
    l.foldlM (updateThread hw k m mask) c = some d → d.threads = c.threads := by
  induction l with
  | nil => intro c d h; cases h; rfl
  | cons t l ih =>
    intro c d h
    rw [List.foldlM_cons] at h
    cases he : updateThread hw k m mask c t with
    | none => rw [he] at h; cases h
    | some e => rw [he] at h; exact (ih h).trans (updateThread_threads he)

/-- **Finding**: `setAffinityMask` never changes the affinity of a thread of the pool. -/
theorem affinity_not_applied {hw : Nat} {k : Kind} {m : Nat} {mask : Mask} {c d : Cpus} (h : setAffinityMask hw k m mask c = some d) :
    d.threads = c.threads := foldlM_threads _ h

/-- **Finding**: instead it moves the thread that calls it: here to the cores meant for the last thread of the pool. -/
theorem affinity_moves_caller :
    setAffinityMask 4 .cpu 2 [true, true, true, true] ⟨[true, true, true, true], [[], []]⟩ = some ⟨[false, true, false, true], [[], []]⟩ := by
  decide

/-- **Finding**: on a CPU-bound pool that has grown beyond its minimum, setting a mask throws. -/
theorem affinity_throws_on_grown_pool :
    setAffinityMask 4 .cpu 1 [true, true, true, true] ⟨[true, true, true, true], [[], []]⟩ = none := by decide

/-! ## C63 -/

theorem clamp_some {x lo hi : Nat} (h : lo ≤ hi) : ∃ v, clamp x lo hi = some v ∧ lo ≤ v ∧ v ≤ hi := by
  unfold clamp
  rw [if_neg (by omega)]
  refine ⟨_, rfl, ?_⟩
  split
  · omega
  · split <;> omega

/-- **C63.** The default pools of a native build: both pools have at least one thread, and the program starts, with both pools
at their maximum staying below the thread limit, exactly if the limit is at least three. -/
theorem default_pools_fit (hw limit : Nat) :
    ∃ s, splitNative hw limit 4 = some s ∧ 1 ≤ s.cpuMin ∧ s.cpuMin ≤ s.cpuMax ∧ 1 ≤ s.ioMin ∧ s.ioMin ≤ s.ioMax ∧
      (managerStarts limit s = true ↔ 3 ≤ limit) ∧ (managerStarts limit s = true → s.cpuMax + s.ioMax < limit) := by
  obtain ⟨v, hv, h1, h2⟩ := clamp_some (x := Nat.max 1 hw) (Nat.le_max_right (usable limit 4 / 2) 1)
  refine ⟨⟨v, v, 1, if usable limit 4 > v then Nat.max (usable limit 4 - v) 1 else 1⟩, ?_, h1, Nat.le_refl _, Nat.le_refl _, ?_, ?_, ?_⟩
  · unfold splitNative
    simp only [hv, Option.bind_eq_bind, Option.bind_some]
  · dsimp only; split
    · exact Nat.le_max_right _ _
    · exact Nat.le_refl _
  · have e2 : Nat.max (usable limit 4 - v) 1 = max (usable limit 4 - v) 1 := rfl
    have hu : usable limit 4 = if limit > 4 then limit - 4 else 1 := by
      unfold usable; split
      · rw [if_neg (by omega)]
      · rfl
    simp only [managerStarts, Bool.not_eq_true', decide_eq_false_iff_not, Nat.not_le, ge_iff_le]
    rw [e2]
    split at hu <;> split <;> omega
  · simp only [managerStarts, Bool.not_eq_true', decide_eq_false_iff_not, Nat.not_le, ge_iff_le]
    exact id

/-- non-vacuity: eight cores, a limit of 100 threads. -/
example : splitNative 8 100 4 = some ⟨8, 8, 1, 88⟩ := by decide

/-- On WebAssembly the minima are 0, which exposes the pools to `idle_last_thread_drops_task`. -/
theorem wasm_pools_without_minimum (hw limit : Nat) (h : 1 ≤ hw) :
    ∃ s, splitWasm hw limit 4 = some s ∧ s.cpuMin = 0 ∧ s.ioMin = 0 ∧ 1 ≤ s.cpuMax ∧ 1 ≤ s.ioMax := by
  obtain ⟨v, hv, h1, h2⟩ := clamp_some (x := usable limit 4 / 4) h
  refine ⟨⟨0, v, 0, Nat.max 1 (usable limit 4 - v)⟩, ?_, rfl, rfl, h1, Nat.le_max_left _ _⟩
  unfold splitWasm
  simp only [hv, Option.bind_eq_bind, Option.bind_some]

/-- **Finding**: where the number of cores is unknown (`hardware_concurrency()` is 0) the WebAssembly computation calls
`std::clamp` with bounds the wrong way round, which is undefined. -/
theorem wasm_unknown_cores_undefined (limit : Nat) : splitWasm 0 limit 4 = none := by
  simp [splitWasm, clamp]

end Verif.Pool.Affinity
