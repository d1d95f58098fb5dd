import Verif.Pool.Spec
import Verif.Pool.Lemmas
/-!
# Order of the queue and bounds on the number of threads
-/
namespace Verif.Pool

theorem toInt32_small {p : Nat} (h : p < 2147483648) : toInt32 p = p := by
  have e : p % 4294967296 = p := Nat.mod_eq_of_lt (by omega)
  simp only [toInt32, e, if_pos h]

theorem before_trans {t u v : Task} (h1 : Before t u) (h2 : Before u v) : Before t v := by
  unfold Before at *; omega

theorem push_sorted {q : List Task} {t : Task} (hs : q.Pairwise Before) (hid : ∀ u ∈ q, u.id < t.id) (hp : 0 ≤ t.prio)
    (hq : ∀ u ∈ q, 0 ≤ u.prio) : (push q t).Pairwise Before := by
  unfold push
  split
  · next h0 =>
    rw [List.pairwise_append]
    refine ⟨hs, by simp, ?_⟩
    intro u hu v hv
    rw [List.mem_singleton.1 hv]
    have := hid u hu; have := hq u hu
    unfold Before; omega
  · next h0 =>
    induction q with
    | nil => simp
    | cons x q ih =>
      have hx := List.pairwise_cons.1 hs
      by_cases hlt : x.prio < t.prio
      · simp only [List.takeWhile_cons, List.dropWhile_cons, hlt, decide_true, Bool.not_true, Bool.false_eq_true, if_false,
          List.nil_append]
        rw [List.pairwise_cons]
        refine ⟨?_, hs⟩
        have hb : Before t x := .inl hlt
        intro v hv
        rcases List.mem_cons.1 hv with rfl | hv
        · exact hb
        · exact before_trans hb (hx.1 v hv)
      · simp only [List.takeWhile_cons, List.dropWhile_cons, hlt, decide_false, Bool.not_false, if_true, List.cons_append]
        rw [List.pairwise_cons]
        refine ⟨?_, ih hx.2 (fun u hu => hid u (.tail _ hu)) (fun u hu => hq u (.tail _ hu))⟩
        intro v hv
        rcases List.mem_append.1 hv with hv | hv
        · exact hx.1 v (List.takeWhile_subset _ hv)
        rcases List.mem_cons.1 hv with rfl | hv
        · have := hid x (.head _)
          unfold Before; omega
        · exact hx.1 v (List.dropWhile_subset _ hv)

theorem mem_push {q : List Task} {t u : Task} : u ∈ push q t ↔ u = t ∨ u ∈ q := by
  unfold push
  split
  · simp [or_comm]
  · have h := List.takeWhile_append_dropWhile (p := fun u : Task => !decide (u.prio < t.prio)) (l := q)
    conv => rhs; rw [← h]
    simp only [List.mem_append, List.mem_cons]
    constructor
    · rintro (h | h | h)
      · exact .inr (.inl h)
      · exact .inl h
      · exact .inr (.inr h)
    · rintro (h | h | h)
      · exact .inr (.inl h)
      · exact .inl h
      · exact .inr (.inr h)

structure Ordered (c : Conf) : Prop where
  sorted : c.queue.Pairwise Before
  ids : ∀ u ∈ c.queue, u.id < c.nextId
  nonneg : ∀ u ∈ c.queue, 0 ≤ u.prio
  small : ∀ p, CPc.counted p ∈ c.callers → p < 2147483648

theorem ordered_stepW {c : Conf} (h : Ordered c) {i : Nat} {pc : WPc} (a : WAct) : Ordered (stepW c i pc a) := by
  fun_cases stepW c i pc a <;> first
    | exact h
    | exact ⟨h.sorted, h.ids, h.nonneg, h.small⟩
    | (next t q hq =>
       have h1 := h.sorted; have h2 := h.ids; have h3 := h.nonneg
       rw [hq] at h1 h2 h3
       exact ⟨(List.pairwise_cons.1 h1).2, fun u hu => h2 u (.tail _ hu), fun u hu => h3 u (.tail _ hu), h.small⟩)
    | exact ⟨.nil, by simp [setW], by simp [setW], h.small⟩

theorem small_set {l : List CPc} {i : Nat} {b : CPc} (h : ∀ p, CPc.counted p ∈ l → p < 2147483648)
    (hb : ∀ p, b = .counted p → p < 2147483648) : ∀ p, CPc.counted p ∈ l.set i b → p < 2147483648 := by
  intro p hp
  rcases List.mem_or_eq_of_mem_set hp with hp | hp
  · exact h p hp
  · exact hb p hp.symm

theorem ordered_stepC {c : Conf} (h : Ordered c) {i : Nat} {pc : CPc} (hi : c.callers[i]? = some pc) {a : CAct}
    (ha : ∀ p, a = .submit p → p < 2147483648) : Ordered (stepC c i pc a) := by
  fun_cases stepC c i pc a <;> first
    | exact h
    | (refine ⟨h.sorted, h.ids, h.nonneg, small_set h.small ?_⟩
       intro p hp; cases hp; done)
    | (next p =>
       refine ⟨h.sorted, h.ids, h.nonneg, small_set h.small ?_⟩
       intro p' hp; cases hp; exact ha p rfl)
    | (next p =>
       have hp := h.small p (List.mem_of_getElem? hi)
       refine ⟨push_sorted h.sorted h.ids ?_ h.nonneg, ?_, ?_, small_set h.small (by intro p hp; cases hp)⟩
       · simp only [toInt32_small hp]; omega
       · intro u hu
         rcases mem_push.1 hu with rfl | hu
         · exact Nat.lt_succ_self _
         · exact Nat.lt_succ_of_lt (h.ids u hu)
       · intro u hu
         rcases mem_push.1 hu with rfl | hu
         · simp only [toInt32_small hp]; omega
         · exact h.nonneg u hu)

theorem ordered_step {c : Conf} (h : Ordered c) {a : Act} (ha : ∀ i p, a = .caller i (.submit p) → p < 2147483648) :
    Ordered (step c a) := by
  fun_cases step c a
  · exact ordered_stepW h _
  · exact h
  · next i a pc hp => exact ordered_stepC h hp (fun p e => ha i p (by rw [e]))
  all_goals first | exact h | exact ⟨h.sorted, h.ids, h.nonneg, h.small⟩

theorem ordered_run (min max k : Nat) {s : List Act} (hs : SmallPriorities s) : Ordered (run min max k s) := by
  have h0 : Ordered (init min max k) := by
    refine ⟨.nil, by simp [init], by simp [init], ?_⟩
    intro p hp
    simp [init, List.mem_replicate] at hp
  unfold run
  generalize init min max k = c at h0
  induction s generalizing c with
  | nil => exact h0
  | cons x s ih =>
    exact ih (fun i p hp => hs i p (.tail _ hp)) _ (ordered_step h0 (fun i p e => hs i p (by rw [e]; exact .head _)))

/-! ## number of threads -/

/-- what a single submitting thread knows about the number of threads. -/
def knows (c : Conf) : CPc → Prop
  | .growCmp n => c.threads ≤ n
  | .need | .needRun _ | .needMax _ | .create => c.threads < c.maxT
  | _ => True

structure Bounded (c : Conf) : Prop where
  one : c.callers.length ≤ 1
  max : c.threads ≤ c.maxT
  knows : ∀ pc ∈ c.callers, knows c pc

theorem knows_mono {c d : Conf} (h1 : d.threads ≤ c.threads) (h2 : d.maxT = c.maxT) {pc : CPc} (h : knows c pc) : knows d pc := by
  cases pc <;> simp only [knows] at * <;> omega

theorem bounded_stepW {c : Conf} (h : Bounded c) {i : Nat} {pc : WPc} (a : WAct) : Bounded (stepW c i pc a) := by
  have h1 := h.max
  have key : (stepW c i pc a).threads ≤ c.threads ∧ (stepW c i pc a).maxT = c.maxT ∧ (stepW c i pc a).callers = c.callers := by
    fun_cases stepW c i pc a <;> first
      | exact ⟨Int.le_refl _, rfl, rfl⟩
      | (simp only [setW, and_true]; omega)
  obtain ⟨e1, e2, e3⟩ := key
  refine ⟨by rw [e3]; exact h.one, by omega, ?_⟩
  intro p hp
  rw [e3] at hp
  exact knows_mono e1 e2 (h.knows p hp)

theorem single {l : List CPc} {i : Nat} {pc : CPc} (h1 : l.length ≤ 1) (hi : l[i]? = some pc) : i = 0 ∧ l = [pc] := by
  match l, h1, hi with
  | [x], _, hi =>
    cases i with
    | zero => simp at hi; exact ⟨rfl, by rw [hi]⟩
    | succ i => simp at hi

theorem bounded_stepC {c : Conf} (h : Bounded c) {i : Nat} {pc : CPc} (hi : c.callers[i]? = some pc) (a : CAct) :
    Bounded (stepC c i pc a) := by
  have h1 := h.max
  obtain ⟨hi0, hl⟩ := single h.one hi
  have hk := h.knows pc (List.mem_of_getElem? hi)
  subst hi0
  fun_cases stepC c 0 pc a <;> first
    | exact h
    | (refine ⟨by simp [setC, setW, hl], ?_, ?_⟩
       · simp only [setC, setW, knows] at hk ⊢; omega
       · intro p hp
         simp only [setC, setW, hl, List.set_cons_zero, List.mem_singleton] at hp
         subst hp
         simp only [setC, setW, knows] at hk ⊢
         try omega)

theorem bounded_step {c : Conf} (h : Bounded c) {a : Act} (ha : ∀ n, a ≠ .setMax n) : Bounded (step c a) := by
  fun_cases step c a
  · exact bounded_stepW h _
  · exact h
  · next i a pc hp => exact bounded_stepC h hp a
  · exact h
  · exact h
  · exact ⟨h.one, h.max, fun p hp => knows_mono (c := c) (Int.le_refl _) rfl (h.knows p hp)⟩
  · exact h
  · next n _ => exact absurd rfl (ha n)
  · exact ⟨h.one, h.max, fun p hp => knows_mono (c := c) (Int.le_refl _) rfl (h.knows p hp)⟩
  · exact ⟨h.one, h.max, fun p hp => knows_mono (c := c) (Int.le_refl _) rfl (h.knows p hp)⟩

theorem bounded_run (min max : Nat) {s : List Act} (hs : FixedBounds s) : Bounded (run min max 1 s) := by
  have h0 : Bounded (init min max 1) := by
    refine ⟨by simp [init], ?_, ?_⟩
    · have := Nat.min_le_right min max
      have e : Nat.min min max = Min.min min max := rfl
      simp only [init, e]; omega
    · intro p hp
      simp only [init, List.mem_replicate] at hp
      rw [hp.2]; trivial
  unfold run
  generalize init min max 1 = c at h0
  induction s generalizing c with
  | nil => exact h0
  | cons x s ih =>
    refine ih (fun n => ⟨fun hh => (hs n).1 (.tail _ hh), fun hh => (hs n).2 (.tail _ hh)⟩) _ (bounded_step h0 ?_)
    intro n e
    exact (hs n).2 (e ▸ .head _)

/-- the pool keeps its minimum of threads, and whoever is about to leave has seen more. -/
structure AtLeast (c : Conf) : Prop where
  sd : c.shutdown = false
  min : c.minT ≤ c.threads
  stay : ∀ p ∈ c.workers, p ≠ .leave ∧ ∀ n, p = .shrinkCas n → c.minT < n

theorem atLeast_set {c : Conf} {i : Nat} {b : WPc} (h : ∀ p ∈ c.workers, p ≠ .leave ∧ ∀ n, p = .shrinkCas n → c.minT < n)
    (hb : b ≠ .leave ∧ ∀ n, b = .shrinkCas n → c.minT < n) :
    ∀ p ∈ c.workers.set i b, p ≠ .leave ∧ ∀ n, p = .shrinkCas n → c.minT < n := by
  intro p hp
  rcases List.mem_or_eq_of_mem_set hp with hp | hp
  · exact h p hp
  · exact hp ▸ hb

theorem atLeast_stepW {c : Conf} (h : AtLeast c) {i : Nat} {pc : WPc} (hp : c.workers[i]? = some pc) (a : WAct) :
    AtLeast (stepW c i pc a) := by
  have hpc := h.stay _ (List.mem_of_getElem? hp)
  have h1 := h.sd; have h2 := h.min
  fun_cases stepW c i pc a <;> first
    | exact h
    | (exfalso; exact hpc.1 rfl)
    | (exfalso; simp_all; done)
    | (refine ⟨h1, h2, atLeast_set h.stay ⟨nofun, ?_⟩⟩
       intro n e; cases e; assumption)
    | exact ⟨h1, h2, atLeast_set h.stay ⟨nofun, nofun⟩⟩
    | (have := hpc.2 _ rfl
       refine ⟨h1, by simp only [setW]; omega, atLeast_set h.stay ?_⟩
       split <;> exact ⟨nofun, nofun⟩)

theorem atLeast_step {c : Conf} (h : AtLeast c) {a : Act} (h1 : a ≠ .shutdown) (h2 : ∀ i, a ≠ .caller i .fails)
    (h3 : ∀ n, a ≠ .setMin n) : AtLeast (step c a) := by
  fun_cases step c a
  · next i a pc hp => exact atLeast_stepW h hp a
  · exact h
  · next i a pc hp =>
    have hm := h.min
    fun_cases stepC c i pc a <;> first
      | exact h
      | exact absurd rfl (h2 i)
      | exact ⟨h.sd, h.min, h.stay⟩
      | exact ⟨h.sd, by simp only [setC]; omega, h.stay⟩
      | exact ⟨h.sd, h.min, atLeast_set h.stay ⟨nofun, nofun⟩⟩
      | (refine ⟨h.sd, h.min, ?_⟩
         intro p hp
         simp only [setC, List.mem_append, List.mem_singleton] at hp
         rcases hp with hp | rfl
         · exact h.stay p hp
         · exact ⟨nofun, nofun⟩)
  · exact h
  · exact h
  · next n _ => exact absurd rfl (h3 n)
  · exact h
  · exact ⟨h.sd, h.min, h.stay⟩
  · refine ⟨h.sd, h.min, ?_⟩
    intro p hp
    obtain ⟨q, hq, rfl⟩ := List.mem_map.1 hp
    have := h.stay q hq
    cases q <;> simp_all [wakeUp]
  · exact absurd rfl h1

theorem atLeast_run (min max k : Nat) {s : List Act} (h1 : NoShutdown s) (h2 : NoFailure s) (h3 : FixedBounds s) :
    AtLeast (run min max k s) ∧ (run min max k s).minT = (Nat.min min max : Nat) := by
  have h0 : AtLeast (init min max k) ∧ (init min max k).minT = (Nat.min min max : Nat) := by
    refine ⟨⟨rfl, Int.le_refl _, ?_⟩, rfl⟩
    intro p hp
    simp only [init, List.mem_replicate] at hp
    rw [hp.2]; exact ⟨nofun, nofun⟩
  unfold run
  generalize (Nat.min min max : Nat) = m at *
  generalize init min max k = c at *
  induction s generalizing c with
  | nil => exact h0
  | cons x s ih =>
    refine ih (fun hh => h1 (.tail _ hh)) (fun i hh => h2 i (.tail _ hh))
      (fun n => ⟨fun hh => (h3 n).1 (.tail _ hh), fun hh => (h3 n).2 (.tail _ hh)⟩) _ ⟨?_, ?_⟩
    · exact atLeast_step h0.1 (fun e => h1 (e ▸ .head _)) (fun i e => h2 i (e ▸ .head _)) (fun n e => (h3 n).1 (e ▸ .head _))
    · have hx : ∀ n, x ≠ .setMin n := fun n e => (h3 n).1 (e ▸ .head _)
      rw [← h0.2]
      fun_cases step c x
      · next i a pc _ => fun_cases stepW c i pc a <;> rfl
      · rfl
      · next i a pc _ => fun_cases stepC c i pc a <;> rfl
      · rfl
      · rfl
      · next n _ => exact absurd rfl (hx n)
      all_goals rfl

end Verif.Pool
