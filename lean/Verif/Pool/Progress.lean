import Verif.Pool.Spec
import Verif.Pool.Lemmas
/-!
# No task is lost, and every task can be run
-/
namespace Verif.Pool

/-- positions a worker reaches only in a shutdown or as the last thread of a pool without minimum. -/
def leaving : WPc → Bool
  | .leave | .clear1 | .clear2 => true
  | .shrinkCas n => decide (n < 2)
  | _ => false

structure Calm (c : Conf) : Prop where
  noShutdown : c.shutdown = false
  min : 1 ≤ c.minT
  nothingDropped : c.dropped = []
  stay : ∀ p ∈ c.workers, leaving p = false

theorem mem_set_stay {l : List WPc} {i : Nat} {b : WPc} (h : ∀ p ∈ l, leaving p = false) (hb : leaving b = false) :
    ∀ p ∈ l.set i b, leaving p = false := by
  intro p hp
  rcases List.mem_or_eq_of_mem_set hp with hp | hp
  · exact h p hp
  · exact hp ▸ hb

theorem calm_stepW {c : Conf} (h : Calm c) {i : Nat} {pc : WPc} (hp : c.workers[i]? = some pc) (a : WAct) : Calm (stepW c i pc a) := by
  have hpc := h.stay _ (List.mem_of_getElem? hp)
  have h1 := h.noShutdown; have h2 := h.min; have h3 := h.nothingDropped
  fun_cases stepW c i pc a <;> first
    | exact h
    | (exfalso; simp [leaving] at hpc; done)
    | (exfalso; simp_all; done)
    | (refine ⟨h1, h2, h3, mem_set_stay h.stay ?_⟩
       simp_all [leaving]
       try grind [leaving])

theorem calm_stepC {c : Conf} (h : Calm c) {i : Nat} {pc : CPc} (a : CAct) : Calm (stepC c i pc a) := by
  have h1 := h.noShutdown; have h2 := h.min; have h3 := h.nothingDropped
  fun_cases stepC c i pc a <;> first
    | exact h
    | exact ⟨h1, h2, h3, h.stay⟩
    | exact ⟨h1, h2, h3, mem_set_stay h.stay rfl⟩
    | (refine ⟨h1, h2, h3, ?_⟩
       intro p hp
       simp only [setC, List.mem_append, List.mem_singleton] at hp
       rcases hp with hp | rfl
       · exact h.stay p hp
       · rfl)

theorem calm_step {c : Conf} (h : Calm c) {a : Act} (ha : a ≠ .shutdown) : Calm (step c a) := by
  fun_cases step c a
  · next i a pc hp => exact calm_stepW h hp a
  · exact h
  · next i a pc hp => exact calm_stepC h a
  · exact h
  · exact h
  · next n hn => exact ⟨h.noShutdown, by dsimp only; omega, h.nothingDropped, h.stay⟩
  · exact h
  · exact ⟨h.noShutdown, h.min, h.nothingDropped, h.stay⟩
  · refine ⟨h.noShutdown, h.min, h.nothingDropped, ?_⟩
    intro p hp
    obtain ⟨q, hq, rfl⟩ := List.mem_map.1 hp
    have := h.stay q hq
    cases q <;> simp_all [wakeUp, leaving]
  · exact absurd rfl ha

theorem calm_foldl {c : Conf} (h : Calm c) {s : List Act} (hs : NoShutdown s) : Calm (s.foldl step c) := by
  induction s generalizing c with
  | nil => exact h
  | cons x s ih =>
    simp only [NoShutdown, List.mem_cons, not_or] at hs
    exact ih (calm_step h (fun e => hs.1 e.symm)) hs.2

theorem calm_init {min max : Nat} (k : Nat) (h1 : 1 ≤ min) (h2 : 1 ≤ max) : Calm (init min max k) := by
  refine ⟨rfl, ?_, rfl, ?_⟩
  · have : 1 ≤ Nat.min min max := Nat.le_min.2 ⟨h1, h2⟩
    simp only [init]; omega
  · intro p hp
    simp only [init, List.mem_replicate] at hp
    rw [hp.2]; rfl

theorem threads_stepW {c : Conf} (h : Calm c) (ht : 1 ≤ c.threads) {i : Nat} {pc : WPc} (hp : c.workers[i]? = some pc) (a : WAct) :
    1 ≤ (stepW c i pc a).threads := by
  have hpc := h.stay _ (List.mem_of_getElem? hp)
  fun_cases stepW c i pc a <;> first
    | exact ht
    | (simp [leaving, setW] at *; try omega)

theorem threads_step {c : Conf} (h : Calm c) (ht : 1 ≤ c.threads) {a : Act} (ha : ∀ i, a ≠ .caller i .fails) :
    1 ≤ (step c a).threads := by
  fun_cases step c a
  · next i a pc hp => exact threads_stepW h ht hp a
  · exact ht
  · next i a pc hp =>
    fun_cases stepC c i pc a <;> first
      | exact ht
      | (simp [setC]; omega)
      | exact absurd rfl (ha i)
  all_goals exact ht

theorem threads_foldl {c : Conf} (h : Calm c) (ht : 1 ≤ c.threads) {s : List Act} (hs : NoShutdown s) (hf : NoFailure s) :
    1 ≤ (s.foldl step c).threads := by
  induction s generalizing c with
  | nil => exact ht
  | cons x s ih =>
    simp only [NoShutdown, NoFailure, List.mem_cons, not_or] at hs hf
    exact ih (calm_step h (fun e => hs.1 e.symm)) (threads_step h ht (fun i e => (hf i).1 e.symm)) hs.2 (fun i => (hf i).2)

/-- steps still to be made by a worker before the function of the task it has taken is called. -/
def togo : WPc → Nat
  | .got _ => 3
  | .start _ => 2
  | .call _ => 1
  | _ => 0

/-- what the construction of the continuation keeps. -/
structure Good (c : Conf) : Prop where
  inv : Inv c
  calm : Calm c
  threads : 1 ≤ c.threads

def Int' (s : List Act) : Prop := ∀ a ∈ s, Internal a

theorem good_worker {c : Conf} (h : Good c) (i : Nat) (a : WAct) : Good (step c (.worker i a)) :=
  ⟨inv_step h.inv _, calm_step h.calm (by intro e; cases e), threads_step h.calm h.threads (by intro j e; cases e)⟩

theorem good_caller {c : Conf} (h : Good c) (i : Nat) : Good (step c (.caller i .go)) :=
  ⟨inv_step h.inv _, calm_step h.calm (by intro e; cases e), threads_step h.calm h.threads (by intro j e; cases e)⟩

theorem getElem?_lt {α : Type} {l : List α} {i : Nat} {a : α} (h : l[i]? = some a) : i < l.length := by
  rcases Nat.lt_or_ge i l.length with hh | hh
  · exact hh
  · rw [List.getElem?_eq_none hh] at h; cases h

theorem setW_get {c : Conf} {i : Nat} {pc : WPc} (h : c.workers[i]? = some pc) (b : WPc) : (setW c i b).workers[i]? = some b := by
  simp [setW, getElem?_lt h]

/-- First, every task a worker has taken is called. -/
theorem call_taken (n : Nat) : ∀ c : Conf, wsum togo c.workers ≤ n → Good c →
    ∃ s, Int' s ∧ Good (s.foldl step c) ∧ (s.foldl step c).nextId = c.nextId ∧ (s.foldl step c).queue = c.queue ∧
      wsum togo (s.foldl step c).workers = 0 := by
  induction n with
  | zero => intro c hn h; exact ⟨[], by simp [Int'], h, rfl, rfl, by simpa using hn⟩
  | succ n ih =>
    intro c hn h
    by_cases hz : wsum togo c.workers = 0
    · exact ⟨[], by simp [Int'], h, rfl, rfl, hz⟩
    · obtain ⟨i, pc, hi, hp⟩ := wsum_pos (Nat.pos_of_ne_zero hz)
      have hs : ∀ c', step c (.worker i .go) = c' → c'.nextId = c.nextId ∧ c'.queue = c.queue ∧ wsum togo c'.workers < wsum togo c.workers := by
        intro c' hc
        have e : step c (.worker i .go) = stepW c i pc .go := by simp only [step, hi]
        rw [e] at hc
        have hw := fun b => wsum_set togo hi b
        cases pc <;> simp only [togo, Nat.lt_irrefl] at hp <;> subst hc <;> refine ⟨rfl, rfl, ?_⟩ <;>
          simp only [stepW, setW]
        · next t => have := hw (.start t); simp only [togo] at this; omega
        · next t => have := hw (.call t); simp only [togo] at this; omega
        · next t => have := hw (.busy t); simp only [togo] at this; omega
      obtain ⟨h1, hq, h2⟩ := hs _ rfl
      obtain ⟨s, g1, g2, g3, g5, g4⟩ := ih (step c (.worker i .go)) (by omega) (good_worker h i .go)
      refine ⟨.worker i .go :: s, ?_, g2, g3.trans h1, g5.trans hq, g4⟩
      intro a ha
      rcases List.mem_cons.1 ha with rfl | ha
      · trivial
      · exact g1 a ha

/-- steps to the top of the loop. -/
def rank (th : Int) : WPc → Nat
  | .check => 1 | .fin => 2 | .ran => 3 | .busy _ => 4 | .empty => 2 | .blocked => 2 | .toBlock => 3 | .pred2 => 4 | .pred => 5
  | .shrinkCas n => if th = n then 1 else 3
  | .shrinkCmp n => if th = n then 2 else 4
  | .shrink => 3
  | _ => 0

/-- the choice that leads to the top of the loop. -/
def choice : WPc → WAct
  | .empty => .spin
  | .blocked => .timeout
  | _ => .go

/-- what one driving step does. -/
theorem drive_step {c : Conf} (h : Good c) {i : Nat} {pc : WPc} (hi : c.workers[i]? = some pc) (hl : live pc = 1) (ht : togo pc = 0)
    (hn : pc ≠ .top) :
    ∃ pc', (step c (.worker i (choice pc))).workers = c.workers.set i pc' ∧ (step c (.worker i (choice pc))).queue = c.queue ∧
      (step c (.worker i (choice pc))).nextId = c.nextId ∧ togo pc' = 0 ∧
      (live pc' = 0 ∨ (live pc' = 1 ∧ (step c (.worker i (choice pc))).threads = c.threads ∧ rank c.threads pc' < rank c.threads pc)) := by
  have hsd := h.calm.noShutdown
  have hstay := h.calm.stay _ (List.mem_of_getElem? hi)
  have e : step c (.worker i (choice pc)) = stepW c i pc (choice pc) := by simp only [step, hi]
  rw [e]
  cases pc <;> simp only [togo, live, leaving, reduceCtorEq, Nat.succ_ne_zero, ne_eq, not_true] at hl ht hstay hn <;>
    simp only [choice, stepW, hsd]
  · exact ⟨.ran, rfl, rfl, rfl, rfl, .inr ⟨rfl, rfl, by simp [rank]⟩⟩
  · exact ⟨.fin, rfl, rfl, rfl, rfl, .inr ⟨rfl, rfl, by simp [rank]⟩⟩
  · exact ⟨.check, rfl, rfl, rfl, rfl, .inr ⟨rfl, rfl, by simp [rank]⟩⟩
  · exact ⟨.check, rfl, rfl, rfl, rfl, .inr ⟨rfl, rfl, by simp [rank]⟩⟩
  · by_cases hq : c.queued > 0
    · rw [if_pos hq]; exact ⟨.check, rfl, rfl, rfl, rfl, .inr ⟨rfl, rfl, by simp [rank]⟩⟩
    · rw [if_neg hq]; exact ⟨.pred2, rfl, rfl, rfl, rfl, .inr ⟨rfl, rfl, by simp [rank]⟩⟩
  · exact ⟨.toBlock, rfl, rfl, rfl, rfl, .inr ⟨rfl, rfl, by simp [rank]⟩⟩
  · exact ⟨.blocked, rfl, rfl, rfl, rfl, .inr ⟨rfl, rfl, by simp [rank]⟩⟩
  · exact ⟨.check, rfl, rfl, rfl, rfl, .inr ⟨rfl, rfl, by simp [rank]⟩⟩
  · exact ⟨.top, rfl, rfl, rfl, rfl, .inr ⟨rfl, rfl, by simp [rank]⟩⟩
  · exact ⟨.shrinkCmp c.threads, rfl, rfl, rfl, rfl, .inr ⟨rfl, rfl, by simp [rank]⟩⟩
  · next n =>
    by_cases hq : n > c.minT
    · rw [if_pos hq]; exact ⟨.shrinkCas n, rfl, rfl, rfl, rfl, .inr ⟨rfl, rfl, by simp only [rank]; split <;> omega⟩⟩
    · rw [if_neg hq]; exact ⟨.top, rfl, rfl, rfl, rfl, .inr ⟨rfl, rfl, by simp only [rank]; split <;> omega⟩⟩
  · next n =>
    by_cases hq : c.threads = n
    · rw [if_pos hq]; exact ⟨_, rfl, rfl, rfl, by split <;> rfl, .inl (by split <;> rfl)⟩
    · rw [if_neg hq]; exact ⟨.shrinkCmp c.threads, rfl, rfl, rfl, rfl, .inr ⟨rfl, rfl, by simp [rank, hq]⟩⟩

/-- A worker that is counted can be brought back to the top of its loop, or leaves. -/
theorem drive (n : Nat) : ∀ (c : Conf) (i : Nat) (pc : WPc), rank c.threads pc ≤ n → Good c → c.workers[i]? = some pc → live pc = 1 →
    wsum togo c.workers = 0 →
    ∃ s, Int' s ∧ Good (s.foldl step c) ∧ (s.foldl step c).nextId = c.nextId ∧ (s.foldl step c).queue = c.queue ∧
      wsum togo (s.foldl step c).workers = 0 ∧
      ((s.foldl step c).workers[i]? = some .top ∨ wsum live (s.foldl step c).workers < wsum live c.workers) := by
  induction n with
  | zero =>
    intro c i pc hr h hi hl ht
    have h0 : togo pc = 0 := by have := wsum_ge togo hi; omega
    by_cases hn : pc = .top
    · exact ⟨[], by simp [Int'], h, rfl, rfl, ht, .inl (hn ▸ hi)⟩
    · obtain ⟨pc', w, q, m, t, hh⟩ := drive_step h hi hl h0 hn
      refine ⟨[.worker i (choice pc)], by simp [Int', Internal], good_worker h _ _, m, q, ?_, ?_⟩
      · simp only [List.foldl_cons, List.foldl_nil, w]; have := wsum_set togo hi pc'; omega
      · rcases hh with hh | hh
        · right; simp only [List.foldl_cons, List.foldl_nil, w]; have := wsum_set live hi pc'; omega
        · omega
  | succ n ih =>
    intro c i pc hr h hi hl ht
    have h0 : togo pc = 0 := by have := wsum_ge togo hi; omega
    by_cases hn : pc = .top
    · exact ⟨[], by simp [Int'], h, rfl, rfl, ht, .inl (hn ▸ hi)⟩
    · obtain ⟨pc', w, q, m, t, hh⟩ := drive_step h hi hl h0 hn
      have ht' : wsum togo (step c (.worker i (choice pc))).workers = 0 := by rw [w]; have := wsum_set togo hi pc'; omega
      have hlv := wsum_set live hi pc'
      rcases hh with hh | ⟨hl', hth, hrk⟩
      · refine ⟨[.worker i (choice pc)], by simp [Int', Internal], good_worker h _ _, m, q, ht', ?_⟩
        right; simp only [List.foldl_cons, List.foldl_nil, w]; omega
      · have hi' : (step c (.worker i (choice pc))).workers[i]? = some pc' := by rw [w]; simp [getElem?_lt hi]
        obtain ⟨s, s1, s2, s3, s4, s5, s6⟩ := ih _ i pc' (by rw [hth]; omega) (good_worker h i (choice pc)) hi' hl' ht'
        refine ⟨.worker i (choice pc) :: s, ?_, s2, s3.trans m, s4.trans q, s5, ?_⟩
        · intro a ha
          rcases List.mem_cons.1 ha with rfl | ha
          · trivial
          · exact s1 a ha
        · rcases s6 with s6 | s6
          · exact .inl s6
          · right
            rw [List.foldl_cons]
            rw [w] at s6
            omega

/-- Some worker can be brought to the top of its loop. -/
theorem worker_at_top (n : Nat) : ∀ c : Conf, wsum live c.workers ≤ n → Good c → wsum togo c.workers = 0 →
    ∃ s, ∃ i : Nat, Int' s ∧ Good (s.foldl step c) ∧ (s.foldl step c).nextId = c.nextId ∧ (s.foldl step c).queue = c.queue ∧
      wsum togo (s.foldl step c).workers = 0 ∧ (s.foldl step c).workers[i]? = some .top := by
  have spawn : ∀ c : Conf, wsum live c.workers = 0 → Good c → wsum togo c.workers = 0 →
      ∃ s, ∃ i : Nat, Int' s ∧ Good (s.foldl step c) ∧ (s.foldl step c).nextId = c.nextId ∧ (s.foldl step c).queue = c.queue ∧
        wsum togo (s.foldl step c).workers = 0 ∧ (s.foldl step c).workers[i]? = some .top := by
    intro c hn h ht
    have h1 := h.inv.threads; have h2 := h.threads
    obtain ⟨i, pc, hi, hp⟩ := wsum_pos (show 0 < wsum spawning c.callers by omega)
    cases pc <;> simp only [spawning, Nat.lt_irrefl] at hp
    have e : step c (.caller i .go) = setC { c with workers := c.workers ++ [.top] } i .notify := by simp only [step, hi, stepC]
    refine ⟨[.caller i .go], c.workers.length, by simp [Int', Internal], good_caller h i, ?_, ?_, ?_, ?_⟩
    · simp only [List.foldl_cons, List.foldl_nil, e, setC]
    · simp only [List.foldl_cons, List.foldl_nil, e, setC]
    · simp only [List.foldl_cons, List.foldl_nil, e, setC, wsum_append, wsum, togo]; omega
    · simp only [List.foldl_cons, List.foldl_nil, e, setC]; simp
  induction n with
  | zero => intro c hn h ht; exact spawn c (by omega) h ht
  | succ n ih =>
    intro c hn h ht
    by_cases hz : wsum live c.workers = 0
    · exact spawn c hz h ht
    · obtain ⟨i, pc, hi, hp⟩ := wsum_pos (Nat.pos_of_ne_zero hz)
      have hl : live pc = 1 := by cases pc <;> simp_all [live]
      obtain ⟨s, s1, s2, s3, s4, s5, s6⟩ := drive _ c i pc (Nat.le_refl _) h hi hl ht
      rcases s6 with s6 | s6
      · exact ⟨s, i, s1, s2, s3, s4, s5, s6⟩
      · obtain ⟨s', j, g1, g2, g3, g4, g5, g6⟩ := ih _ (by omega) s2 s5
        refine ⟨s ++ s', j, ?_, ?_⟩
        · intro a ha
          rcases List.mem_append.1 ha with ha | ha
          · exact s1 a ha
          · exact g1 a ha
        · rw [List.foldl_append]
          exact ⟨g2, g3.trans s3, g4.trans s4, g5, g6⟩

/-- The queue can be emptied by running its tasks. -/
theorem empty_queue (n : Nat) : ∀ c : Conf, c.queue.length ≤ n → Good c → wsum togo c.workers = 0 →
    ∃ s, Int' s ∧ Good (s.foldl step c) ∧ (s.foldl step c).nextId = c.nextId ∧ (s.foldl step c).queue = [] ∧
      wsum togo (s.foldl step c).workers = 0 := by
  induction n with
  | zero => intro c hn h ht; exact ⟨[], by simp [Int'], h, rfl, List.length_eq_zero_iff.1 (by simpa using hn), ht⟩
  | succ n ih =>
    intro c hn h ht
    obtain ⟨s, i, s1, s2, s3, s4, s5, s6⟩ := worker_at_top _ c (Nat.le_refl _) h ht
    generalize hc : s.foldl step c = d at *
    by_cases hq : d.queue = []
    · exact ⟨s, s1, hc ▸ s2, hc ▸ s3, hc ▸ hq, hc ▸ s5⟩
    · obtain ⟨t, q, hq⟩ := List.exists_cons_of_ne_nil hq
      have e : step d (.worker i .go) = setW { d with queue := q } i (.got t) := by simp only [step, s6, stepW, hq]
      have g0 := good_worker s2 i .go
      obtain ⟨s', r1, r2, r3, r4, r5⟩ := call_taken _ _ (Nat.le_refl _) g0
      have hlen : (s'.foldl step (step d (.worker i .go))).queue.length ≤ n := by
        rw [r4, e]; simp only [setW]
        have := congrArg List.length (s4.symm.trans hq)
        rw [List.length_cons] at this
        omega
      obtain ⟨s'', p1, p2, p3, p4, p5⟩ := ih _ hlen r2 r5
      have hnext : (step d (.worker i .go)).nextId = d.nextId := by rw [e]; rfl
      refine ⟨s ++ .worker i .go :: (s' ++ s''), ?_, ?_⟩
      · intro a ha
        rcases List.mem_append.1 ha with ha | ha
        · exact s1 a ha
        rcases List.mem_cons.1 ha with rfl | ha
        · trivial
        rcases List.mem_append.1 ha with ha | ha
        · exact r1 a ha
        · exact p1 a ha
      · rw [List.foldl_append, hc, List.foldl_cons, List.foldl_append]
        exact ⟨p2, p3.trans (r3.trans (hnext.trans s3)), p4, p5⟩

theorem hand_le_togo (id : Nat) (l : List WPc) : wsum (hand id) l ≤ wsum togo l := by
  induction l with
  | nil => exact Nat.le_refl _
  | cons p l ih =>
    have : hand id p ≤ togo p := by cases p <;> simp only [hand, togo] <;> (try split) <;> omega
    simp only [wsum]; omega

/-- Everything submitted can be run. -/
theorem run_all {c : Conf} (h : Good c) : ∃ s, Int' s ∧ ∀ id, id < c.nextId → id ∈ (s.foldl step c).started := by
  obtain ⟨s, s1, s2, s3, _, s4⟩ := call_taken _ c (Nat.le_refl _) h
  obtain ⟨r, r1, r2, r3, r4, r5⟩ := empty_queue _ _ (Nat.le_refl _) s2 s4
  refine ⟨s ++ r, ?_, ?_⟩
  · intro a ha
    rcases List.mem_append.1 ha with ha | ha
    · exact s1 a ha
    · exact r1 a ha
  · intro id hid
    rw [List.foldl_append]
    generalize hd : r.foldl step (s.foldl step c) = d at *
    have e := r2.inv.ids id
    have hh := hand_le_togo id d.workers
    rw [r4, r2.calm.nothingDropped, r3, s3, if_pos hid] at e
    simp only [inQueue, wsum, List.count_nil] at e
    exact List.count_pos_iff.1 (by omega)

end Verif.Pool
