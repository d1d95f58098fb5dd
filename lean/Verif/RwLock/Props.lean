import Verif.RwLock.Model
/-!
# C28 — the reader/writer lock never admits readers and writers together
-/
namespace Verif.RwLock

/-- number of threads holding the lock in the given way. -/
def holders (c : Conf) (k : Kind) : Nat := c.pcs.count (.held k)

/-- the counter is the number of readers minus the number of writers, and one of them is zero; pending expectations are
clamped. -/
structure Inv (c : Conf) : Prop where
  count : c.count = (holders c .read : Int) - (holders c .write : Int)
  excl : holders c .read = 0 ∨ holders c .write = 0
  exp : ∀ k once e, Pc.trying k once e ∈ c.pcs → (k = .read → 0 ≤ e) ∧ (k = .write → e ≤ 0)

theorem count_set {l : List Pc} {t : Nat} {old new a : Pc} (h : l[t]? = some old) :
    (l.set t new).count a + (if old = a then 1 else 0) = l.count a + (if new = a then 1 else 0) := by
  induction l generalizing t with
  | nil => simp at h
  | cons x l ih =>
    cases t with
    | zero =>
      simp at h; subst h
      simp only [List.set_cons_zero, List.count_cons, beq_iff_eq]
      omega
    | succ t =>
      simp at h
      simp only [List.set_cons_succ, List.count_cons]
      have := ih h
      omega

theorem clamp_ok (k : Kind) (x : Int) : (k = .read → 0 ≤ clamp k x) ∧ (k = .write → clamp k x ≤ 0) := by
  cases k <;> simp [clamp] <;> split <;> omega

theorem inv_step {c : Conf} (h : Inv c) (x : Nat × Act) : Inv (step c x) := by
  obtain ⟨t, a⟩ := x
  have expset : ∀ p : Pc, (∀ k o e, p = .trying k o e → (k = .read → 0 ≤ e) ∧ (k = .write → e ≤ 0)) →
      ∀ k o e, Pc.trying k o e ∈ c.pcs.set t p → (k = .read → 0 ≤ e) ∧ (k = .write → e ≤ 0) := by
    intro p hp k o e hm
    rcases List.mem_or_eq_of_mem_set hm with hm | hm
    · exact h.exp k o e hm
    · exact hp k o e hm.symm
  unfold step
  dsimp only
  split
  · next k once hp =>
    have h1 := count_set (a := .held .read) (new := .trying k once (clamp k c.count)) hp
    have h2 := count_set (a := .held .write) (new := .trying k once (clamp k c.count)) hp
    simp at h1 h2
    refine ⟨?_, ?_, ?_⟩
    · have := h.count; simp only [holders] at *; rw [h1, h2]; exact this
    · have := h.excl; simp only [holders] at *; rw [h1, h2]; exact this
    · exact expset _ (by intro k' o e he; cases he; exact clamp_ok _ _)
  · next k once e hp =>
    have hexp := h.exp k once e (List.mem_of_getElem? hp)
    have hc := h.count; have hx := h.excl
    split
    · next he =>
      have h1 := count_set (a := .held .read) (new := .held k) hp
      have h2 := count_set (a := .held .write) (new := .held k) hp
      simp at h1 h2
      cases k with
      | read =>
        have := hexp.1 rfl
        simp at h1 h2
        refine ⟨?_, ?_, expset _ (by intro _ _ _ hh; cases hh)⟩
        · simp only [holders, next] at *; omega
        · simp only [holders] at *; omega
      | write =>
        have := hexp.2 rfl
        simp at h1 h2
        refine ⟨?_, ?_, expset _ (by intro _ _ _ hh; cases hh)⟩
        · simp only [holders, next] at *; omega
        · simp only [holders] at *; omega
    · split
      · have h1 := count_set (a := .held .read) (new := .idle) hp
        have h2 := count_set (a := .held .write) (new := .idle) hp
        simp at h1 h2
        refine ⟨?_, ?_, expset _ (by intro _ _ _ hh; cases hh)⟩
        · simp only [holders] at *; rw [h1, h2]; exact hc
        · simp only [holders] at *; rw [h1, h2]; exact hx
      · have h1 := count_set (a := .held .read) (new := .trying k once (clamp k c.count)) hp
        have h2 := count_set (a := .held .write) (new := .trying k once (clamp k c.count)) hp
        simp at h1 h2
        refine ⟨?_, ?_, expset _ (by intro _ _ _ hh; cases hh; exact clamp_ok _ _)⟩
        · simp only [holders] at *; rw [h1, h2]; exact hc
        · simp only [holders] at *; rw [h1, h2]; exact hx
  · next hp =>
    have h1 := count_set (a := .held .read) (new := .idle) hp
    have h2 := count_set (a := .held .write) (new := .idle) hp
    have hc := h.count; have hx := h.excl
    simp at h1 h2
    refine ⟨?_, ?_, expset _ (by intro _ _ _ hh; cases hh)⟩
    · simp only [holders] at *; omega
    · simp only [holders] at *; omega
  · next hp =>
    have h1 := count_set (a := .held .read) (new := .idle) hp
    have h2 := count_set (a := .held .write) (new := .idle) hp
    have hc := h.count; have hx := h.excl
    simp at h1 h2
    refine ⟨?_, ?_, expset _ (by intro _ _ _ hh; cases hh)⟩
    · simp only [holders] at *; omega
    · simp only [holders] at *; omega
  · exact h

theorem inv_run {c : Conf} (h : Inv c) (s : List (Nat × Act)) : Inv (s.foldl step c) := by
  induction s generalizing c with
  | nil => exact h
  | cons x s ih => exact ih (inv_step h x)

theorem inv_init (n : Nat) : Inv (init n) := by
  refine ⟨?_, ?_, ?_⟩
  · simp [init, holders, List.count_replicate]
  · simp [init, holders, List.count_replicate]
  · intro k o e hm; simp [init, List.mem_replicate] at hm

/-- **C28.** Any number of threads, any interleaving of the atomic steps of `lock`, `tryLock` and `unlock`: if some thread
holds the lock for reading then no thread holds it for writing. -/
theorem readers_and_writers_exclude (n : Nat) (schedule : List (Nat × Act)) (t u : Nat)
    (hr : (schedule.foldl step (init n)).pcs[t]? = some (.held .read))
    (hw : (schedule.foldl step (init n)).pcs[u]? = some (.held .write)) : False := by
  have inv := inv_run (inv_init n) schedule
  have h1 : 0 < holders (schedule.foldl step (init n)) .read := List.count_pos_iff.mpr (List.mem_of_getElem? hr)
  have h2 : 0 < holders (schedule.foldl step (init n)) .write := List.count_pos_iff.mpr (List.mem_of_getElem? hw)
  have := inv.excl
  omega

/-- The value reported by `value()` is the number of readers, or minus the number of writers. -/
theorem value_counts_holders (n : Nat) (schedule : List (Nat × Act)) :
    (schedule.foldl step (init n)).count =
      (holders (schedule.foldl step (init n)) .read : Int) - holders (schedule.foldl step (init n)) .write :=
  (inv_run (inv_init n) schedule).count

/-- Once everybody has released the lock it is free again: the counter is back to zero. -/
theorem released_lock_is_free (n : Nat) (schedule : List (Nat × Act))
    (h : ∀ k, holders (schedule.foldl step (init n)) k = 0) : (schedule.foldl step (init n)).count = 0 := by
  rw [value_counts_holders, h, h]; rfl

/-- A `tryLock` that runs without interference succeeds exactly if no thread holds the lock in the other way. -/
theorem tryLock_alone (n : Nat) (schedule : List (Nat × Act)) (t : Nat) (k : Kind)
    (hidle : (schedule.foldl step (init n)).pcs[t]? = some .idle) :
    (((schedule ++ [(t, Act.begin k true), (t, Act.cas)]).foldl step (init n)).pcs[t]? = some (.held k)) ↔
      holders (schedule.foldl step (init n)) (if k = .read then .write else .read) = 0 := by
  have inv := inv_run (inv_init n) schedule
  rw [List.foldl_append]
  generalize schedule.foldl step (init n) = c at *
  have hlt : t < c.pcs.length := by
    rcases Nat.lt_or_ge t c.pcs.length with h | h
    · exact h
    · rw [List.getElem?_eq_none h] at hidle; cases hidle
  have hc := inv.count; have hx := inv.excl
  simp only [List.foldl_cons, List.foldl_nil]
  rw [show step c (t, .begin k true) = { c with pcs := c.pcs.set t (.trying k true (clamp k c.count)) } by simp [step, hidle]]
  have e : ({ c with pcs := c.pcs.set t (.trying k true (clamp k c.count)) } : Conf).pcs[t]? = some (.trying k true (clamp k c.count)) := by
    simp [hlt]
  unfold step
  dsimp only at e ⊢
  rw [e]
  dsimp only
  by_cases hcl : c.count = clamp k c.count
  · rw [if_pos hcl]
    simp only [List.set_set, List.getElem?_set_self hlt]
    cases k
    · simp [clamp] at hcl ⊢; simp only [holders] at *; omega
    · simp [clamp] at hcl ⊢; simp only [holders] at *; omega
  · rw [if_neg hcl]
    simp only [↓reduceIte, List.set_set, List.getElem?_set_self hlt]
    cases k
    · simp [clamp] at hcl ⊢; simp only [holders] at *; omega
    · simp [clamp] at hcl ⊢; simp only [holders] at *; omega

/-- non-vacuity: two readers in, a writer's `tryLock` is refused, readers leave, the writer gets in. -/
example : ([(0, .begin .read false), (1, .begin .read false), (0, .cas), (1, .cas), (1, .cas), (2, .begin .write true), (2, .cas),
    (0, .unlock), (1, .unlock), (2, .begin .write false), (2, .cas)].foldl step (init 3)) = ⟨-1, [.idle, .idle, .held .write]⟩ := by
  decide

/-- Remark (documented: "multi-reader-multi-writer"): several threads can hold the lock for writing at the same time, so it
does not protect writers from each other. -/
theorem two_writers_at_once : holders ([(0, .begin .write false), (0, .cas), (1, .begin .write false), (1, .cas)].foldl step (init 2)) .write = 2 := by
  decide

end Verif.RwLock
