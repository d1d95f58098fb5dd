import Verif.FileIo.Wait
/-!
# C127: waiting for a writer and for a reader
-/
namespace Verif.FileIo.Wait

/-! ## A writer -/

theorem W.pc_at (s : W) (t u : Nat) (p : WPc) : (s.at_ t p).pc u = if u = t then p else s.pc u := rfl
theorem W.mem_at (s : W) (t : Nat) (p : WPc) : (s.at_ t p).mem = s.mem := rfl

/-- The worker's own positions. -/
def WPc.worker : WPc → Bool
  | .start | .write | .look _ | .store _ | .setDone | .bump | .ended => true
  | _ => false

/-- What holds of a writer at any time. -/
structure WInv (out : Nat) (s : W) : Prop where
  zero : (s.pc 0).worker = true
  others : ∀ t, t ≠ 0 → (s.pc t).worker = false
  done : s.mem.done = true ↔ s.pc 0 = .bump ∨ s.pc 0 = .ended
  result : s.mem.result ≠ none ↔ s.pc 0 = .setDone ∨ s.pc 0 = .bump ∨ s.pc 0 = .ended
  returned : ∀ t, s.pc t = .returned → s.mem.done = true
  look : ∀ r, s.pc 0 = .look r → r = .wrote out ∧ s.mem.written = true
  store : ∀ r, s.pc 0 = .store r ∨ s.mem.result = some r →
    (r = .wrote out ∧ s.mem.written = true) ∨ (r = .cancelled ∧ s.mem.cancel = true)
  blocked : ∀ t e, s.pc t = .blocked e → e ≤ s.mem.counter

theorem WInv.init (out : Nat) : WInv out {} := by
  constructor <;> simp [WPc.worker]
  intro t h; simp [h]
  all_goals (intro t; by_cases h : t = 0 <;> simp [h])

theorem WInv.act {out : Nat} {s : W} (h : WInv out s) (a : WAct) : WInv out (s.act out a) := by
  obtain ⟨h1, h2, h3, h4, h5, h6, h7, h8⟩ := h
  have hcall : ∀ (t : Nat) (p : WPc), t ≠ 0 → p.worker = false → p ≠ .returned → (∀ e, p ≠ .blocked e) → WInv out (s.at_ t p) := by
    intro t p ht hp hr hb
    have ht' : ¬ 0 = t := fun e => ht e.symm
    constructor <;> simp only [W.pc_at, W.mem_at, if_neg ht']
    · exact h1
    · intro u hu
      by_cases e : u = t
      · rw [if_pos e]; exact hp
      · rw [if_neg e]; exact h2 u hu
    · exact h3
    · exact h4
    · intro u
      by_cases e : u = t
      · rw [if_pos e]; intro x; exact absurd x hr
      · rw [if_neg e]; exact h5 u
    · exact h6
    · exact h7
    · intro u e'
      by_cases e : u = t
      · rw [if_pos e]; intro x; exact absurd x (hb e')
      · rw [if_neg e]; exact h8 u e'
  have hfree : ∀ t, s.free t = true → t ≠ 0 := by
    intro t hf he
    subst he
    simp [W.free] at hf
  cases a with
  | wait t =>
    simp only [W.act]
    split
    · exact hcall t _ (hfree t ‹_›) rfl (by simp) (by simp)
    · exact ⟨h1, h2, h3, h4, h5, h6, h7, h8⟩
  | cancel t =>
    simp only [W.act]
    split
    · exact hcall t _ (hfree t ‹_›) rfl (by simp) (by simp)
    · exact ⟨h1, h2, h3, h4, h5, h6, h7, h8⟩
  | go t =>
    simp only [W.act, W.step]
    by_cases ht : t = 0
    · subst ht
      have h2' : ∀ u, u ≠ 0 → s.pc u ≠ .returned ∨ s.pc u = .returned := fun u _ => by
        by_cases e : s.pc u = .returned <;> simp [e]
      have key : ∀ (m : WMem) (p : WPc), p.worker = true → m.counter ≥ s.mem.counter →
          (m.done = true ↔ p = .bump ∨ p = .ended) →
          (m.result ≠ none ↔ p = .setDone ∨ p = .bump ∨ p = .ended) → (s.mem.done = true → m.done = true) →
          (∀ r, p = .look r → r = .wrote out ∧ m.written = true) →
          (∀ r, p = .store r ∨ m.result = some r →
            (r = .wrote out ∧ m.written = true) ∨ (r = .cancelled ∧ m.cancel = true)) →
          WInv out (({ s with mem := m } : W).at_ 0 p) := by
        intro m p k1 k2 k3 k4 k5 k6 k7
        constructor <;> simp only [W.pc_at, W.mem_at, if_true]
        · exact k1
        · intro u hu; rw [if_neg hu]; exact h2 u hu
        · exact k3
        · exact k4
        · intro u
          by_cases e : u = 0
          · rw [if_pos e]; intro x; rw [x] at k1; cases k1
          · rw [if_neg e]; intro x; exact k5 (h5 u x)
        · exact k6
        · exact k7
        · intro u e'
          by_cases e : u = 0
          · rw [if_pos e]; intro x; rw [x] at k1; cases k1
          · rw [if_neg e]; intro x; exact Nat.le_trans (h8 u e' x) k2
      revert h1 h3 h4 h6 h7
      cases hp : s.pc 0 <;> intro h1 h3 h4 h6 h7 <;> simp only [WPc.worker, Bool.false_eq_true] at h1 <;>
        simp only [reduceCtorEq, or_false, false_or, or_true, true_or, iff_true, iff_false, Bool.not_eq_true,
          Classical.not_not, ne_eq, WPc.store.injEq, WPc.look.injEq, false_implies, implies_true,
          forall_eq', true_and, and_true] at h3 h4 h6 h7
      · -- start
        simp only
        split
        · exact key s.mem _ rfl (Nat.le_refl _) (by simp [h3]) (by simp [h4]) id (by simp) (by
            intro r hr
            rcases hr with hr | hr
            · cases hr; exact .inr ⟨rfl, ‹_›⟩
            · rw [h4] at hr; cases hr)
        · exact key s.mem _ rfl (Nat.le_refl _) (by simp [h3]) (by simp [h4]) id (by simp) (by
            intro r hr
            rcases hr with hr | hr
            · cases hr
            · rw [h4] at hr; cases hr)
      · -- write
        exact key _ _ rfl (Nat.le_refl _) (by simp [h3]) (by simp [h4]) id (by simp) (by
            intro r hr
            rcases hr with hr | hr
            · cases hr
            · simp only [h4] at hr; cases hr)
      · -- look
        rename_i r0
        obtain ⟨l1, l2⟩ := h6
        simp only
        split
        · exact key s.mem _ rfl (Nat.le_refl _) (by simp [h3]) (by simp [h4]) id (by simp) (by
            intro r hr
            rcases hr with hr | hr
            · cases hr; exact .inr ⟨rfl, ‹_›⟩
            · rw [h4] at hr; cases hr)
        · exact key s.mem _ rfl (Nat.le_refl _) (by simp [h3]) (by simp [h4]) id (by simp) (by
            intro r hr
            rcases hr with hr | hr
            · cases hr; exact .inl ⟨l1, l2⟩
            · rw [h4] at hr; cases hr)
      · -- store
        rename_i r0
        exact key _ _ rfl (Nat.le_refl _) (by simp [h3]) (by simp) id (by simp) (by
            intro r hr
            rcases hr with hr | hr
            · cases hr
            · simp only [Option.some.injEq] at hr
              subst hr
              exact h7 _ (.inl rfl))
      · -- setDone
        exact key _ _ rfl (Nat.le_refl _) (by simp) (by simpa using h4) (fun _ => rfl) (by simp) (by
            intro r hr
            rcases hr with hr | hr
            · cases hr
            · exact h7 _ hr)
      · -- bump
        exact key _ _ rfl (Nat.le_succ _) (by simpa using h3) (by simpa using h4) id (by simp) (by
            intro r hr
            rcases hr with hr | hr
            · cases hr
            · exact h7 _ hr)
      · -- ended
        exact ⟨by rw [hp]; rfl, h2, by simp [hp, h3], by simp [hp, h4], h5, by simp [hp], by simpa [hp] using h7, h8⟩
    · -- another thread
      have ht' : ¬ 0 = t := fun e => ht e.symm
      have key : ∀ (m : WMem) (p : WPc), p.worker = false → m.counter ≥ s.mem.counter →
          m.done = s.mem.done → m.result = s.mem.result → m.written = s.mem.written →
          (s.mem.cancel = true → m.cancel = true) → (p = .returned → m.done = true) →
          (∀ e, p = .blocked e → e ≤ m.counter) → WInv out (({ s with mem := m } : W).at_ t p) := by
        intro m p k1 k2 k3 k4 k5 k6 k7 k8
        constructor <;> simp only [W.pc_at, W.mem_at, if_neg ht', k3, k4, k5]
        · exact h1
        · intro u hu
          by_cases e : u = t
          · rw [if_pos e]; exact k1
          · rw [if_neg e]; exact h2 u hu
        · exact h3
        · exact h4
        · intro u
          by_cases e : u = t
          · rw [if_pos e]; intro x; rw [← k3]; exact k7 x
          · rw [if_neg e]; exact h5 u
        · exact h6
        · intro r hr
          rcases h7 r hr with x | ⟨x, y⟩
          · exact .inl x
          · exact .inr ⟨x, k6 y⟩
        · intro u e'
          by_cases e : u = t
          · rw [if_pos e]; exact k8 e'
          · rw [if_neg e]; intro x; exact Nat.le_trans (h8 u e' x) k2
      have hw := h2 t ht
      have hsame : WInv out s := ⟨h1, h2, h3, h4, h5, h6, h7, h8⟩
      cases hp : s.pc t <;> rw [hp] at hw <;> simp only [WPc.worker, Bool.true_eq_false] at hw <;> simp only
      · exact hsame
      · split
        · exact key s.mem _ rfl (Nat.le_refl _) rfl rfl rfl id (fun _ => ‹_›) (by simp)
        · exact key s.mem _ rfl (Nat.le_refl _) rfl rfl rfl id (by simp) (by simp)
      · exact key s.mem _ rfl (Nat.le_refl _) rfl rfl rfl id (by simp) (by simp)
      · split
        · exact hsame
        · exact key s.mem _ rfl (Nat.le_refl _) rfl rfl rfl id (by simp) (by simp)
      · exact hsame
      · exact key _ _ rfl (Nat.le_refl _) rfl rfl rfl (fun _ => rfl) (by simp) (by simp)
      · exact key _ _ rfl (Nat.le_succ _) rfl rfl rfl id (by simp) (by simp)

theorem WInv.runFrom {out : Nat} (acts : List WAct) : ∀ {s : W}, WInv out s → WInv out (W.runFrom out s acts) := by
  induction acts with
  | nil => intro s h; exact h
  | cons a acts ih => intro s h; exact ih (h.act a)

theorem WInv.run (out : Nat) (acts : List WAct) : WInv out (W.run out acts) := (WInv.init out).runFrom acts

/-- When a wait returns, the writer is finished and `result()` gives a result. -/
theorem wait_means_done (out : Nat) (acts : List WAct) (t : Nat) (h : (W.run out acts).pc t = .returned) :
    (W.run out acts).mem.done = true ∧ ∃ r, (W.run out acts).mem.get = some r := by
  have hi := WInv.run out acts
  have hd := hi.returned t h
  refine ⟨hd, ?_⟩
  have hr := hi.result.2 (.inr (hi.done.1 hd))
  cases he : (W.run out acts).mem.result with
  | none => exact absurd he hr
  | some r => exact ⟨r, by simp [WMem.get, hd, he]⟩

/-- The result is the truth: either what the write gave, and the file was written, or that the
writer was cancelled, and somebody had asked for that. -/
theorem writer_result_true (out : Nat) (acts : List WAct) (r : Res) (h : (W.run out acts).mem.get = some r) :
    (r = .wrote out ∧ (W.run out acts).mem.written = true) ∨
    (r = .cancelled ∧ (W.run out acts).mem.cancel = true) := by
  refine (WInv.run out acts).store r (.inr ?_)
  unfold WMem.get at h
  split at h
  · exact h
  · cases h

/-- Once there is a result it does not change. -/
theorem writer_result_final (out : Nat) (acts more : List WAct) (r : Res) (h : (W.run out acts).mem.get = some r) :
    (W.run out (acts ++ more)).mem.get = some r := by
  have key : ∀ (more : List WAct) (s : W), WInv out s → s.mem.get = some r → (W.runFrom out s more).mem.get = some r := by
    intro more
    induction more with
    | nil => intro s _ h; exact h
    | cons a more ih =>
      intro s hi h
      refine ih _ (hi.act a) ?_
      have hd : s.mem.done = true := by
        unfold WMem.get at h
        split at h
        · assumption
        · cases h
      have hz := hi.done.1 hd
      cases a with
      | wait t => simp only [W.act]; split <;> exact h
      | cancel t => simp only [W.act]; split <;> exact h
      | go t =>
        simp only [W.act, W.step]
        by_cases ht : t = 0
        · subst ht
          rcases hz with hz | hz <;> simp only [hz]
          · exact h
          · exact h
        · have hw := hi.others t ht
          cases hp : s.pc t <;> rw [hp] at hw <;> simp only [WPc.worker, Bool.true_eq_false] at hw <;> simp only
          all_goals first
            | exact h
            | (split <;> exact h)
  have := key more (W.run out acts) (WInv.run out acts) h
  rw [W.run, W.runFrom, List.foldl_append]
  exact this

/-! A wait that never returns. -/

/-- A thread looks at `done`, then the worker does all it has to do, then the thread reads the
counter. -/
def hanging : List WAct := [.wait 1, .go 1, .go 0, .go 0, .go 0, .go 0, .go 0, .go 0, .go 1]

/-- No call of `cancel` in a schedule. -/
def noCancel (acts : List WAct) : Prop := ∀ t, WAct.cancel t ∉ acts

/-- **A wait can hang for ever.** After this schedule the writer is finished, its result is there and
its worker has nothing left to do; the thread is inside `wait()` and stays there, whatever anybody
does short of cancelling the finished writer. -/
theorem wait_may_hang (out : Nat) (more : List WAct) (hc : noCancel more) :
    (W.run out hanging).mem.done = true ∧ (W.run out hanging).mem.get = some (.wrote out) ∧
    (W.run out hanging).pc 0 = .ended ∧
    (W.run out (hanging ++ more)).pc 1 = .blocked 1 := by
  have h0 : (W.run out hanging).mem = ⟨true, false, 1, some (.wrote out), true⟩ ∧
      (W.run out hanging).pc 0 = .ended ∧ (W.run out hanging).pc 1 = .blocked 1 ∧
      ∀ t, 2 ≤ t → (W.run out hanging).pc t = .idle := by
    refine ⟨rfl, rfl, rfl, fun t ht => ?_⟩
    have h1 : ¬ t = 1 := by omega
    have h0 : ¬ t = 0 := by omega
    simp [W.run, W.runFrom, hanging, W.act, W.step, W.at_, W.free, h1, h0]
  refine ⟨by rw [h0.1], by rw [h0.1]; rfl, h0.2.1, ?_⟩
  have key : ∀ (more : List WAct) (s : W), noCancel more → s.pc 0 = .ended → s.pc 1 = .blocked 1 →
      s.mem.counter = 1 → s.mem.done = true → (∀ t, 2 ≤ t → s.pc t = .idle ∨ s.pc t = .check ∨ s.pc t = .returned) →
      (W.runFrom out s more).pc 1 = .blocked 1 := by
    intro more
    induction more with
    | nil => intro s _ _ h _ _ _; exact h
    | cons a more ih =>
      intro s hc k0 k1 k2 kd k3
      have hc' : noCancel more := fun t hm => hc t (List.mem_cons_of_mem _ hm)
      cases a with
      | cancel t => exact absurd (List.mem_cons_self ..) (hc t)
      | wait t =>
        show (W.runFrom out (s.act out (.wait t)) more).pc 1 = _
        simp only [W.act]
        split
        · rename_i hf
          have ht : t ≠ 0 ∧ t ≠ 1 := by
            constructor <;> (intro e; subst e; simp [W.free, k1] at hf)
          have e0 : ¬ 0 = t := fun e => ht.1 e.symm
          have e1 : ¬ 1 = t := fun e => ht.2 e.symm
          refine ih _ hc' (by simp [W.at_, if_neg e0, k0]) (by simp [W.at_, if_neg e1, k1]) k2 kd ?_
          intro u hu
          by_cases e : u = t <;> simp only [W.at_, e, if_true, if_false]
          · simp
          · exact k3 u hu
        · exact ih s hc' k0 k1 k2 kd k3
      | go t =>
        show (W.runFrom out (s.step out t) more).pc 1 = _
        by_cases e0 : t = 0
        · subst e0
          rw [show s.step out 0 = s by simp [W.step, k0]]
          exact ih s hc' k0 k1 k2 kd k3
        · by_cases e1 : t = 1
          · subst e1
            rw [show s.step out 1 = s by simp [W.step, k1, k2]]
            exact ih s hc' k0 k1 k2 kd k3
          · rcases k3 t (by omega) with hp | hp | hp
            · rw [show s.step out t = s by simp [W.step, hp]]
              exact ih s hc' k0 k1 k2 kd k3
            · have f0 : ¬ 0 = t := fun e => e0 e.symm
              have f1 : ¬ 1 = t := fun e => e1 e.symm
              rw [show s.step out t = s.at_ t .returned by simp [W.step, hp, kd]]
              refine ih _ hc' (by simp [W.at_, if_neg f0, k0]) (by simp [W.at_, if_neg f1, k1]) k2 kd ?_
              intro u hu
              by_cases e : u = t <;> simp only [W.at_, e, if_true, if_false]
              · simp
              · exact k3 u hu
            · rw [show s.step out t = s by simp [W.step, hp]]
              exact ih s hc' k0 k1 k2 kd k3
  rw [W.run, W.runFrom, List.foldl_append]
  exact key more _ hc h0.2.1 h0.2.2.1 (by exact congrArg WMem.counter h0.1) (by exact congrArg WMem.done h0.1) (fun t ht => .inl (h0.2.2.2 t ht))

/-- A wait that begins when the writer is finished returns at once. -/
theorem wait_after_done (out : Nat) (acts : List WAct) (t : Nat) (ht : (W.run out acts).free t = true)
    (hd : (W.run out acts).mem.done = true) : (W.run out (acts ++ [.wait t, .go t])).pc t = .returned := by
  rw [W.run, W.runFrom, List.foldl_append]
  show (W.act out (W.act out (W.run out acts) (.wait t)) (.go t)).pc t = _
  simp [W.act, ht, W.step, W.at_, hd]

/-- A thread that is blocked before the worker has counted its end is woken by it. Partial: for a
thread that has read the counter in time, see `wait_may_hang`, and without cancellations. -/
theorem wait_ends_partial (out : Nat) (acts more : List WAct) (t : Nat) (hc : noCancel (acts ++ more))
    (hb : (W.run out acts).pc t = .blocked (W.run out acts).mem.counter)
    (hw : (W.run out acts).pc 0 ≠ .ended) (hno : .wait t ∉ more)
    (he : (W.run out (acts ++ more)).pc 0 = .ended) :
    (W.run out (acts ++ more ++ [.go t, .go t])).pc t = .returned := by
  -- nobody is cancelling
  have quiet : ∀ (acts : List WAct) (s : W), noCancel acts → (∀ u, s.pc u ≠ .cancelSet ∧ s.pc u ≠ .cancelBump) →
      ∀ u, (W.runFrom out s acts).pc u ≠ .cancelSet ∧ (W.runFrom out s acts).pc u ≠ .cancelBump := by
    intro acts
    induction acts with
    | nil => intro s _ h; exact h
    | cons a acts ih =>
      intro s hc h
      refine ih _ (fun t hm => hc t (List.mem_cons_of_mem _ hm)) ?_
      have hset : ∀ (s' : W) (v : Nat) (p : WPc), s'.pc = s.pc → p ≠ .cancelSet → p ≠ .cancelBump →
          ∀ u, (s'.at_ v p).pc u ≠ .cancelSet ∧ (s'.at_ v p).pc u ≠ .cancelBump := by
        intro s' v p hs p1 p2 u
        simp only [W.pc_at]
        split
        · exact ⟨p1, p2⟩
        · rw [hs]; exact h u
      cases a with
      | cancel v => exact absurd (List.mem_cons_self ..) (hc v)
      | wait v =>
        simp only [W.act]
        split
        · exact hset s v _ rfl (by simp) (by simp)
        · exact h
      | go v =>
        simp only [W.act, W.step]
        cases hp : s.pc v <;> simp only
        all_goals first
          | exact absurd hp (h v).1
          | exact absurd hp (h v).2
          | exact h
          | (split <;> first | exact h | exact hset _ v _ rfl (by simp) (by simp))
          | exact hset _ v _ rfl (by simp) (by simp)
  have hq := quiet acts {} (fun v hm => hc v (List.mem_append_left _ hm)) (by
    intro u; by_cases e : u = 0 <;> simp [e])
  have ht0 : t ≠ 0 := by
    intro e
    subst e
    have := (WInv.run out acts).zero
    rw [hb] at this
    cases this
  have key : ∀ (more : List WAct) (s : W), WInv out s → noCancel more → .wait t ∉ more →
      (∀ u, s.pc u ≠ .cancelSet ∧ s.pc u ≠ .cancelBump) →
      ((s.pc 0 ≠ .ended ∧ s.pc t = .blocked s.mem.counter) ∨
        (s.pc 0 = .ended ∧ ((∃ e, s.pc t = .blocked e ∧ e < s.mem.counter) ∨ s.pc t = .check ∨ s.pc t = .returned))) →
      (let s' := W.runFrom out s more
       (s'.pc 0 ≠ .ended ∧ s'.pc t = .blocked s'.mem.counter) ∨
        (s'.pc 0 = .ended ∧ ((∃ e, s'.pc t = .blocked e ∧ e < s'.mem.counter) ∨ s'.pc t = .check ∨ s'.pc t = .returned))) := by
    intro more
    induction more with
    | nil => intro s _ _ _ _ h; exact h
    | cons a more ih =>
      intro s hi hc hno hq h
      refine ih _ (hi.act a) (fun v hm => hc v (List.mem_cons_of_mem _ hm)) (fun hm => hno (List.mem_cons_of_mem _ hm))
        (quiet [a] s (fun v hm => hc v (by rw [List.mem_singleton] at hm; rw [hm]; exact List.mem_cons_self ..)) hq) ?_
      cases a with
      | cancel v => exact absurd (List.mem_cons_self ..) (hc v)
      | wait v =>
        have hv : v ≠ t := fun e => hno (by rw [e]; exact List.mem_cons_self ..)
        have hv' : ¬ t = v := fun e => hv e.symm
        simp only [W.act]
        split
        · rename_i hf
          have hv0 : ¬ 0 = v := by intro e; subst e; simp [W.free] at hf
          simp only [W.pc_at, W.mem_at, if_neg hv', if_neg hv0]
          exact h
        · exact h
      | go v =>
        by_cases hv : v = t
        · subst hv
          have hv0 : ¬ 0 = v := fun e => ht0 e.symm
          rcases h with ⟨a1, a2⟩ | ⟨a1, ⟨e, a2, a3⟩ | a2 | a2⟩
          · have hs : W.act out s (.go v) = s := by simp [W.act, W.step, a2]
            rw [hs]
            exact .inl ⟨a1, a2⟩
          · have hne : ¬ s.mem.counter = e := by omega
            have hs : W.act out s (.go v) = s.at_ v .check := by simp [W.act, W.step, a2, hne]
            rw [hs]
            exact .inr ⟨by rw [W.pc_at, if_neg hv0]; exact a1, .inr (.inl (by rw [W.pc_at, if_pos rfl]))⟩
          · have hd := hi.done.2 (.inr a1)
            have hs : W.act out s (.go v) = s.at_ v .returned := by simp [W.act, W.step, a2, hd]
            rw [hs]
            exact .inr ⟨by rw [W.pc_at, if_neg hv0]; exact a1, .inr (.inr (by rw [W.pc_at, if_pos rfl]))⟩
          · have hs : W.act out s (.go v) = s := by simp [W.act, W.step, a2]
            rw [hs]
            exact .inr ⟨a1, .inr (.inr a2)⟩
        · have hv' : ¬ t = v := fun e => hv e.symm
          by_cases hv0 : v = 0
          · subst hv0
            rcases h with ⟨a1, a2⟩ | ⟨a1, a2⟩
            · have hwk := hi.zero
              simp only [W.act, W.step]
              cases hp : s.pc 0 <;> rw [hp] at hwk a1 <;> simp only [WPc.worker, Bool.false_eq_true] at hwk <;>
                simp only [ne_eq, not_true_eq_false] at a1 <;> simp only
              all_goals try (split <;> (simp only [W.pc_at, W.mem_at, if_true, if_neg hv']; exact .inl ⟨by simp, a2⟩))
              all_goals try (simp only [W.pc_at, W.mem_at, if_true, if_neg hv']; exact .inl ⟨by simp, a2⟩)
              simp only [W.pc_at, W.mem_at, if_true, if_neg hv']
              exact .inr ⟨trivial, .inl ⟨_, a2, Nat.lt_succ_self _⟩⟩
            · have hs : W.act out s (.go 0) = s := by simp [W.act, W.step, a1]
              rw [hs]
              exact .inr ⟨a1, a2⟩
          · have hz : ¬ 0 = v := fun e => hv0 e.symm
            have hwk := hi.others v hv0
            simp only [W.act, W.step]
            cases hp : s.pc v <;> rw [hp] at hwk <;> simp only [WPc.worker, Bool.true_eq_false] at hwk <;> simp only
            all_goals first
              | exact h
              | exact absurd hp (hq v).1
              | exact absurd hp (hq v).2
              | (simp only [W.pc_at, W.mem_at, if_neg hz, if_neg hv']; exact h)
              | (split <;> first | exact h | (simp only [W.pc_at, W.mem_at, if_neg hz, if_neg hv']; exact h))
  have hfin := key more (W.run out acts) (WInv.run out acts) (fun v hm => hc v (List.mem_append_right _ hm)) hno hq
    (.inl ⟨hw, hb⟩)
  have hrun : W.runFrom out (W.run out acts) more = W.run out (acts ++ more) := by
    rw [W.run, W.run, W.runFrom, W.runFrom, W.runFrom, List.foldl_append]
  rw [hrun] at hfin
  have hd := (WInv.run out (acts ++ more)).done.2 (.inr he)
  rw [W.run, W.runFrom, List.foldl_append]
  show (W.act out (W.act out (W.run out (acts ++ more)) (.go t)) (.go t)).pc t = _
  rcases hfin with ⟨h1, _⟩ | ⟨_, ⟨e, h1, h2⟩ | h1 | h1⟩
  · exact absurd he h1
  · have hne : ¬ (W.run out (acts ++ more)).mem.counter = e := by omega
    simp [W.act, W.step, h1, hne, W.at_, hd]
  · simp [W.act, W.step, h1, W.at_, hd]
  · simp [W.act, W.step, h1]

/-! ## A reader -/

theorem R.pc_at (s : R) (t u : Nat) (p : RPc) : (s.at_ t p).pc u = if u = t then p else s.pc u := rfl
theorem R.mem_at (s : R) (t : Nat) (p : RPc) : (s.at_ t p).mem = s.mem := rfl

/-- The counter value a waiting thread goes by, and what it has already seen not to be there. -/
def RPc.seen : RPc → Option (Nat × Bool × Bool × Bool)
  | .seeData e => some (e, false, false, false)
  | .seeCancel e => some (e, true, false, false)
  | .seeFinal e => some (e, true, true, false)
  | .blocked e => some (e, true, true, true)
  | _ => none

/-- Whoever has changed something has yet to count it, as long as the counter has the old value. -/
def RInv (s : R) : Prop :=
  ∀ t e a b c, (s.pc t).seen = some (e, a, b, c) → e ≤ s.mem.counter ∧ (e = s.mem.counter →
    (a = true → 0 < s.mem.available → ∃ u, s.pc u = .bump) ∧
    (b = true → s.mem.cancel = true → ∃ u, s.pc u = .cancelBump) ∧
    (c = true → s.mem.final = true → ∃ u, s.pc u = .publish ∨ s.pc u = .bump))

theorem RInv.init : RInv {} := by
  intro t e a b c h
  cases h

theorem RInv.act {s : R} (h : RInv s) (x : RAct) : RInv (s.act x) := by
  -- a thread goes to a place that is none of a waiting thread's, nobody's duty to count is dropped
  have move : ∀ (t : Nat) (p : RPc), (s.pc t ≠ .bump ∧ s.pc t ≠ .cancelBump ∧ s.pc t ≠ .publish) →
      (∀ e a b c, p.seen = some (e, a, b, c) → e ≤ s.mem.counter ∧ (e = s.mem.counter →
        (a = true → 0 < s.mem.available → ∃ u, s.pc u = .bump) ∧
        (b = true → s.mem.cancel = true → ∃ u, s.pc u = .cancelBump) ∧
        (c = true → s.mem.final = true → ∃ u, s.pc u = .publish ∨ s.pc u = .bump))) → RInv (s.at_ t p) := by
    intro t p hk hp u e a b c hu
    simp only [R.pc_at] at hu
    have hbase : e ≤ s.mem.counter ∧ (e = s.mem.counter →
        (a = true → 0 < s.mem.available → ∃ u, s.pc u = .bump) ∧
        (b = true → s.mem.cancel = true → ∃ u, s.pc u = .cancelBump) ∧
        (c = true → s.mem.final = true → ∃ u, s.pc u = .publish ∨ s.pc u = .bump)) := by
      by_cases he : u = t
      · rw [if_pos he] at hu; exact hp e a b c hu
      · rw [if_neg he] at hu; exact h u e a b c hu
    have keep : ∀ (v : Nat) (q : RPc), (q = .bump ∨ q = .cancelBump ∨ q = .publish) → s.pc v = q → (s.at_ t p).pc v = q := by
      intro v q hq hv
      rw [R.pc_at]
      by_cases e : v = t
      · subst e
        rcases hq with r | r | r <;> rw [r] at hv
        · exact absurd hv hk.1
        · exact absurd hv hk.2.1
        · exact absurd hv hk.2.2
      · rw [if_neg e]; exact hv
    refine ⟨hbase.1, fun he => ⟨fun ha hv => ?_, fun hb hv => ?_, fun hc hv => ?_⟩⟩
    · obtain ⟨v, hv⟩ := (hbase.2 he).1 ha hv
      exact ⟨v, keep v _ (.inl rfl) hv⟩
    · obtain ⟨v, hv⟩ := (hbase.2 he).2.1 hb hv
      exact ⟨v, keep v _ (.inr (.inl rfl)) hv⟩
    · obtain ⟨v, hv⟩ := (hbase.2 he).2.2 hc hv
      exact ⟨v, hv.imp (keep v _ (.inr (.inr rfl))) (keep v _ (.inl rfl))⟩
  -- somebody counts
  have count : ∀ (t : Nat), RInv (({ s with mem := { s.mem with counter := s.mem.counter + 1 } } : R).at_ t .idle) := by
    intro t u e a b c hu
    simp only [R.pc_at] at hu
    have hle : e ≤ s.mem.counter := by
      by_cases he : u = t
      · rw [if_pos he] at hu; cases hu
      · rw [if_neg he] at hu; exact (h u e a b c hu).1
    refine ⟨Nat.le_succ_of_le hle, fun he => ?_⟩
    simp only [R.mem_at] at he
    omega
  cases x with
  | publish t =>
    simp only [R.act]; split
    · exact move t _ (by simp [*]) (by simp [RPc.seen])
    · exact h
  | final t =>
    simp only [R.act]; split
    · exact move t _ (by simp [*]) (by simp [RPc.seen])
    · exact h
  | cancel t =>
    simp only [R.act]; split
    · exact move t _ (by simp [*]) (by simp [RPc.seen])
    · exact h
  | wait t =>
    simp only [R.act]; split
    · exact move t _ (by simp [*]) (by simp [RPc.seen])
    · exact h
  | take t =>
    simp only [R.act]; split
    · intro u e a b c hu
      obtain ⟨h1, h2⟩ := h u e a b c hu
      refine ⟨h1, fun he => ?_⟩
      obtain ⟨h3, h4, h5⟩ := h2 he
      exact ⟨fun ha hv => h3 ha (by simp only at hv; omega), h4, h5⟩
    · exact h
  | go t =>
    simp only [R.act, R.step]
    cases hp : s.pc t <;> simp only
    · exact h
    · -- publish
      intro u e a b c hu
      simp only [R.pc_at] at hu
      by_cases he : u = t
      · rw [if_pos he] at hu; cases hu
      · rw [if_neg he] at hu
        obtain ⟨h1, h2⟩ := h u e a b c hu
        refine ⟨h1, fun hc => ?_⟩
        obtain ⟨h3, h4, h5⟩ := h2 hc
        refine ⟨fun _ _ => ⟨t, by simp [R.pc_at]⟩, fun hb hv => ?_, fun _ _ => ⟨t, .inr (by simp [R.pc_at])⟩⟩
        obtain ⟨v, hv⟩ := h4 hb hv
        have hvt : ¬ v = t := by intro e; rw [e, hp] at hv; cases hv
        exact ⟨v, by rw [R.pc_at, if_neg hvt]; exact hv⟩
    · exact count t
    · -- final
      split
      · exact move t _ (by simp [hp]) (by simp [RPc.seen])
      · intro u e a b c hu
        simp only [R.pc_at] at hu
        by_cases he : u = t
        · rw [if_pos he] at hu; cases hu
        · rw [if_neg he] at hu
          obtain ⟨h1, h2⟩ := h u e a b c hu
          refine ⟨h1, fun hc => ?_⟩
          obtain ⟨h3, h4, h5⟩ := h2 hc
          refine ⟨fun ha hv => ?_, fun hb hv => ?_, fun _ _ => ⟨t, .inl (by simp [R.pc_at])⟩⟩
          · obtain ⟨v, hv⟩ := h3 ha hv
            have hvt : ¬ v = t := by intro e; rw [e, hp] at hv; cases hv
            exact ⟨v, by rw [R.pc_at, if_neg hvt]; exact hv⟩
          · obtain ⟨v, hv⟩ := h4 hb hv
            have hvt : ¬ v = t := by intro e; rw [e, hp] at hv; cases hv
            exact ⟨v, by rw [R.pc_at, if_neg hvt]; exact hv⟩
    · -- cancel
      intro u e a b c hu
      simp only [R.pc_at] at hu
      by_cases he : u = t
      · rw [if_pos he] at hu; cases hu
      · rw [if_neg he] at hu
        obtain ⟨h1, h2⟩ := h u e a b c hu
        refine ⟨h1, fun hc => ?_⟩
        obtain ⟨h3, h4, h5⟩ := h2 hc
        refine ⟨fun ha hv => ?_, fun _ _ => ⟨t, by simp [R.pc_at]⟩, fun hc hv => ?_⟩
        · obtain ⟨v, hv⟩ := h3 ha hv
          have hvt : ¬ v = t := by intro e; rw [e, hp] at hv; cases hv
          exact ⟨v, by rw [R.pc_at, if_neg hvt]; exact hv⟩
        · obtain ⟨v, hv⟩ := h5 hc hv
          have hvt : ¬ v = t := by intro e; rw [e, hp] at hv; rcases hv with hv | hv <;> cases hv
          exact ⟨v, by rw [R.pc_at, if_neg hvt]; exact hv⟩
    · exact count t
    · -- load
      refine move t _ (by simp [hp]) ?_
      intro e a b c hs
      simp only [RPc.seen, Option.some.injEq, Prod.mk.injEq] at hs
      obtain ⟨rfl, rfl, rfl, rfl⟩ := hs
      exact ⟨Nat.le_refl _, fun _ => ⟨nofun, nofun, nofun⟩⟩
    · -- data
      rename_i e0
      obtain ⟨h1, h2⟩ := h t e0 _ _ _ (by rw [hp]; rfl)
      split
      · exact move t _ (by simp [hp]) (by simp [RPc.seen])
      · rename_i hn
        refine move t _ (by simp [hp]) ?_
        intro e a b c hs
        simp only [RPc.seen, Option.some.injEq, Prod.mk.injEq] at hs
        obtain ⟨rfl, rfl, rfl, rfl⟩ := hs
        exact ⟨h1, fun _ => ⟨fun _ hv => absurd hv hn, nofun, nofun⟩⟩
    · -- cancelled
      rename_i e0
      obtain ⟨h1, h2⟩ := h t e0 _ _ _ (by rw [hp]; rfl)
      split
      · exact move t _ (by simp [hp]) (by simp [RPc.seen])
      · rename_i hn
        refine move t _ (by simp [hp]) ?_
        intro e a b c hs
        simp only [RPc.seen, Option.some.injEq, Prod.mk.injEq] at hs
        obtain ⟨rfl, rfl, rfl, rfl⟩ := hs
        exact ⟨h1, fun he => ⟨(h2 he).1, fun _ hv => absurd hv hn, nofun⟩⟩
    · -- final seen
      rename_i e0
      obtain ⟨h1, h2⟩ := h t e0 _ _ _ (by rw [hp]; rfl)
      split
      · exact move t _ (by simp [hp]) (by simp [RPc.seen])
      · rename_i hn
        refine move t _ (by simp [hp]) ?_
        intro e a b c hs
        simp only [RPc.seen, Option.some.injEq, Prod.mk.injEq] at hs
        obtain ⟨rfl, rfl, rfl, rfl⟩ := hs
        exact ⟨h1, fun he => ⟨(h2 he).1, (h2 he).2.1, fun _ hv => absurd hv hn⟩⟩
    · -- blocked
      split
      · exact h
      · exact move t _ (by simp [hp]) (by simp [RPc.seen])

theorem RInv.run (acts : List RAct) : RInv (R.run acts) := by
  have key : ∀ (acts : List RAct) (s : R), RInv s → RInv (R.runFrom s acts) := by
    intro acts
    induction acts with
    | nil => intro s h; exact h
    | cons a acts ih => intro s h; exact ih _ (h.act a)
  exact key acts {} RInv.init

/-- Nobody is in the middle of publishing or cancelling. -/
def settled (s : R) : Prop := ∀ u, s.pc u ≠ .publish ∧ s.pc u ≠ .bump ∧ s.pc u ≠ .cancelBump

/-- There is something a waiting thread has to be told. -/
def news (m : RMem) : Prop := 0 < m.available ∨ m.cancel = true ∨ m.final = true

/-- A thread in `wait()`. -/
def RPc.waiting : RPc → Bool
  | .load | .seeData _ | .seeCancel _ | .seeFinal _ | .blocked _ => true
  | _ => false

/-- **No wake-up of a reader is lost**: a thread sleeps only while there is nothing to be told, or
while somebody has still to count what they have published. -/
theorem reader_sleeps_rightly (acts : List RAct) (t : Nat) (h : settled (R.run acts))
    (hb : (R.run acts).pc t = .blocked (R.run acts).mem.counter) : ¬ news (R.run acts).mem := by
  obtain ⟨_, h2⟩ := RInv.run acts t _ _ _ _ (by rw [hb]; rfl)
  obtain ⟨h3, h4, h5⟩ := h2 rfl
  rintro (hn | hn | hn)
  · obtain ⟨u, hu⟩ := h3 rfl hn; exact (h u).2.1 hu
  · obtain ⟨u, hu⟩ := h4 rfl hn; exact (h u).2.2 hu
  · obtain ⟨u, hu⟩ := h5 rfl hn
    rcases hu with hu | hu
    · exact (h u).1 hu
    · exact (h u).2.1 hu

/-- What a waiting thread does next. -/
def waitNext (m : RMem) : RPc → RPc
  | .load => .seeData m.counter
  | .seeData e => if 0 < m.available then .idle else .seeCancel e
  | .seeCancel e => if m.cancel then .idle else .seeFinal e
  | .seeFinal e => if m.final then .idle else .blocked e
  | .blocked e => if m.counter = e then .blocked e else .load
  | p => p

theorem step_waiting (s : R) (t : Nat) (h : (s.pc t).waiting = true ∨ s.pc t = .idle) :
    (s.step t).mem = s.mem ∧ (s.step t).pc t = waitNext s.mem (s.pc t) := by
  rcases h with h | h
  · cases hp : s.pc t <;> rw [hp] at h <;> simp only [RPc.waiting, Bool.false_eq_true] at h <;>
      simp only [R.step, hp, waitNext]
    all_goals first
      | exact ⟨rfl, by simp [R.pc_at]⟩
      | (split
         · exact ⟨rfl, by simp [R.pc_at, hp]⟩
         · exact ⟨rfl, by simp [R.pc_at]⟩)
  · simp [R.step, h, waitNext]

theorem waitNext_waiting (m : RMem) (p : RPc) (h : p.waiting = true ∨ p = .idle) :
    (waitNext m p).waiting = true ∨ waitNext m p = .idle := by
  rcases h with h | h
  · cases p <;> simp only [RPc.waiting, Bool.false_eq_true] at h <;> simp only [waitNext]
    all_goals first
      | exact .inl rfl
      | (split <;> first | exact .inr rfl | exact .inl rfl)
  · subst h; exact .inr rfl

/-- **A wait for a reader ends**: whenever there is something to be told and nobody is in the middle
of publishing it, a waiting thread comes out of `wait()` by itself, in at most eight steps. -/
theorem reader_wait_ends (acts : List RAct) (t : Nat) (h : settled (R.run acts)) (hn : news (R.run acts).mem)
    (hw : ((R.run acts).pc t).waiting = true) :
    (R.run (acts ++ List.replicate 8 (.go t))).pc t = .idle := by
  have key : ∀ (n : Nat) (s : R), ((s.pc t).waiting = true ∨ s.pc t = .idle) →
      (R.runFrom s (List.replicate n (.go t))).pc t = Nat.repeat (waitNext s.mem) n (s.pc t) := by
    intro n
    induction n with
    | zero => intro s _; rfl
    | succ n ih =>
      intro s hs
      obtain ⟨h1, h2⟩ := step_waiting s t hs
      show (R.runFrom (s.step t) (List.replicate n (.go t))).pc t = _
      rw [ih (s.step t) (by rw [h2]; exact waitNext_waiting _ _ hs), h1, h2]
      clear ih h1 h2
      induction n with
      | zero => rfl
      | succ n ih => simp only [Nat.repeat] at ih ⊢; rw [ih]
  have hrun : R.run (acts ++ List.replicate 8 (.go t)) = R.runFrom (R.run acts) (List.replicate 8 (.go t)) := by
    rw [R.run, R.run, R.runFrom, R.runFrom, R.runFrom, List.foldl_append]
  rw [hrun, key 8 _ (.inl hw)]
  have hi := RInv.run acts t
  -- the counter has moved on since this thread has read it, if it has looked past the news
  have hold : ∀ e a b c, ((R.run acts).pc t).seen = some (e, a, b, c) →
      (a = true → 0 < (R.run acts).mem.available → ¬ (R.run acts).mem.counter = e) ∧
      (b = true → (R.run acts).mem.cancel = true → ¬ (R.run acts).mem.counter = e) ∧
      (c = true → (R.run acts).mem.final = true → ¬ (R.run acts).mem.counter = e) := by
    intro e a b c hs
    obtain ⟨_, h2⟩ := hi e a b c hs
    refine ⟨fun ha hv he => ?_, fun ha hv he => ?_, fun ha hv he => ?_⟩ <;> obtain ⟨h3, h4, h5⟩ := h2 he.symm
    · obtain ⟨u, hu⟩ := h3 ha hv; exact (h u).2.1 hu
    · obtain ⟨u, hu⟩ := h4 ha hv; exact (h u).2.2 hu
    · obtain ⟨u, hu⟩ := h5 ha hv
      rcases hu with hu | hu
      · exact (h u).1 hu
      · exact (h u).2.1 hu
  generalize (R.run acts).mem = m at hn hold ⊢
  generalize (R.run acts).pc t = p at hw hold ⊢
  have rec8 : ∀ p, Nat.repeat (waitNext m) 8 p = waitNext m (waitNext m (waitNext m (waitNext m
    (waitNext m (waitNext m (waitNext m (waitNext m p))))))) := fun _ => rfl
  rw [rec8]
  have hidle : waitNext m .idle = .idle := rfl
  have hdata : ∀ e, waitNext m (waitNext m (waitNext m (.seeData e))) = .idle := by
    intro e
    by_cases h1 : 0 < m.available
    · simp only [waitNext, h1, if_true]
    · by_cases h2 : m.cancel = true
      · simp only [waitNext, h1, h2, if_true, if_false]
      · have h3 : m.final = true := by
          rcases hn with x | x | x
          · exact absurd x h1
          · exact absurd x h2
          · exact x
        simp only [waitNext, h1, h2, h3, if_true, if_false, Bool.false_eq_true]
  have hload : waitNext m .load = .seeData m.counter := rfl
  cases p <;> simp only [RPc.waiting, Bool.false_eq_true] at hw
  · rw [hload, hdata]; simp only [hidle]
  · rw [hdata]; simp only [hidle]
  · rename_i e
    obtain ⟨k1, -, -⟩ := hold e _ _ _ rfl
    by_cases h2 : m.cancel = true
    · rw [show waitNext m (.seeCancel e) = .idle by simp only [waitNext, h2, if_true]]; simp only [hidle]
    · rw [show waitNext m (.seeCancel e) = .seeFinal e by simp only [waitNext, h2]; rfl]
      by_cases h3 : m.final = true
      · rw [show waitNext m (.seeFinal e) = .idle by simp only [waitNext, h3, if_true]]; simp only [hidle]
      · rw [show waitNext m (.seeFinal e) = .blocked e by simp only [waitNext, h3]; rfl]
        have h1 : 0 < m.available := by
          rcases hn with x | x | x
          · exact x
          · exact absurd x h2
          · exact absurd x h3
        rw [show waitNext m (.blocked e) = .load from if_neg (k1 rfl h1), hload, hdata]; simp only [hidle]
  · rename_i e
    obtain ⟨k1, k2, -⟩ := hold e _ _ _ rfl
    by_cases h3 : m.final = true
    · rw [show waitNext m (.seeFinal e) = .idle by simp only [waitNext, h3, if_true]]; simp only [hidle]
    · rw [show waitNext m (.seeFinal e) = .blocked e by simp only [waitNext, h3]; rfl]
      have hne : ¬ m.counter = e := by
        rcases hn with x | x | x
        · exact k1 rfl x
        · exact k2 rfl x
        · exact absurd x h3
      rw [show waitNext m (.blocked e) = .load from if_neg hne, hload, hdata]; simp only [hidle]
  · rename_i e
    obtain ⟨k1, k2, k3⟩ := hold e _ _ _ rfl
    have hne : ¬ m.counter = e := by
      rcases hn with x | x | x
      · exact k1 rfl x
      · exact k2 rfl x
      · exact k3 rfl x
    rw [show waitNext m (.blocked e) = .load from if_neg hne, hload, hdata]; simp only [hidle]

/-- A schedule that puts a reader to sleep, publishes a message and wakes it. -/
example : (R.run [.wait 1, .go 1, .go 1, .go 1, .go 1, .publish 0, .go 0]).pc 1 = .blocked 0 ∧
    (R.run [.wait 1, .go 1, .go 1, .go 1, .go 1, .publish 0, .go 0]).mem.available = 1 ∧
    (R.run [.wait 1, .go 1, .go 1, .go 1, .go 1, .publish 0, .go 0]).pc 0 = .bump := by decide

/-- The hypotheses of `reader_wait_ends` are met by a sleeping thread. -/
example : settled (R.run [.wait 1, .go 1, .go 1, .go 1, .go 1, .publish 0, .go 0, .go 0]) ∧
    news (R.run [.wait 1, .go 1, .go 1, .go 1, .go 1, .publish 0, .go 0, .go 0]).mem ∧
    (R.run [.wait 1, .go 1, .go 1, .go 1, .go 1, .publish 0, .go 0, .go 0]).pc 1 = .blocked 0 := by
  refine ⟨fun u => ?_, .inl (by decide), by decide⟩
  by_cases h0 : u = 0
  · subst h0; decide
  · by_cases h1 : u = 1
    · subst h1; decide
    · simp [R.run, R.runFrom, R.act, R.step, R.at_, h0, h1]

/-- The hypotheses of `wait_ends_partial` and `wait_means_done` are met. -/
example : (W.run 7 [.wait 1, .go 1, .go 1]).pc 1 = .blocked 0 ∧ (W.run 7 [.wait 1, .go 1, .go 1]).mem.counter = 0 ∧
    (W.run 7 [.wait 1, .go 1, .go 1]).pc 0 = .start ∧
    (W.run 7 ([.wait 1, .go 1, .go 1] ++ [.go 0, .go 0, .go 0, .go 0, .go 0, .go 0])).pc 0 = .ended ∧
    (W.run 7 ([.wait 1, .go 1, .go 1] ++ [.go 0, .go 0, .go 0, .go 0, .go 0, .go 0] ++ [.go 1, .go 1])).pc 1 = .returned := by
  decide

/-- Both kinds of results come about; a cancellation may be seen after the file has been written. -/
example : (W.run 7 [.go 0, .go 0, .go 0, .go 0, .go 0]).mem.get = some (.wrote 7) ∧
    (W.run 7 [.cancel 1, .go 1, .go 0, .go 0, .go 0]).mem.get = some .cancelled ∧
    (W.run 7 [.cancel 1, .go 1, .go 0, .go 0, .go 0]).mem.written = false ∧
    (W.run 7 [.go 0, .go 0, .cancel 1, .go 1, .go 0, .go 0, .go 0]).mem.get = some .cancelled ∧
    (W.run 7 [.go 0, .go 0, .cancel 1, .go 1, .go 0, .go 0, .go 0]).mem.written = true := by decide

end Verif.FileIo.Wait
