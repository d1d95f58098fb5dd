import Verif.Sched.DynLemmas
import Verif.Util
/-!
# C50: blocks added or removed at run time
-/
namespace Verif.Sched.Dyn

theorem inv_init (jobs : List (List Nat)) (h : jobs.flatten.Nodup) : Inv (init jobs) := by
  have hget : ∀ i, i < jobs.length → jobs[i]?.getD [] ∈ jobs := by
    intro i hi; rw [List.getElem?_eq_getElem hi]; exact List.getElem_mem hi
  unfold List.Nodup at h
  rw [List.pairwise_flatten] at h
  refine ⟨?_, ?_⟩
  · intro i hi
    refine ⟨?_, ?_, ?_, ?_, ?_⟩
    · simp only [init, List.append_nil]; exact h.1 _ (hget i hi)
    · intro l hl; simp [init] at hl
    · intro l hl; simp [init] at hl
    · intro rest hr; simp [init] at hr
    · intro _; rfl
  · intro i j hi hj hne b
    simp only [init, List.append_nil]
    have h2 := h.2
    rw [List.pairwise_iff_getElem] at h2
    have hi' : i < jobs.length := hi
    have hj' : j < jobs.length := hj
    rw [List.getElem?_eq_getElem hi', List.getElem?_eq_getElem hj']
    simp only [Option.getD_some]
    intro hb hb2
    rcases Nat.lt_or_gt_of_ne hne with hlt | hlt
    · exact h2 i j hi' hj' hlt b hb b hb2 rfl
    · exact h2 j i hj' hi' hlt b hb2 b hb rfl

theorem full_init (jobs : List (List Nat)) : Full (init jobs) := by
  intro i _
  exact ⟨fun _ => rfl, by intro l hl; simp [init] at hl, by intro l hl; simp [init] at hl⟩

theorem working_in_exec {s : St} (h : Inv s) {i b : Nat} {rest : List Nat} (hi : i < s.n) (hp : (s.rs i).pc = .work rest) :
    rest.Nodup ∧ (b ∈ rest → b ∈ (s.rs i).exec) := by
  have ho := h.ok i hi
  obtain ⟨l, hl, hs⟩ := ho.rest _ hp
  have hsub := ho.locSub hl (by rw [hp]; rfl)
  have hnd : (s.rs i).exec.Nodup := (List.nodup_append.1 ho.nodup).1
  exact ⟨(hsub.nodup hnd).sublist hs.sublist, fun hb => hsub.subset (hs.subset hb)⟩

/-- **C50, at most one worker**: starting from any distribution of distinct blocks, through any sequence of adoptions, removals and
zombie clean-ups interleaved with the workers' steps, the pass of a worker visits no block twice, and no block is visited by two
workers' passes; the shared job and adoption lists never hold a block twice either. -/
theorem at_most_one_worker (jobs : List (List Nat)) (hd : jobs.flatten.Nodup) (as : List Act) (s : St)
    (hr : Run Legal (init jobs) as s) (i : Nat) (hi : i < s.n) :
    (∀ rest, (s.rs i).pc = .work rest → rest.Nodup) ∧
    (∀ j rest rest' b, j < s.n → (s.rs i).pc = .work rest → (s.rs j).pc = .work rest' → b ∈ rest → b ∈ rest' → i = j) ∧
    ((s.rs i).exec ++ (s.rs i).adopt).Nodup ∧
    (∀ j b, j < s.n → b ∈ (s.rs i).exec ++ (s.rs i).adopt → b ∈ (s.rs j).exec ++ (s.rs j).adopt → i = j) := by
  have h := inv_run hr (inv_init jobs hd)
  refine ⟨fun rest hp => (working_in_exec (b := 0) h hi hp).1, ?_, (h.ok i hi).nodup, ?_⟩
  · intro j rest rest' b hj hp hp' hb hb'
    apply Classical.byContradiction
    intro hne
    exact h.disj i j hi hj hne b (List.mem_append_left _ ((working_in_exec h hi hp).2 hb))
      (List.mem_append_left _ ((working_in_exec h hj hp').2 hb'))
  · intro j b hj hb hb'
    apply Classical.byContradiction
    intro hne
    exact h.disj i j hi hj hne b hb hb'

theorem not_working_of_unscheduled {s : St} (h : Inv s) {b : Nat} (hn : ¬Scheduled s b) (i : Nat) : workingOn s i ≠ some b := by
  unfold workingOn
  split
  · next x rest hp =>
    split
    · next hi =>
      intro e
      cases e
      exact hn ⟨i, hi, .inl ((working_in_exec h hi hp).2 (by simp))⟩
    · simp
  · simp

/-- after the removal the blocks are scheduled nowhere -/
theorem remove_unscheduled {s s' : St} (h : Inv s) {bs : List Nat} (hs : step s (.remove bs) = some s') {b : Nat} (hb : b ∈ bs) :
    ¬Scheduled s' b := by
  simp only [step] at hs
  split at hs
  · cases hs
    rintro ⟨i, hi, hm⟩
    have hi' : i < s.n := hi
    simp only [removeBlocks, if_pos hi', List.mem_filter] at hm
    rcases hm with ⟨he, hne⟩ | ⟨_, hne⟩
    · have hne' : b ∉ notAwaitingAdoption s.n s.rs bs := by simpa using hne
      apply hne'
      rw [mem_notAwaiting]
      refine ⟨hb, ?_⟩
      intro j hj hadopt
      by_cases e : i = j
      · subst e
        exact (List.nodup_append.1 (h.ok i hi').nodup).2.2 b he b hadopt rfl
      · exact h.disj i j hi' hj e b (List.mem_append_left _ he) (List.mem_append_right _ hadopt)
    · simp [hb] at hne
  · cases hs

/-- **C50, a removed block is not worked on any more**: after `removeBlocks` and any further interleaving in which the block is not
adopted again, no worker works on it. -/
theorem removed_never_worked (jobs : List (List Nat)) (hd : jobs.flatten.Nodup) (as as' : List Act) (s s1 s2 : St)
    (bs : List Nat) (b : Nat) (hb : b ∈ bs) (h1 : Run Legal (init jobs) as s) (h2 : step s (.remove bs) = some s1)
    (h3 : Run Legal s1 as' s2) (hno : ∀ r, Act.adopt b r ∉ as') (i : Nat) : workingOn s2 i ≠ some b := by
  have hi := inv_run h1 (inv_init jobs hd)
  have hi1 : Inv s1 := inv_step (a := .remove bs) hi trivial h2
  exact not_working_of_unscheduled (inv_run h3 hi1) (unscheduled_run h3 hi1 (remove_unscheduled hi h2 hb) hno) i

theorem zombieFold_gone (n i : Nat) (stopped : List Nat) : ∀ (zs : List Nat) (acc : (Nat → Runner) × List Nat × List Nat),
    acc.2.1.Nodup → (zs.foldl (zombieStep n i stopped) acc).2.1.Sublist acc.2.1 ∧
    ∀ z ∈ zs, z ∈ stopped → z ∉ (zs.foldl (zombieStep n i stopped) acc).2.1 := by
  intro zs
  induction zs with
  | nil => intro acc _; simp
  | cons z zs ih =>
    intro acc hn
    rw [List.foldl_cons]
    have h1 : (zombieStep n i stopped acc z).2.1.Sublist acc.2.1 ∧ (z ∈ stopped → z ∉ (zombieStep n i stopped acc z).2.1) := by
      unfold zombieStep
      split
      · refine ⟨List.erase_sublist, fun _ => ?_⟩
        intro hz
        rw [hn.mem_erase_iff] at hz
        exact hz.1 rfl
      · next hc =>
        refine ⟨List.Sublist.refl _, fun hs hz => hc ⟨by simpa using hz, by simpa using hs⟩⟩
    have h2 := ih (zombieStep n i stopped acc z) (h1.1.nodup hn)
    refine ⟨h2.1.trans h1.1, ?_⟩
    intro y hy hst
    rcases List.mem_cons.1 hy with e | hy
    · subst e
      intro hm
      exact h1.2 hst (h2.1.subset hm)
    · exact h2.2 y hy hst

/-- a zombie in the worker's list that has stopped is scheduled nowhere after the worker's clean-up -/
theorem zombie_unscheduled {s s' : St} (h : Inv s) {i : Nat} {stopped l : List Nat} (hs : step s (.zombie i stopped) = some s')
    (hloc : (s.rs i).loc = some l) {b : Nat} (hz : b ∈ s.zombies) (hst : b ∈ stopped) (hb : b ∈ l) : ¬Scheduled s' b := by
  simp only [step, hloc] at hs
  split at hs
  · next hc =>
    cases hs
    have hg : (s.rs i).pc.inGuard = true := by rw [hc.2]; rfl
    have hsub := (h.ok i hc.1).locSub hloc hg
    have hnd : l.Nodup := hsub.nodup (List.nodup_append.1 (h.ok i hc.1).nodup).1
    obtain ⟨E, zs, _, _, he⟩ := cleanupZombies_eq h hc.1 hloc hsub stopped
    have hE : b ∈ E := by
      have hloc' : ((cleanupZombies s i l stopped).rs i).loc = some (l.filter (fun b => !E.contains b)) := by
        rw [he]; simp only [St.set, upd_same]
      have hne : ¬(l.isEmpty = true) := by
        intro hem
        rw [List.isEmpty_iff] at hem
        rw [hem] at hb; cases hb
      simp only [cleanupZombies, hne, upd_same, if_false] at hloc'
      have hgone := (zombieFold_gone s.n i stopped s.zombies (s.rs, l, []) hnd).2 b hz hst
      simp only [Bool.false_eq_true, if_false] at hloc'
      rw [upd_same] at hloc'
      rw [Option.some.inj hloc'] at hgone
      apply Classical.byContradiction
      intro hbE
      exact hgone (List.mem_filter.2 ⟨hb, by simpa using hbE⟩)
    rw [he]
    rintro ⟨j, hj, hm⟩
    have hj' : j < s.n := hj
    have hbi : b ∈ (s.rs i).exec := hsub.subset hb
    by_cases e : j = i
    · subst e
      simp only [St.set, upd_same, List.mem_filter] at hm
      rcases hm with hm | hm
      · simp [hE] at hm
      · exact (List.nodup_append.1 (h.ok j hj').nodup).2.2 b hbi b hm rfl
    · simp only [St.set, upd_ne _ _ e] at hm
      exact h.disj i j hc.1 hj' (Ne.symm e) b (by simp [hbi]) (List.mem_append.2 hm)
  · cases hs

/-- **C50, a deleted zombie is not worked on any more** -/
theorem zombie_never_worked (jobs : List (List Nat)) (hd : jobs.flatten.Nodup) (as as' : List Act) (s s1 s2 : St)
    (i : Nat) (stopped l : List Nat) (b : Nat) (h1 : Run Legal (init jobs) as s) (hloc : (s.rs i).loc = some l)
    (hz : b ∈ s.zombies) (hst : b ∈ stopped) (hb : b ∈ l) (h2 : step s (.zombie i stopped) = some s1)
    (h3 : Run Legal s1 as' s2) (hno : ∀ r, Act.adopt b r ∉ as') (j : Nat) : workingOn s2 j ≠ some b := by
  have hi := inv_run h1 (inv_init jobs hd)
  have hi1 : Inv s1 := inv_step (a := .zombie i stopped) hi trivial h2
  exact not_working_of_unscheduled (inv_run h3 hi1) (unscheduled_run h3 hi1 (zombie_unscheduled hi h2 hloc hz hst hb) hno) j

/-- **C50, a block removed before it was adopted never runs** -/
theorem zombie_before_adoption (jobs : List (List Nat)) (hd : jobs.flatten.Nodup) (as as' : List Act) (s s2 : St)
    (i b : Nat) (h1 : Run Legal (init jobs) as s) (hin : i < s.n) (hb : b ∈ (s.rs i).adopt)
    (h3 : Run Legal (makeZombie s b) as' s2) (hno : ∀ r, Act.adopt b r ∉ as') (j : Nat) : workingOn s2 j ≠ some b := by
  have hi := inv_run h1 (inv_init jobs hd)
  have hi1 : Inv (makeZombie s b) := inv_step (a := .makeZombie b) hi trivial rfl
  refine not_working_of_unscheduled (inv_run h3 hi1) (unscheduled_run h3 hi1 ?_ hno) j
  rintro ⟨k, hk, hm⟩
  unfold makeZombie at hk hm
  have huniq : ∀ m, m < s.n → b ∈ (s.rs m).exec ++ (s.rs m).adopt → m = i := by
    intro m hm hbm
    apply Classical.byContradiction
    intro hne
    exact hi.disj m i hm hin hne b hbm (by simp [hb])
  split at hm
  · next m hf =>
    obtain ⟨hmn, hmb⟩ := find_first hf
    have e1 : m = i := huniq m hmn (by simp at hmb; simp [hmb])
    subst e1
    have hk' : k < s.n := by split at hk <;> exact hk
    have hnd := List.nodup_append.1 (hi.ok m hmn).nodup
    by_cases e : k = m
    · subst e
      simp only [St.set, upd_same] at hm
      rcases hm with hm | hm
      · exact hnd.2.2 b hm b hb rfl
      · rw [hnd.2.1.mem_erase_iff] at hm
        exact hm.1 rfl
    · simp only [St.set, upd_ne _ _ e] at hm
      exact e (huniq k hk' (by simpa using hm))
  · next hf =>
    have := List.find?_eq_none.1 hf i (List.mem_range.2 hin)
    simp [hb] at this

/-- other steps do not touch a worker in the middle of its pass -/
theorem pass_step {s s' : St} {a : Act} {i : Nat} {rest : List Nat} (hp : (s.rs i).pc = .work rest) (hs : step s a = some s')
    (hnl : ∀ f, a ≠ .leaveWork i f) (hq : ∀ bs, a = .remove bs → quiet s = false) (hi : i < s.n) (hst : (s.rs i).loc ≠ none) :
    (a ≠ .workOne i ∧ (s'.rs i).pc = .work rest ∧ (s'.rs i).loc = (s.rs i).loc) ∨
    (a = .workOne i ∧ ∃ b r, rest = b :: r ∧ (s'.rs i).pc = .work r ∧ (s'.rs i).loc = (s.rs i).loc ∧ workingOn s i = some b) := by
  have hne : ∀ (k : Nat) (r : Runner), i ≠ k → ((s.set k r).rs i) = s.rs i := by
    intro k r e; simp only [St.set, upd_ne _ _ e]
  cases a with
  | start k =>
    simp only [step] at hs
    split at hs
    · next hc =>
      cases hs
      have e : i ≠ k := by intro e; subst e; exact hst hc.2
      exact .inl ⟨by simp, by rw [hne k _ e, hp], by rw [hne k _ e]⟩
    · cases hs
  | enterMsg k =>
    simp only [step] at hs
    split at hs
    · split at hs
      · next hc =>
        cases hs
        have e : i ≠ k := by intro e; subst e; rw [hp] at hc; cases hc.2
        exact .inl ⟨by simp, by rw [hne k _ e, hp], by rw [hne k _ e]⟩
      · cases hs
    · cases hs
  | zombie k stopped =>
    simp only [step] at hs
    split at hs
    · next l hloc =>
      split at hs
      · next hc =>
        cases hs
        have e : i ≠ k := by intro e; subst e; rw [hp] at hc; cases hc.2
        have key : ∀ (zs : List Nat) (acc : (Nat → Runner) × List Nat × List Nat),
            (acc.1 i).pc = .work rest → (acc.1 i).loc = (s.rs i).loc →
            ((zs.foldl (zombieStep s.n k stopped) acc).1 i).pc = .work rest ∧
            ((zs.foldl (zombieStep s.n k stopped) acc).1 i).loc = (s.rs i).loc := by
          intro zs
          induction zs with
          | nil => intro acc h1 h2; exact ⟨h1, h2⟩
          | cons z zs ih =>
            intro acc h1 h2
            rw [List.foldl_cons]
            apply ih
            · unfold zombieStep dropExec
              split
              · split
                · next m _ =>
                  by_cases em : i = m
                  · subst em; simp only [upd_same]; exact h1
                  · simp only [upd_ne _ _ em]; exact h1
                · exact h1
              · exact h1
            · unfold zombieStep dropExec
              split
              · split
                · next m _ =>
                  by_cases em : i = m
                  · subst em; simp only [upd_same]; exact h2
                  · simp only [upd_ne _ _ em]; exact h2
                · exact h2
              · exact h2
        have hz : (((cleanupZombies s k l stopped).rs i).pc = .work rest) ∧ (((cleanupZombies s k l stopped).rs i).loc = (s.rs i).loc) := by
          unfold cleanupZombies
          split
          · exact ⟨hp, rfl⟩
          · simp only [upd_ne _ _ e]; exact key s.zombies (s.rs, l, []) hp rfl
        refine .inl ⟨by simp, ?_, ?_⟩
        · simp only [St.set, upd_ne _ _ e]; exact hz.1
        · simp only [St.set, upd_ne _ _ e]; exact hz.2
      · cases hs
    · cases hs
  | adoptAll k =>
    simp only [step] at hs
    split at hs
    · split at hs
      · next hc =>
        cases hs
        have e : i ≠ k := by intro e; subst e; rw [hp] at hc; cases hc.2
        exact .inl ⟨by simp, by rw [hne k _ e, hp], by rw [hne k _ e]⟩
      · cases hs
    · cases hs
  | enterWork k =>
    simp only [step] at hs
    split at hs
    · split at hs
      · next hc =>
        cases hs
        have e : i ≠ k := by intro e; subst e; rw [hp] at hc; cases hc.2
        exact .inl ⟨by simp, by rw [hne k _ e, hp], by rw [hne k _ e]⟩
      · cases hs
    · cases hs
  | workOne k =>
    simp only [step] at hs
    split at hs
    · next b r hpk =>
      split at hs
      · cases hs
        by_cases e : i = k
        · subst e
          rw [hp] at hpk
          cases hpk
          refine .inr ⟨rfl, b, r, rfl, by simp only [St.set, upd_same], by simp only [St.set, upd_same], ?_⟩
          simp only [workingOn, hp, if_pos hi]
        · exact .inl ⟨by simpa using (Ne.symm e), by rw [hne k _ e, hp], by rw [hne k _ e]⟩
      · cases hs
    · cases hs
  | leaveWork k f =>
    have e : i ≠ k := by intro e; subst e; exact hnl f rfl
    simp only [step] at hs
    split at hs
    · split at hs
      · cases hs
        exact .inl ⟨by simp, by rw [hne k _ e, hp], by rw [hne k _ e]⟩
      · cases hs
    · cases hs
  | adopt b r =>
    simp only [step] at hs
    split at hs
    · cases hs; exact .inl ⟨by simp, hp, rfl⟩
    · split at hs
      · cases hs
        refine .inl ⟨by simp, ?_, ?_⟩
        · by_cases e : i = r
          · subst e; simp only [St.set, upd_same]; exact hp
          · rw [hne r _ e, hp]
        · by_cases e : i = r
          · subst e; simp only [St.set, upd_same]
          · rw [hne r _ e]
      · cases hs
  | remove bs =>
    simp only [step, hq bs rfl] at hs
    simp at hs
  | makeZombie b =>
    simp only [step, Option.some.injEq] at hs
    subst hs
    refine .inl ⟨by simp, ?_, ?_⟩
    · unfold makeZombie
      split
      · next k _ =>
        by_cases e : i = k
        · subst e; simp only [St.set, upd_same]; exact hp
        · rw [hne k _ e, hp]
      · exact hp
    · unfold makeZombie
      split
      · next k _ =>
        by_cases e : i = k
        · subst e; simp only [St.set, upd_same]
        · rw [hne k _ e]
      · rfl

/-- during a pass the worker works on the blocks of its list, in order -/
theorem pass_run {s s' : St} {as : List Act} (hr : Run Legal s as s') : ∀ {i : Nat} {l : List Nat}, Inv s → i < s.n →
    (s.rs i).pc = .work l → (∀ f, Act.leaveWork i f ∉ as) →
    ∃ done rest, l = done ++ rest ∧ (s'.rs i).pc = .work rest ∧ ((trace s as).filter (fun t => t.1 == i)).map (·.2) = done := by
  induction hr with
  | nil s => intro i l _ _ hp _; exact ⟨[], l, rfl, hp, rfl⟩
  | @cons s s1 s2 a as hl hs _ ih =>
    intro i l hinv hi hp hnl
    have hst : (s.rs i).loc ≠ none := by
      obtain ⟨l', h', _⟩ := (hinv.ok i hi).rest l hp
      rw [h']; simp
    have hstep := pass_step (a := a) hp hs (fun f e => hnl f (by simp [e])) (by
      intro bs _
      rw [Bool.eq_false_iff]
      intro hq
      have := quiet_iff.1 hq i hi
      rw [hp] at this; cases this) hi hst
    have hi1 : i < s1.n := by rw [n_step hs]; exact hi
    rcases hstep with ⟨hne, hp1, _⟩ | ⟨e, b, r, hr, hp1, _, hw⟩
    · obtain ⟨done, rest, h1, h2, h3⟩ := ih (inv_step hinv hl hs) hi1 hp1 (fun f hf => hnl f (by simp [hf]))
      refine ⟨done, rest, h1, h2, ?_⟩
      rw [← h3]
      simp only [trace, hs]
      cases a with
      | workOne k =>
        have hk : k ≠ i := by intro e; subst e; exact hne rfl
        simp only [List.filter_append, List.map_append]
        cases workingOn s k with
        | none => rfl
        | some c => simp [hk]
      | _ => rfl
    · subst e
      obtain ⟨done, rest, h1, h2, h3⟩ := ih (inv_step hinv hl hs) hi1 hp1 (fun f hf => hnl f (by simp [hf]))
      refine ⟨b :: done, rest, by rw [hr, h1]; rfl, h2, ?_⟩
      simp only [trace, hs, hw]
      simp only [List.cons_append, List.nil_append, List.filter_cons, beq_self_eq_true, if_true, List.map_cons, h3]

/-- **C50, an adopted block gets worked on** (partial: blocks are only moved away once all workers have started, and the worker
chosen is alive — see `stale_moved_entry_loses_block` and `adopted_by_ended_worker_lost`). If block `b` waits for adoption by worker `i`
and nobody asks for its removal, then after worker `i` has gone through one message phase, each pass it starts has `b` on its list,
exactly once; and when the pass ends normally the worker has worked on exactly the blocks of that list, in order. -/
theorem adopted_is_worked_partial (jobs : List (List Nat)) (hd : jobs.flatten.Nodup) (as₀ as as' : List Act) (s s1 s2 s3 s4 : St)
    (i b : Nat) (h0 : Run LegalStarted (init jobs) as₀ s) (hi : i < s.n) (hb : b ∈ (s.rs i).adopt) (hz : b ∉ s.zombies)
    (h1 : Run LegalStarted s as s1) (hkeep : ∀ a ∈ as, Keeps b a) (hadopt : Act.adoptAll i ∈ as)
    (h2 : step s1 (.enterWork i) = some s2) (h3 : Run Legal s2 as' s3) (hnl : ∀ f, Act.leaveWork i f ∉ as')
    (h4 : step s3 (.leaveWork i false) = some s4) :
    ∃ l, (s2.rs i).pc = .work l ∧ l = (s1.rs i).exec ∧ l.count b = 1 ∧ ((trace s2 as').filter (fun t => t.1 == i)).map (·.2) = l := by
  have hinv := inv_run (run_legal h0) (inv_init jobs hd)
  have hfull := full_run h0 (inv_init jobs hd) (full_init jobs)
  have hinv1 := inv_run (run_legal h1) hinv
  have hfull1 := full_run h1 hinv hfull
  have hheld := (held_run (w := true) (run_legal h1) hinv hkeep ⟨hi, hz, .inr ⟨rfl, hb⟩⟩).2 hadopt
  have hbe : b ∈ (s1.rs i).exec := by
    rcases hheld.2.2 with h | h
    · exact h
    · cases h.1
  have hinv2 : Inv s2 := inv_step (a := .enterWork i) hinv1 trivial h2
  simp only [step] at h2
  split at h2
  · next l hloc =>
    split at h2
    · next hc =>
      have hcl := cleanupRemoved_full (hfull1 i hc.1) hloc .out
      have hne : ¬((cleanupRemoved (s1.rs i) l).2.isEmpty = true) := by
        rw [hcl.2.1, List.isEmpty_iff]
        intro e; rw [e] at hbe; cases hbe
      have hp2 : (s2.rs i).pc = .work (s1.rs i).exec := by
        cases h2
        simp only [St.set, upd_same, hne]
        simp [hcl.2.1]
      have hn2 : i < s2.n := by cases h2; exact hc.1
      obtain ⟨done, rest, e1, e2, e3⟩ := pass_run h3 hinv2 hn2 hp2 hnl
      refine ⟨_, hp2, rfl, nodup_count_one (List.nodup_append.1 (hinv1.ok i hc.1).nodup).1 hbe, ?_⟩
      simp only [step, e2] at h4
      split at h4
      · next hrest =>
        rcases hrest.2 with hr | hr
        · rw [e3, e1, hr, List.append_nil]
        · cases hr
      · cases h4
    · cases h2
  · cases h2

-- two workers, block 9 is adopted by worker 1, block 2 removed by it, block 1 becomes a zombie of worker 0
example : trace (init [[1, 3], [2]]) [.start 0, .start 1, .adopt 9 1, .enterWork 1, .workOne 1, .leaveWork 1 false, .remove [2],
      .makeZombie 1, .enterMsg 1, .zombie 1 [], .adoptAll 1, .enterMsg 0, .zombie 0 [1], .adoptAll 0, .enterWork 0, .enterWork 1,
      .workOne 0, .workOne 1]
    = [(1, 2), (0, 3), (1, 9)] := by decide +kernel

/-- **C50 fails when a block is moved away before its worker has copied the job list**: the entry in the list of moved blocks is never
used up. When the block is handed back to the same worker (group into a sub-scheduler, then ungroup), it is dropped from the worker's
list right after its adoption: it stays in the job list, but the worker's pass does not contain it. -/
theorem stale_moved_entry_loses_block :
    let s := [Act.remove [1], .start 0, .enterMsg 0, .zombie 0 [], .adoptAll 0, .adopt 1 0, .enterMsg 0, .zombie 0 [], .adoptAll 0,
      .enterWork 0].foldlM step (init [[1, 3]])
    s.map (fun s => ((s.rs 0).exec, (s.rs 0).pc)) = some ([3, 1], .work [3]) := by decide +kernel

theorem ended_step {s s' : St} {a : Act} (h : Inv s) (hs : step s a = some s') {i b : Nat} (hi : i < s.n) (hp : (s.rs i).pc = .ended)
    (hb : b ∈ (s.rs i).adopt) (hk : Keeps b a) : (s'.rs i).pc = .ended ∧ b ∈ (s'.rs i).adopt := by
  have hne : ∀ (k : Nat) (r : Runner), (k = i → r.pc = .ended ∧ b ∈ r.adopt) →
      ((s.set k r).rs i).pc = .ended ∧ b ∈ ((s.set k r).rs i).adopt := by
    intro k r hr
    by_cases e : i = k
    · subst e; simp only [St.set, upd_same]; exact hr rfl
    · simp only [St.set, upd_ne _ _ e]; exact ⟨hp, hb⟩
  have hst : (s.rs i).loc ≠ none := by
    intro hn
    have := (h.ok i hi).unstarted hn
    rw [hp] at this; cases this
  cases a with
  | start k =>
    simp only [step] at hs
    split at hs
    · next hc => cases hs; exact hne k _ (fun e => by subst e; exact absurd hc.2 hst)
    · cases hs
  | enterMsg k =>
    simp only [step] at hs
    split at hs
    · split at hs
      · next hc => cases hs; exact hne k _ (fun e => by subst e; rw [hp] at hc; cases hc.2)
      · cases hs
    · cases hs
  | zombie k stopped =>
    simp only [step] at hs
    split at hs
    · next l hloc =>
      split at hs
      · next hc =>
        cases hs
        have hg : (s.rs k).pc.inGuard = true := by rw [hc.2]; rfl
        obtain ⟨E, zs, _, _, he⟩ := cleanupZombies_eq h hc.1 hloc ((h.ok k hc.1).locSub hloc hg) stopped
        rw [he]
        have e : i ≠ k := by intro e; subst e; rw [hp] at hc; cases hc.2
        simp only [St.set, upd_ne _ _ e]; exact ⟨hp, hb⟩
      · cases hs
    · cases hs
  | adoptAll k =>
    simp only [step] at hs
    split at hs
    · split at hs
      · next hc => cases hs; exact hne k _ (fun e => by subst e; rw [hp] at hc; cases hc.2)
      · cases hs
    · cases hs
  | enterWork k =>
    simp only [step] at hs
    split at hs
    · split at hs
      · next hc => cases hs; exact hne k _ (fun e => by subst e; rw [hp] at hc; cases hc.2)
      · cases hs
    · cases hs
  | workOne k =>
    simp only [step] at hs
    split at hs
    · next hpk =>
      split at hs
      · cases hs; exact hne k _ (fun e => by subst e; rw [hp] at hpk; cases hpk)
      · cases hs
    · cases hs
  | leaveWork k f =>
    simp only [step] at hs
    split at hs
    · next hpk =>
      split at hs
      · cases hs; exact hne k _ (fun e => by subst e; rw [hp] at hpk; cases hpk)
      · cases hs
    · cases hs
  | adopt b' r =>
    simp only [step] at hs
    split at hs
    · cases hs; exact ⟨hp, hb⟩
    · split at hs
      · cases hs; exact hne r _ (fun e => by subst e; exact ⟨hp, List.mem_append_left _ hb⟩)
      · cases hs
  | remove bs =>
    simp only [step] at hs
    split at hs
    · cases hs
      simp only [removeBlocks, if_pos hi]
      have hk' : b ∉ bs := hk
      exact ⟨hp, List.mem_filter.2 ⟨hb, by simp [hk']⟩⟩
    · cases hs
  | makeZombie b' =>
    simp only [step, Option.some.injEq] at hs
    subst hs
    have hne2 : b' ≠ b := hk
    unfold makeZombie
    split
    · next k _ => exact hne k _ (fun e => by subst e; exact ⟨hp, (List.mem_erase_of_ne (Ne.symm hne2)).2 hb⟩)
    · exact ⟨hp, hb⟩

theorem ended_run {s s' : St} {as : List Act} {i b : Nat} (hr : Run Legal s as s') : Inv s → i < s.n → (s.rs i).pc = .ended →
    b ∈ (s.rs i).adopt → (∀ a ∈ as, Keeps b a) → i < s'.n ∧ b ∈ (s'.rs i).adopt := by
  induction hr with
  | nil => intro _ hi _ hb _; exact ⟨hi, hb⟩
  | cons hl hs _ ih =>
    intro hinv hi hp hb hk
    have h1 := ended_step hinv hs hi hp hb (hk _ (by simp))
    exact ih (inv_step hinv hl hs) (by rw [n_step hs]; exact hi) h1.1 h1.2 (fun a ha => hk a (by simp [ha]))

/-- **C50 fails when the chosen worker has finished**: a worker whose blocks are all done returns, but `adoptBlock` picks the worker by
the hash of the block's address whether or not it is still running. Such a block is never worked on, whatever happens later. -/
theorem adopted_by_ended_worker_lost (jobs : List (List Nat)) (hd : jobs.flatten.Nodup) (as as' : List Act) (s s' : St) (i b : Nat)
    (h1 : Run Legal (init jobs) as s) (hi : i < s.n) (hp : (s.rs i).pc = .ended) (hb : b ∈ (s.rs i).adopt)
    (h2 : Run Legal s as' s') (hk : ∀ a ∈ as', Keeps b a) (j : Nat) : workingOn s' j ≠ some b := by
  have hinv := inv_run h1 (inv_init jobs hd)
  obtain ⟨hi', hb'⟩ := ended_run h2 hinv hi hp hb hk
  have hinv' := inv_run h2 hinv
  unfold workingOn
  split
  · next x rest hpj =>
    split
    · next hj =>
      intro e
      cases e
      have he := (working_in_exec (b := b) hinv' hj hpj).2 (by simp)
      by_cases e : j = i
      · subst e
        exact (List.nodup_append.1 (hinv'.ok j hj).nodup).2.2 b he b hb' rfl
      · exact hinv'.disj j i hj hi' e b (by simp [he]) (by simp [hb'])
    · simp
  · simp

/-- the situation of `adopted_by_ended_worker_lost` is reached in five steps -/
example : ([Act.start 0, .start 1, .enterWork 1, .workOne 1, .leaveWork 1 true, .adopt 9 1].foldlM step (init [[1], [2]])).map
    (fun s => ((s.rs 1).pc, (s.rs 1).adopt)) = some (.ended, [9]) := by decide +kernel

/-- **C50 fails when the scheduler was started without work lists** (a multi-threaded scheduler over a graph without blocks): `adoptBlock`
returns without scheduling the block. -/
theorem adopt_lost_without_lists (b r : Nat) : (step (init []) (.adopt b r)).map (fun s => (s.n, s.zombies)) = some (0, []) ∧
    ∀ s, step (init []) (.adopt b r) = some s → ¬Scheduled s b := by
  refine ⟨rfl, ?_⟩
  intro s hs
  simp only [step, init, List.length_nil, if_true] at hs
  cases hs
  rintro ⟨i, hi, _⟩
  cases hi

/-- **C50 fails for blocks that replace other blocks at run time**: `propertyCallbackReplaceBlock` retires the old block but does not
hand the new one to any worker. -/
theorem replacement_never_scheduled (jobs : List (List Nat)) (hd : jobs.flatten.Nodup) (as as' : List Act) (s s' : St) (old new : Nat)
    (h1 : Run Legal (init jobs) as s) (hnew : ¬Scheduled s new) (h2 : Run Legal (replaceBlock s old new) as' s')
    (hno : ∀ r, Act.adopt new r ∉ as') (j : Nat) : workingOn s' j ≠ some new := by
  have hi := inv_run h1 (inv_init jobs hd)
  have hstep : step s (.makeZombie old) = some (replaceBlock s old new) := rfl
  have hi1 : Inv (replaceBlock s old new) := inv_step (a := .makeZombie old) hi trivial hstep
  refine not_working_of_unscheduled (inv_run h2 hi1) (unscheduled_run h2 hi1 ?_ hno) j
  rintro ⟨k, hk, hm⟩
  rw [n_step hstep] at hk
  rcases scheduled_only_adopt hi hstep hk hm with hb | ⟨r, e⟩
  · exact hnew ⟨k, hk, hb⟩
  · cases e

end Verif.Sched.Dyn
