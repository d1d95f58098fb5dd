import Verif.Sched.DynModel
/-! Invariants of the dynamic block lists. -/
namespace Verif.Sched.Dyn

theorem upd_same (rs : Nat → Runner) (i : Nat) (r : Runner) : upd rs i r i = r := by simp [upd]
theorem upd_ne (rs : Nat → Runner) {i j : Nat} (r : Runner) (h : j ≠ i) : upd rs i r j = rs j := by simp [upd, h]

/-- the local list, while the worker is inside a guard -/
def Pc.inGuard : Pc → Bool
  | .out | .ended => false
  | _ => true

/-- what holds of one runner: the part of its local list that is not marked as moved is a sublist of its job list, inside a guard no
block of the local list is marked, and a pass works on a suffix of the local list -/
structure ROk (r : Runner) : Prop where
  nodup : (r.exec ++ r.adopt).Nodup
  sub : ∀ l, r.loc = some l → (l.filter (fun b => !r.moved.contains b)).Sublist r.exec
  clean : ∀ l, r.loc = some l → r.pc.inGuard = true → ∀ b ∈ l, b ∉ r.moved
  rest : ∀ rest, r.pc = .work rest → ∃ l, r.loc = some l ∧ rest <:+ l
  unstarted : r.loc = none → r.pc = .out

structure Inv (s : St) : Prop where
  ok : ∀ i, i < s.n → ROk (s.rs i)
  disj : ∀ i j, i < s.n → j < s.n → i ≠ j → ∀ b, b ∈ (s.rs i).exec ++ (s.rs i).adopt → b ∉ (s.rs j).exec ++ (s.rs j).adopt

theorem filter_id {α : Type} {p : α → Bool} {l : List α} (h : ∀ x ∈ l, p x = true) : l.filter p = l :=
  List.filter_eq_self.2 h

theorem filter_nil_moved {l : List Nat} : l.filter (fun b => !([] : List Nat).contains b) = l := filter_id (fun _ _ => rfl)

theorem ROk.locSub {r : Runner} (h : ROk r) {l : List Nat} (hl : r.loc = some l) (hg : r.pc.inGuard = true) : l.Sublist r.exec := by
  have := h.sub l hl
  rwa [filter_id (by intro x hx; simpa using h.clean l hl hg x hx)] at this

theorem inv_set {s : St} (h : Inv s) {i : Nat} {r : Runner} (hr : ROk r)
    (hsub : ∀ b, b ∈ r.exec ++ r.adopt → b ∈ (s.rs i).exec ++ (s.rs i).adopt) : Inv (s.set i r) := by
  refine ⟨?_, ?_⟩
  · intro j hj
    by_cases e : j = i
    · subst e; simp only [St.set, upd_same]; exact hr
    · simp only [St.set, upd_ne _ _ e]; exact h.ok j hj
  · intro j k hj hk hne b
    simp only [St.set]
    by_cases ej : j = i
    · subst ej
      rw [upd_same, upd_ne _ _ (Ne.symm hne)]
      intro hb; exact h.disj j k hj hk hne b (hsub b hb)
    · rw [upd_ne _ _ ej]
      by_cases ek : k = i
      · subst ek
        rw [upd_same]
        intro hb hb2; exact h.disj j k hj hk hne b hb (hsub b hb2)
      · rw [upd_ne _ _ ek]; exact h.disj j k hj hk hne b

theorem cleanupRemoved_ok {r : Runner} (h : ROk r) {l : List Nat} (hl : r.loc = some l) (pc : Pc)
    (hpc : ∀ rest, pc = .work rest → rest <:+ (cleanupRemoved r l).2) :
    ROk { (cleanupRemoved r l).1 with pc := pc } := by
  have hclean : ∀ b ∈ l.filter (fun b => !r.moved.contains b), b ∉ r.moved.filter (fun b => !l.contains b) := by
    intro b hb hb2
    have h1 := (List.mem_filter.1 hb).1
    have h2 := (List.mem_filter.1 hb2).2
    simp [h1] at h2
  refine ⟨h.nodup, ?_, ?_, ?_, ?_⟩
  · intro l2 hl2
    simp only [cleanupRemoved, Option.some.injEq] at hl2 ⊢
    subst hl2
    exact (List.filter_sublist).trans (h.sub l hl)
  · intro l2 hl2 _ b hb
    simp only [cleanupRemoved, Option.some.injEq] at hl2 ⊢
    subst hl2
    exact hclean b hb
  · intro rest hrest
    exact ⟨_, rfl, hpc rest hrest⟩
  · intro hn; simp [cleanupRemoved] at hn

theorem find_first {n : Nat} {p : Nat → Bool} {i : Nat} (h : (List.range n).find? p = some i) : i < n ∧ p i = true := by
  have h1 := List.find?_some h
  have h2 := List.mem_of_find?_eq_some h
  exact ⟨List.mem_range.1 h2, h1⟩

/-- in a consistent state the first job list containing `z` is the only one -/
theorem dropExec_eq {n : Nat} {rs : Nat → Runner} {i z : Nat} (hi : i < n) (hz : z ∈ (rs i).exec)
    (huniq : ∀ j, j < n → z ∈ (rs j).exec → j = i) :
    dropExec n rs z = upd rs i { rs i with exec := (rs i).exec.filter (fun b => b != z) } := by
  unfold dropExec
  cases hf : (List.range n).find? (fun i => (rs i).exec.contains z) with
  | none =>
    have := List.find?_eq_none.1 hf i (List.mem_range.2 hi)
    simp [hz] at this
  | some j =>
    obtain ⟨h1, h2⟩ := find_first hf
    have : j = i := huniq j h1 (by simpa using h2)
    subst this; rfl

theorem erase_eq_filter_of_nodup {l : List Nat} (h : l.Nodup) (z : Nat) : l.erase z = l.filter (fun b => b != z) :=
  List.Nodup.erase_eq_filter h z

/-- the state of the zombie clean-up of runner `i` after some iterations: `E` are the blocks deleted so far -/
def ZInv (s : St) (i : Nat) (l : List Nat) (acc : (Nat → Runner) × List Nat × List Nat) : Prop :=
  ∃ E : List Nat, (∀ z ∈ E, z ∈ s.zombies) ∧ acc.2.1 = l.filter (fun b => !E.contains b) ∧
    acc.1 = upd s.rs i { s.rs i with exec := (s.rs i).exec.filter (fun b => !E.contains b) } ∧
    (∀ z ∈ E, z ∈ (s.rs i).exec)

theorem zombieFold {s : St} (h : Inv s) {i : Nat} (hi : i < s.n) {l : List Nat} (hl : l.Sublist (s.rs i).exec) (stopped : List Nat) :
    ∀ (zs : List Nat) (acc : (Nat → Runner) × List Nat × List Nat), (∀ z ∈ zs, z ∈ s.zombies) → ZInv s i l acc →
      ZInv s i l (zs.foldl (zombieStep s.n i stopped) acc) := by
  intro zs
  induction zs with
  | nil => intro acc _ h; exact h
  | cons z zs ih =>
    intro acc hzs hacc
    rw [List.foldl_cons]
    apply ih _ (fun y hy => hzs y (by simp [hy]))
    obtain ⟨E, hE, h1, h2, h3⟩ := hacc
    unfold zombieStep
    split
    · next hc =>
      have hz : z ∈ acc.2.1 := by simpa using hc.1
      rw [h1] at hz
      obtain ⟨hzl, hzE⟩ := List.mem_filter.1 hz
      have hzE' : z ∉ E := by simpa using hzE
      have hze : z ∈ (s.rs i).exec := hl.subset hzl
      have hnd : (s.rs i).exec.Nodup := (List.nodup_append.1 (h.ok i hi).nodup).1
      refine ⟨z :: E, ?_, ?_, ?_, ?_⟩
      · intro y hy
        rcases List.mem_cons.1 hy with e | hy
        · subst e; exact hzs y (by simp)
        · exact hE y hy
      · show acc.2.1.erase z = _
        rw [erase_eq_filter_of_nodup (by rw [h1]; exact (hl.nodup hnd).filter _), h1, List.filter_filter]
        apply List.filter_congr
        intro x _
        simp only [List.contains_cons, Bool.not_or, bne]
      · show dropExec s.n acc.1 z = _
        have hex : z ∈ (acc.1 i).exec := by
          rw [h2, upd_same]
          simp [hze, hzE']
        rw [dropExec_eq hi hex]
        · rw [h2, upd_same]
          funext j
          by_cases e : j = i
          · subst e
            rw [upd_same, upd_same]
            simp only [List.filter_filter]
            congr 1
            apply List.filter_congr
            intro x _
            simp only [List.contains_cons, Bool.not_or, bne]
          · rw [upd_ne _ _ e, upd_ne _ _ e, upd_ne _ _ e]
        · intro j hj hzj
          apply Classical.byContradiction
          intro e
          rw [h2, upd_ne _ _ e] at hzj
          exact h.disj i j hi hj (Ne.symm e) z (by simp [hze]) (by simp [hzj])
      · intro y hy
        rcases List.mem_cons.1 hy with e | hy
        · subst e; exact hze
        · exact h3 y hy
    · exact ⟨E, hE, h1, h2, h3⟩

theorem upd_self (rs : Nat → Runner) (i : Nat) : upd rs i (rs i) = rs := by
  funext j; by_cases e : j = i
  · subst e; rw [upd_same]
  · rw [upd_ne _ _ e]

/-- the effect of the zombie clean-up of runner `i` in a consistent state: some zombies of its own list disappear from its lists -/
theorem cleanupZombies_eq {s : St} (h : Inv s) {i : Nat} (hi : i < s.n) {l : List Nat} (hloc : (s.rs i).loc = some l)
    (hl : l.Sublist (s.rs i).exec) (stopped : List Nat) :
    ∃ E zs : List Nat, (∀ z ∈ E, z ∈ s.zombies) ∧ (∀ z ∈ zs, z ∈ s.zombies) ∧ cleanupZombies s i l stopped =
      { s.set i { s.rs i with exec := (s.rs i).exec.filter (fun b => !E.contains b),
                              loc := some (l.filter (fun b => !E.contains b)) } with zombies := zs } := by
  unfold cleanupZombies
  split
  · next he =>
    have : l = [] := by simpa using he
    subst this
    refine ⟨[], s.zombies, by simp, fun _ h => h, ?_⟩
    have e : { s.rs i with exec := (s.rs i).exec.filter (fun b => !([] : List Nat).contains b), loc := some (List.filter (fun b => !([] : List Nat).contains b) []) } = s.rs i := by
      rw [filter_id (p := fun b => !([] : List Nat).contains b) (fun _ _ => rfl)]
      simp [← hloc]
    rw [e]
    simp only [St.set, upd_self]
  · have hz : ZInv s i l (s.zombies.foldl (zombieStep s.n i stopped) (s.rs, l, [])) := by
      apply zombieFold h hi hl stopped s.zombies _ (fun _ h => h)
      refine ⟨[], by simp, ?_, ?_, by simp⟩
      · exact (filter_id (fun _ _ => rfl)).symm
      · rw [filter_id (p := fun b => !([] : List Nat).contains b) (fun _ _ => rfl)]; exact (upd_self _ _).symm
    have hk : ∀ (zs : List Nat) (acc : (Nat → Runner) × List Nat × List Nat), (∀ z ∈ zs, z ∈ s.zombies) → (∀ z ∈ acc.2.2, z ∈ s.zombies) →
        ∀ z ∈ (zs.foldl (zombieStep s.n i stopped) acc).2.2, z ∈ s.zombies := by
      intro zs
      induction zs with
      | nil => intro acc _ h; exact h
      | cons z zs ih =>
        intro acc hzs hacc
        rw [List.foldl_cons]
        apply ih _ (fun y hy => hzs y (by simp [hy]))
        unfold zombieStep
        split
        · exact hacc
        · intro y hy
          rcases List.mem_append.1 hy with hy | hy
          · exact hacc y hy
          · have : y = z := by simpa using hy
            subst this; exact hzs y (by simp)
    obtain ⟨E, h0, h1, h2, h3⟩ := hz
    refine ⟨E, _, h0, hk s.zombies (s.rs, l, []) (fun _ h => h) (by simp), ?_⟩
    dsimp only
    rw [h1, h2, upd_same]
    simp only [St.set]
    congr 1
    funext j
    by_cases e : j = i
    · subst e; simp only [upd_same]
    · simp only [upd_ne _ _ e]


theorem ROk.filterE {r : Runner} (h : ROk r) {l : List Nat} (hl : r.loc = some l) (hg : r.pc.inGuard = true) (hp : r.pc ≠ .zombied)
    (hp2 : ∀ rest, r.pc ≠ .work rest) (E : List Nat) :
    ROk { r with exec := r.exec.filter (fun b => !E.contains b), loc := some (l.filter (fun b => !E.contains b)), pc := .zombied } := by
  refine ⟨?_, ?_, ?_, ?_, ?_⟩
  · exact h.nodup.sublist ((List.filter_sublist).append_right _)
  · intro l2 hl2
    simp only [Option.some.injEq] at hl2 ⊢
    subst hl2
    exact (List.filter_sublist).trans ((h.locSub hl hg).filter _)
  · intro l2 hl2 _ b hb
    simp only [Option.some.injEq] at hl2 ⊢
    subst hl2
    exact h.clean l hl hg b (List.mem_filter.1 hb).1
  · intro rest hrest; cases hrest
  · intro hn; cases hn

theorem nodup_filter_sub {r : Runner} (h : (r.exec ++ r.adopt).Nodup) (p q : Nat → Bool) :
    (r.exec.filter p ++ r.adopt.filter q).Nodup :=
  h.sublist ((List.filter_sublist).append (List.filter_sublist))

theorem mem_notAwaiting {n : Nat} {rs : Nat → Runner} {bs : List Nat} {b : Nat} :
    b ∈ notAwaitingAdoption n rs bs ↔ b ∈ bs ∧ ∀ i, i < n → b ∉ (rs i).adopt := by
  simp [notAwaitingAdoption]

theorem remove_filter_eq {r : Runner} {l : List Nat} (bs : List Nat)
    (hsub : ∀ b ∈ l.filter (fun b => !r.moved.contains b), b ∈ r.exec) :
    l.filter (fun b => !(r.moved ++ r.exec.filter (fun b => bs.contains b)).contains b) =
      (l.filter (fun b => !r.moved.contains b)).filter (fun b => !bs.contains b) := by
  rw [List.filter_filter]
  apply List.filter_congr
  intro x hx
  by_cases hm : x ∈ r.moved
  · simp [hm]
  · have hxe := hsub x (List.mem_filter.2 ⟨hx, by simp [hm]⟩)
    simp [hm, hxe]

theorem quiet_iff {s : St} : quiet s = true ↔ ∀ i, i < s.n → (s.rs i).pc.inGuard = false := by
  simp only [quiet, List.all_eq_true, List.mem_range, decide_eq_true_eq]
  constructor
  · intro h i hi
    rcases h i hi with e | e <;> rw [e] <;> rfl
  · intro h i hi
    have := h i hi
    cases hp : (s.rs i).pc <;> rw [hp] at this <;> simp [Pc.inGuard] at this ⊢

theorem inv_step {s s' : St} {a : Act} (h : Inv s) (hl : Legal s a) (hs : step s a = some s') : Inv s' := by
  cases a with
  | start i =>
    simp only [step] at hs
    split at hs
    · next hc =>
      cases hs
      have hr := h.ok i hc.1
      refine inv_set h ⟨hr.nodup, ?_, ?_, ?_, ?_⟩ (fun _ h => h)
      · intro l hl2
        simp only [Option.some.injEq] at hl2
        subst hl2
        exact List.filter_sublist
      · intro l _ hg
        simp only at hg
        split at hg <;> simp [Pc.inGuard] at hg
      · intro rest hrest
        simp only at hrest
        split at hrest <;> cases hrest
      · intro hn; simp at hn
    · cases hs
  | enterMsg i =>
    simp only [step] at hs
    split at hs
    · next l hloc =>
      split at hs
      · next hc =>
        cases hs
        refine inv_set h (cleanupRemoved_ok (h.ok i hc.1) hloc _ (by intro rest hr; cases hr)) (fun _ h => h)
      · cases hs
    · cases hs
  | zombie i stopped =>
    simp only [step] at hs
    split at hs
    · next l hloc =>
      split at hs
      · next hc =>
        cases hs
        have hg : (s.rs i).pc.inGuard = true := by rw [hc.2]; rfl
        obtain ⟨E, zs, _, _, he⟩ := cleanupZombies_eq h hc.1 hloc ((h.ok i hc.1).locSub hloc hg) stopped
        rw [he]
        have hr := (h.ok i hc.1).filterE hloc hg (by rw [hc.2]; simp) (by rw [hc.2]; simp) E
        have hi2 := inv_set (i := i) h hr (by
          intro b hb
          simp only [List.mem_append, List.mem_filter] at hb ⊢
          rcases hb with hb | hb
          · exact .inl hb.1
          · exact .inr hb)
        simp only [St.set, upd_same] at hi2 ⊢
        refine ⟨?_, ?_⟩
        · intro j hj
          have := hi2.ok j hj
          by_cases e : j = i
          · subst e; simpa only [upd_same] using this
          · simpa only [upd_ne _ _ e] using this
        · intro j k hj hk hne
          have := hi2.disj j k hj hk hne
          by_cases ej : j = i
          · subst ej
            simp only [upd_same, upd_ne _ _ (Ne.symm hne)] at this ⊢
            exact this
          · by_cases ek : k = i
            · subst ek
              simp only [upd_same, upd_ne _ _ ej] at this ⊢
              exact this
            · simp only [upd_ne _ _ ek, upd_ne _ _ ej] at this ⊢
              exact this
      · cases hs
    · cases hs
  | adoptAll i =>
    simp only [step] at hs
    split at hs
    · next l hloc =>
      split at hs
      · next hc =>
        cases hs
        have hr := h.ok i hc.1
        refine inv_set h ⟨?_, ?_, ?_, ?_, ?_⟩ ?_
        · simp only [adoptBlocks, List.append_nil]; exact hr.nodup
        · intro l2 hl2
          simp only [adoptBlocks, Option.some.injEq] at hl2 ⊢
          subst hl2
          rw [List.filter_append]
          exact (hr.sub l hloc).append List.filter_sublist
        · intro l2 _ hg; simp [Pc.inGuard] at hg
        · intro rest hrest; cases hrest
        · intro hn; simp [adoptBlocks] at hn
        · intro b hb
          simpa [adoptBlocks] using hb
      · cases hs
    · cases hs
  | enterWork i =>
    simp only [step] at hs
    split at hs
    · next l hloc =>
      split at hs
      · next hc =>
        cases hs
        refine inv_set h (cleanupRemoved_ok (h.ok i hc.1) hloc _ ?_) (fun _ h => h)
        intro rest hr
        split at hr
        · cases hr
        · cases hr; exact List.suffix_refl _
      · cases hs
    · cases hs
  | workOne i =>
    simp only [step] at hs
    split at hs
    · next b rest hpc =>
      split at hs
      · next hi =>
        cases hs
        have hr := h.ok i hi
        refine inv_set h ⟨hr.nodup, hr.sub, ?_, ?_, ?_⟩ (fun _ h => h)
        · intro l hl2 _
          exact hr.clean l hl2 (by rw [hpc]; rfl)
        · intro rest' he
          cases he
          obtain ⟨l, hl1, hl2⟩ := hr.rest _ hpc
          exact ⟨l, hl1, (List.suffix_cons b rest).trans hl2⟩
        · intro hn
          have := hr.unstarted hn
          rw [hpc] at this; cases this
      · cases hs
    · cases hs
  | leaveWork i final =>
    simp only [step] at hs
    split at hs
    · next rest hpc =>
      split at hs
      · next hi =>
        cases hs
        have hr := h.ok i hi.1
        refine inv_set h ⟨hr.nodup, hr.sub, ?_, ?_, ?_⟩ (fun _ h => h)
        · intro l hl2 hg
          cases final <;> simp [Pc.inGuard] at hg
        · intro rest' he
          cases final <;> cases he
        · intro hn
          have := hr.unstarted hn
          rw [hpc] at this; cases this
      · cases hs
    · cases hs
  | adopt b r =>
    simp only [step] at hs
    split at hs
    · cases hs; exact h
    · split at hs
      · next hr =>
        cases hs
        have ho := h.ok r hr
        have hfree : ∀ i, i < s.n → b ∉ (s.rs i).exec ++ (s.rs i).adopt := by
          intro i hi hb
          exact hl.1 ⟨i, hi, List.mem_append.1 hb⟩
        refine ⟨?_, ?_⟩
        · intro j hj
          simp only [St.set]
          by_cases e : j = r
          · subst e
            rw [upd_same]
            refine ⟨?_, ho.sub, ho.clean, ho.rest, ho.unstarted⟩
            simp only [← List.append_assoc]
            rw [List.nodup_append]
            refine ⟨ho.nodup, by simp, ?_⟩
            intro x hx y hy e
            have : y = b := by simpa using hy
            subst this; subst e
            exact hfree j hj hx
          · rw [upd_ne _ _ e]; exact h.ok j hj
        · intro j k hj hk hne x
          simp only [St.set]
          by_cases ej : j = r
          · subst ej
            rw [upd_same, upd_ne _ _ (Ne.symm hne)]
            simp only [← List.append_assoc]
            intro hx
            rcases List.mem_append.1 hx with hx | hx
            · exact h.disj j k hj hk hne x hx
            · have : x = b := by simpa using hx
              subst this; exact hfree k hk
          · rw [upd_ne _ _ ej]
            by_cases ek : k = r
            · subst ek
              rw [upd_same]
              simp only [← List.append_assoc]
              intro hx hx2
              rcases List.mem_append.1 hx2 with hx2 | hx2
              · exact h.disj j k hj hk hne x hx hx2
              · have : x = b := by simpa using hx2
                subst this; exact hfree j hj hx
            · rw [upd_ne _ _ ek]; exact h.disj j k hj hk hne x
      · cases hs
  | remove bs =>
    simp only [step] at hs
    split at hs
    · next hq =>
      cases hs
      have hq := quiet_iff.1 hq
      refine ⟨?_, ?_⟩
      · intro i hi
        have hi' : i < s.n := hi
        have hr := h.ok i hi'
        simp only [removeBlocks, if_pos hi']
        refine ⟨nodup_filter_sub hr.nodup _ _, ?_, ?_, ?_, hr.unstarted⟩
        · intro l hloc
          simp only at hloc ⊢
          have hs := hr.sub l hloc
          rw [remove_filter_eq _ (fun b hb => hs.subset hb)]
          exact hs.filter _
        · intro l _ hg
          have := hq i hi'
          simp only at hg
          rw [this] at hg; cases hg
        · exact hr.rest
      · intro i j hi hj hne b
        have hi' : i < s.n := hi
        have hj' : j < s.n := hj
        simp only [removeBlocks, if_pos hi', if_pos hj', List.mem_append, List.mem_filter]
        intro hb hb2
        refine h.disj i j hi' hj' hne b ?_ ?_
        · rcases hb with hb | hb
          · simp [hb.1]
          · simp [hb.1]
        · rcases hb2 with hb | hb
          · simp [hb.1]
          · simp [hb.1]
    · cases hs
  | makeZombie b =>
    simp only [step, Option.some.injEq] at hs
    subst hs
    unfold makeZombie
    split
    · next i hf =>
      obtain ⟨hi, _⟩ := find_first hf
      have hr := h.ok i hi
      refine inv_set h ⟨?_, hr.sub, hr.clean, hr.rest, hr.unstarted⟩ ?_
      · exact hr.nodup.sublist ((List.erase_sublist).append_left _)
      · intro x hx
        rcases List.mem_append.1 hx with hx | hx
        · simp [hx]
        · simp [List.mem_of_mem_erase hx]
    · exact ⟨h.ok, h.disj⟩

theorem inv_run {s s' : St} {as : List Act} (h : Run Legal s as s') : Inv s → Inv s' := by
  induction h with
  | nil => exact id
  | cons hl hs _ ih => intro hi; exact ih (inv_step hi hl hs)

theorem n_step {s s' : St} {a : Act} (hs : step s a = some s') : s'.n = s.n := by
  cases a <;> simp only [step] at hs <;> repeat' split at hs
  all_goals first
    | (cases hs; rfl)
    | (cases hs; simp only [St.set, cleanupZombies]; split <;> rfl)
    | (cases hs; simp only [makeZombie]; split <;> rfl)
    | cases hs

theorem mem_set {s : St} {i j : Nat} {r : Runner} {b : Nat} (h : b ∈ ((s.set i r).rs j).exec ∨ b ∈ ((s.set i r).rs j).adopt)
    (hr : b ∈ r.exec ∨ b ∈ r.adopt → b ∈ (s.rs i).exec ∨ b ∈ (s.rs i).adopt) : b ∈ (s.rs j).exec ∨ b ∈ (s.rs j).adopt := by
  simp only [St.set] at h
  by_cases e : j = i
  · subst e; rw [upd_same] at h; exact hr h
  · rw [upd_ne _ _ e] at h; exact h

/-- a block becomes scheduled only by being adopted -/
theorem scheduled_only_adopt {s s' : St} {a : Act} (h : Inv s) (hs : step s a = some s') {j b : Nat} (hj : j < s.n)
    (hb : b ∈ (s'.rs j).exec ∨ b ∈ (s'.rs j).adopt) :
    (b ∈ (s.rs j).exec ∨ b ∈ (s.rs j).adopt) ∨ ∃ r, a = .adopt b r := by
  cases a with
  | start i =>
    simp only [step] at hs
    split at hs
    · cases hs; exact .inl (mem_set hb id)
    · cases hs
  | enterMsg i =>
    simp only [step] at hs
    split at hs
    · split at hs
      · cases hs; exact .inl (mem_set hb id)
      · cases hs
    · cases hs
  | zombie i stopped =>
    simp only [step] at hs
    split at hs
    · next l hloc =>
      split at hs
      · next hc =>
        cases hs
        have hg : (s.rs i).pc.inGuard = true := by rw [hc.2]; rfl
        obtain ⟨E, zs, _, _, he⟩ := cleanupZombies_eq h hc.1 hloc ((h.ok i hc.1).locSub hloc hg) stopped
        rw [he] at hb
        refine .inl (mem_set (mem_set hb id) ?_)
        rintro (hb | hb)
        · exact .inl (List.mem_filter.1 hb).1
        · exact .inr hb
      · cases hs
    · cases hs
  | adoptAll i =>
    simp only [step] at hs
    split at hs
    · split at hs
      · cases hs
        refine .inl (mem_set hb ?_)
        simp only [adoptBlocks, List.mem_append, List.not_mem_nil, or_false]
        exact id
      · cases hs
    · cases hs
  | enterWork i =>
    simp only [step] at hs
    split at hs
    · split at hs
      · cases hs; exact .inl (mem_set hb id)
      · cases hs
    · cases hs
  | workOne i =>
    simp only [step] at hs
    split at hs
    · split at hs
      · cases hs; exact .inl (mem_set hb id)
      · cases hs
    · cases hs
  | leaveWork i final =>
    simp only [step] at hs
    split at hs
    · split at hs
      · cases hs; exact .inl (mem_set hb id)
      · cases hs
    · cases hs
  | adopt b' r =>
    simp only [step] at hs
    split at hs
    · cases hs; exact .inl hb
    · split at hs
      · cases hs
        by_cases e : b = b'
        · subst e; exact .inr ⟨r, rfl⟩
        · refine .inl (mem_set hb ?_)
          simp only [List.mem_append, List.mem_singleton, e, or_false]
          exact id
      · cases hs
  | remove bs =>
    simp only [step] at hs
    split at hs
    · cases hs
      simp only [removeBlocks, if_pos hj, List.mem_filter] at hb
      refine .inl ?_
      rcases hb with hb | hb
      · exact .inl hb.1
      · exact .inr hb.1
    · cases hs
  | makeZombie b' =>
    simp only [step, Option.some.injEq] at hs
    subst hs
    unfold makeZombie at hb
    split at hb
    · refine .inl (mem_set hb ?_)
      rintro (hb | hb)
      · exact .inl hb
      · exact .inr (List.mem_of_mem_erase hb)
    · exact .inl hb

theorem unscheduled_run {s s' : St} {as : List Act} {b : Nat} (h : Run Legal s as s') : Inv s → ¬Scheduled s b →
    (∀ r, Act.adopt b r ∉ as) → ¬Scheduled s' b := by
  induction h with
  | nil => intro _ h _; exact h
  | cons hl hs _ ih =>
    intro hi hn ha
    apply ih (inv_step hi hl hs)
    · rintro ⟨j, hj, hb⟩
      rw [n_step hs] at hj
      rcases scheduled_only_adopt hi hs hj hb with hb | ⟨r, e⟩
      · exact hn ⟨j, hj, hb⟩
      · exact ha r (by simp [e])
    · intro r hr; exact ha r (by simp [hr])

/-! ### the stronger invariant when blocks are only moved away after all workers have started -/

structure FOk (r : Runner) : Prop where
  unstarted : r.loc = none → r.moved = []
  same : ∀ l, r.loc = some l → l.filter (fun b => !r.moved.contains b) = r.exec
  stale : ∀ l, r.loc = some l → ∀ b ∈ r.moved, b ∈ l

def Full (s : St) : Prop := ∀ i, i < s.n → FOk (s.rs i)

theorem full_set {s : St} (h : Full s) {i : Nat} {r : Runner} (hr : FOk r) : Full (s.set i r) := by
  intro j hj
  by_cases e : j = i
  · subst e; simp only [St.set, upd_same]; exact hr
  · simp only [St.set, upd_ne _ _ e]; exact h j hj

theorem cleanupRemoved_full {r : Runner} (h : FOk r) {l : List Nat} (hl : r.loc = some l) (pc : Pc) :
    (cleanupRemoved r l).1.moved = [] ∧ (cleanupRemoved r l).2 = r.exec ∧ FOk { (cleanupRemoved r l).1 with pc := pc } := by
  have hm : r.moved.filter (fun b => !l.contains b) = [] := by
    rw [List.filter_eq_nil_iff]
    intro b hb
    simp [h.stale l hl b hb]
  refine ⟨hm, h.same l hl, ?_, ?_, ?_⟩
  · intro hn; simp [cleanupRemoved] at hn
  · intro l2 hl2
    simp only [cleanupRemoved, Option.some.injEq] at hl2 ⊢
    subst hl2
    rw [hm, filter_nil_moved]
    exact h.same l hl
  · intro l2 _ b hb
    simp only [cleanupRemoved, hm] at hb
    cases hb

theorem full_step {s s' : St} {a : Act} (hi : Inv s) (h : Full s) (hl : LegalStarted s a) (hs : step s a = some s') : Full s' := by
  cases a with
  | start i =>
    simp only [step] at hs
    split at hs
    · next hc =>
      cases hs
      have hr := h i hc.1
      have hm := hr.unstarted hc.2
      refine full_set h ⟨by intro hn; simp at hn, ?_, ?_⟩
      · intro l hl2
        simp only [Option.some.injEq] at hl2 ⊢
        subst hl2
        rw [hm, filter_nil_moved]
      · intro l _ b hb
        simp only [hm] at hb; cases hb
    · cases hs
  | enterMsg i =>
    simp only [step] at hs
    split at hs
    · next l hloc =>
      split at hs
      · next hc => cases hs; exact full_set h (cleanupRemoved_full (h i hc.1) hloc _).2.2
      · cases hs
    · cases hs
  | zombie i stopped =>
    simp only [step] at hs
    split at hs
    · next l hloc =>
      split at hs
      · next hc =>
        cases hs
        have hg : (s.rs i).pc.inGuard = true := by rw [hc.2]; rfl
        have hr := h i hc.1
        have ho := hi.ok i hc.1
        obtain ⟨E, zs, _, _, he⟩ := cleanupZombies_eq hi hc.1 hloc (ho.locSub hloc hg) stopped
        rw [he]
        have hm : (s.rs i).moved = [] := by
          cases hmm : (s.rs i).moved with
          | nil => rfl
          | cons x xs =>
            have hx : x ∈ (s.rs i).moved := by rw [hmm]; simp
            exact absurd hx (ho.clean l hloc hg x (hr.stale l hloc x hx))
        have hsame := hr.same l hloc
        rw [hm, filter_nil_moved] at hsame
        intro j hj
        by_cases e : j = i
        · subst e
          simp only [St.set, upd_same]
          refine ⟨by intro hn; simp at hn, ?_, ?_⟩
          · intro l2 hl2
            simp only [Option.some.injEq] at hl2 ⊢
            subst hl2
            rw [hm, filter_nil_moved, hsame]
          · intro l2 _ b hb
            simp only [hm] at hb; cases hb
        · simp only [St.set, upd_ne _ _ e]; exact h j hj
      · cases hs
    · cases hs
  | adoptAll i =>
    simp only [step] at hs
    split at hs
    · next l hloc =>
      split at hs
      · next hc =>
        cases hs
        have hg : (s.rs i).pc.inGuard = true := by rw [hc.2]; rfl
        have hr := h i hc.1
        have ho := hi.ok i hc.1
        have hm : (s.rs i).moved = [] := by
          cases hmm : (s.rs i).moved with
          | nil => rfl
          | cons x xs =>
            have hx : x ∈ (s.rs i).moved := by rw [hmm]; simp
            exact absurd hx (ho.clean l hloc hg x (hr.stale l hloc x hx))
        have hsame := hr.same l hloc
        rw [hm, filter_nil_moved] at hsame
        refine full_set h ⟨by intro hn; simp [adoptBlocks] at hn, ?_, ?_⟩
        · intro l2 hl2
          simp only [adoptBlocks, Option.some.injEq] at hl2 ⊢
          subst hl2
          rw [hm, filter_nil_moved, hsame]
        · intro l2 _ b hb
          simp only [adoptBlocks, hm] at hb; cases hb
      · cases hs
    · cases hs
  | enterWork i =>
    simp only [step] at hs
    split at hs
    · next l hloc =>
      split at hs
      · next hc => cases hs; exact full_set h (cleanupRemoved_full (h i hc.1) hloc _).2.2
      · cases hs
    · cases hs
  | workOne i =>
    simp only [step] at hs
    split at hs
    · split at hs
      · next hi => cases hs; exact full_set h ⟨(h i hi).unstarted, (h i hi).same, (h i hi).stale⟩
      · cases hs
    · cases hs
  | leaveWork i final =>
    simp only [step] at hs
    split at hs
    · split at hs
      · next hi => cases hs; exact full_set h ⟨(h i hi.1).unstarted, (h i hi.1).same, (h i hi.1).stale⟩
      · cases hs
    · cases hs
  | adopt b r =>
    simp only [step] at hs
    split at hs
    · cases hs; exact h
    · split at hs
      · next hi => cases hs; exact full_set h ⟨(h r hi).unstarted, (h r hi).same, (h r hi).stale⟩
      · cases hs
  | remove bs =>
    simp only [step] at hs
    split at hs
    · next hq =>
      cases hs
      intro i hi0
      have hi' : i < s.n := hi0
      have hr := h i hi'
      have hst := hl.2 bs rfl i hi'
      simp only [removeBlocks, if_pos hi']
      refine ⟨fun hn => absurd hn hst, ?_, ?_⟩
      · intro l hloc
        simp only at hloc ⊢
        have hsame := hr.same l hloc
        rw [remove_filter_eq _ (fun b hb => hsame ▸ hb), hsame]
      · intro l hloc b hb
        simp only at hloc hb
        rcases List.mem_append.1 hb with hb | hb
        · exact hr.stale l hloc b hb
        · have := (List.mem_filter.1 hb).1
          rw [← hr.same l hloc] at this
          exact (List.mem_filter.1 this).1
    · cases hs
  | makeZombie b =>
    simp only [step, Option.some.injEq] at hs
    subst hs
    unfold makeZombie
    split
    · next i hf =>
      obtain ⟨hi', _⟩ := find_first hf
      exact full_set h ⟨(h i hi').unstarted, (h i hi').same, (h i hi').stale⟩
    · exact h

theorem run_legal {s s' : St} {as : List Act} (h : Run LegalStarted s as s') : Run Legal s as s' := by
  induction h with
  | nil => exact .nil _
  | cons hl hs _ ih => exact .cons hl.1 hs ih

theorem full_run {s s' : St} {as : List Act} (h : Run LegalStarted s as s') : Inv s → Full s → Full s' := by
  induction h with
  | nil => intro _ h; exact h
  | cons hl hs _ ih => intro hi hf; exact ih (inv_step hi hl.1 hs) (full_step hi hf hl hs)

/-! ### an adopted block stays -/

/-- the step does not ask for `b` to go away -/
def Keeps (b : Nat) : Act → Prop
  | .remove bs => b ∉ bs
  | .makeZombie b' => b' ≠ b
  | _ => True

/-- `b` is in runner `i`'s job list (or, if `orWaiting`, waits to be adopted by it) and not a zombie -/
def Held (s : St) (i b : Nat) (orWaiting : Bool) : Prop :=
  i < s.n ∧ b ∉ s.zombies ∧ (b ∈ (s.rs i).exec ∨ (orWaiting = true ∧ b ∈ (s.rs i).adopt))

theorem held_set {s : St} {i j b : Nat} {w : Bool} {r : Runner} (h : Held s i b w)
    (he : ∀ x, x ∈ (s.rs j).exec → x ∈ r.exec) (ha : ∀ x, x ∈ (s.rs j).adopt → x ∈ r.adopt) : Held (s.set j r) i b w := by
  obtain ⟨h1, h2, h3⟩ := h
  refine ⟨h1, h2, ?_⟩
  by_cases e : i = j
  · subst e
    simp only [St.set, upd_same]
    rcases h3 with h3 | h3
    · exact .inl (he b h3)
    · exact .inr ⟨h3.1, ha b h3.2⟩
  · simp only [St.set, upd_ne _ _ e]; exact h3

theorem held_step {s s' : St} {a : Act} (h : Inv s) (hs : step s a = some s') {i b : Nat} {w : Bool} (hk : Keeps b a)
    (hh : Held s i b w) : Held s' i b w ∧ (a = .adoptAll i → Held s' i b false) := by
  cases a with
  | start k =>
    simp only [step] at hs
    split at hs
    · cases hs; exact ⟨held_set hh (fun _ h => h) (fun _ h => h), by simp⟩
    · cases hs
  | enterMsg k =>
    simp only [step] at hs
    split at hs
    · split at hs
      · cases hs; exact ⟨held_set hh (fun _ h => h) (fun _ h => h), by simp⟩
      · cases hs
    · cases hs
  | zombie k stopped =>
    simp only [step] at hs
    split at hs
    · next l hloc =>
      split at hs
      · next hc =>
        cases hs
        have hg : (s.rs k).pc.inGuard = true := by rw [hc.2]; rfl
        obtain ⟨E, zs, hE, hz, he⟩ := cleanupZombies_eq h hc.1 hloc ((h.ok k hc.1).locSub hloc hg) stopped
        rw [he]
        refine ⟨?_, by simp⟩
        obtain ⟨h1, h2, h3⟩ := hh
        refine ⟨h1, fun hb => h2 (hz b hb), ?_⟩
        by_cases e : i = k
        · subst e
          simp only [St.set, upd_same, List.mem_filter]
          rcases h3 with h3 | h3
          · exact .inl ⟨h3, by simpa using fun hb => h2 (hE b hb)⟩
          · exact .inr h3
        · simp only [St.set, upd_ne _ _ e]; exact h3
      · cases hs
    · cases hs
  | adoptAll k =>
    simp only [step] at hs
    split at hs
    · next l _ =>
      split at hs
      · cases hs
        obtain ⟨h1, h2, h3⟩ := hh
        by_cases e : i = k
        · subst e
          have : Held (s.set i { adoptBlocks (s.rs i) l with pc := .out }) i b false := by
            refine ⟨h1, h2, .inl ?_⟩
            simp only [St.set, upd_same, adoptBlocks, List.mem_append]
            rcases h3 with h3 | h3
            · exact .inl h3
            · exact .inr h3.2
          refine ⟨⟨this.1, this.2.1, .inl ?_⟩, fun _ => this⟩
          rcases this.2.2 with h | h
          · exact h
          · cases h.1
        · refine ⟨⟨h1, h2, ?_⟩, by simp; exact fun he => absurd he.symm e⟩
          simp only [St.set, upd_ne _ _ e]; exact h3
      · cases hs
    · cases hs
  | enterWork k =>
    simp only [step] at hs
    split at hs
    · split at hs
      · cases hs; exact ⟨held_set hh (fun _ h => h) (fun _ h => h), by simp⟩
      · cases hs
    · cases hs
  | workOne k =>
    simp only [step] at hs
    split at hs
    · split at hs
      · cases hs; exact ⟨held_set hh (fun _ h => h) (fun _ h => h), by simp⟩
      · cases hs
    · cases hs
  | leaveWork k final =>
    simp only [step] at hs
    split at hs
    · split at hs
      · cases hs; exact ⟨held_set hh (fun _ h => h) (fun _ h => h), by simp⟩
      · cases hs
    · cases hs
  | adopt b' r =>
    simp only [step] at hs
    split at hs
    · cases hs; exact ⟨hh, by simp⟩
    · split at hs
      · cases hs; exact ⟨held_set hh (fun _ h => h) (fun _ h => List.mem_append_left _ h), by simp⟩
      · cases hs
  | remove bs =>
    simp only [step] at hs
    split at hs
    · cases hs
      obtain ⟨h1, h2, h3⟩ := hh
      refine ⟨⟨h1, h2, ?_⟩, by simp⟩
      simp only [removeBlocks, if_pos h1, List.mem_filter]
      have hk' : b ∉ bs := hk
      rcases h3 with h3 | h3
      · refine .inl ⟨h3, ?_⟩
        simp only [List.contains_eq_mem, Bool.not_eq_true', decide_eq_false_iff_not]
        intro hb; exact hk' (mem_notAwaiting.1 hb).1
      · exact .inr ⟨h3.1, h3.2, by simpa using hk'⟩
    · cases hs
  | makeZombie b' =>
    simp only [step, Option.some.injEq] at hs
    subst hs
    refine ⟨?_, by simp⟩
    have hne : b' ≠ b := hk
    unfold makeZombie
    split
    · next k hf =>
      obtain ⟨h1, h2, h3⟩ := hh
      refine ⟨h1, h2, ?_⟩
      by_cases e : i = k
      · subst e
        simp only [St.set, upd_same]
        rcases h3 with h3 | h3
        · exact .inl h3
        · exact .inr ⟨h3.1, (List.mem_erase_of_ne (Ne.symm hne)).2 h3.2⟩
      · simp only [St.set, upd_ne _ _ e]; exact h3
    · obtain ⟨h1, h2, h3⟩ := hh
      refine ⟨h1, ?_, h3⟩
      simp only [List.mem_append, List.mem_singleton]
      rintro (h | h)
      · exact h2 h
      · exact hne h.symm

theorem held_run {s s' : St} {as : List Act} {i b : Nat} {w : Bool} (h : Run Legal s as s') : Inv s → (∀ a ∈ as, Keeps b a) →
    Held s i b w → Held s' i b w ∧ (Act.adoptAll i ∈ as → Held s' i b false) := by
  induction h generalizing w with
  | nil => intro _ _ h; exact ⟨h, by simp⟩
  | cons hl hs _ ih =>
    intro hi hk hh
    have h1 := held_step hi hs (hk _ (by simp)) hh
    have hi' := inv_step hi hl hs
    refine ⟨(ih hi' (fun a ha => hk a (by simp [ha])) h1.1).1, ?_⟩
    intro hm
    rcases List.mem_cons.1 hm with e | hm
    · exact (ih hi' (fun a ha => hk a (by simp [ha])) (h1.2 e.symm)).1
    · exact (ih hi' (fun a ha => hk a (by simp [ha])) h1.1).2 hm

end Verif.Sched.Dyn
