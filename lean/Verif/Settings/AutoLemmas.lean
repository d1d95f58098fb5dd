import Verif.Settings.ExpireLemmas
/-! The auto-update sets. -/
namespace Verif.Settings

open Verif.Work.Tags (Key Map settingsKey insertOrAssign)

variable {V : Type}

theorem autoFind_put (a : Auto) (c d : Ctx) (ks : List Key) : autoFind (autoPut a c ks) d = if d = c then some ks else autoFind a d := by
  unfold autoPut
  split
  · rename_i h
    induction a with
    | nil => simp at h
    | cons e r ih =>
      have skip : ∀ (x : Ctx × List Key) (l : Auto), ¬ x.1 = d → autoFind (x :: l) d = autoFind l d := by
        intro x l hx; simp [autoFind, List.find?_cons, hx]
      have hit : ∀ (x : Ctx × List Key) (l : Auto), x.1 = d → autoFind (x :: l) d = some x.2 := by
        intro x l hx; simp [autoFind, List.find?_cons, hx]
      have other : ∀ (l : Auto), ¬ d = c → autoFind (l.map (fun e => if e.1 = c then (c, ks) else e)) d = autoFind l d := by
        intro l hdc
        induction l with
        | nil => rfl
        | cons x l ih2 =>
          rw [List.map_cons]
          by_cases hx : x.1 = c
          · rw [if_pos hx, skip _ _ (fun hh => hdc hh.symm), skip _ _ (fun hh => hdc (hh.symm.trans hx)), ih2]
          · rw [if_neg hx]
            by_cases hxd : x.1 = d
            · rw [hit _ _ hxd, hit _ _ hxd]
            · rw [skip _ _ hxd, skip _ _ hxd, ih2]
      by_cases hdc : d = c
      · rw [if_pos hdc, List.map_cons]
        by_cases he : e.1 = c
        · rw [if_pos he, hit _ _ hdc.symm]
        · rw [if_neg he, skip _ _ (fun hh => he (hh.trans hdc))]
          have hr : (r.any fun e => decide (e.1 = c)) = true := by simpa [he] using h
          rw [ih hr, if_pos hdc]
      · rw [if_neg hdc]
        exact other _ hdc
  · rename_i h
    have h' : ∀ e ∈ a, ¬ e.1 = c := fun e he hk => h (List.any_eq_true.2 ⟨e, he, decide_eq_true hk⟩)
    unfold autoFind
    rw [List.find?_append]
    by_cases hdc : d = c
    · subst hdc
      have : a.find? (fun e => decide (e.1 = d)) = none := List.find?_eq_none.2 (fun e he hk => h' e he (of_decide_eq_true hk))
      rw [this]; simp
    · have hcd : ¬ c = d := fun h => hdc h.symm
      rw [if_neg hdc]
      simp [List.find?_cons, hcd]

theorem autoFind_erase (a : Auto) (cs : List Ctx) (d : Ctx) :
    autoFind (eraseAuto a cs) d = if cs.contains d then none else autoFind a d := by
  unfold eraseAuto
  induction a with
  | nil => simp [autoFind]
  | cons e r ih =>
    rw [List.filter_cons]
    by_cases he : cs.contains e.1 = true
    · rw [if_neg (by rw [he]; decide), ih]
      by_cases hd : cs.contains d = true
      · rw [if_pos hd, if_pos hd]
      · rw [if_neg hd, if_neg hd]
        have : ¬ e.1 = d := fun hh => hd (hh ▸ he)
        simp [autoFind, List.find?_cons, this]
    · rw [if_pos (by simpa using he)]
      by_cases hed : e.1 = d
      · have : ¬ cs.contains d = true := hed ▸ he
        rw [if_neg this]
        simp [autoFind, List.find?_cons, hed]
      · have a1 : autoFind (e :: r.filter (fun e => !cs.contains e.1)) d = autoFind (r.filter (fun e => !cs.contains e.1)) d := by
          simp [autoFind, List.find?_cons, hed]
        have a2 : autoFind (e :: r) d = autoFind r d := by simp [autoFind, List.find?_cons, hed]
        rw [a1, a2, ih]

theorem expireVec_auto (cfg : Cfg V) (now : Nat) (v : List (Entry V)) (a : Auto) (h : cfg.expiry = noExpiry) :
    (expireVec cfg now v a).2 = eraseAuto a ((v.take (dropCount v now)).map (·.ctx)) := by
  unfold expireVec
  simp only [h, if_true]

/-- without expiry time, only the sets of dropped entries are erased -/
theorem expireAll_auto (cfg : Cfg V) (now : Nat) (s : Stored V) (a : Auto) (h : cfg.expiry = noExpiry) (d : Ctx) :
    (∀ ks, autoFind (expireAll cfg now s a).2 d = some ks → autoFind a d = some ks) ∧
    ((∀ p ∈ s, d ∉ (p.2.take (dropCount p.2 now)).map (·.ctx)) → autoFind (expireAll cfg now s a).2 d = autoFind a d) := by
  induction s generalizing a with
  | nil => exact ⟨fun ks hk => hk, fun _ => rfl⟩
  | cons e r ih =>
    have hstep : (expireAll cfg now (e :: r) a).2 = (expireAll cfg now r (expireVec cfg now e.2 a).2).2 := rfl
    rw [hstep]
    obtain ⟨h1, h2⟩ := ih (expireVec cfg now e.2 a).2
    constructor
    · intro ks hk
      have h3 := h1 ks hk
      rw [expireVec_auto cfg now _ _ h, autoFind_erase] at h3
      split at h3
      · cases h3
      · exact h3
    · intro hno
      rw [h2 (fun p hp => hno p (List.mem_cons_of_mem _ hp)), expireVec_auto cfg now _ _ h, autoFind_erase, if_neg]
      intro hc
      exact hno e List.mem_cons_self (by simpa using hc)

theorem searchVec_mem (v : List (Entry V)) (t : Nat) (b : Ctx) (h : searchVec v t = some b) : ∃ e ∈ v, e.ctx = b := by
  unfold searchVec at h
  cases hl : v.getLast? with
  | none => rw [hl] at h; cases h
  | some l =>
    rw [hl] at h
    dsimp only at h
    have hlm : l ∈ v := List.mem_of_getLast? hl
    split at h
    · cases h; exact ⟨l, hlm, rfl⟩
    · cases hi : v[lowerIdx v t]? with
      | none => rw [hi] at h; cases h; exact ⟨l, hlm, rfl⟩
      | some e =>
        rw [hi] at h
        dsimp only at h
        split at h
        · cases h; exact ⟨e, List.mem_of_getElem? hi, rfl⟩
        · split at h
          · rw [Option.map_eq_some_iff] at h
            obtain ⟨q, hq, rfl⟩ := h
            exact ⟨q, List.mem_of_getElem? hq, rfl⟩
          · cases h

theorem bestSettingsCtx_mem (cfg : Cfg V) (s : Stored V) (ctx b : Ctx) (h : bestSettingsCtx cfg s ctx = some b) :
    ∃ d, ∃ e ∈ entriesOf s d, e.ctx = b := by
  unfold bestSettingsCtx at h
  split at h
  · cases h
  · rename_i c _
    split at h
    · cases h
    · rename_i v hv
      obtain ⟨e, he, rfl⟩ := searchVec_mem v _ b h
      exact ⟨c, e, by unfold entriesOf; rw [hv]; exact he, rfl⟩

theorem setLoop_keys (cfg : Cfg V) (ps m : Map V) (ks : List Key) (ret : Map V) :
    (∀ k, k ∈ (setLoop cfg ps m ks ret).2.1 → k ∈ ks) ∧
    ((setLoop cfg ps m ks ret).2.2.2 = false → ∀ k ∈ namedKeys cfg ps, k ∉ (setLoop cfg ps m ks ret).2.1) := by
  induction ps generalizing m ks ret with
  | nil => exact ⟨fun k hk => hk, fun _ k hk => by simp [namedKeys] at hk⟩
  | cons e r ih =>
    obtain ⟨k0, x⟩ := e
    unfold setLoop
    by_cases hm : cfg.isMono x = true
    · rw [if_pos hm]
      refine ⟨(ih m ks ret).1, fun hf k hk => (ih m ks ret).2 hf k ?_⟩
      simpa [namedKeys, List.filter_cons, hm] using hk
    · rw [if_neg hm]
      by_cases hw : cfg.writable.contains (settingsKey k0) = true
      · rw [if_pos hw]
        cases hc : cfg.conv (settingsKey k0) x with
        | none => exact ⟨fun k hk => hk, fun hf => by cases hf⟩
        | some y =>
          dsimp only
          have ih' := ih (insertOrAssign m (settingsKey k0) y) (ks.filter (fun z => !decide (z = settingsKey k0))) ret
          refine ⟨fun k hk => (List.mem_filter.1 (ih'.1 k hk)).1, fun hf k hk hin => ?_⟩
          by_cases hkk : k = settingsKey k0
          · have := (List.mem_filter.1 (ih'.1 k hin)).2
            simp [hkk] at this
          · refine ih'.2 hf k ?_ hin
            unfold namedKeys at hk ⊢
            obtain ⟨p, hp, rfl⟩ := List.mem_map.1 hk
            obtain ⟨hp1, hp2⟩ := List.mem_filter.1 hp
            rcases List.mem_cons.1 hp1 with rfl | hp1
            · exact absurd rfl hkk
            · exact List.mem_map.2 ⟨p, List.mem_filter.2 ⟨hp1, hp2⟩, rfl⟩
      · rw [if_neg hw]
        refine ⟨(ih _ _ _).1, fun hf k hk => (ih _ _ _).2 hf k ?_⟩
        unfold namedKeys at hk ⊢
        obtain ⟨p, hp, rfl⟩ := List.mem_map.1 hk
        obtain ⟨hp1, hp2⟩ := List.mem_filter.1 hp
        rcases List.mem_cons.1 hp1 with rfl | hp1
        · simp only [Bool.and_eq_true] at hp2
          exact absurd hp2.2 hw
        · exact List.mem_map.2 ⟨p, List.mem_filter.2 ⟨hp1, hp2⟩, rfl⟩

/-- what sequences of calls with increasing times preserve -/
structure JInv (s : St V) (calls : List (Ctx × List Key)) : Prop where
  wf : WF s.stored
  strict : ∀ c, (entriesOf s.stored c).Pairwise (fun a b => a.ctx.time < b.ctx.time)
  slot : ∀ c, ∀ e ∈ entriesOf s.stored c, ∃ ks, autoFind s.auto e.ctx = some ks ∧
    ∀ x ∈ calls, x.1.context = c → x.1.time ≤ e.ctx.time → ∀ k ∈ x.2, k ∉ ks
  known : ∀ d ks, autoFind s.auto d = some ks → d.time = 0 ∨ ∃ x ∈ calls, x.1 = d
  act : s.activeCtx.time = 0 ∨ ∃ x ∈ calls, x.1 = s.activeCtx
  ent : ∀ c, ∀ e ∈ entriesOf s.stored c, ∃ x ∈ calls, x.1 = e.ctx
  cov : ∀ x ∈ calls, x.2 ≠ [] → ∃ e ∈ entriesOf s.stored x.1.context, x.1.time ≤ e.ctx.time

theorem JInv.congr {s s' : St V} {calls : List (Ctx × List Key)} (h : JInv s calls) (h1 : s'.stored = s.stored) (h2 : s'.auto = s.auto)
    (h3 : s'.activeCtx = s.activeCtx) : JInv s' calls :=
  ⟨h1 ▸ h.wf, h1 ▸ h.strict, h1 ▸ h2 ▸ h.slot, h2 ▸ h.known, h3 ▸ h.act, h1 ▸ h.ent, h1 ▸ h.cov⟩

/-- adding a set for a context absent so far that does not belong to a stored entry -/
theorem JInv.autoAdd {s : St V} {calls : List (Ctx × List Key)} (h : JInv s calls) (d : Ctx) (ks : List Key)
    (hn : autoFind s.auto d = none) (hk : d.time = 0 ∨ ∃ x ∈ calls, x.1 = d) (s' : St V) (h1 : s'.stored = s.stored)
    (h2 : ∀ x, autoFind s'.auto x = if x = d then some ks else autoFind s.auto x) (h3 : s'.activeCtx = s.activeCtx) : JInv s' calls := by
  refine ⟨h1 ▸ h.wf, h1 ▸ h.strict, ?_, ?_, h3 ▸ h.act, h1 ▸ h.ent, h1 ▸ h.cov⟩
  · rw [h1]
    intro c e he
    obtain ⟨l, hl, hl2⟩ := h.slot c e he
    refine ⟨l, ?_, hl2⟩
    rw [h2, if_neg]
    · exact hl
    · intro hh; rw [hh, hn] at hl; cases hl
  · intro x l hl
    rw [h2] at hl
    split at hl
    · rename_i hx; rw [hx]; exact hk
    · exact h.known x l hl

theorem ensureAuto_of_some (cfg : Cfg V) (s : Stored V) (a : Auto) (c : Ctx) (ks : List Key) (h : autoFind a c = some ks) :
    ensureAuto cfg s a c = a := by
  unfold ensureAuto; rw [h]

/-- activation changes neither the sets nor the auto-update sets, and only moves the active context to a stored one -/
theorem activateAt_shape (cfg : Cfg V) (s : St V) (calls : List (Ctx × List Key)) (h : JInv s calls) (ctx : Ctx) :
    (activateAt cfg s ctx).1.stored = s.stored ∧ (activateAt cfg s ctx).1.auto = s.auto ∧
    ((activateAt cfg s ctx).1.activeCtx = s.activeCtx ∨ ∃ d, ∃ e ∈ entriesOf s.stored d, e.ctx = (activateAt cfg s ctx).1.activeCtx) := by
  refine ⟨(activateAt_stored cfg s ctx).1, ?_⟩
  unfold activateAt
  split
  · exact ⟨rfl, Or.inl rfl⟩
  · rename_i b hb
    have hbm := bestSettingsCtx_mem cfg s.stored ctx b hb
    obtain ⟨d, e, he, rfl⟩ := hbm
    obtain ⟨ks, hks, _⟩ := h.slot d e he
    split
    · exact ⟨rfl, Or.inl rfl⟩
    · split
      · exact ⟨rfl, Or.inl rfl⟩
      · split
        · dsimp only
          rw [ensureAuto_of_some cfg s.stored s.auto e.ctx ks hks]
          split
          · exact ⟨rfl, Or.inl rfl⟩
          · exact ⟨rfl, Or.inr ⟨d, e, he, rfl⟩⟩
        · exact ⟨rfl, Or.inr ⟨d, e, he, rfl⟩⟩

theorem JInv.activateAt {cfg : Cfg V} {s : St V} {calls : List (Ctx × List Key)} (h : JInv s calls) (ctx : Ctx) :
    JInv (activateAt cfg s ctx).1 calls := by
  obtain ⟨h1, h2, h3⟩ := activateAt_shape cfg s calls h ctx
  refine ⟨h1 ▸ h.wf, h1 ▸ h.strict, h1 ▸ h2 ▸ h.slot, h2 ▸ h.known, ?_, h1 ▸ h.ent, h1 ▸ h.cov⟩
  rcases h3 with h3 | ⟨d, e, he, h3⟩
  · rw [h3]; exact h.act
  · rw [← h3]; exact Or.inr (h.ent d e he)

theorem JInv.expire {cfg : Cfg V} {s : St V} {calls : List (Ctx × List Key)} (h : JInv s calls) (hx : cfg.expiry = noExpiry) (now : Nat)
    (s' : St V) (h1 : s'.stored = (removeExpired cfg now s.stored s.auto).1) (h2 : s'.auto = (removeExpired cfg now s.stored s.auto).2)
    (h3 : s'.activeCtx = s.activeCtx) : JInv s' calls := by
  unfold removeExpired at h1 h2
  generalize (if cfg.wasm = true then now + 100 else now) = nw at h1 h2
  have he : ∀ d, entriesOf s'.stored d = (entriesOf s.stored d).drop (dropCount (entriesOf s.stored d) nw) := by
    intro d
    rw [h1, entriesOf_expire, expireVec_noExpiry _ _ _ _ hx]
  have hsort : ∀ c, Sorted (entriesOf s.stored c) := fun c => (h.strict c).imp (fun hh => Nat.le_of_lt hh)
  refine ⟨?_, ?_, ?_, ?_, h3 ▸ h.act, ?_, ?_⟩
  · rw [h1]; exact expireAll_wf _ _ _ _ h.wf
  · intro c; rw [he]; exact (h.strict c).sublist (List.drop_sublist _ _)
  · intro c e hec
    rw [he] at hec
    have hec' := (List.drop_sublist _ _).subset hec
    obtain ⟨ks, hks, hk2⟩ := h.slot c e hec'
    refine ⟨ks, ?_, hk2⟩
    rw [h2, (expireAll_auto cfg nw s.stored s.auto hx e.ctx).2, hks]
    intro p hp hin
    obtain ⟨q, hq, hqe⟩ := List.mem_map.1 hin
    have hpf := storedFind_of_mem s.stored h.wf.names p hp
    have hpe : entriesOf s.stored p.1 = p.2 := by unfold entriesOf; rw [hpf]; rfl
    have hqm : q ∈ p.2 := (List.take_sublist _ _).subset hq
    have hpc : p.1 = c := by
      have := h.wf.own p hp q hqm
      rw [← this, hqe]
      exact h.wf.entries_own c e hec'
    rw [← hpe, hpc] at hq
    have hst := h.strict c
    rw [← List.take_append_drop (dropCount (entriesOf s.stored c) nw) (entriesOf s.stored c), List.pairwise_append] at hst
    have := hst.2.2 q hq e hec
    rw [hqe] at this
    omega
  · intro d ks hks
    rw [h2] at hks
    exact h.known d ks ((expireAll_auto cfg nw s.stored s.auto hx d).1 ks hks)
  · intro c e hec
    rw [he] at hec
    exact h.ent c e ((List.drop_sublist _ _).subset hec)
  · intro x hxm hne
    obtain ⟨e, hem, hle⟩ := h.cov x hxm hne
    rw [he]
    obtain ⟨i, hi⟩ := mem_getElem? _ e hem
    rcases expire_cover _ nw (hsort _) i e hi with h4 | ⟨j, q, _, _, hq, h5, _⟩
    · exact ⟨e, h4, hle⟩
    · exact ⟨q, hq, by omega⟩

/-- the set a fresh, later context starts from lacks everything set explicitly so far -/
theorem fresh_slot {cfg : Cfg V} {s : St V} {calls : List (Ctx × List Key)} (h : JInv s calls) (c : Ctx) (hpos : 0 < c.time)
    (hfresh : ∀ y ∈ calls, y.1.context = c.context → y.1.time < c.time) :
    autoFind s.auto c = none ∧ ∃ ks, (∀ x, autoFind (ensureAuto cfg s.stored s.auto c) x = if x = c then some ks else autoFind s.auto x) ∧
      ∀ x ∈ calls, x.1.context = c.context → ∀ k ∈ x.2, k ∉ ks := by
  have hnone : autoFind s.auto c = none := by
    cases hf : autoFind s.auto c with
    | none => rfl
    | some ks =>
      rcases h.known c ks hf with h0 | ⟨x, hx, hxc⟩
      · omega
      · have := hfresh x hx (by rw [hxc])
        rw [hxc] at this; omega
  refine ⟨hnone, ?_⟩
  unfold ensureAuto
  rw [hnone]
  dsimp only
  have hput : ∀ ks, ∀ x, autoFind (autoPut s.auto c ks) x = if x = c then some ks else autoFind s.auto x := fun ks x => autoFind_put _ _ _ _
  by_cases hv : entriesOf s.stored c.context = []
  · -- nothing stored: nothing was set explicitly
    have hvac : ∀ ks : List Key, ∀ x ∈ calls, x.1.context = c.context → ∀ k ∈ x.2, k ∉ ks := by
      intro ks x hx hxc k hk
      obtain ⟨e, he, _⟩ := h.cov x hx (fun hh => by rw [hh] at hk; simp at hk)
      rw [hxc, hv] at he
      simp at he
    cases bestAuto cfg s.stored s.auto c with
    | none => exact ⟨_, hput _, hvac _⟩
    | some ks => exact ⟨_, hput _, hvac _⟩
  · -- the latest stored set is the best match
    cases hf : storedFind s.stored c.context with
    | none => exfalso; apply hv; unfold entriesOf; rw [hf]; rfl
    | some v =>
      have hev : entriesOf s.stored c.context = v := by unfold entriesOf; rw [hf]; rfl
      rw [hev] at hv
      have hmem := mem_of_storedFind _ _ _ hf
      have hany : s.stored.any (fun e => decide (e.1 = c.context)) = true := List.any_eq_true.2 ⟨_, hmem, by simp⟩
      have hne : s.stored.isEmpty = false := by
        cases hs : s.stored with
        | nil => rw [hs] at hmem; simp at hmem
        | cons a r => rfl
      have hbc : bestCtx cfg s.stored c.context = some c.context := by
        unfold bestCtx
        rw [hne, hany]; rfl
      have hl : v.getLast? = some (v.getLast hv) := List.getLast?_eq_some_getLast hv
      have hlm : v.getLast hv ∈ v := List.getLast_mem hv
      obtain ⟨x0, hx0, hx0c⟩ := h.ent c.context (v.getLast hv) (hev ▸ hlm)
      have hown := h.wf.entries_own c.context (v.getLast hv) (hev ▸ hlm)
      have hlt : (v.getLast hv).ctx.time < c.time := by
        have := hfresh x0 hx0 (by rw [hx0c]; exact hown)
        rw [hx0c] at this; exact this
      have hbs : bestSettingsCtx cfg s.stored c = some (v.getLast hv).ctx := by
        unfold bestSettingsCtx
        rw [hbc]
        dsimp only
        rw [hf]
        dsimp only
        unfold searchVec
        rw [hl]
        dsimp only
        rw [if_pos (Or.inr (by omega))]
      obtain ⟨ks, hks, hk2⟩ := h.slot c.context (v.getLast hv) (hev ▸ hlm)
      have hba : bestAuto cfg s.stored s.auto c = some ks := by
        unfold bestAuto; rw [hbs]; exact hks
      rw [hba]
      refine ⟨ks, hput ks, fun x hx hxc k hk => ?_⟩
      obtain ⟨e, he, hle⟩ := h.cov x hx (fun hh => by rw [hh] at hk; simp at hk)
      rw [hxc, hev] at he
      have hsort : Sorted v := hev ▸ h.wf.entries_sorted c.context
      have := getLast_ge v hsort _ e hl he
      exact hk2 x hx hxc (by omega) k hk

/-- storing a later set with an auto-update set that lacks everything set explicitly so far and now -/
theorem JInv.addCall {s : St V} {calls : List (Ctx × List Key)} (h : JInv s calls) (c : Ctx) (m : Map V) (ks keys : List Key)
    (hnone : autoFind s.auto c = none) (hfresh : ∀ y ∈ calls, y.1.context = c.context → y.1.time < c.time)
    (h1 : ∀ x ∈ calls, x.1.context = c.context → ∀ k ∈ x.2, k ∉ ks) (h2 : ∀ k ∈ keys, k ∉ ks) (s' : St V)
    (hs : s'.stored = addStored s.stored m c) (ha : ∀ x, autoFind s'.auto x = if x = c then some ks else autoFind s.auto x)
    (hact : s'.activeCtx = s.activeCtx) : JInv s' ((c, keys) :: calls) := by
  have he : ∀ d, entriesOf s'.stored d = if d = c.context then insertEntry (entriesOf s.stored d) ⟨c, m⟩ else entriesOf s.stored d := by
    intro d; rw [hs]; exact entriesOf_add s.stored m c d h.wf
  have hearlier : ∀ x ∈ entriesOf s.stored c.context, x.ctx.time < c.time := by
    intro x hx
    obtain ⟨y, hy, hyc⟩ := h.ent _ x hx
    have := hfresh y hy (by rw [hyc]; exact h.wf.entries_own _ x hx)
    rw [hyc] at this; exact this
  refine ⟨hs ▸ addStored_wf _ _ _ h.wf, ?_, ?_, ?_, ?_, ?_, ?_⟩
  · intro d
    rw [he]
    split
    · rename_i hd
      refine strict_insert _ _ (h.strict d) (fun x hx => ?_)
      rw [hd] at hx
      have := hearlier x hx
      show x.ctx.time ≠ c.time
      omega
    · exact h.strict d
  · intro d e hed
    rw [he] at hed
    have old : ∀ e ∈ entriesOf s.stored d, ∃ ks, autoFind s'.auto e.ctx = some ks ∧
        ∀ x ∈ (c, keys) :: calls, x.1.context = d → x.1.time ≤ e.ctx.time → ∀ k ∈ x.2, k ∉ ks := by
      intro e he
      obtain ⟨l, hl, hl2⟩ := h.slot d e he
      refine ⟨l, ?_, ?_⟩
      · rw [ha, if_neg]
        · exact hl
        · intro hh; rw [hh, hnone] at hl; cases hl
      · intro x hx hxd hxt k hk
        rcases List.mem_cons.1 hx with rfl | hx
        · exfalso
          have hcd : c.context = d := hxd
          rw [← hcd] at he
          have := hearlier e he
          have h' : c.time ≤ e.ctx.time := hxt
          omega
        · exact hl2 x hx hxd hxt k hk
    by_cases hdc : d = c.context
    · rw [if_pos hdc] at hed
      rcases (mem_insertEntry _ _ _).1 hed with rfl | hed
      · refine ⟨ks, by rw [ha, if_pos rfl], ?_⟩
        intro x hx hxd hxt k hk
        rcases List.mem_cons.1 hx with rfl | hx
        · exact h2 k hk
        · exact h1 x hx (hxd.trans hdc) k hk
      · exact old e hed
    · rw [if_neg hdc] at hed
      exact old e hed
  · intro x l hl
    rw [ha] at hl
    split at hl
    · rename_i hx; exact Or.inr ⟨_, List.mem_cons_self, hx.symm⟩
    · rcases h.known x l hl with h0 | ⟨y, hy, hyx⟩
      · exact Or.inl h0
      · exact Or.inr ⟨y, List.mem_cons_of_mem _ hy, hyx⟩
  · rw [hact]
    rcases h.act with h0 | ⟨y, hy, hyx⟩
    · exact Or.inl h0
    · exact Or.inr ⟨y, List.mem_cons_of_mem _ hy, hyx⟩
  · intro d e hed
    rw [he] at hed
    have old : ∀ e ∈ entriesOf s.stored d, ∃ x ∈ (c, keys) :: calls, x.1 = e.ctx := fun e he => by
      obtain ⟨y, hy, hyx⟩ := h.ent d e he
      exact ⟨y, List.mem_cons_of_mem _ hy, hyx⟩
    split at hed
    · rcases (mem_insertEntry _ _ _).1 hed with rfl | hed
      · exact ⟨_, List.mem_cons_self, rfl⟩
      · exact old e hed
    · exact old e hed
  · intro x hx hne
    rcases List.mem_cons.1 hx with rfl | hx
    · refine ⟨⟨c, m⟩, ?_, Nat.le_refl _⟩
      show _ ∈ entriesOf s'.stored c.context
      rw [he, if_pos rfl]
      exact (mem_insertEntry _ _ _).2 (Or.inl rfl)
    · obtain ⟨e, he1, hle⟩ := h.cov x hx hne
      refine ⟨e, ?_, hle⟩
      rw [he]
      split
      · exact (mem_insertEntry _ _ _).2 (Or.inr he1)
      · exact he1

theorem JInv.weaken {s : St V} {calls : List (Ctx × List Key)} (h : JInv s calls) (c : Ctx) : JInv s ((c, []) :: calls) := by
  refine ⟨h.wf, h.strict, ?_, ?_, ?_, ?_, ?_⟩
  · intro d e he
    obtain ⟨ks, h1, h2⟩ := h.slot d e he
    refine ⟨ks, h1, fun x hx hxd hxt k hk => ?_⟩
    rcases List.mem_cons.1 hx with rfl | hx
    · simp at hk
    · exact h2 x hx hxd hxt k hk
  · intro d ks hks
    rcases h.known d ks hks with h0 | ⟨y, hy, hyx⟩
    · exact Or.inl h0
    · exact Or.inr ⟨y, List.mem_cons_of_mem _ hy, hyx⟩
  · rcases h.act with h0 | ⟨y, hy, hyx⟩
    · exact Or.inl h0
    · exact Or.inr ⟨y, List.mem_cons_of_mem _ hy, hyx⟩
  · intro d e he
    obtain ⟨y, hy, hyx⟩ := h.ent d e he
    exact ⟨y, List.mem_cons_of_mem _ hy, hyx⟩
  · intro x hx hne
    rcases List.mem_cons.1 hx with rfl | hx
    · exact absurd rfl hne
    · exact h.cov x hx hne

theorem JInv.setAt {cfg : Cfg V} {s : St V} {calls : List (Ctx × List Key)} (h : JInv s calls) (hx : cfg.expiry = noExpiry) (now' : Nat)
    (ps : Map V) (c : Ctx) (hpos : 0 < c.time) (hfresh : ∀ y ∈ calls, y.1.context = c.context → y.1.time < c.time) :
    JInv (setAt cfg s now' ps c).1 ((c, if (setResult cfg s ps c).2.2.2 then [] else namedKeys cfg ps) :: calls) := by
  obtain ⟨hnone, ks, hks, hk2⟩ := fresh_slot (cfg := cfg) h c hpos hfresh
  have hloop := setLoop_keys cfg ps (setBase cfg s c) ((autoFind (ensureAuto cfg s.stored s.auto c) c).getD []) []
  have hslot : (autoFind (ensureAuto cfg s.stored s.auto c) c).getD [] = ks := by rw [hks, if_pos rfl]; rfl
  have hput : ∀ x, autoFind (autoPut (ensureAuto cfg s.stored s.auto c) c (setResult cfg s ps c).2.1) x =
      if x = c then some (setResult cfg s ps c).2.1 else autoFind s.auto x := by
    intro x
    rw [autoFind_put, hks]
    split <;> rfl
  unfold Settings.setAt
  dsimp only
  cases ht : (setResult cfg s ps c).2.2.2 with
  | true =>
    rw [if_pos rfl, if_pos rfl]
    exact (h.weaken c).autoAdd c _ hnone (Or.inr ⟨_, List.mem_cons_self, rfl⟩) _ rfl hput rfl
  | false =>
    rw [if_neg (by decide), if_neg (by decide)]
    have hk3 : ∀ x ∈ calls, x.1.context = c.context → ∀ k ∈ x.2, k ∉ (setResult cfg s ps c).2.1 := by
      intro x hx hxc k hk hin
      have : k ∈ ks := hslot ▸ hloop.1 k hin
      exact hk2 x hx hxc k hk this
    let s1 : St V := ⟨addStored s.stored (setResult cfg s ps c).1 c, s.defaults,
      ensureAuto cfg s.stored (autoPut (ensureAuto cfg s.stored s.auto c) c (setResult cfg s ps c).2.1) c, s.activeCtx, s.staged, s.active,
      s.fields, s.changed⟩
    have hadd : JInv s1 ((c, namedKeys cfg ps) :: calls) := by
      refine h.addCall c _ (setResult cfg s ps c).2.1 (namedKeys cfg ps) hnone hfresh hk3 (hloop.2 ht) _ rfl ?_ rfl
      have h1 : autoFind (autoPut (ensureAuto cfg s.stored s.auto c) c (setResult cfg s ps c).2.1) c = some (setResult cfg s ps c).2.1 := by
        rw [hput, if_pos rfl]
      intro x
      show autoFind (ensureAuto cfg s.stored (autoPut (ensureAuto cfg s.stored s.auto c) c (setResult cfg s ps c).2.1) c) x = _
      rw [ensureAuto_of_some cfg _ _ _ _ h1]
      exact hput x
    exact hadd.expire hx now' _ rfl rfl rfl

theorem JInv.tagActivate {cfg : Cfg V} {s : St V} {calls : List (Ctx × List Key)} (h : JInv s calls) (now : Nat) (t : Map V) :
    JInv (tagActivate cfg s now t).1 calls := by
  unfold Settings.tagActivate
  split
  · exact h
  · exact h.activateAt _

theorem tagActivate_ctx {cfg : Cfg V} {s : St V} (now : Nat) (t : Map V) (b : Ctx) (h : (tagActivate cfg s now t).2.1 = some b) :
    ∃ d, ∃ e ∈ entriesOf s.stored d, e.ctx = b := by
  unfold tagActivate at h
  split at h
  · cases h
  · rename_i c _
    unfold activate activateAt at h
    split at h
    · cases h
    · rename_i b' hb
      have hm := bestSettingsCtx_mem cfg s.stored _ b' hb
      split at h
      · cases h; exact hm
      · split at h
        · dsimp only at h
          split at h
          · cases h; exact hm
          · cases h
        · split at h
          · dsimp only at h
            split at h <;> (cases h; exact hm)
          · cases h; exact hm

theorem JInv.tag [DecidableEq V] {cfg : Cfg V} {s : St V} {calls : List (Ctx × List Key)} (h : JInv s calls) (now : Nat) (t : Map V) :
    JInv (autoUpdate cfg s now t).1 calls := by
  unfold autoUpdate
  have h1 := h.tagActivate (cfg := cfg) now t
  split
  · exact h.congr rfl rfl rfl
  · dsimp only
    split
    · exact h1
    · have hknown : (((Settings.tagActivate cfg s now t).2.1).getD (Settings.tagActivate cfg s now t).1.activeCtx).time = 0 ∨
          ∃ x ∈ calls, x.1 = ((Settings.tagActivate cfg s now t).2.1).getD (Settings.tagActivate cfg s now t).1.activeCtx := by
        cases hb : (Settings.tagActivate cfg s now t).2.1 with
        | none => exact h1.act
        | some b =>
          obtain ⟨d, e, he, rfl⟩ := tagActivate_ctx now t b hb
          exact Or.inr (h.ent d e he)
      generalize hg : ((Settings.tagActivate cfg s now t).2.1).getD (Settings.tagActivate cfg s now t).1.activeCtx = ctx at hknown
      cases hf : autoFind (Settings.tagActivate cfg s now t).1.auto ctx with
      | some ks =>
        refine h1.congr rfl ?_ rfl
        show tagAuto cfg _ _ _ = _
        unfold tagAuto
        rw [hf]
      | none =>
        have hta : ∃ ks, ∀ x, autoFind (tagAuto cfg (Settings.tagActivate cfg s now t).1.stored (Settings.tagActivate cfg s now t).1.auto ctx) x =
            if x = ctx then some ks else autoFind (Settings.tagActivate cfg s now t).1.auto x := by
          unfold tagAuto
          rw [hf]
          dsimp only
          cases bestAuto cfg (Settings.tagActivate cfg s now t).1.stored (autoPut (Settings.tagActivate cfg s now t).1.auto ctx []) ctx with
          | some ks => exact ⟨ks, fun x => by rw [autoFind_put, autoFind_put]; split <;> rfl⟩
          | none => exact ⟨cfg.writable, fun x => by rw [autoFind_put, autoFind_put]; split <;> rfl⟩
        obtain ⟨ks, hks⟩ := hta
        exact h1.autoAdd ctx ks hf hknown _ rfl hks rfl

theorem Calls.inv [DecidableEq V] {cfg : Cfg V} {f : Key → V} (hx : cfg.expiry = noExpiry) {s : St V} {calls : List (Ctx × List Key)}
    (h : Calls cfg f s calls) : JInv s calls := by
  induction h with
  | init =>
    refine ⟨⟨List.Pairwise.nil, fun p hp => ?_, fun p hp => ?_⟩, fun c => ?_, fun c e he => ?_, fun d ks hd => ?_, Or.inl rfl,
      fun c e he => ?_, fun x hx => ?_⟩
    · simp [St.fresh] at hp
    · simp [St.fresh] at hp
    · exact List.Pairwise.nil
    · simp [St.fresh, entriesOf, storedFind] at he
    · simp [St.fresh, autoFind] at hd
    · simp [St.fresh, entriesOf, storedFind] at he
    · simp at hx
  | step o s' h hrem hs hd ih =>
    rename_i s calls
    cases o with
    | set n n' ps ctx =>
      cases hs
      have hd' := hd _ rfl
      exact ih.setAt hx n' ps _ hd'.1 hd'.2
    | setStaged ps => cases hs; exact ih.congr rfl rfl rfl
    | activate n c => cases hs; exact ih.activateAt _
    | remove n n' c => cases hrem
    | tag n t => cases hs; exact ih.tag n t
    | apply cb =>
      have hs' : (Settings.apply cfg s cb).map (·.1) = some s' := hs
      rw [Option.map_eq_some_iff] at hs'
      obtain ⟨r, hr, rfl⟩ := hs'
      obtain ⟨h1, h2, h3⟩ := apply_stored cfg s cb r hr
      exact ih.congr h1 h2 h3
    | storeDefaults => cases hs; exact ih.congr rfl rfl rfl
    | reset n1 n2 n3 cb =>
      have hs' : (resetDefaults cfg s n1 n2 n3 cb).map (·.1) = some s' := hs
      rw [Option.map_eq_some_iff] at hs'
      obtain ⟨r, hr, rfl⟩ := hs'
      unfold resetDefaults at hr
      dsimp only at hr
      have hd' := hd _ rfl
      have h1 : JInv (resetStore cfg s n1) ((if cfg.wasm = true then resolveDup s.stored ⟨n1, 0⟩ else ⟨n1, 0⟩, []) :: calls) := by
        obtain ⟨hnone, ks, hks, hk2⟩ := fresh_slot (cfg := cfg) ih _ hd'.1 hd'.2
        exact ih.addCall _ _ ks [] hnone hd'.2 hk2 (by simp) _ rfl hks rfl
      have h2 := h1.activateAt (cfg := cfg) ⟨effTime cfg n2 0, 0⟩
      split at hr
      · cases hr; exact h2
      · rw [Option.map_eq_some_iff] at hr
        obtain ⟨x, hxx, rfl⟩ := hr
        obtain ⟨e1, e2, e3⟩ := apply_stored cfg _ cb x hxx
        have h3 : JInv x.1 ((if cfg.wasm = true then resolveDup s.stored ⟨n1, 0⟩ else ⟨n1, 0⟩, []) :: calls) := h2.congr e1 e2 e3
        exact h3.expire hx n3 _ rfl rfl rfl
    | touch g => cases hs; exact ih.congr rfl rfl rfl

theorem tagLoop_spares [DecidableEq V] (cfg : Cfg V) (active : Map V) (cc : Bool) (ks : List Key) (tag m : Map V) (ch : Bool) (k : Key)
    (hk : k ∉ ks) : get (tagLoop cfg active cc ks tag m ch).1 k = get m k := by
  induction tag generalizing m ch with
  | nil => rfl
  | cons e r ih =>
    obtain ⟨j, x⟩ := e
    unfold tagLoop
    dsimp only
    split
    · exact ih m ch
    · split
      · exact ih m ch
      · split
        · rename_i hc
          rw [ih, get_insertOrAssign, if_neg]
          intro hh
          simp only [Bool.and_eq_true] at hc
          exact hk (hh ▸ (by simpa using hc.1))
        · exact ih m ch

theorem tagLoop_from [DecidableEq V] (cfg : Cfg V) (active : Map V) (cc : Bool) (ks : List Key) (tag m : Map V) (ch : Bool) (k : Key) :
    get (tagLoop cfg active cc ks tag m ch).1 k = get m k ∨
    ∃ e ∈ tag, settingsKey e.1 = k ∧ get (tagLoop cfg active cc ks tag m ch).1 k = some e.2 := by
  induction tag generalizing m ch with
  | nil => exact Or.inl rfl
  | cons e r ih =>
    obtain ⟨j, x⟩ := e
    have lift : ∀ m' ch', (get (tagLoop cfg active cc ks r m' ch').1 k = get m' k ∨
        ∃ e ∈ r, settingsKey e.1 = k ∧ get (tagLoop cfg active cc ks r m' ch').1 k = some e.2) → get m' k = get m k →
        (get (tagLoop cfg active cc ks r m' ch').1 k = get m k ∨
        ∃ e ∈ (j, x) :: r, settingsKey e.1 = k ∧ get (tagLoop cfg active cc ks r m' ch').1 k = some e.2) := by
      intro m' ch' h1 h2
      rcases h1 with h1 | ⟨e, he, h3, h4⟩
      · exact Or.inl (h1.trans h2)
      · exact Or.inr ⟨e, List.mem_cons_of_mem _ he, h3, h4⟩
    unfold tagLoop
    dsimp only
    split
    · exact lift m ch (ih m ch) rfl
    · split
      · exact lift m ch (ih m ch) rfl
      · split
        · by_cases hkj : k = settingsKey j
          · rcases ih (insertOrAssign m (settingsKey j) x) true with h1 | ⟨e, he, h3, h4⟩
            · right
              refine ⟨(j, x), List.mem_cons_self, hkj.symm, ?_⟩
              rw [h1, get_insertOrAssign, if_pos hkj]
            · exact Or.inr ⟨e, List.mem_cons_of_mem _ he, h3, h4⟩
          · exact lift _ _ (ih _ _) (by rw [get_insertOrAssign, if_neg hkj])
        · exact lift m ch (ih m ch) rfl

end Verif.Settings
