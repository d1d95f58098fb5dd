import Verif.Settings.Lemmas
/-! What every sequence of calls preserves. -/
namespace Verif.Settings

open Verif.Work.Tags (Key Map settingsKey insertOrAssign)

variable {V : Type}

/-- all keys of a map satisfy `P`, each occurs once -/
def KeysOk (P : Key → Prop) (m : Map V) : Prop := (m.map (·.1)).Nodup ∧ ∀ k ∈ m.map (·.1), P k

theorem KeysOk.nil (P : Key → Prop) : KeysOk P ([] : Map V) := ⟨List.nodup_nil, by simp⟩

theorem KeysOk.insert {P : Key → Prop} {m : Map V} (h : KeysOk P m) (k : Key) (v : V) (hk : P k) : KeysOk P (insertOrAssign m k v) := by
  refine ⟨nodup_insertOrAssign m k v h.1, fun j hj => ?_⟩
  rcases keys_insertOrAssign m k j v hj with rfl | hj
  · exact hk
  · exact h.2 j hj

theorem KeysOk.filter {P : Key → Prop} {m : Map V} (h : KeysOk P m) (p : Key × V → Bool) : KeysOk P (m.filter p) := by
  refine ⟨h.1.sublist ((List.filter_sublist).map _), fun j hj => ?_⟩
  obtain ⟨e, he, rfl⟩ := List.mem_map.1 hj
  exact h.2 _ (List.mem_map.2 ⟨e, (List.mem_filter.1 he).1, rfl⟩)

theorem KeysOk.insertMissing {P : Key → Prop} {m r : Map V} (h : KeysOk P m) (hr : ∀ k ∈ r.map (·.1), P k) : KeysOk P (insertMissing m r) := by
  unfold Settings.insertMissing
  induction r generalizing m with
  | nil => exact h
  | cons e r ih =>
    rw [List.foldl_cons]
    refine ih ?_ (fun k hk => hr k (by rw [List.map_cons]; exact List.mem_cons_of_mem _ hk))
    split
    · exact h
    · rename_i hn
      refine ⟨?_, ?_⟩
      · rw [List.map_append, List.nodup_append]
        refine ⟨h.1, by simp, ?_⟩
        intro a ha b hb
        simp only [List.map_cons, List.map_nil, List.mem_singleton] at hb
        obtain ⟨x, hx, rfl⟩ := List.mem_map.1 ha
        rw [hb]
        exact fun hk => hn (List.any_eq_true.2 ⟨x, hx, decide_eq_true hk⟩)
      · intro k hk
        rw [List.map_append, List.mem_append] at hk
        rcases hk with hk | hk
        · exact h.2 k hk
        · simp only [List.map_cons, List.map_nil, List.mem_singleton] at hk
          subst hk
          exact hr _ (by simp)

theorem KeysOk.stageLoop {cfg : Cfg V} {P : Key → Prop} (hP : ∀ k ∈ cfg.writable, P k) (ps : Map V) {m : Map V} (h : KeysOk P m) :
    KeysOk P (stageLoop cfg ps m).1 := by
  induction ps generalizing m with
  | nil => exact h
  | cons e r ih =>
    obtain ⟨k, x⟩ := e
    unfold Settings.stageLoop
    split
    · rename_i hc
      split
      · exact h
      · exact ih (h.insert _ _ (hP _ (by simpa using hc)))
    · exact ih h

theorem KeysOk.setLoop {cfg : Cfg V} {P : Key → Prop} (hP : ∀ k ∈ cfg.writable, P k) (ps : Map V) {m : Map V} (ks : List Key)
    (ret : Map V) (h : KeysOk P m) : KeysOk P (setLoop cfg ps m ks ret).1 := by
  induction ps generalizing m ks ret with
  | nil => exact h
  | cons e r ih =>
    obtain ⟨k, x⟩ := e
    unfold Settings.setLoop
    split
    · exact ih ks ret h
    · split
      · rename_i hc
        split
        · exact h
        · exact ih _ _ (h.insert _ _ (hP _ (by simpa using hc)))
      · exact ih _ _ h

theorem KeysOk.tagLoop [DecidableEq V] {cfg : Cfg V} {P : Key → Prop} (hP : ∀ k ∈ cfg.writable, P k) (active : Map V) (cc : Bool)
    (ks : List Key) (tag : Map V) {m : Map V} (ch : Bool) (h : KeysOk P m) : KeysOk P (tagLoop cfg active cc ks tag m ch).1 := by
  induction tag generalizing m ch with
  | nil => exact h
  | cons e r ih =>
    obtain ⟨k, x⟩ := e
    unfold Settings.tagLoop
    simp only []
    split
    · exact ih ch h
    · rename_i hc
      split
      · exact ih ch h
      · split
        · exact ih _ (h.insert _ _ (hP _ (by simpa using hc)))
        · exact ih ch h

theorem KeysOk.readFields {cfg : Cfg V} {P : Key → Prop} (hP : ∀ k ∈ cfg.readable, P k) (f : Key → V) {m : Map V} (h : KeysOk P m) :
    KeysOk P (readFields cfg f m) := by
  unfold Settings.readFields
  generalize cfg.readable = l at hP ⊢
  induction l generalizing m with
  | nil => exact h
  | cons k r ih =>
    rw [List.foldl_cons]
    exact ih (h.insert k _ (hP k List.mem_cons_self)) (fun j hj => hP j (List.mem_cons_of_mem _ hj))

/-- the invariant of all calls, for a set `P` of keys containing the members of the block -/
structure Inv (P : Key → Prop) (s : St V) : Prop where
  wf : WF s.stored
  staged : KeysOk P s.staged
  defaults : KeysOk P s.defaults
  entries : ∀ p ∈ s.stored, ∀ e ∈ p.2, KeysOk P e.settings

theorem Inv.fresh (P : Key → Prop) (f : Key → V) : Inv P (St.fresh f) :=
  ⟨⟨List.Pairwise.nil, fun p hp => by simp [St.fresh] at hp, fun p hp => by simp [St.fresh] at hp⟩, KeysOk.nil P, KeysOk.nil P,
    fun p hp => by simp [St.fresh] at hp⟩

theorem bestStored_mem (cfg : Cfg V) (s : Stored V) (ctx : Ctx) (m : Map V) (h : bestStored cfg s ctx = some m) :
    ∃ p ∈ s, ∃ e ∈ p.2, e.settings = m := by
  unfold bestStored at h
  split at h
  · cases h
  · rename_i b _
    split at h
    · cases h
    · rename_i v hv
      rw [Option.map_eq_some_iff] at h
      obtain ⟨e, he, rfl⟩ := h
      exact ⟨_, mem_of_storedFind s _ v hv, e, List.mem_of_find?_eq_some he, rfl⟩

theorem setStaged_stored (cfg : Cfg V) (s : St V) (ps : Map V) :
    (setStaged cfg s ps).1.stored = s.stored ∧ (setStaged cfg s ps).1.defaults = s.defaults ∧ (setStaged cfg s ps).1.auto = s.auto ∧
    (setStaged cfg s ps).1.activeCtx = s.activeCtx := ⟨rfl, rfl, rfl, rfl⟩

theorem activateAt_stored (cfg : Cfg V) (s : St V) (ctx : Ctx) :
    (activateAt cfg s ctx).1.stored = s.stored ∧ (activateAt cfg s ctx).1.defaults = s.defaults := by
  unfold activateAt
  split
  · exact ⟨rfl, rfl⟩
  · split
    · exact ⟨rfl, rfl⟩
    · split
      · exact ⟨rfl, rfl⟩
      · split
        · dsimp only
          split <;> exact ⟨rfl, rfl⟩
        · exact ⟨rfl, rfl⟩

theorem Inv.activateAt {cfg : Cfg V} {P : Key → Prop} (hP : ∀ k ∈ cfg.writable, P k) {s : St V} (h : Inv P s) (ctx : Ctx) :
    Inv P (activateAt cfg s ctx).1 := by
  have hst := activateAt_stored cfg s ctx
  refine ⟨hst.1 ▸ h.wf, ?_, hst.2 ▸ h.defaults, hst.1 ▸ h.entries⟩
  unfold Settings.activateAt
  split
  · exact h.staged
  · split
    · exact h.staged
    · split
      · exact h.staged
      · rename_i ps hps
        obtain ⟨p, hp, e, he, rfl⟩ := bestStored_mem cfg s.stored ctx ps hps
        split
        · dsimp only
          split <;> exact KeysOk.stageLoop hP _ h.staged
        · exact h.staged.insertMissing (h.entries p hp e he).2

theorem mem_expireAll (cfg : Cfg V) (now : Nat) (s : Stored V) (a : Auto) (p : Nat × List (Entry V)) (hp : p ∈ (expireAll cfg now s a).1) :
    ∃ q ∈ s, p.1 = q.1 ∧ p.2.Sublist q.2 := by
  induction s generalizing a with
  | nil => simp [expireAll] at hp
  | cons e r ih =>
    unfold expireAll at hp
    rcases List.mem_cons.1 hp with rfl | hp
    · exact ⟨e, List.mem_cons_self, rfl, expireVec_sublist cfg now e.2 a⟩
    · obtain ⟨q, hq, h1, h2⟩ := ih _ hp
      exact ⟨q, List.mem_cons_of_mem _ hq, h1, h2⟩

theorem mem_addStored (s : Stored V) (m : Map V) (c : Ctx) (p : Nat × List (Entry V))
    (hp : p ∈ addStored s m c) (e : Entry V) (he : e ∈ p.2) : e = ⟨c, m⟩ ∨ ∃ q ∈ s, e ∈ q.2 := by
  rcases mem_storedPut s _ _ p hp with rfl | hp
  · rcases (mem_insertEntry _ _ _).1 he with h | h
    · exact Or.inl h
    · cases hf : storedFind s c.context with
      | none => rw [hf] at h; simp at h
      | some v => rw [hf] at h; exact Or.inr ⟨_, mem_of_storedFind s _ v hf, h⟩
  · exact Or.inr ⟨p, hp, he⟩

theorem eraseTime_sublist (v : List (Entry V)) (t : Nat) : (eraseTime v t).Sublist v := by
  induction v with
  | nil => exact List.Sublist.refl _
  | cons e r ih =>
    unfold eraseTime
    split
    · exact List.sublist_cons_self e r
    · exact ih.cons_cons e

theorem Inv.addStored {P : Key → Prop} {s : St V} (h : Inv P s) (m : Map V) (hm : KeysOk P m) (c : Ctx) (a : Auto) :
    Inv P { s with stored := addStored s.stored m c, auto := a } := by
  refine ⟨addStored_wf _ _ _ h.wf, h.staged, h.defaults, ?_⟩
  intro p hp e he
  rcases mem_addStored s.stored m c p hp e he with rfl | ⟨q, hq, heq⟩
  · exact hm
  · exact h.entries q hq e heq

theorem Inv.expire {cfg : Cfg V} {P : Key → Prop} {s : St V} (h : Inv P s) (now : Nat) (a : Auto) (b : Auto) :
    Inv P { s with stored := (removeExpired cfg now s.stored a).1, auto := b } := by
  refine ⟨expireAll_wf cfg _ _ _ h.wf, h.staged, h.defaults, ?_⟩
  intro p hp e he
  obtain ⟨q, hq, _, hsub⟩ := mem_expireAll cfg _ _ _ p hp
  exact h.entries q hq e (hsub.subset he)

theorem Inv.setBase {cfg : Cfg V} {P : Key → Prop} {s : St V} (h : Inv P s) (c : Ctx) : KeysOk P (setBase cfg s c) := by
  unfold Settings.setBase
  cases hbs : bestStored cfg s.stored c with
  | none => exact h.defaults
  | some m =>
    obtain ⟨p, hp, e, he, rfl⟩ := bestStored_mem _ _ _ _ hbs
    exact h.entries p hp e he

theorem Inv.setAt {cfg : Cfg V} {P : Key → Prop} (hP : ∀ k ∈ cfg.writable, P k) {s : St V} (h : Inv P s) (now' : Nat) (ps : Map V)
    (c : Ctx) : Inv P (setAt cfg s now' ps c).1 := by
  unfold Settings.setAt
  dsimp only
  have hm : KeysOk P (setResult cfg s ps c).1 := KeysOk.setLoop hP ps _ _ (h.setBase c)
  split
  · exact ⟨h.wf, h.staged, h.defaults, h.entries⟩
  · exact (h.addStored _ hm c s.auto).expire now' _ _

theorem Inv.dropTime {P : Key → Prop} {s : St V} (h : Inv P s) (c : Nat) (v : List (Entry V)) (t : Nat)
    (hv : storedFind s.stored c = some v) : Inv P { s with stored := dropTime s.stored c v t } := by
  have hmem := mem_of_storedFind _ _ _ hv
  have hsub := eraseTime_sublist v t
  have hst : WF (Settings.dropTime s.stored c v t) ∧ ∀ p ∈ Settings.dropTime s.stored c v t, ∀ e ∈ p.2, KeysOk P e.settings := by
    unfold Settings.dropTime
    split
    · refine ⟨⟨h.wf.names.sublist List.filter_sublist, ?_, ?_⟩, ?_⟩
      · exact fun p hp => h.wf.own p (List.mem_filter.1 hp).1
      · exact fun p hp => h.wf.sorted p (List.mem_filter.1 hp).1
      · exact fun p hp => h.entries p (List.mem_filter.1 hp).1
    · refine ⟨storedPut_wf _ _ _ h.wf (fun e he => h.wf.own _ hmem e (hsub.subset he)) ((h.wf.sorted _ hmem).sublist hsub), ?_⟩
      intro p hp e he
      rcases mem_storedPut _ _ _ p hp with rfl | hp
      · exact h.entries _ hmem e (hsub.subset he)
      · exact h.entries p hp e he
  exact ⟨hst.1, h.staged, h.defaults, hst.2⟩

theorem Inv.removeContext {cfg : Cfg V} {P : Key → Prop} (hP : ∀ k ∈ cfg.writable, P k) {s : St V} (h : Inv P s) (now now' : Nat)
    (ctx : Ctx) : Inv P (removeContext cfg s now now' ctx).1 := by
  unfold Settings.removeContext
  split
  · exact h
  · split
    · exact h
    · rename_i v hv
      dsimp only
      split
      · have h1 := h.dropTime _ v (effTime cfg now ctx.time) hv
        split
        · exact Inv.activateAt hP h1 _
        · exact h1
      · exact h

theorem Inv.tagActivate {cfg : Cfg V} {P : Key → Prop} (hP : ∀ k ∈ cfg.writable, P k) {s : St V} (h : Inv P s) (now : Nat)
    (t : Map V) : Inv P (tagActivate cfg s now t).1 := by
  unfold Settings.tagActivate
  split
  · exact h
  · exact Inv.activateAt hP h _

theorem Inv.tag [DecidableEq V] {cfg : Cfg V} {P : Key → Prop} (hP : ∀ k ∈ cfg.writable, P k) {s : St V} (h : Inv P s) (now : Nat)
    (t : Map V) : Inv P (autoUpdate cfg s now t).1 := by
  unfold autoUpdate
  have hs1 := h.tagActivate hP now t
  split
  · exact ⟨h.wf, h.staged, h.defaults, h.entries⟩
  · dsimp only
    split
    · exact hs1
    · exact ⟨hs1.wf, KeysOk.tagLoop hP _ _ _ _ _ hs1.staged, hs1.defaults, hs1.entries⟩

theorem Inv.apply {cfg : Cfg V} {P : Key → Prop} (hR : ∀ k ∈ cfg.readable, P k) {s : St V} (h : Inv P s) (cb : (Key → V) → Key → V)
    (r : St V × Map V × Map V) (hr : apply cfg s cb = some r) : Inv P r.1 := by
  unfold Settings.apply at hr
  split at hr
  · cases hr
  · cases hr
    refine ⟨h.wf, KeysOk.nil P, ?_, h.entries⟩
    show KeysOk P (if _ then _ else _)
    split
    · exact h.defaults.readFields hR _
    · exact h.defaults

theorem Inv.resetStore {cfg : Cfg V} {P : Key → Prop} {s : St V} (h : Inv P s) (n1 : Nat) : Inv P (resetStore cfg s n1) :=
  h.addStored _ h.defaults _ _

theorem Inv.step [DecidableEq V] {cfg : Cfg V} {P : Key → Prop} (hP : ∀ k ∈ cfg.writable, P k) (hR : ∀ k ∈ cfg.readable, P k) {s : St V}
    (h : Inv P s) (o : Op V) (s' : St V) (hs : step cfg s o = some s') : Inv P s' := by
  cases o with
  | set n n' ps c => cases hs; exact h.setAt hP n' ps _
  | setStaged ps => cases hs; exact ⟨h.wf, KeysOk.stageLoop hP ps h.staged, h.defaults, h.entries⟩
  | activate n c => cases hs; exact Inv.activateAt hP h _
  | remove n n' c => cases hs; exact h.removeContext hP n n' c
  | tag n t => cases hs; exact h.tag hP n t
  | apply cb =>
    have hs' : (Settings.apply cfg s cb).map (·.1) = some s' := hs
    rw [Option.map_eq_some_iff] at hs'
    obtain ⟨r, hr, rfl⟩ := hs'
    exact h.apply hR cb r hr
  | storeDefaults => cases hs; exact ⟨h.wf, h.staged, h.defaults.readFields hR _, h.entries⟩
  | reset n1 n2 n3 cb =>
    have hs' : (resetDefaults cfg s n1 n2 n3 cb).map (·.1) = some s' := hs
    rw [Option.map_eq_some_iff] at hs'
    obtain ⟨r, hr, rfl⟩ := hs'
    unfold resetDefaults at hr
    dsimp only at hr
    have h2 := Inv.activateAt hP (h.resetStore (cfg := cfg) n1) ⟨effTime cfg n2 0, 0⟩
    split at hr
    · cases hr; exact h2
    · rw [Option.map_eq_some_iff] at hr
      obtain ⟨x, hx, rfl⟩ := hr
      exact (h2.apply hR cb _ hx).expire n3 _ _
  | touch f => cases hs; exact ⟨h.wf, h.staged, h.defaults, h.entries⟩

theorem Inv.run [DecidableEq V] {cfg : Cfg V} {P : Key → Prop} (hP : ∀ k ∈ cfg.writable, P k) (hR : ∀ k ∈ cfg.readable, P k) {s : St V}
    (h : Inv P s) (ops : List (Op V)) (s' : St V) (hs : run cfg s ops = some s') : Inv P s' := by
  induction ops generalizing s with
  | nil => cases hs; exact h
  | cons o r ih =>
    unfold Settings.run at hs
    rw [Option.bind_eq_some_iff] at hs
    obtain ⟨s1, h1, h2⟩ := hs
    exact ih (h.step hP hR o s1 h1) h2

theorem apply_some {cfg : Cfg V} {P : Key → Prop} {s : St V} (h : Inv P s) (hk : ¬ P resetKey) (cb : (Key → V) → Key → V) :
    ∃ r, apply cfg s cb = some r := by
  unfold apply
  rw [if_neg]
  · exact ⟨_, rfl⟩
  · intro hh
    obtain ⟨e, he, h1⟩ := List.any_eq_true.1 hh
    exact hk (of_decide_eq_true h1 ▸ h.staged.2 _ (List.mem_map.2 ⟨e, he, rfl⟩))

theorem step_some [DecidableEq V] {cfg : Cfg V} {P : Key → Prop} (hP : ∀ k ∈ cfg.writable, P k) {s : St V}
    (h : Inv P s) (hk : ¬ P resetKey) (o : Op V) : ∃ s', step cfg s o = some s' := by
  cases o with
  | set n n' ps c => exact ⟨_, rfl⟩
  | setStaged ps => exact ⟨_, rfl⟩
  | activate n c => exact ⟨_, rfl⟩
  | remove n n' c => exact ⟨_, rfl⟩
  | tag n t => exact ⟨_, rfl⟩
  | storeDefaults => exact ⟨_, rfl⟩
  | touch f => exact ⟨_, rfl⟩
  | apply cb =>
    obtain ⟨r, hr⟩ := apply_some (cfg := cfg) h hk cb
    exact ⟨r.1, by show (Settings.apply cfg s cb).map (·.1) = _; rw [hr]; rfl⟩
  | reset n1 n2 n3 cb =>
    show ∃ s', (resetDefaults cfg s n1 n2 n3 cb).map (·.1) = some s'
    unfold resetDefaults
    dsimp only
    have h2 := Inv.activateAt hP (h.resetStore (cfg := cfg) n1) ⟨effTime cfg n2 0, 0⟩
    split
    · exact ⟨_, rfl⟩
    · obtain ⟨r, hr⟩ := apply_some (cfg := cfg) h2 hk cb
      have hr' : apply cfg (activate cfg (resetStore cfg s n1) n2 ⟨0, 0⟩).1 cb = some r := hr
      rw [hr']
      exact ⟨_, rfl⟩

theorem run_some [DecidableEq V] {cfg : Cfg V} {P : Key → Prop} (hP : ∀ k ∈ cfg.writable, P k) (hR : ∀ k ∈ cfg.readable, P k) {s : St V}
    (h : Inv P s) (hk : ¬ P resetKey) (ops : List (Op V)) : ∃ s', run cfg s ops = some s' := by
  induction ops generalizing s with
  | nil => exact ⟨s, rfl⟩
  | cons o r ih =>
    obtain ⟨s1, h1⟩ := step_some hP h hk o
    obtain ⟨s2, h2⟩ := ih (h.step hP hR o s1 h1)
    exact ⟨s2, by unfold Settings.run; rw [h1]; exact h2⟩

end Verif.Settings
