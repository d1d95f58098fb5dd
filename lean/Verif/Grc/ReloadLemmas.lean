import Verif.Grc.ReloadSpec
import Verif.Settings.Props
/-!
# Lemmas about loading settings
-/
namespace Verif.Settings

open Verif.Work.Tags (Key Map settingsKey insertOrAssign)

variable {V : Type}

/-- the writable part -/
def writableOf (cfg : Cfg V) (ps : Map V) : Map V := ps.filter fun e => cfg.writable.contains e.1

theorem Stable.writable {cfg : Cfg V} {ps : Map V} (h : Stable cfg ps) (e : Key × V) (he : e ∈ writableOf cfg ps) :
    cfg.writable.contains e.1 = true ∧ cfg.isMono e.2 = false ∧ settingsKey e.1 = e.1 ∧ cfg.conv e.1 e.2 = some e.2 := by
  obtain ⟨h1, h2⟩ := List.mem_filter.1 he
  exact ⟨h2, h.usable e h1 (by simpa using h2)⟩

theorem writableOf_keys (cfg : Cfg V) (ps : Map V) (h : (ps.map (·.1)).Nodup) : ((writableOf cfg ps).map (·.1)).Nodup :=
  h.sublist ((List.filter_sublist).map _)

theorem get_append (m r : Map V) (k : Key) : get (m ++ r) k = (get m k).or (get r k) := by
  unfold get
  rw [List.find?_append]
  cases m.find? (fun e => decide (e.1 = k)) <;> rfl

theorem get_filter (m : Map V) (p : Key → Bool) (k : Key) : get (m.filter fun e => p e.1) k = if p k then get m k else none := by
  induction m with
  | nil => simp [get]
  | cons e m ih =>
    obtain ⟨j, v⟩ := e
    rw [List.filter_cons]
    by_cases hj : j = k
    · subst hj
      by_cases hp : p j
      · simp [hp, get_cons]
      · simp only [hp, Bool.false_eq_true, if_false] at ih ⊢
        exact ih
    · by_cases hp : p j
      · simp only [hp, if_true, get_cons, hj, if_false]; exact ih
      · simp only [hp, Bool.false_eq_true, if_false, get_cons, hj]; exact ih

/-- loading stable parameters does not throw and rejects nothing -/
theorem setLoop_stable (cfg : Cfg V) (ps : Map V) (h : ∀ e ∈ ps, cfg.writable.contains e.1 = true ∧ cfg.isMono e.2 = false ∧ settingsKey e.1 = e.1 ∧
    cfg.conv e.1 e.2 = some e.2) (m : Map V) (ks : List Key) (ret : Map V) :
    (setLoop cfg ps m ks ret).2.2 = (ret, false) ∧ (∀ k ∈ ps.map (·.1), k ∉ (setLoop cfg ps m ks ret).2.1) ∧
    ∀ k, k ∉ ks → k ∉ (setLoop cfg ps m ks ret).2.1 := by
  induction ps generalizing m ks with
  | nil => exact ⟨rfl, by simp, fun _ h => h⟩
  | cons e r ih =>
    obtain ⟨k, x⟩ := e
    obtain ⟨h1, h2, h3, h4⟩ := h (k, x) (by simp)
    simp only at h1 h2 h3 h4
    unfold setLoop
    rw [h2, h3, h1, h4]
    simp only [Bool.false_eq_true, if_false, if_true]
    obtain ⟨i1, i2, i3⟩ := ih (fun e he => h e (by simp [he])) (insertOrAssign m k x) (ks.filter fun z => !decide (z = k))
    refine ⟨i1, ?_, ?_⟩
    · intro j hj
      rw [List.map_cons, List.mem_cons] at hj
      rcases hj with rfl | hj
      · exact i3 _ (by simp)
      · exact i2 j hj
    · intro j hj
      exact i3 j (fun hm => hj (List.mem_filter.1 hm).1)

theorem setLoop_get (cfg : Cfg V) (ps : Map V) (hn : (ps.map (·.1)).Nodup) (h : ∀ e ∈ ps, cfg.writable.contains e.1 = true ∧ cfg.isMono e.2 = false ∧
    settingsKey e.1 = e.1 ∧ cfg.conv e.1 e.2 = some e.2) (m : Map V) (ks : List Key) (ret : Map V) (k : Key) :
    get (setLoop cfg ps m ks ret).1 k = (get ps k).or (get m k) := by
  induction ps generalizing m ks with
  | nil => rfl
  | cons e r ih =>
    obtain ⟨j, x⟩ := e
    obtain ⟨h1, h2, h3, h4⟩ := h (j, x) (by simp)
    simp only at h1 h2 h3 h4
    rw [List.map_cons, List.nodup_cons] at hn
    unfold setLoop
    rw [h2, h3, h1, h4]
    simp only [Bool.false_eq_true, if_false, if_true]
    rw [ih hn.2 (fun e he => h e (by simp [he])), get_insertOrAssign, get_cons]
    by_cases hk : k = j
    · subst hk
      have : get r k = none := (get_eq_none_iff r k).2 hn.1
      simp [this]
    · have hk' : ¬ j = k := fun h => hk h.symm
      simp [hk, hk']

/-- the keys of the result -/
theorem setLoop_mem (cfg : Cfg V) (ps : Map V) (h : ∀ e ∈ ps, cfg.writable.contains e.1 = true ∧ cfg.isMono e.2 = false ∧
    settingsKey e.1 = e.1 ∧ cfg.conv e.1 e.2 = some e.2) (m : Map V) (ks : List Key) (ret : Map V) (P : Key × V → Prop) (hm : ∀ e ∈ m, P e) (hp : ∀ e ∈ ps, P e) :
    ∀ e ∈ (setLoop cfg ps m ks ret).1, P e := by
  induction ps generalizing m ks with
  | nil => exact hm
  | cons e r ih =>
    obtain ⟨j, x⟩ := e
    obtain ⟨h1, h2, h3, h4⟩ := h (j, x) (by simp)
    simp only at h1 h2 h3 h4
    unfold setLoop
    rw [h2, h3, h1, h4]
    simp only [Bool.false_eq_true, if_false, if_true]
    refine ih (fun e he => h e (by simp [he])) _ _ ?_ (fun e he => hp e (by simp [he]))
    intro e he
    have hjx := hp (j, x) (by simp)
    unfold insertOrAssign at he
    split at he
    · obtain ⟨y, hy, rfl⟩ := List.mem_map.1 he
      split
      · exact hjx
      · exact hm y hy
    · rcases List.mem_append.1 he with he | he
      · exact hm e he
      · simp at he; subst he; exact hjx

/-- staging stable parameters does not throw -/
theorem stageLoop_stable (cfg : Cfg V) (ps : Map V) (hn : (ps.map (·.1)).Nodup) (h : ∀ e ∈ ps, cfg.writable.contains e.1 = true ∧ settingsKey e.1 = e.1 ∧
    cfg.conv e.1 e.2 = some e.2) (m : Map V) :
    (stageLoop cfg ps m).2 = false ∧ ∀ k, get (stageLoop cfg ps m).1 k = (get ps k).or (get m k) := by
  induction ps generalizing m with
  | nil => exact ⟨rfl, fun _ => rfl⟩
  | cons e r ih =>
    obtain ⟨j, x⟩ := e
    obtain ⟨h1, h3, h4⟩ := h (j, x) (by simp)
    simp only at h1 h3 h4
    rw [List.map_cons, List.nodup_cons] at hn
    unfold stageLoop
    rw [h3, h1, h4]
    simp only [if_true]
    obtain ⟨i1, i2⟩ := ih hn.2 (fun e he => h e (by simp [he])) (insertOrAssign m j x)
    refine ⟨i1, fun k => ?_⟩
    rw [i2, get_insertOrAssign, get_cons]
    by_cases hk : k = j
    · subst hk
      have : get r k = none := (get_eq_none_iff r k).2 hn.1
      simp [this]
    · have hk' : ¬ j = k := fun h => hk h.symm
      simp [hk, hk']

/-! ## looking up the default context -/

theorem best_zero (cfg : Cfg V) (s : Stored V) (m : Map V) (hw : WF s) (hne : entriesOf s 0 ≠ []) (ha : ∀ e ∈ entriesOf s 0, e.settings = m) (t : Nat) (ht : t ≠ 0)
    (hle : ∃ e ∈ entriesOf s 0, e.ctx.time ≤ t) :
    ∃ e ∈ entriesOf s 0, bestSettingsCtx cfg s ⟨t, 0⟩ = some e.ctx ∧ bestStored cfg s ⟨t, 0⟩ = some m := by
  cases hf : storedFind s 0 with
  | none => exact absurd (by simp [entriesOf, hf]) hne
  | some v =>
    have hv : entriesOf s 0 = v := by simp [entriesOf, hf]
    have hb : bestCtx cfg s 0 = some 0 := by
      have hmem := mem_of_storedFind s 0 v hf
      unfold bestCtx
      rw [if_neg (by intro he; rw [List.isEmpty_iff] at he; rw [he] at hmem; simp at hmem), if_pos (List.any_eq_true.2 ⟨_, hmem, by simp⟩)]
    have hs := hw.entries_sorted 0
    rw [hv] at hs hle ha
    have hbs : bestSettingsCtx cfg s ⟨t, 0⟩ = searchVec v t := by
      unfold bestSettingsCtx
      rw [hb]
      simp only [hf]
    cases hsv : searchVec v t with
    | none =>
      obtain ⟨e, he, hle⟩ := hle
      have := searchVec_none v t hs ht hsv e he
      omega
    | some b =>
      obtain ⟨e, he, hb'⟩ := searchVec_some v t hs ht b hsv
      refine ⟨e, by rw [hv]; exact he.1, by rw [hbs, hsv, hb'], ?_⟩
      have hbc : b.context = 0 := by rw [← hb']; exact hw.entries_own 0 e (by rw [hv]; exact he.1)
      unfold bestStored
      rw [hbs, hsv]
      simp only [hbc, hf]
      cases hfe : v.find? (fun x => decide (x.ctx = b)) with
      | none =>
        rw [List.find?_eq_none] at hfe
        exact absurd hb' (by simpa using hfe e he.1)
      | some x => simp [ha x (List.mem_of_find?_eq_some hfe)]

/-! ## the state while sets are loaded -/

/-- the keys a block can have -/
def member (cfg : Cfg V) (k : Key) : Prop := k ∈ cfg.writable ++ cfg.readable

theorem member_w (cfg : Cfg V) : ∀ k ∈ cfg.writable, member cfg k := fun _ h => List.mem_append_left _ h
theorem member_r (cfg : Cfg V) : ∀ k ∈ cfg.readable, member cfg k := fun _ h => List.mem_append_right _ h

/-- one set for the default context, stored at `n`, whose explicit parameters are on record -/
structure Loading (cfg : Cfg V) (m : Map V) (n : Nat) (s : St V) : Prop where
  inv : Inv (member cfg) s
  only : entriesOf s.stored 0 = [⟨⟨n, 0⟩, m⟩]
  record : ∃ ks, autoFind s.auto ⟨n, 0⟩ = some ks ∧ ∀ k ∈ m.map (·.1), k ∉ ks
  active : s.activeCtx = ⟨0, 0⟩
  staged : s.staged = []

/-- values that staging takes as they are -/
structure Good (cfg : Cfg V) (m : Map V) : Prop where
  keys : (m.map (·.1)).Nodup
  each : ∀ e ∈ m, cfg.writable.contains e.1 = true ∧ settingsKey e.1 = e.1 ∧ cfg.conv e.1 e.2 = some e.2

theorem storedFind_mem (s : Stored V) (h : s.Pairwise (fun a b => a.1 < b.1)) (p : Nat × List (Entry V)) (hp : p ∈ s) : storedFind s p.1 = some p.2 := by
  induction s with
  | nil => simp at hp
  | cons q r ih =>
    rw [List.pairwise_cons] at h
    unfold storedFind
    rw [List.find?_cons]
    rcases List.mem_cons.1 hp with rfl | hp
    · simp
    · have hlt := h.1 p hp
      rw [decide_eq_false (by omega)]
      exact ih h.2 hp

theorem dropCount_one (e : Entry V) (now : Nat) : dropCount [e] now = 0 := by
  unfold dropCount lowerIdx
  by_cases h : e.ctx.time < now <;> simp [h]

theorem ensureAuto_other (cfg : Cfg V) (s : Stored V) (a : Auto) (c d : Ctx) (h : d ≠ c) : autoFind (ensureAuto cfg s a c) d = autoFind a d := by
  unfold ensureAuto
  split
  · rfl
  · split <;> rw [autoFind_put, if_neg h]

/-- a call that stores -/
theorem set_ok (cfg : Cfg V) (s : St V) (n n' : Nat) (ps : Map V) (ctx : Ctx) (hw : cfg.wasm = false) (h : Stable cfg ps) :
    let c : Ctx := ⟨if ctx.time = 0 then n else ctx.time, ctx.context⟩
    let q := writableOf cfg ps
    let r := setResult cfg s q c
    let x := expireAll cfg n' (addStored s.stored r.1 c) (ensureAuto cfg s.stored (autoPut (ensureAuto cfg s.stored s.auto c) c r.2.1) c)
    loadParams cfg s n n' ps ctx = some { s with stored := x.1, auto := x.2 } ∧
    set cfg s n n' q ctx = ({ s with stored := x.1, auto := x.2 }, [], false) ∧ storesAt cfg s (.set n n' q ctx) = some ⟨c, r.1⟩ := by
  intro c q r x
  have hc : setCtx cfg s.stored n ctx = c := by unfold setCtx; simp only [hw]; rfl
  have hr : r.2.2 = ([], false) := (setLoop_stable cfg q (fun e he => h.writable e he) _ _ []).1
  have hset : set cfg s n n' q ctx = ({ s with stored := x.1, auto := x.2 }, [], false) := by
    unfold set setAt
    rw [hc]
    show (if r.2.2.2 then _ else _) = _
    rw [hr]
    simp only [Bool.false_eq_true, if_false, removeExpired, hw]
    rfl
  refine ⟨?_, hset, ?_⟩
  · have : loadParams cfg s n n' ps ctx =
        (let r := set cfg s n n' q ctx
         if r.2.2 then none else if r.2.1.isEmpty then some r.1 else none) := rfl
    rw [this, hset]
    rfl
  · unfold storesAt
    simp only [hc]
    show (if r.2.2.2 then _ else _) = _
    rw [hr]
    rfl

theorem set_inv (cfg : Cfg V) (s : St V) (n n' : Nat) (ps : Map V) (ctx : Ctx) (h : Inv (member cfg) s) : Inv (member cfg) (set cfg s n n' ps ctx).1 :=
  h.setAt (member_w cfg) _ _ _

/-- the parameters of the default context go into a new block -/
theorem load_default (cfg : Cfg V) (hw : cfg.wasm = false) (hx : cfg.expiry = noExpiry) (f : Key → V) (n n' : Nat) (ps : Map V) (h : Stable cfg ps) :
    ∃ s m, loadParams cfg (St.fresh f) n n' ps ⟨0, 0⟩ = some s ∧ s = (set cfg (St.fresh f) n n' (writableOf cfg ps) ⟨0, 0⟩).1 ∧
      storesAt cfg (St.fresh f) (.set n n' (writableOf cfg ps) ⟨0, 0⟩) = some ⟨⟨n, 0⟩, m⟩ ∧
      Loading cfg m n s ∧ Good cfg m ∧ ∀ k, get m k = get (writableOf cfg ps) k := by
  obtain ⟨h1, h2, h3⟩ := set_ok cfg (St.fresh f) n n' ps ⟨0, 0⟩ hw h
  have hgood := fun e he => h.writable e he
  have hbase : setBase cfg (St.fresh f) ⟨n, 0⟩ = [] := rfl
  have hauto : ensureAuto cfg (St.fresh f : St V).stored (St.fresh f : St V).auto ⟨n, 0⟩ = [(⟨n, 0⟩, cfg.writable)] := rfl
  simp only [if_true] at h1 h2 h3
  refine ⟨_, (setResult cfg (St.fresh f) (writableOf cfg ps) ⟨n, 0⟩).1, h1, ?_, h3, ?_, ?_, ?_⟩
  · rw [h2]
  · refine ⟨?_, ?_, ?_, rfl, rfl⟩
    · have := set_inv cfg (St.fresh f) n n' (writableOf cfg ps) ⟨0, 0⟩ (Inv.fresh _ f)
      rw [h2] at this
      exact this
    · show entriesOf (expireAll _ _ _ _).1 0 = _
      rw [entriesOf_expire, entriesOf_add _ _ _ _ (Inv.fresh (fun _ => True) f).wf, if_pos rfl, expireVec_noExpiry _ _ _ _ hx]
      show List.drop (dropCount [_] _) [_] = _
      rw [dropCount_one]
      rfl
    · refine ⟨(setResult cfg (St.fresh f) (writableOf cfg ps) ⟨n, 0⟩).2.1, ?_, ?_⟩
      · show autoFind (expireAll _ _ _ _).2 _ = _
        rw [(expireAll_auto cfg n' _ _ hx ⟨n, 0⟩).2]
        · rw [ensureAuto_of_some _ _ _ _ _ (by rw [autoFind_put, if_pos rfl]), autoFind_put, if_pos rfl]
        · intro p hp
          have : p = (0, [⟨⟨n, 0⟩, (setResult cfg (St.fresh f) (writableOf cfg ps) ⟨n, 0⟩).1⟩]) := by
            simpa [addStored, storedFind, storedPut, insertEntry, St.fresh] using hp
          subst this
          show _ ∉ (List.take (dropCount [_] _) [_]).map _
          rw [dropCount_one]
          simp
      · intro k hk
        have hmem : k ∈ (writableOf cfg ps).map (·.1) := by
          obtain ⟨e, he, rfl⟩ := List.mem_map.1 hk
          exact setLoop_mem cfg _ hgood _ _ _ (fun e => e.1 ∈ (writableOf cfg ps).map (·.1)) (by rw [hbase]; simp)
            (fun e he => List.mem_map.2 ⟨e, he, rfl⟩) e he
        exact (setLoop_stable cfg _ hgood _ _ []).2.1 k hmem
  · refine ⟨?_, ?_⟩
    · exact (KeysOk.setLoop (P := fun _ => True) (fun _ _ => trivial) (writableOf cfg ps) _ _ (by rw [hbase]; exact KeysOk.nil _)).1
    · exact setLoop_mem cfg _ hgood _ _ _ (fun e => cfg.writable.contains e.1 = true ∧ settingsKey e.1 = e.1 ∧ cfg.conv e.1 e.2 = some e.2)
        (by rw [hbase]; simp) (fun e he => ⟨(hgood e he).1, (hgood e he).2.2⟩)
  · intro k
    have := setLoop_get cfg (writableOf cfg ps) (writableOf_keys cfg ps h.keys) hgood (setBase cfg (St.fresh f) ⟨n, 0⟩)
      ((autoFind (ensureAuto cfg (St.fresh f : St V).stored (St.fresh f : St V).auto ⟨n, 0⟩) ⟨n, 0⟩).getD []) [] k
    rw [hbase] at this
    show get (setLoop _ _ _ _ _).1 k = _
    rw [hbase, this]
    cases get (writableOf cfg ps) k <;> rfl

/-- the parameters of another context -/
theorem load_other (cfg : Cfg V) (hw : cfg.wasm = false) (hx : cfg.expiry = noExpiry) (s : St V) (m : Map V) (n0 : Nat) (hl : Loading cfg m n0 s) (n n' : Nat)
    (ps : Map V) (h : Stable cfg ps) (t c : Nat) (hc : c ≠ 0) :
    ∃ s', loadParams cfg s n n' ps ⟨t, c⟩ = some s' ∧ s' = (set cfg s n n' (writableOf cfg ps) ⟨t, c⟩).1 ∧ Loading cfg m n0 s' := by
  obtain ⟨h1, h2, h3⟩ := set_ok cfg s n n' ps ⟨t, c⟩ hw h
  refine ⟨_, h1, by rw [h2], ?_, ?_, ?_, hl.active, hl.staged⟩
  · have := set_inv cfg s n n' (writableOf cfg ps) ⟨t, c⟩ hl.inv
    rw [h2] at this
    exact this
  · show entriesOf (expireAll _ _ _ _).1 0 = _
    rw [entriesOf_expire, entriesOf_add _ _ _ _ hl.inv.wf, if_neg (fun h => hc h.symm), hl.only, expireVec_noExpiry _ _ _ _ hx, dropCount_one]
    rfl
  · obtain ⟨ks, hk1, hk2⟩ := hl.record
    refine ⟨ks, ?_, hk2⟩
    have hne : (⟨n0, 0⟩ : Ctx) ≠ ⟨if t = 0 then n else t, c⟩ := fun h => hc (by injection h with _ h; exact h.symm)
    show autoFind (expireAll _ _ _ _).2 _ = _
    rw [(expireAll_auto cfg n' _ _ hx ⟨n0, 0⟩).2]
    · rw [ensureAuto_other _ _ _ _ _ hne, autoFind_put, if_neg hne, ensureAuto_other _ _ _ _ _ hne, hk1]
    · show ∀ p ∈ addStored s.stored (setResult cfg s (writableOf cfg ps) ⟨if t = 0 then n else t, c⟩).1 ⟨if t = 0 then n else t, c⟩, _
      generalize (if t = 0 then n else t) = t'
      intro p hp hmem
      have hwf := addStored_wf s.stored (setResult cfg s (writableOf cfg ps) ⟨t', c⟩).1 ⟨t', c⟩ hl.inv.wf
      obtain ⟨e, he, hee⟩ := List.mem_map.1 hmem
      have hown := hwf.own p hp e (List.mem_of_mem_take he)
      rw [hee] at hown
      have hp0 : p.2 = [⟨⟨n0, 0⟩, m⟩] := by
        have := storedFind_mem _ hwf.names p hp
        have h0 := entriesOf_add s.stored (setResult cfg s (writableOf cfg ps) ⟨t', c⟩).1 ⟨t', c⟩ 0 hl.inv.wf
        rw [if_neg (fun h => hc h.symm), hl.only] at h0
        rw [← h0, entriesOf]
        rw [← hown] at this
        simp [this]
      rw [hp0, dropCount_one] at he
      simp at he

/-- the other contexts, one after the other -/
theorem load_sets (cfg : Cfg V) (hw : cfg.wasm = false) (hx : cfg.expiry = noExpiry) (clk : Nat → Nat) (m : Map V) (n0 : Nat)
    (sets : List (Nat × Nat × Map V)) (h : ∀ e ∈ sets, e.1 ≠ 0 ∧ Stable cfg e.2.2) (i : Nat) (s : St V) (hl : Loading cfg m n0 s) :
    ∃ s', loadSets cfg clk i s sets = some s' ∧ Loading cfg m n0 s' := by
  induction sets generalizing i s with
  | nil => exact ⟨s, rfl, hl⟩
  | cons e es ih =>
    obtain ⟨h1, h2⟩ := h e (by simp)
    obtain ⟨s1, hs1, -, hl1⟩ := load_other cfg hw hx s m n0 hl (clk i) (clk (i + 1)) e.2.2 h2 e.2.1 e.1 h1
    obtain ⟨s2, hs2, hl2⟩ := ih (fun e he => h e (by simp [he])) (i + 2) s1 hl1
    refine ⟨s2, ?_, hl2⟩
    unfold loadSets
    rw [hs1]
    exact hs2

/-- all sets of the default context are `m`, and what is staged is `m` -/
structure Ready (cfg : Cfg V) (m : Map V) (n : Nat) (s : St V) : Prop where
  inv : Inv (member cfg) s
  all : ∀ e ∈ entriesOf s.stored 0, e.settings = m ∧ e.ctx.time ≤ n
  some : entriesOf s.stored 0 ≠ []
  active : s.activeCtx.context = 0
  staged : ∀ k, get s.staged k = get m k

theorem Good.filter {cfg : Cfg V} {m : Map V} (h : Good cfg m) (p : Key × V → Bool) : Good cfg (m.filter p) :=
  ⟨h.keys.sublist ((List.filter_sublist).map _), fun e he => h.each e (List.mem_filter.1 he).1⟩

/-- staging values that are good -/
theorem stage_good (cfg : Cfg V) (s : St V) (m : Map V) (h : Good cfg m) :
    (setStaged cfg s m).2 = false ∧ ∀ k, get (setStaged cfg s m).1.staged k = (get m k).or (get s.staged k) :=
  stageLoop_stable cfg m h.keys h.each s.staged

/-- the first activation -/
theorem activate_loading (cfg : Cfg V) (hw : cfg.wasm = false) (m : Map V) (n0 : Nat) (s : St V) (hl : Loading cfg m n0 s) (hg : Good cfg m) (hn : 0 < n0)
    (n : Nat) (hle : n0 ≤ n) : ∃ s', activateNow cfg s n = some s' ∧ s' = (activate cfg s n ⟨0, 0⟩).1 ∧ Ready cfg m n0 s' := by
  have hall : ∀ e ∈ entriesOf s.stored 0, e.settings = m := by rw [hl.only]; simp
  obtain ⟨e, he, hb1, hb2⟩ := best_zero cfg s.stored m hl.inv.wf (by rw [hl.only]; simp) hall n (by omega) ⟨_, by rw [hl.only]; exact List.mem_singleton.2 rfl, hle⟩
  have hee : e.ctx = ⟨n0, 0⟩ := by rw [hl.only] at he; rw [List.mem_singleton.1 he]
  rw [hee] at hb1
  obtain ⟨ks, hk1, hk2⟩ := hl.record
  have hfix : (m.filter fun e => !ks.contains e.1) = m := by
    rw [List.filter_eq_self]
    intro x hx
    have := hk2 x.1 (List.mem_map.2 ⟨x, hx, rfl⟩)
    simpa using this
  obtain ⟨g1, g2⟩ := stage_good cfg s m hg
  have hact : activate cfg s n ⟨0, 0⟩ = ({ (setStaged cfg s m).1 with activeCtx := ⟨n0, 0⟩, changed := true }, some ⟨n0, 0⟩, false) := by
    unfold activate effTime
    simp only [hw, if_true]
    unfold activateAt
    simp only [Bool.false_eq_true, if_false]
    rw [hb1]
    simp only
    rw [if_neg (by rw [hl.active]; intro h; injection h; omega), hb2]
    simp only
    rw [hl.active]
    simp only [if_true]
    rw [ensureAuto_of_some _ _ _ _ _ hk1, hk1]
    simp only [Option.getD_some]
    rw [hfix, if_neg (by
      show ¬ (setStaged cfg s m).2 = true
      rw [g1]; simp)]
    rfl
  refine ⟨_, ?_, rfl, ?_⟩
  · unfold activateNow
    rw [hact]
    rfl
  · refine ⟨?_, ?_, ?_, ?_, ?_⟩
    · exact hl.inv.activateAt (member_w cfg) _
    · rw [hact]
      show ∀ e ∈ entriesOf s.stored 0, _
      rw [hl.only]
      simp
    · rw [hact]
      show entriesOf s.stored 0 ≠ []
      rw [hl.only]
      simp
    · rw [hact]
    · intro k
      rw [hact]
      show get (setStaged cfg s m).1.staged k = _
      rw [g2, hl.staged]
      cases get m k <;> rfl

/-- a later activation -/
theorem activate_ready (cfg : Cfg V) (hw : cfg.wasm = false) (m : Map V) (n0 : Nat) (s : St V) (hl : Ready cfg m n0 s) (hg : Good cfg m)
    (n : Nat) (hn : 0 < n) (hle : n0 ≤ n) : ∃ s', activateNow cfg s n = some s' ∧ s' = (activate cfg s n ⟨0, 0⟩).1 ∧ Ready cfg m n0 s' := by
  obtain ⟨x, hx⟩ := List.exists_mem_of_ne_nil _ hl.some
  obtain ⟨e, he, hb1, hb2⟩ := best_zero cfg s.stored m hl.inv.wf hl.some (fun e he => (hl.all e he).1) n (by omega) ⟨x, hx, by have := (hl.all x hx).2; omega⟩
  have hec : e.ctx.context = 0 := hl.inv.wf.entries_own 0 e he
  have hinv : Inv (member cfg) (activate cfg s n ⟨0, 0⟩).1 := hl.inv.activateAt (member_w cfg) _
  by_cases heq : e.ctx = s.activeCtx
  · have hact : activate cfg s n ⟨0, 0⟩ = (s, some e.ctx, false) := by
      unfold activate effTime
      simp only [hw, if_true]
      unfold activateAt
      simp only [Bool.false_eq_true, if_false]
      rw [hb1]
      simp only
      rw [if_pos heq]
    refine ⟨_, ?_, rfl, ?_⟩
    · unfold activateNow
      rw [hact]
      rfl
    · rw [hact]
      exact hl
  · generalize ha : ensureAuto cfg s.stored s.auto e.ctx = a
    generalize hf : (m.filter fun x => !((autoFind a e.ctx).getD []).contains x.1) = q
    have hq : Good cfg q := by rw [← hf]; exact hg.filter _
    have hget : ∀ k, get q k = get m k ∨ get q k = none := by
      intro k
      rw [← hf, get_filter m (fun k => !((autoFind a e.ctx).getD []).contains k) k]
      split
      · exact Or.inl rfl
      · exact Or.inr rfl
    obtain ⟨g1, g2⟩ := stage_good cfg { s with auto := a } q hq
    have hact : activate cfg s n ⟨0, 0⟩ = ({ (setStaged cfg { s with auto := a } q).1 with activeCtx := e.ctx, changed := true }, some e.ctx, false) := by
      unfold activate effTime
      simp only [hw, if_true]
      unfold activateAt
      simp only [Bool.false_eq_true, if_false]
      rw [hb1]
      simp only
      rw [if_neg heq, hb2]
      simp only
      rw [if_pos (by rw [hec, hl.active]), ha, hf]
      rw [if_neg (by
        show ¬ (setStaged cfg { s with auto := a } q).2 = true
        rw [g1]; simp)]
    refine ⟨_, ?_, rfl, ?_⟩
    · unfold activateNow
      rw [hact]
      rfl
    · refine ⟨hinv, ?_, ?_, ?_, ?_⟩
      · rw [hact]; exact hl.all
      · rw [hact]; exact hl.some
      · rw [hact]; exact hec
      · intro k
        rw [hact]
        show get (setStaged cfg { s with auto := a } q).1.staged k = _
        rw [g2]
        show (get q k).or (get s.staged k) = _
        rw [hl.staged]
        rcases hget k with h | h
        · rw [h]; cases get m k <;> rfl
        · rw [h]; rfl

theorem stable_nil (cfg : Cfg V) : Stable cfg ([] : Map V) := ⟨List.nodup_nil, by simp⟩

/-- the set that `init` stores again -/
theorem restore_ready (cfg : Cfg V) (hw : cfg.wasm = false) (hx : cfg.expiry = noExpiry) (m : Map V) (n0 : Nat) (s : St V) (hl : Ready cfg m n0 s)
    (n n' : Nat) (hn : 0 < n) (hle : n0 ≤ n) :
    (set cfg s n n' [] ⟨0, 0⟩).2 = ([], false) ∧ storesAt cfg s (.set n n' [] ⟨0, 0⟩) = some ⟨⟨n, 0⟩, m⟩ ∧ Ready cfg m n (set cfg s n n' [] ⟨0, 0⟩).1 := by
  obtain ⟨h1, h2, h3⟩ := set_ok cfg s n n' [] ⟨0, 0⟩ hw (stable_nil cfg)
  obtain ⟨x, hxm⟩ := List.exists_mem_of_ne_nil _ hl.some
  obtain ⟨e, he, hb1, hb2⟩ := best_zero cfg s.stored m hl.inv.wf hl.some (fun e he => (hl.all e he).1) n (by omega) ⟨x, hxm, by have := (hl.all x hxm).2; omega⟩
  have hres : (setResult cfg s [] ⟨n, 0⟩).1 = m := by
    show setBase cfg s ⟨n, 0⟩ = m
    unfold setBase
    rw [hb2]
    rfl
  have hq : writableOf cfg ([] : Map V) = [] := rfl
  rw [hq] at h2 h3
  simp only [if_true] at h2 h3
  rw [hres] at h2 h3
  refine ⟨by rw [h2], h3, ?_⟩
  have hinv := set_inv cfg s n n' [] ⟨0, 0⟩ hl.inv
  have hent : entriesOf (set cfg s n n' [] ⟨0, 0⟩).1.stored 0 =
      (insertEntry (entriesOf s.stored 0) ⟨⟨n, 0⟩, m⟩).drop (dropCount (insertEntry (entriesOf s.stored 0) ⟨⟨n, 0⟩, m⟩) n') := by
    rw [h2]
    show entriesOf (expireAll _ _ _ _).1 0 = _
    rw [entriesOf_expire, entriesOf_add _ _ _ _ hl.inv.wf, if_pos rfl, expireVec_noExpiry _ _ _ _ hx]
  refine ⟨hinv, ?_, ?_, ?_, ?_⟩
  · intro e he
    rw [hent] at he
    rcases (mem_insertEntry _ _ _).1 (List.mem_of_mem_drop he) with rfl | he
    · exact ⟨rfl, Nat.le_refl _⟩
    · have := hl.all e he
      exact ⟨this.1, by omega⟩
  · rw [hent]
    have hs := sorted_insertEntry (entriesOf s.stored 0) ⟨⟨n, 0⟩, m⟩ (hl.inv.wf.entries_sorted 0)
    generalize hv : insertEntry (entriesOf s.stored 0) ⟨⟨n, 0⟩, m⟩ = v at hs ⊢
    intro hnil
    rw [List.drop_eq_nil_iff] at hnil
    by_cases hd : 0 < dropCount v n'
    · obtain ⟨e, he, -⟩ := dropCount_kept v n' hs hd
      rw [List.getElem?_eq_none hnil] at he
      cases he
    · have : v = [] := List.eq_nil_of_length_eq_zero (by omega)
      have hm := (mem_insertEntry (entriesOf s.stored 0) ⟨⟨n, 0⟩, m⟩ ⟨⟨n, 0⟩, m⟩).2 (Or.inl rfl)
      rw [hv, this] at hm
      simp at hm
  · rw [h2]; exact hl.active
  · rw [h2]; exact hl.staged

/-- applying what is staged -/
theorem apply_ready (cfg : Cfg V) (hk : resetKey ∉ cfg.writable ++ cfg.readable) (s : St V) (hi : Inv (member cfg) s) (cb : (Key → V) → Key → V) :
    ∃ s' applied fwd, apply cfg s cb = some (s', applied, fwd) ∧ s'.stored = s.stored ∧
      (s'.fields = cb (fieldAfter cfg s.staged s.fields) ∨ s'.fields = fieldAfter cfg s.staged s.fields) ∧
      (cfg.hasCallback = false → s'.fields = fieldAfter cfg s.staged s.fields) ∧
      ∀ k ∈ cfg.readable, get s'.active k = some (s'.fields k) := by
  obtain ⟨⟨s', applied, fwd⟩, ha⟩ := apply_some (cfg := cfg) hi hk cb
  refine ⟨s', applied, fwd, ha, ?_⟩
  have hfold := fun k => applyFold cfg s.staged ⟨s.fields, [], []⟩ hi.staged.1 k
  have hfields : (s.staged.foldl (applyStep cfg) ⟨s.fields, [], []⟩).fields = fieldAfter cfg s.staged s.fields :=
    funext (fun k => (hfold k).1)
  unfold apply at ha
  split at ha
  · cases ha
  · cases ha
    refine ⟨rfl, ?_, ?_, ?_⟩
    · show (if _ then _ else _) = _ ∨ (if _ then _ else _) = _
      rw [hfields]
      split
      · exact Or.inl rfl
      · exact Or.inr rfl
    · intro hc
      show (if _ then _ else _) = _
      rw [hfields, hc]
      rfl
    · intro k hk
      show get (readFields cfg _ _) k = _
      rw [readFields_get, if_pos hk]

/-- what is logged for a saved set -/
def LoggedAs (cfg : Cfg V) (e : Nat × Nat × Map V) (x : Entry V) : Prop :=
  x.ctx = ⟨e.2.1, e.1⟩ ∧ ∀ k ∈ cfg.writable, get x.settings k = get e.2.2 k

/-- the log after loading `done` -/
structure LogOk (cfg : Cfg V) (n0 : Nat) (done : List (Nat × Nat × Map V)) (log : List (Entry V)) : Prop where
  every : ∀ e ∈ done, ∃ x ∈ log, LoggedAs cfg e x
  only : ∀ x ∈ log, x.ctx.context ≠ 0 → ∃ e ∈ done, LoggedAs cfg e x
  zero : ∀ x ∈ log, x.ctx.context = 0 → x.ctx.time = n0

theorem hist_sets [DecidableEq V] (cfg : Cfg V) (hw : cfg.wasm = false) (hx : cfg.expiry = noExpiry) (f : Key → V) (clk : Nat → Nat)
    (hclk : ∀ i j, i ≤ j → clk i ≤ clk j) (m : Map V) (n0 : Nat) (sets : List (Nat × Nat × Map V)) (h : ∀ e ∈ sets, e.1 ≠ 0 ∧ Stable cfg e.2.2)
    (ht : ∀ e ∈ sets, e.2.1 ≠ 0) (hfull : ∀ e ∈ sets, ∀ k ∈ cfg.writable, k ∈ e.2.2.map (·.1))
    (i : Nat) (s : St V) (hl : Loading cfg m n0 s) (done : List (Nat × Nat × Map V)) (hd : ((done ++ sets).map fun e => (e.1, e.2.1)).Nodup)
    (log : List (Entry V)) (c : Nat) (hh : Hist cfg f s log c) (hc : c ≤ clk i) (hlog : LogOk cfg n0 done log) (s' : St V)
    (hs : loadSets cfg clk i s sets = some s') :
    ∃ log' c', Hist cfg f s' log' c' ∧ c' ≤ clk (i + 2 * sets.length) ∧ LogOk cfg n0 (done ++ sets) log' := by
  induction sets generalizing i s done log c with
  | nil =>
    cases hs
    exact ⟨log, c, hh, by simpa using hc, by simpa using hlog⟩
  | cons e es ih =>
    obtain ⟨h1, h2⟩ := h e (by simp)
    have h3 := ht e (by simp)
    obtain ⟨s1, hs1, hs1', hl1⟩ := load_other cfg hw hx s m n0 hl (clk i) (clk (i + 1)) e.2.2 h2 e.2.1 e.1 h1
    have hst := (set_ok cfg s (clk i) (clk (i + 1)) e.2.2 ⟨e.2.1, e.1⟩ hw h2).2.2
    simp only [h3, if_false] at hst
    unfold loadSets at hs
    rw [hs1] at hs
    simp only at hs
    have hi1 := hclk i (i + 1) (by omega)
    have hi2 := hclk (i + 1) (i + 2) (by omega)
    generalize hx' : (⟨⟨e.2.1, e.1⟩, (setResult cfg s (writableOf cfg e.2.2) ⟨e.2.1, e.1⟩).1⟩ : Entry V) = x at hst
    have hxc : x.ctx = ⟨e.2.1, e.1⟩ := by rw [← hx']
    have hxl : LoggedAs cfg e x := by
      refine ⟨hxc, fun k hk => ?_⟩
      rw [← hx']
      show get (setLoop _ _ _ _ _).1 k = _
      rw [setLoop_get cfg _ (writableOf_keys cfg _ h2.keys) (fun e he => h2.writable e he)]
      have hq : get (writableOf cfg e.2.2) k = get e.2.2 k := by
        unfold writableOf
        rw [get_filter e.2.2 (fun k => cfg.writable.contains k) k, if_pos (by simpa using hk)]
      rw [hq]
      cases hg : get e.2.2 k with
      | none => exact absurd (hfull e (by simp) k hk) ((get_eq_none_iff _ _).1 hg)
      | some v => rfl
    have hh1 : Hist cfg f s1 (x :: log) (clk (i + 1)) := by
      have := Hist.step (.set (clk i) (clk (i + 1)) (writableOf cfg e.2.2) ⟨e.2.1, e.1⟩) s1 (clk (i + 1)) hh rfl (by rw [hs1']; rfl)
        (by
          intro t ht
          simp only [clocks, List.mem_cons, List.not_mem_nil, or_false] at ht
          rcases ht with rfl | rfl <;> omega) (by omega)
        (by
          intro y hy z hz hzc hzt
          rw [hst] at hy
          cases hy
          rw [hxc] at hzc hzt
          obtain ⟨e', he', hz'⟩ := hlog.only z hz (by rw [hzc]; exact h1)
          rw [hz'.1] at hzc hzt
          rw [List.map_append, List.nodup_append] at hd
          exact hd.2.2 (e'.1, e'.2.1) (List.mem_map.2 ⟨e', he', rfl⟩) (e.1, e.2.1) (by simp) (by rw [show e'.1 = e.1 from hzc, show e'.2.1 = e.2.1 from hzt]))
      rw [hst] at this
      exact this
    obtain ⟨log', c', g1, g2, g3⟩ := ih (fun e he => h e (by simp [he])) (fun e he => ht e (by simp [he])) (fun e he => hfull e (by simp [he])) (i + 2) s1 hl1
      (done ++ [e]) (by simpa using hd) (x :: log) _ hh1 hi2
      ⟨by
        intro y hy
        rcases List.mem_append.1 hy with hy | hy
        · obtain ⟨z, hz, hz'⟩ := hlog.every y hy
          exact ⟨z, by simp [hz], hz'⟩
        · simp at hy
          subst hy
          exact ⟨x, by simp, hxl⟩, by
        intro y hy hyc
        rcases List.mem_cons.1 hy with rfl | hy
        · exact ⟨e, by simp, hxl⟩
        · obtain ⟨z, hz, hz'⟩ := hlog.only y hy hyc
          exact ⟨z, by simp [hz], hz'⟩, by
        intro y hy hyc
        rcases List.mem_cons.1 hy with rfl | hy
        · rw [hxc] at hyc
          exact absurd hyc h1
        · exact hlog.zero y hy hyc⟩ hs
    refine ⟨log', c', g1, ?_, by simpa using g3⟩
    rw [List.length_cons]
    have : i + 2 * (es.length + 1) = i + 2 + 2 * es.length := by omega
    rw [this]
    exact g2

theorem nodup_map_inj {α β : Type} (g : α → β) (l : List α) (h : (l.map g).Nodup) (a b : α) (ha : a ∈ l) (hb : b ∈ l) (hg : g a = g b) : a = b := by
  induction l with
  | nil => simp at ha
  | cons x r ih =>
    rw [List.map_cons, List.nodup_cons] at h
    rcases List.mem_cons.1 ha with ha | ha <;> rcases List.mem_cons.1 hb with hb | hb
    · rw [ha, hb]
    · exact absurd (List.mem_map.2 ⟨b, hb, by rw [← hg, ha]⟩) h.1
    · exact absurd (List.mem_map.2 ⟨a, ha, by rw [hg, hb]⟩) h.1
    · exact ih h.2 ha hb

/-- a call that stores nothing -/
theorem Hist.quiet [DecidableEq V] {cfg : Cfg V} {f : Key → V} {s : St V} {log : List (Entry V)} {c : Nat} (h : Hist cfg f s log c) (o : Op V) (s' : St V) (c' : Nat)
    (hrem : isRemove o = false) (hs : Settings.step cfg s o = some s') (hc : ∀ t ∈ clocks o, c ≤ t ∧ t ≤ c') (hle : c ≤ c') (hq : storesAt cfg s o = none) :
    Hist cfg f s' log c' := by
  have := Hist.step o s' c' h hrem hs hc hle (by rw [hq]; intro e he; cases he)
  rw [hq] at this
  exact this

end Verif.Settings
