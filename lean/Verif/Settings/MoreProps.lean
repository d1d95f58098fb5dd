import Verif.Settings.Props
/-!
# Settings: removing and activating contexts, open parameters follow tags (C53, C54)
-/
namespace Verif.Settings

open Verif.Work.Tags (Key Map settingsKey insertOrAssign)

variable {V : Type}

theorem eraseTime_split (v : List (Entry V)) (t : Nat) (h : ∃ e ∈ v, e.ctx.time = t) :
    ∃ pre e post, v = pre ++ e :: post ∧ e.ctx.time = t ∧ (∀ x ∈ pre, x.ctx.time ≠ t) ∧ eraseTime v t = pre ++ post := by
  induction v with
  | nil => obtain ⟨e, he, _⟩ := h; simp at he
  | cons a r ih =>
    by_cases ha : a.ctx.time = t
    · exact ⟨[], a, r, rfl, ha, by simp, by simp [eraseTime, ha]⟩
    · obtain ⟨e, he, het⟩ := h
      rcases List.mem_cons.1 he with rfl | he
      · exact absurd het ha
      · obtain ⟨pre, e', post, h1, h2, h3, h4⟩ := ih ⟨e, he, het⟩
        refine ⟨a :: pre, e', post, by rw [h1]; rfl, h2, ?_, by simp [eraseTime, ha, h4]⟩
        intro x hx
        rcases List.mem_cons.1 hx with rfl | hx
        · exact ha
        · exact h3 x hx

theorem storedFind_filter (s : Stored V) (c d : Nat) :
    storedFind (s.filter (fun e => !decide (e.1 = c))) d = if d = c then none else storedFind s d := by
  induction s with
  | nil => unfold storedFind; simp
  | cons e r ih =>
    unfold storedFind at ih ⊢
    by_cases hc : e.1 = c
    · rw [List.filter_cons_of_neg (by simp [hc]), ih]
      by_cases hd : d = c
      · simp [hd]
      · rw [if_neg hd, if_neg hd, List.find?_cons_of_neg (by simp [hc]; omega)]
    · rw [List.filter_cons_of_pos (by simp [hc])]
      by_cases he : e.1 = d
      · have hd : ¬ d = c := by omega
        rw [List.find?_cons_of_pos (by simp [he]), if_neg hd, List.find?_cons_of_pos (by simp [he])]
      · rw [List.find?_cons_of_neg (by simp [he]), ih, List.find?_cons_of_neg (by simp [he])]

theorem entriesOf_dropTime (s : Stored V) (h : WF s) (c : Nat) (v : List (Entry V)) (t d : Nat) :
    entriesOf (dropTime s c v t) d = if d = c then eraseTime v t else entriesOf s d := by
  unfold dropTime entriesOf
  by_cases he : (eraseTime v t).isEmpty = true
  · rw [if_pos he, storedFind_filter]
    by_cases hd : d = c
    · rw [if_pos hd, if_pos hd, List.isEmpty_iff.1 he]; rfl
    · rw [if_neg hd, if_neg hd]
  · rw [if_neg he, storedFind_put _ _ _ _ h.1]
    by_cases hd : d = c
    · rw [if_pos hd, if_pos hd]; rfl
    · rw [if_neg hd, if_neg hd]

theorem removeContext_stored (cfg : Cfg V) (s : St V) (now now' : Nat) (ctx : Ctx) (v : List (Entry V))
    (h0 : ctx.context ≠ 0) (hf : storedFind s.stored ctx.context = some v)
    (ht : v.any (fun e => decide (e.ctx.time = effTime cfg now ctx.time)) = true) :
    (removeContext cfg s now now' ctx).1.stored = dropTime s.stored ctx.context v (effTime cfg now ctx.time) ∧
    ((removeContext cfg s now now' ctx).2.1 = true ∨ (removeContext cfg s now now' ctx).2.2 = true) := by
  unfold removeContext
  rw [if_neg h0, hf]
  dsimp only
  rw [if_pos ht]
  by_cases hc : s.activeCtx.context = ctx.context
  · rw [if_pos hc]
    refine ⟨(activateAt_stored cfg _ _).1, ?_⟩
    generalize (activate cfg _ now' ⟨0, 0⟩).2.2 = b
    cases b <;> simp
  · rw [if_neg hc]
    exact ⟨rfl, Or.inl rfl⟩

/-- **C53** After any sequence of calls, removing a context either reports success (or an error from switching to the default context)
and has erased exactly one set — the first stored for that name and time —, or reports failure and has changed nothing, which happens
exactly when the default context is named or no set with that name and time is stored. -/
theorem remove_exactly_one [DecidableEq V] (cfg : Cfg V) (f : Key → V) (ops : List (Op V)) (s : St V)
    (hr : run cfg (St.fresh f) ops = some s) (now now' : Nat) (ctx : Ctx) :
    let r := removeContext cfg s now now' ctx
    let t := effTime cfg now ctx.time
    ((r.2.1 = true ∨ r.2.2 = true) → ctx.context ≠ 0 ∧ ∃ pre e post, entriesOf s.stored ctx.context = pre ++ e :: post ∧ e.ctx.time = t ∧
      (∀ x ∈ pre, x.ctx.time ≠ t) ∧ entriesOf r.1.stored ctx.context = pre ++ post ∧
      ∀ d, d ≠ ctx.context → entriesOf r.1.stored d = entriesOf s.stored d) ∧
    (r.2.1 = false ∧ r.2.2 = false → r.1 = s ∧ (ctx.context = 0 ∨ ∀ e ∈ entriesOf s.stored ctx.context, e.ctx.time ≠ t)) := by
  have hinv := (Inv.fresh (fun _ => True) f).run (cfg := cfg) (fun _ _ => trivial) (fun _ _ => trivial) ops s hr
  dsimp only
  by_cases h0 : ctx.context = 0
  · have hrem : removeContext cfg s now now' ctx = (s, false, false) := by unfold removeContext; rw [if_pos h0]
    rw [hrem]
    exact ⟨fun h => (by rcases h with h | h <;> cases h), fun _ => ⟨rfl, Or.inl h0⟩⟩
  · cases hf : storedFind s.stored ctx.context with
    | none =>
      have hrem : removeContext cfg s now now' ctx = (s, false, false) := by unfold removeContext; rw [if_neg h0, hf]
      rw [hrem]
      refine ⟨fun h => (by rcases h with h | h <;> cases h), fun _ => ⟨rfl, Or.inr ?_⟩⟩
      intro e he
      unfold entriesOf at he
      rw [hf] at he
      simp at he
    | some v =>
      have hv : entriesOf s.stored ctx.context = v := by unfold entriesOf; rw [hf]; rfl
      by_cases ht : v.any (fun e => decide (e.ctx.time = effTime cfg now ctx.time)) = true
      · obtain ⟨h1, h2⟩ := removeContext_stored cfg s now now' ctx v h0 hf ht
        refine ⟨fun _ => ⟨h0, ?_⟩, fun h => ?_⟩
        · obtain ⟨e, he, het⟩ := List.any_eq_true.1 ht
          obtain ⟨pre, e', post, g1, g2, g3, g4⟩ := eraseTime_split v _ ⟨e, he, of_decide_eq_true het⟩
          refine ⟨pre, e', post, hv.trans g1, g2, g3, ?_, fun d hd => ?_⟩
          · rw [h1, entriesOf_dropTime _ hinv.wf, if_pos rfl, g4]
          · rw [h1, entriesOf_dropTime _ hinv.wf, if_neg hd]
        · rw [h.1, h.2] at h2
          rcases h2 with h2 | h2 <;> cases h2
      · have hrem : removeContext cfg s now now' ctx = (s, false, false) := by
          unfold removeContext; rw [if_neg h0, hf]; dsimp only; rw [if_neg ht]
        rw [hrem]
        refine ⟨fun h => (by rcases h with h | h <;> cases h), fun _ => ⟨rfl, Or.inr ?_⟩⟩
        rw [hv]
        exact fun e he het => ht (List.any_eq_true.2 ⟨e, he, decide_eq_true het⟩)

example : (demoRun [.set 1 1 [(kA, 1)] ⟨10, 7⟩, .set 1 1 [(kA, 2)] ⟨20, 7⟩]).map
    (fun s => (((entriesOf (removeContext demo s 3 3 ⟨10, 7⟩).1.stored 7).map (fun e => e.ctx.time),
      (removeContext demo s 3 3 ⟨10, 7⟩).2.1), (removeContext demo s 3 3 ⟨0, 7⟩).2.1)) = some (([20], true), false) := by decide +kernel

/-- **C53** (whole context) Removing the last set of a context removes the context: no name is left over that could answer requests. -/
theorem remove_last_forgets_name [DecidableEq V] (cfg : Cfg V) (s : St V) (now now' : Nat) (ctx : Ctx) (e : Entry V)
    (h0 : ctx.context ≠ 0) (hf : storedFind s.stored ctx.context = some [e]) (ht : e.ctx.time = effTime cfg now ctx.time) :
    ctx.context ∉ (removeContext cfg s now now' ctx).1.stored.map (·.1) := by
  rw [(removeContext_stored cfg s now now' ctx [e] h0 hf (by simp [ht])).1]
  unfold dropTime
  rw [if_pos (by simp [eraseTime, ht])]
  intro hm
  obtain ⟨p, hp, hpc⟩ := List.mem_map.1 hm
  have := (List.mem_filter.1 hp).2
  simp [hpc] at this

/-- finding: a time of zero means "now" here, so `removeContext` with the default time never removes anything but a set stored in that
very nanosecond -/
theorem remove_default_time_refused :
    (demoRun [.set 10 10 [(kA, 1)] ⟨0, 7⟩]).map (fun s => (removeContext demo s 11 11 ⟨0, 7⟩).2.1) = some false := by decide +kernel

theorem get_insertMissing (m r : Map V) (k : Key) : get (insertMissing m r) k = (get m k).or (get r k) := by
  unfold insertMissing
  induction r generalizing m with
  | nil => simp [get]
  | cons e r ih =>
    rw [List.foldl_cons, ih, get_cons]
    by_cases ha : m.any (fun x => decide (x.1 = e.1)) = true
    · rw [if_pos ha]
      by_cases hk : e.1 = k
      · rw [if_pos hk]
        have : get m k ≠ none := by
          intro hn
          rw [get_eq_none_iff] at hn
          obtain ⟨x, hx, hxe⟩ := List.any_eq_true.1 ha
          exact hn (List.mem_map.2 ⟨x, hx, (of_decide_eq_true hxe).trans hk⟩)
        cases hg : get m k with
        | none => exact absurd hg this
        | some y => rfl
      · rw [if_neg hk]
    · rw [if_neg ha]
      have happ : get (m ++ [e]) k = (get m k).or (if e.1 = k then some e.2 else none) := by
        unfold get
        rw [List.find?_append]
        cases hm : m.find? (fun x => decide (x.1 = k)) with
        | some y => rfl
        | none =>
          by_cases hk : e.1 = k
          · simp [hk]
          · simp [hk]
      rw [happ]
      cases get m k <;> by_cases hk : e.1 = k <;> simp [hk]

theorem stageLoop_content (cfg : Cfg V) (ps m : Map V) (h : (stageLoop cfg ps m).2 = false) (k : Key) :
    get (stageLoop cfg ps m).1 k =
      match (ps.reverse.find? (fun e => decide (settingsKey e.1 = k))) with
      | none => get m k
      | some e => if cfg.writable.contains k then cfg.conv k e.2 else get m k := by
  induction ps generalizing m with
  | nil => rfl
  | cons e r ih =>
    obtain ⟨k0, x⟩ := e
    unfold stageLoop at h ⊢
    rw [List.reverse_cons, List.find?_append]
    by_cases hw : cfg.writable.contains (settingsKey k0) = true
    · rw [if_pos hw] at h ⊢
      cases hc : cfg.conv (settingsKey k0) x with
      | none => rw [hc] at h; cases h
      | some y =>
        rw [hc] at h
        dsimp only at h ⊢
        rw [ih _ h, get_insertOrAssign]
        by_cases hk : settingsKey k0 = k
        · subst hk
          cases hf : r.reverse.find? (fun e => decide (settingsKey e.1 = settingsKey k0)) with
          | some e => simp only [Option.some_or]; rw [if_pos hw, if_pos hw]
          | none => simp only [Option.none_or, List.find?_singleton, decide_true, if_true]; rw [if_pos hw]; exact hc.symm
        · have hk' : ¬ k = settingsKey k0 := fun e => hk e.symm
          cases hf : r.reverse.find? (fun e => decide (settingsKey e.1 = k)) with
          | some e => simp [hk, hk']
          | none => simp [hk, hk']
    · rw [if_neg hw] at h ⊢
      rw [ih _ h]
      by_cases hk : settingsKey k0 = k
      · subst hk
        cases hf : r.reverse.find? (fun e => decide (settingsKey e.1 = settingsKey k0)) with
        | some e => simp
        | none => simp only [Option.none_or, List.find?_singleton, decide_true, if_true]; rw [if_neg hw]
      · cases hf : r.reverse.find? (fun e => decide (settingsKey e.1 = k)) with
        | some e => simp
        | none => simp [hk]

theorem run_append [DecidableEq V] (cfg : Cfg V) (s : St V) (a b : List (Op V)) : run cfg s (a ++ b) = (run cfg s a).bind (fun s' => run cfg s' b) := by
  induction a generalizing s with
  | nil => rfl
  | cons o r ih =>
    show (step cfg s o).bind (fun s' => run cfg s' (r ++ b)) = ((step cfg s o).bind (fun s' => run cfg s' r)).bind (fun s' => run cfg s' b)
    cases step cfg s o with
    | none => rfl
    | some s' => exact ih s'

/-- **C54** (other context) With nothing staged, activating a context of another name and applying gives the members the values of the
set that a lookup for the same request returns: every one that passes validation. -/
theorem activate_then_apply [DecidableEq V] (cfg : Cfg V) (hw : cfg.wasm = false) (hcb : cfg.hasCallback = false) (f : Key → V)
    (ops : List (Op V)) (s : St V) (hr : run cfg (St.fresh f) ops = some s) (hst : s.staged = []) (now : Nat) (ctx : Ctx) (m : Map V)
    (hm : getStored cfg s now ctx = some m) (b : Ctx) (hb : (activate cfg s now ctx).2.1 = some b)
    (hbc : b.context ≠ s.activeCtx.context) (cb : (Key → V) → Key → V) (s' : St V) (applied fwd : Map V)
    (ha : apply cfg (activate cfg s now ctx).1 cb = some (s', applied, fwd)) :
    s'.activeCtx = b ∧ s'.fields = fieldAfter cfg m s.fields ∧ ∀ k ∈ cfg.readable, get s'.active k = some (fieldAfter cfg m s.fields k) := by
  have hq : (⟨effTime cfg now ctx.time, ctx.context⟩ : Ctx) = ⟨queryTime cfg now ctx.time, ctx.context⟩ := by
    unfold effTime queryTime; rw [hw]; rfl
  have hact : activate cfg s now ctx = (⟨s.stored, s.defaults, s.auto, b, insertMissing s.staged m, s.active, s.fields, true⟩, some b, false) := by
    have hm' : bestStored cfg s.stored ⟨effTime cfg now ctx.time, ctx.context⟩ = some m := by rw [hq]; exact hm
    unfold activate activateAt at hb ⊢
    cases hbs : bestSettingsCtx cfg s.stored ⟨effTime cfg now ctx.time, ctx.context⟩ with
    | none => rw [hbs] at hb; cases hb
    | some b' =>
      rw [hbs] at hb
      dsimp only at hb ⊢
      by_cases h1 : b' = s.activeCtx
      · rw [if_pos h1] at hb
        cases hb
        exact absurd (by rw [h1]) hbc
      · rw [if_neg h1] at hb ⊢
        rw [hm'] at hb ⊢
        dsimp only at hb ⊢
        by_cases h2 : b'.context = s.activeCtx.context
        · exfalso
          rw [if_pos h2] at hb
          split at hb
          · cases hb; exact hbc h2
          · cases hb; exact hbc h2
        · rw [if_neg h2] at hb ⊢
          cases hb
          rfl
  have hr2 : run cfg (St.fresh f) (ops ++ [.activate now ctx]) = some (activate cfg s now ctx).1 := by
    rw [run_append, hr]
    rfl
  obtain ⟨_, h2, _, h4⟩ := apply_staged cfg f _ _ hr2 cb s' applied fwd ha
  have hg : ∀ k, get (insertMissing s.staged m) k = get m k := by
    intro k
    rw [get_insertMissing, hst]
    rfl
  have hfa : fieldAfter cfg (activate cfg s now ctx).1.staged (activate cfg s now ctx).1.fields = fieldAfter cfg m s.fields := by
    funext k
    rw [hact]
    unfold fieldAfter
    dsimp only
    rw [hg]
  rw [hfa, hcb] at h2
  have h2' : s'.fields = fieldAfter cfg m s.fields := h2
  refine ⟨?_, h2', fun k hk => by rw [h4 k hk, h2']⟩
  unfold apply at ha
  split at ha
  · cases ha
  · cases ha
    show (activate cfg s now ctx).1.activeCtx = b
    rw [hact]

example : ((demoRun [.set 10 10 [(kA, 1), (kB, 60)] ⟨0, 7⟩, .set 11 11 [(kA, 2)] ⟨20, 7⟩]).bind
    (fun s => apply { demo with hasCallback := false } (activate demo s 15 ⟨0, 7⟩).1 id)).map
    (fun r => ([r.1.fields kA, r.1.fields kB], get r.1.active kA)) = some ([1, 0], some 1) := by decide +kernel

/-- **C54** (same name, other time) Activating a later set of the context in use stages exactly the explicitly set parameters: a
parameter still open to tags keeps what is staged for it, the others get the (converted) value of the set found. -/
theorem activate_same_name [DecidableEq V] (cfg : Cfg V) (s : St V) (now : Nat) (ctx : Ctx) (m : Map V)
    (hm : bestStored cfg s.stored ⟨effTime cfg now ctx.time, ctx.context⟩ = some m) (b : Ctx)
    (hb : activate cfg s now ctx = ((activate cfg s now ctx).1, some b, false)) (hbc : b.context = s.activeCtx.context) (hne : b ≠ s.activeCtx)
    (k : Key) (hkk : ∀ e ∈ m, settingsKey e.1 = e.1) (hnd : (m.map (·.1)).Nodup) :
    (activate cfg s now ctx).1.activeCtx = b ∧
    get (activate cfg s now ctx).1.staged k =
      match get m k with
      | none => get s.staged k
      | some x =>
        if ((autoFind (ensureAuto cfg s.stored s.auto b) b).getD []).contains k then get s.staged k
        else if cfg.writable.contains k then cfg.conv k x else get s.staged k := by
  revert hb
  unfold activate activateAt
  cases hbs : bestSettingsCtx cfg s.stored ⟨effTime cfg now ctx.time, ctx.context⟩ with
  | none => intro hb; cases hb
  | some b' =>
    dsimp only
    rw [hm]
    by_cases h1 : b' = s.activeCtx
    · rw [if_pos h1]
      intro hb
      cases hb
      exact absurd h1 hne
    · rw [if_neg h1]
      dsimp only
      by_cases h2 : b'.context = s.activeCtx.context
      · rw [if_pos h2]
        have hslot : ∀ ks : List Key, ∀ k, ((m.filter (fun e => !ks.contains e.1)).reverse.find? (fun e => decide (settingsKey e.1 = k))).map (·.2) =
            if ks.contains k then none else get m k := by
          intro ks k
          clear hm
          induction m with
          | nil => simp [get]
          | cons e r ih =>
            rw [List.map_cons, List.nodup_cons] at hnd
            have ih' := ih (fun x hx => hkk x (List.mem_cons_of_mem _ hx)) hnd.2
            have he := hkk e (List.mem_cons_self ..)
            rw [get_cons]
            by_cases hc : ks.contains e.1 = true
            · rw [List.filter_cons_of_neg (by rw [hc]; decide), ih']
              by_cases hk : e.1 = k
              · subst hk; rw [if_pos hc, if_pos hc]
              · rw [if_neg hk]
            · rw [List.filter_cons_of_pos (by simpa using hc), List.reverse_cons, List.find?_append]
              by_cases hk : e.1 = k
              · subst hk
                have hn : (r.filter (fun e => !ks.contains e.1)).reverse.find? (fun x => decide (settingsKey x.1 = e.1)) = none := by
                  rw [List.find?_eq_none]
                  intro x hx hxe
                  have hxr := (List.mem_filter.1 (List.mem_reverse.1 hx)).1
                  have := hkk x (List.mem_cons_of_mem _ hxr)
                  rw [this] at hxe
                  exact hnd.1 (List.mem_map.2 ⟨x, hxr, of_decide_eq_true hxe⟩)
                rw [hn, if_neg hc, if_pos rfl]
                simp [he]
              · rw [if_neg hk, ← ih']
                have : [e].find? (fun e => decide (settingsKey e.1 = k)) = none := by simp [he, hk]
                rw [this, Option.or_none]
        have hsl := hslot ((autoFind (ensureAuto cfg s.stored s.auto b') b').getD []) k
        unfold setStaged
        dsimp only
        cases hth : (stageLoop cfg (m.filter (fun e => !((autoFind (ensureAuto cfg s.stored s.auto b') b').getD []).contains e.1)) s.staged).2 with
        | true => intro hb; simp only [if_true] at hb; cases hb
        | false =>
          simp only [Bool.false_eq_true, if_false]
          intro hb
          cases hb
          refine ⟨rfl, ?_⟩
          rw [stageLoop_content cfg _ _ hth k]
          generalize ((m.filter (fun e => !((autoFind (ensureAuto cfg s.stored s.auto b) b).getD []).contains e.1)).reverse.find?
            (fun e => decide (settingsKey e.1 = k))) = o at hsl ⊢
          cases o with
          | none =>
            dsimp only
            cases hg : get m k with
            | none => rfl
            | some x =>
              rw [hg] at hsl
              dsimp only
              by_cases hc : ((autoFind (ensureAuto cfg s.stored s.auto b) b).getD []).contains k = true
              · rw [if_pos hc]
              · rw [if_neg hc] at hsl; cases hsl
          | some e =>
            dsimp only
            by_cases hc : ((autoFind (ensureAuto cfg s.stored s.auto b) b).getD []).contains k = true
            · rw [if_pos hc] at hsl; cases hsl
            · rw [if_neg hc] at hsl
              have hg : get m k = some e.2 := hsl.symm
              rw [hg]
              dsimp only
              rw [if_neg hc]
      · rw [if_neg h2]
        intro hb
        cases hb
        exact absurd hbc h2

/-- `b` was never set: it keeps the value a tag gave it when the later set of the same context is activated -/
example : (demoRun [.set 10 10 [(kA, 1)] ⟨0, 0⟩, .activate 11 ⟨0, 0⟩, .tag 12 [(kB, 9)], .apply id, .set 13 13 [(kA, 2)] ⟨0, 0⟩,
    .activate 14 ⟨0, 0⟩, .apply id]).map (fun s => [s.fields kA, s.fields kB]) = some [2, 9] := by decide +kernel

/-- **C39** (open parameters) A tag that asks for no context switch stages its value for every writable member that is open to tags, unless
the member already has it. -/
theorem tag_updates_open [DecidableEq V] (cfg : Cfg V) (s : St V) (now : Nat) (tag : Map V) (hn : tagCtxOf cfg now tag = none)
    (e : Key × V) (he : e ∈ tag) (hu : ∀ x ∈ tag, settingsKey x.1 = settingsKey e.1 → x = e)
    (hw : settingsKey e.1 ∈ cfg.writable) (hok : cfg.tagOk (settingsKey e.1) e.2 = true)
    (ks : List Key) (hks : autoFind s.auto s.activeCtx = some ks) (hk : settingsKey e.1 ∈ ks)
    (hd : get s.active (settingsKey e.1) ≠ some e.2) :
    get (autoUpdate cfg s now tag).1.staged (settingsKey e.1) = some e.2 := by
  have hrel : relevant cfg tag = true := List.any_eq_true.2 ⟨e, he, by simp [hw]⟩
  have hta : tagActivate cfg s now tag = (s, none, false) := by unfold tagActivate; rw [hn]
  have hloop : ∀ (l m : Map V) (ch : Bool), (∀ x ∈ l, settingsKey x.1 = settingsKey e.1 → x = e) →
      (e ∈ l ∨ get m (settingsKey e.1) = some e.2) → get (tagLoop cfg s.active false ks l m ch).1 (settingsKey e.1) = some e.2 := by
    intro l
    induction l with
    | nil => intro m ch _ h; rcases h with h | h; simp at h; exact h
    | cons a r ih =>
      intro m ch hl h
      have hl' : ∀ x ∈ r, settingsKey x.1 = settingsKey e.1 → x = e := fun x hx => hl x (List.mem_cons_of_mem _ hx)
      unfold tagLoop
      dsimp only
      by_cases hae : settingsKey a.1 = settingsKey e.1
      · have : a = e := hl a (List.mem_cons_self ..) hae
        subst this
        have h1 : (!cfg.writable.contains (settingsKey a.1)) = false := by simp [hw]
        have h2 : (!false && decide (get s.active (settingsKey a.1) = some a.2)) = false := by simp [hd]
        have h3 : (ks.contains (settingsKey a.1) && cfg.tagOk (settingsKey a.1) a.2) = true := by simp [hk, hok]
        rw [h1, h2, h3]
        simp only [Bool.false_eq_true, if_false, if_true]
        exact ih _ _ hl' (Or.inr (by rw [get_insertOrAssign, if_pos rfl]))
      · have h' : e ∈ r ∨ get m (settingsKey e.1) = some e.2 := by
          rcases h with h | h
          · rcases List.mem_cons.1 h with rfl | h
            · exact absurd rfl hae
            · exact Or.inl h
          · exact Or.inr h
        split
        · exact ih _ _ hl' h'
        · split
          · exact ih _ _ hl' h'
          · split
            · refine ih _ _ hl' ?_
              rcases h' with h' | h'
              · exact Or.inl h'
              · refine Or.inr ?_
                rw [get_insertOrAssign, if_neg (fun hh => hae hh.symm)]
                exact h'
            · exact ih _ _ hl' h'
  unfold autoUpdate
  rw [hrel, hta]
  simp only [Bool.not_true, Bool.false_eq_true, if_false, Option.getD_none, decide_true]
  have htau : tagAuto cfg s.stored s.auto s.activeCtx = s.auto := by unfold tagAuto; rw [hks]
  rw [htau, hks]
  exact hloop tag s.staged false hu (Or.inl he)

/-- `b` is open and follows the tag -/
example : (demoRun [.set 10 10 [(kA, 1)] ⟨0, 0⟩, .activate 11 ⟨0, 0⟩, .apply id]).map
    (fun s => (autoFind s.auto s.activeCtx, get (autoUpdate demo s 12 [("gr:b".toList, 9)]).1.staged kB)) =
    some (some [kB], some 9) := by decide +kernel

end Verif.Settings
