import Verif.Settings.Inv
/-! Expiry and histories. -/
namespace Verif.Settings

open Verif.Work.Tags (Key Map settingsKey insertOrAssign)

variable {V : Type}

theorem entriesOf_add (s : Stored V) (m : Map V) (c : Ctx) (d : Nat) (h : WF s) :
    entriesOf (addStored s m c) d = if d = c.context then insertEntry (entriesOf s d) ⟨c, m⟩ else entriesOf s d := by
  unfold entriesOf addStored
  rw [storedFind_put s _ _ _ h.names]
  split
  · rename_i hd; subst hd; rfl
  · rfl

theorem entriesOf_expire (cfg : Cfg V) (now : Nat) (s : Stored V) (a : Auto) (d : Nat) :
    entriesOf (expireAll cfg now s a).1 d = (expireVec cfg now (entriesOf s d) []).1 := by
  unfold entriesOf
  rw [expireAll_find' cfg now s a [] d]
  cases storedFind s d with
  | none =>
    show [] = (expireVec cfg now [] []).1
    unfold expireVec
    simp
  | some v => rfl

theorem expireVec_noExpiry (cfg : Cfg V) (now : Nat) (v : List (Entry V)) (a : Auto) (h : cfg.expiry = noExpiry) :
    (expireVec cfg now v a).1 = v.drop (dropCount v now) := by
  unfold expireVec
  simp only [h, if_true]

/-- when something is dropped, a set not later than `now` and not earlier than the dropped ones stays -/
theorem dropCount_kept (v : List (Entry V)) (now : Nat) (h : Sorted v) (hn : 0 < dropCount v now) :
    ∃ e, v[dropCount v now]? = some e ∧ e.ctx.time ≤ now := by
  unfold dropCount at hn ⊢
  dsimp only at hn ⊢
  cases hi : v[lowerIdx v now]? with
  | none =>
    rw [hi] at hn
    dsimp only at hn ⊢
    have h1 := List.getElem?_eq_none_iff.1 hi
    have hlt : v.length - 1 < v.length := by omega
    refine ⟨v[v.length - 1], List.getElem?_eq_getElem hlt, ?_⟩
    have := getElem_lt_takeWhile (fun e : Entry V => decide (e.ctx.time < now)) v (v.length - 1) (by unfold lowerIdx at h1; omega) _
      (List.getElem?_eq_getElem hlt)
    have : v[v.length - 1].ctx.time < now := by simpa using this
    omega
  | some e =>
    rw [hi] at hn
    dsimp only at hn ⊢
    split
    · rename_i he
      exact ⟨e, hi, by omega⟩
    · rename_i he
      rw [if_neg he] at hn
      have h2 := (List.getElem?_eq_some_iff.1 hi).1
      have hlt : lowerIdx v now - 1 < v.length := by omega
      refine ⟨v[lowerIdx v now - 1], List.getElem?_eq_getElem hlt, ?_⟩
      have := getElem_lt_takeWhile (fun e : Entry V => decide (e.ctx.time < now)) v (lowerIdx v now - 1) (by unfold lowerIdx at hn ⊢; omega) _
        (List.getElem?_eq_getElem hlt)
      have : v[lowerIdx v now - 1].ctx.time < now := by simpa using this
      omega

/-- a set is kept, or a set at another position, not earlier and not later than `now`, is kept -/
theorem expire_cover (v : List (Entry V)) (now : Nat) (h : Sorted v) (i : Nat) (x : Entry V) (hx : v[i]? = some x) :
    x ∈ v.drop (dropCount v now) ∨
    ∃ j e, i < j ∧ v[j]? = some e ∧ e ∈ v.drop (dropCount v now) ∧ x.ctx.time ≤ e.ctx.time ∧ e.ctx.time ≤ now := by
  by_cases hi : dropCount v now ≤ i
  · left
    apply List.mem_of_getElem? (i := i - dropCount v now)
    rw [List.getElem?_drop]
    have : dropCount v now + (i - dropCount v now) = i := by omega
    rw [this]; exact hx
  · right
    obtain ⟨e, he, het⟩ := dropCount_kept v now h (by omega)
    refine ⟨dropCount v now, e, by omega, he, ?_, sorted_getElem v h i _ x e (by omega) hx he, het⟩
    apply List.mem_of_getElem? (i := 0)
    rw [List.getElem?_drop]
    exact he

theorem expire_future (v : List (Entry V)) (now : Nat) (h : Sorted v) (x : Entry V) (hx : x ∈ v) (ht : now < x.ctx.time) :
    x ∈ v.drop (dropCount v now) := by
  obtain ⟨i, hi⟩ := mem_getElem? v x hx
  rcases expire_cover v now h i x hi with h1 | ⟨j, e, _, _, _, h2, h3⟩
  · exact h1
  · omega

theorem expire_inEffect (v : List (Entry V)) (now : Nat) (h : v.Pairwise (fun a b => a.ctx.time < b.ctx.time)) (x : Entry V)
    (hx : InEffect v now x) : x ∈ v.drop (dropCount v now) := by
  have hs : Sorted v := h.imp (fun hh => Nat.le_of_lt hh)
  obtain ⟨i, hi⟩ := mem_getElem? v x hx.1
  rcases expire_cover v now hs i x hi with h1 | ⟨j, e, hij, hj, he, h2, h3⟩
  · exact h1
  · exfalso
    have h4 := hx.2.2 e (List.mem_of_getElem? hj) h3
    obtain ⟨hi', rfl⟩ := List.getElem?_eq_some_iff.1 hi
    obtain ⟨hj', rfl⟩ := List.getElem?_eq_some_iff.1 hj
    have := (List.pairwise_iff_getElem.1 h) i j hi' hj' hij
    omega

/-- strictly increasing times from sortedness and distinctness -/
theorem strict_insert (v : List (Entry V)) (e : Entry V) (h : v.Pairwise (fun a b => a.ctx.time < b.ctx.time))
    (hd : ∀ x ∈ v, x.ctx.time ≠ e.ctx.time) : (insertEntry v e).Pairwise (fun a b => a.ctx.time < b.ctx.time) := by
  have hs : Sorted v := h.imp (fun hh => Nat.le_of_lt hh)
  unfold insertEntry
  rw [List.pairwise_append]
  refine ⟨h.sublist (List.takeWhile_sublist _), ?_, ?_⟩
  · rw [List.pairwise_cons]
    refine ⟨fun b hb => ?_, h.sublist (List.dropWhile_sublist _)⟩
    have h1 := sorted_dropWhile v _ hs b hb
    have h2 := hd b (List.dropWhile_subset _ hb)
    omega
  · intro a ha b hb
    have hat : a.ctx.time < e.ctx.time := by simpa using mem_takeWhile_pos _ _ _ ha
    rcases List.mem_cons.1 hb with rfl | hb
    · omega
    · have := sorted_dropWhile v _ hs b hb
      omega

/-! ## Answering a request -/

theorem bestCtx_spec (cfg : Cfg V) (pred : Nat → Nat → Nat → Option Bool) (hb : BestBy cfg pred) (s : Stored V) (c : Nat) :
    (∀ d, bestCtx cfg s c = some d → Answers pred s c d) ∧ (bestCtx cfg s c = none → Unanswered pred s c) := by
  unfold bestCtx
  by_cases h0 : s.isEmpty
  · rw [if_pos h0]
    have : s = [] := by simpa using h0
    subst this
    exact ⟨fun d hd => (by cases hd), fun _ => ⟨by simp, Or.inl rfl⟩⟩
  · rw [if_neg h0]
    by_cases h1 : s.any (fun e => decide (e.1 = c)) = true
    · rw [if_pos h1]
      obtain ⟨e, he, hc⟩ := List.any_eq_true.1 h1
      refine ⟨fun d hd => ?_, fun hd => (by cases hd)⟩
      cases hd
      exact Or.inl ⟨rfl, List.mem_map.2 ⟨e, he, of_decide_eq_true hc⟩⟩
    · rw [if_neg h1]
      have hnc : c ∉ s.map (·.1) := by
        intro hm
        obtain ⟨e, he, hc⟩ := List.mem_map.1 hm
        exact h1 (List.any_eq_true.2 ⟨e, he, decide_eq_true hc⟩)
      have hne : s.map (·.1) ≠ [] := by
        intro hh
        rw [List.map_eq_nil_iff] at hh
        subst hh; simp at h0
      obtain ⟨fuel, hf⟩ := hb (s.map (·.1)) c
      have := matchLoop_spec pred c (s.map (·.1)) fuel 0 _ (fun m hm => absurd hm (by omega)) (hf hne)
      exact ⟨fun d hd => Or.inr ⟨hnc, this.1 d hd⟩, fun hd => ⟨hnc, Or.inr (this.2 hd)⟩⟩

theorem answers_mem {pred : Nat → Nat → Nat → Option Bool} {s : Stored V} {c d : Nat} (h : Answers pred s c d) : d ∈ s.map (·.1) := by
  rcases h with ⟨rfl, h⟩ | ⟨_, n, pre, post, h, _⟩
  · exact h
  · rw [h]; simp

theorem storedFind_of_name (s : Stored V) (d : Nat) (h : d ∈ s.map (·.1)) : ∃ v, storedFind s d = some v := by
  unfold storedFind
  obtain ⟨e, he, rfl⟩ := List.mem_map.1 h
  cases hf : s.find? (fun x => decide (x.1 = e.1)) with
  | none => exact absurd (List.find?_eq_none.1 hf e he) (by simp)
  | some x => exact ⟨x.2, rfl⟩

theorem find_ctx (v : List (Entry V)) (c : Nat) (ho : ∀ e ∈ v, e.ctx.context = c) (e : Entry V) (he : e ∈ v) :
    v.find? (fun x => decide (x.ctx = e.ctx)) = v.find? (fun x => decide (x.ctx.time = e.ctx.time)) := by
  have h2 := ho e he
  clear he
  induction v with
  | nil => rfl
  | cons a r ih =>
    have ih' := ih (fun x hx => ho x (List.mem_cons_of_mem _ hx))
    have h1 := ho a List.mem_cons_self
    have : decide (a.ctx = e.ctx) = decide (a.ctx.time = e.ctx.time) := by
      obtain ⟨⟨t1, c1⟩, m1⟩ := a
      obtain ⟨⟨t2, c2⟩, m2⟩ := e
      simp at h1 h2
      simp [h1, h2]
    rw [List.find?_cons, List.find?_cons, this, ih']

/-- lookup with the name fixed -/
theorem bestStored_spec (cfg : Cfg V) (pred : Nat → Nat → Nat → Option Bool) (hb : BestBy cfg pred) (s : Stored V) (h : WF s) (ctx : Ctx)
    (ht : ctx.time ≠ 0) :
    (∀ m, bestStored cfg s ctx = some m → ∃ d e, Answers pred s ctx.context d ∧ InEffect (entriesOf s d) ctx.time e ∧
      (entriesOf s d).find? (fun x => decide (x.ctx.time = e.ctx.time)) = some e ∧ e.settings = m) ∧
    (bestStored cfg s ctx = none → Unanswered pred s ctx.context ∨
      ∃ d, Answers pred s ctx.context d ∧ ∀ e ∈ entriesOf s d, ctx.time < e.ctx.time) := by
  have hbc := bestCtx_spec cfg pred hb s ctx.context
  unfold bestStored bestSettingsCtx
  cases hc : bestCtx cfg s ctx.context with
  | none => exact ⟨fun m hm => (by cases hm), fun _ => Or.inl (hbc.2 hc)⟩
  | some d =>
    have hans := hbc.1 d hc
    obtain ⟨v, hv⟩ := storedFind_of_name s d (answers_mem hans)
    have hev : entriesOf s d = v := by unfold entriesOf; rw [hv]; rfl
    have hsort : Sorted v := hev ▸ h.entries_sorted d
    have hown : ∀ e ∈ v, e.ctx.context = d := hev ▸ h.entries_own d
    dsimp only
    rw [hv]
    dsimp only
    cases hsv : searchVec v ctx.time with
    | none => exact ⟨fun m hm => (by cases hm), fun _ => Or.inr ⟨d, hans, hev.symm ▸ searchVec_none v ctx.time hsort ht hsv⟩⟩
    | some b =>
      obtain ⟨e, hie, rfl⟩ := searchVec_some v ctx.time hsort ht b hsv
      dsimp only
      rw [hown e hie.1, hv]
      dsimp only
      rw [find_ctx v d hown e hie.1]
      cases hf : v.find? (fun x => decide (x.ctx.time = e.ctx.time)) with
      | none => exact absurd (List.find?_eq_none.1 hf e hie.1) (by simp)
      | some q =>
        have hqt : q.ctx.time = e.ctx.time := by simpa using List.find?_some hf
        have hqm : q ∈ v := List.mem_of_find?_eq_some hf
        refine ⟨fun m hm => ?_, fun hm => (by cases hm)⟩
        cases hm
        refine ⟨d, q, hans, ?_, ?_, rfl⟩
        · rw [hev]
          exact ⟨hqm, hqt ▸ hie.2.1, fun x hx hxt => hqt ▸ hie.2.2 x hx hxt⟩
        · rw [hev, hqt, hf]

/-! ## Histories -/

theorem setAt_stored (cfg : Cfg V) (s : St V) (now' : Nat) (ps : Map V) (c : Ctx) :
    ((setResult cfg s ps c).2.2.2 = true → (setAt cfg s now' ps c).1.stored = s.stored) ∧
    ((setResult cfg s ps c).2.2.2 = false → ∃ a, (setAt cfg s now' ps c).1.stored =
      (removeExpired cfg now' (addStored s.stored (setResult cfg s ps c).1 c) a).1) := by
  unfold setAt
  dsimp only
  constructor
  · intro h; rw [if_pos h]
  · intro h; rw [if_neg (by rw [h]; decide)]
    exact ⟨_, rfl⟩

theorem apply_stored (cfg : Cfg V) (s : St V) (cb : (Key → V) → Key → V) (r : St V × Map V × Map V) (h : apply cfg s cb = some r) :
    r.1.stored = s.stored ∧ r.1.auto = s.auto ∧ r.1.activeCtx = s.activeCtx := by
  unfold apply at h
  split at h
  · cases h
  · cases h; exact ⟨rfl, rfl, rfl⟩

theorem tagActivate_stored (cfg : Cfg V) (s : St V) (now : Nat) (t : Map V) : (tagActivate cfg s now t).1.stored = s.stored := by
  unfold tagActivate
  split
  · rfl
  · exact (activateAt_stored cfg s _).1

theorem autoUpdate_stored [DecidableEq V] (cfg : Cfg V) (s : St V) (now : Nat) (t : Map V) : (autoUpdate cfg s now t).1.stored = s.stored := by
  unfold autoUpdate
  split
  · rfl
  · dsimp only
    split
    · exact tagActivate_stored cfg s now t
    · exact tagActivate_stored cfg s now t

/-- what a call other than a removal does to the stored sets -/
theorem step_stored [DecidableEq V] (cfg : Cfg V) (s s' : St V) (o : Op V) (hrem : isRemove o = false) (hs : step cfg s o = some s') :
    (storesAt cfg s o = none ∧ s'.stored = s.stored) ∨
    (∃ e, storesAt cfg s o = some e ∧ ((s'.stored = addStored s.stored e.settings e.ctx) ∨
      ∃ now ∈ clocks o, ∃ a, s'.stored = (removeExpired cfg now (addStored s.stored e.settings e.ctx) a).1)) := by
  cases o with
  | set n n' ps ctx =>
    cases hs
    have h := setAt_stored cfg s n' ps (setCtx cfg s.stored n ctx)
    unfold storesAt
    dsimp only
    cases ht : (setResult cfg s ps (setCtx cfg s.stored n ctx)).2.2.2 with
    | true => exact Or.inl ⟨rfl, h.1 ht⟩
    | false =>
      obtain ⟨a, ha⟩ := h.2 ht
      exact Or.inr ⟨_, rfl, Or.inr ⟨n', by simp [clocks], a, ha⟩⟩
  | setStaged ps => cases hs; exact Or.inl ⟨rfl, rfl⟩
  | activate n c => cases hs; exact Or.inl ⟨rfl, (activateAt_stored cfg s _).1⟩
  | remove n n' c => cases hrem
  | tag n t => cases hs; exact Or.inl ⟨rfl, autoUpdate_stored cfg s n t⟩
  | apply cb =>
    have hs' : (Settings.apply cfg s cb).map (·.1) = some s' := hs
    rw [Option.map_eq_some_iff] at hs'
    obtain ⟨r, hr, rfl⟩ := hs'
    exact Or.inl ⟨rfl, (apply_stored cfg s cb r hr).1⟩
  | storeDefaults => cases hs; exact Or.inl ⟨rfl, rfl⟩
  | reset n1 n2 n3 cb =>
    have hs' : (resetDefaults cfg s n1 n2 n3 cb).map (·.1) = some s' := hs
    rw [Option.map_eq_some_iff] at hs'
    obtain ⟨r, hr, rfl⟩ := hs'
    unfold resetDefaults at hr
    dsimp only at hr
    have h2 := (activateAt_stored cfg (resetStore cfg s n1) ⟨effTime cfg n2 0, 0⟩).1
    refine Or.inr ⟨_, rfl, ?_⟩
    split at hr
    · cases hr
      left
      exact h2
    · rw [Option.map_eq_some_iff] at hr
      obtain ⟨x, hx, rfl⟩ := hr
      right
      refine ⟨n3, by simp [clocks], x.1.auto, ?_⟩
      show (removeExpired cfg n3 x.1.stored x.1.auto).1 = _
      rw [(apply_stored cfg _ cb x hx).1]
      have h3 : (activate cfg (resetStore cfg s n1) n2 ⟨0, 0⟩).1.stored = (resetStore cfg s n1).stored := h2
      rw [h3]
      rfl
  | touch f => cases hs; exact Or.inl ⟨rfl, rfl⟩

/-- what histories preserve -/
structure HInv (s : St V) (log : List (Entry V)) (clk : Nat) : Prop where
  wf : WF s.stored
  strict : ∀ c, (entriesOf s.stored c).Pairwise (fun a b => a.ctx.time < b.ctx.time)
  sub : ∀ c, ∀ e ∈ entriesOf s.stored c, e ∈ log
  cover : ∀ x ∈ log, x ∈ entriesOf s.stored x.ctx.context ∨
    ∃ e ∈ entriesOf s.stored x.ctx.context, x.ctx.time < e.ctx.time ∧ e.ctx.time ≤ clk

theorem HInv.add {s : St V} {log : List (Entry V)} {clk : Nat} (h : HInv s log clk) (e : Entry V)
    (hd : ∀ x ∈ log, x.ctx.context = e.ctx.context → x.ctx.time ≠ e.ctx.time) (s' : St V)
    (hs : s'.stored = addStored s.stored e.settings e.ctx) : HInv s' (e :: log) clk := by
  have he : ∀ d, entriesOf s'.stored d = if d = e.ctx.context then insertEntry (entriesOf s.stored d) e else entriesOf s.stored d := by
    intro d
    rw [hs]
    exact entriesOf_add s.stored e.settings e.ctx d h.wf
  refine ⟨hs ▸ addStored_wf _ _ _ h.wf, ?_, ?_, ?_⟩
  · intro c
    rw [he c]
    split
    · refine strict_insert _ _ (h.strict c) (fun x hx => ?_)
      rename_i hc
      exact hd x (h.sub c x hx) ((h.wf.entries_own c x hx).trans hc)
    · exact h.strict c
  · intro c x hx
    rw [he c] at hx
    split at hx
    · rcases (mem_insertEntry _ _ _).1 hx with rfl | hx
      · exact List.mem_cons_self
      · exact List.mem_cons_of_mem _ (h.sub c x hx)
    · exact List.mem_cons_of_mem _ (h.sub c x hx)
  · intro x hx
    have hin : ∀ y ∈ entriesOf s.stored x.ctx.context, y ∈ entriesOf s'.stored x.ctx.context := by
      intro y hy
      rw [he]
      split
      · exact (mem_insertEntry _ _ _).2 (Or.inr hy)
      · exact hy
    rcases List.mem_cons.1 hx with rfl | hx
    · left
      rw [he, if_pos rfl]
      exact (mem_insertEntry _ _ _).2 (Or.inl rfl)
    · rcases h.cover x hx with h1 | ⟨y, hy, h2, h3⟩
      · exact Or.inl (hin _ h1)
      · exact Or.inr ⟨y, hin y hy, h2, h3⟩

theorem HInv.expire {cfg : Cfg V} {s : St V} {log : List (Entry V)} {clk : Nat} (h : HInv s log clk) (hx : cfg.expiry = noExpiry)
    (hw : cfg.wasm = false) (now : Nat) (hnow : now ≤ clk) (a : Auto) (s' : St V)
    (hs : s'.stored = (removeExpired cfg now s.stored a).1) : HInv s' log clk := by
  have he : ∀ d, entriesOf s'.stored d = (entriesOf s.stored d).drop (dropCount (entriesOf s.stored d) now) := by
    intro d
    rw [hs]
    unfold removeExpired
    rw [hw, entriesOf_expire, expireVec_noExpiry _ _ _ _ hx]
    rfl
  refine ⟨?_, ?_, ?_, ?_⟩
  · rw [hs]; exact expireAll_wf _ _ _ _ h.wf
  · intro c
    rw [he c]
    exact (h.strict c).sublist (List.drop_sublist _ _)
  · intro c e hec
    rw [he c] at hec
    exact h.sub c e ((List.drop_sublist _ _).subset hec)
  · intro x hxl
    have key : ∀ y ∈ entriesOf s.stored x.ctx.context, y ∈ entriesOf s'.stored x.ctx.context ∨
        ∃ e ∈ entriesOf s'.stored x.ctx.context, y.ctx.time < e.ctx.time ∧ e.ctx.time ≤ clk := by
      intro y hy
      rw [he]
      obtain ⟨i, hi⟩ := mem_getElem? _ y hy
      rcases expire_cover _ now ((h.strict _).imp (fun hh => Nat.le_of_lt hh)) i y hi with h1 | ⟨j, e, hij, hj, hem, h2, h3⟩
      · exact Or.inl h1
      · right
        refine ⟨e, hem, ?_, by omega⟩
        obtain ⟨hi', rfl⟩ := List.getElem?_eq_some_iff.1 hi
        obtain ⟨hj', rfl⟩ := List.getElem?_eq_some_iff.1 hj
        exact (List.pairwise_iff_getElem.1 (h.strict _)) i j hi' hj' hij
    rcases h.cover x hxl with h1 | ⟨y, hy, h2, h3⟩
    · exact key x h1
    · rcases key y hy with h4 | ⟨e, h4, h5, h6⟩
      · exact Or.inr ⟨y, h4, h2, h3⟩
      · exact Or.inr ⟨e, h4, by omega, h6⟩

theorem Hist.inv [DecidableEq V] {cfg : Cfg V} {f : Key → V} (hx : cfg.expiry = noExpiry) (hw : cfg.wasm = false) {s : St V}
    {log : List (Entry V)} {clk : Nat} (h : Hist cfg f s log clk) : HInv s log clk := by
  induction h with
  | init =>
    refine ⟨⟨List.Pairwise.nil, fun p hp => ?_, fun p hp => ?_⟩, fun c => ?_, fun c e he => ?_, fun x hx => ?_⟩
    · simp [St.fresh] at hp
    · simp [St.fresh] at hp
    · exact List.Pairwise.nil
    · simp [St.fresh, entriesOf, storedFind] at he
    · simp at hx
  | step o s' clk' h hrem hs hc hle hd ih =>
    rename_i s log clk
    have ih' : HInv s log clk' := by
      refine ⟨ih.wf, ih.strict, ih.sub, fun x hx => ?_⟩
      rcases ih.cover x hx with h1 | ⟨e, h1, h2, h3⟩
      · exact Or.inl h1
      · exact Or.inr ⟨e, h1, h2, by omega⟩
    rcases step_stored cfg s s' o hrem hs with ⟨h1, h2⟩ | ⟨e, h1, h2⟩
    · rw [h1]
      exact ⟨h2 ▸ ih'.wf, h2 ▸ ih'.strict, h2 ▸ ih'.sub, h2 ▸ ih'.cover⟩
    · rw [h1]
      show HInv s' (e :: log) clk'
      rcases h2 with h2 | ⟨now, hnow, a, h2⟩
      · exact ih'.add e (hd e h1) s' h2
      · have h3 : HInv { s with stored := addStored s.stored e.settings e.ctx } (e :: log) clk' := ih'.add e (hd e h1) _ rfl
        exact h3.expire hx hw now (hc now hnow).2 a s' h2

end Verif.Settings
