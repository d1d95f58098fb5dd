import Verif.Settings.PropLemmas
/-!
# Settings: the properties

C36 lookup, C37 duplicate time stamps, C38 applying staged parameters, C39 tags and explicitly set parameters, C40 expiry.
-/
namespace Verif.Settings

open Verif.Work.Tags (Key Map settingsKey insertOrAssign)

variable {V : Type}

/-! ## A block for the concrete cases: members `a`, `b`; values `≥ 100` do not convert, values `≥ 50` fail validation -/

def kA : Key := ['a']
def kB : Key := ['b']

def demo : Cfg Nat where
  writable := [kA, kB]
  readable := [kA, kB]
  conv := fun _ x => if x < 100 then some x else none
  isMono := fun x => decide (x = 99)
  tagOk := fun _ _ => true
  accept := fun _ x => if x < 50 then some x else none
  best := fun _ _ => none
  expiry := noExpiry
  wasm := false
  hasCallback := true
  forwards := fun _ => true
  tagCtx := fun m => (get m "context".toList).map (fun c => (c, none))

/-- the default predicate: never decides — Settings.hpp:80-82 -/
def nullPred : Nat → Nat → Nat → Option Bool := fun _ _ _ => none

theorem demo_best : BestBy demo nullPred := by
  intro names c
  refine ⟨1, fun hne => ?_⟩
  cases names with
  | nil => exact absurd rfl hne
  | cons n r => rfl

/-- the object of the concrete cases: defaults stored, then `a = 1` set at time 10 -/
def demoRun (ops : List (Op Nat)) : Option (St Nat) := run demo (St.fresh (fun _ => 0)) ops

/-! ## C36 -/

/-- **C36** After any sequence of calls, a lookup for a context and a time answers from the sets stored for that context name (or for
the name the user's predicate decides for) with the one having the greatest time stamp not later than the requested one, the most
recently stored of those with that time stamp; it answers nothing only when no name matches or when all sets are later. -/
theorem lookup_latest [DecidableEq V] (cfg : Cfg V) (pred : Nat → Nat → Nat → Option Bool) (hb : BestBy cfg pred) (hw : cfg.wasm = false)
    (f : Key → V) (ops : List (Op V)) (s : St V) (hr : run cfg (St.fresh f) ops = some s) (now : Nat) (ctx : Ctx) (hn : 0 < now) :
    let t := if ctx.time = 0 then now else ctx.time
    (∀ m, getStored cfg s now ctx = some m → ∃ d e, Answers pred s.stored ctx.context d ∧ InEffect (entriesOf s.stored d) t e ∧
      (entriesOf s.stored d).find? (fun x => decide (x.ctx.time = e.ctx.time)) = some e ∧ e.settings = m) ∧
    (getStored cfg s now ctx = none → Unanswered pred s.stored ctx.context ∨
      ∃ d, Answers pred s.stored ctx.context d ∧ ∀ e ∈ entriesOf s.stored d, t < e.ctx.time) := by
  have hinv := (Inv.fresh (fun _ => True) f).run (cfg := cfg) (fun _ _ => trivial) (fun _ _ => trivial) ops s hr
  have hq : queryTime cfg now ctx.time = if ctx.time = 0 then now else ctx.time := by unfold queryTime; rw [hw]; rfl
  have hne : (if ctx.time = 0 then now else ctx.time) ≠ 0 := by split <;> omega
  have := bestStored_spec cfg pred hb s.stored hinv.wf ⟨queryTime cfg now ctx.time, ctx.context⟩ (by rw [hq]; exact hne)
  rw [hq] at this
  unfold getStored
  rw [hq]
  exact this

/-- three sets at times 10, 30 and 20: a request for time 25 gets the one of 20, a request for time 5 nothing -/
example :
    (demoRun [.set 1 1 [(kA, 1)] ⟨10, 7⟩, .set 1 1 [(kA, 3)] ⟨30, 7⟩, .set 1 1 [(kA, 2)] ⟨20, 7⟩]).map
      (fun s => [getStored demo s 1 ⟨25, 7⟩, getStored demo s 1 ⟨5, 7⟩, getStored demo s 1 ⟨0, 8⟩]) =
    some [some [(kA, 2)], none, none] := by decide +kernel

/-- **C36** (what is stored) A `set` that does not throw stores, for every member, the converted value of the last usable entry given
for it, and otherwise the value in effect at that time (or the default). -/
theorem set_content (cfg : Cfg V) (s : St V) (n n' : Nat) (ps : Map V) (ctx : Ctx) (e : Entry V)
    (h : storesAt cfg s (.set n n' ps ctx) = some e) (k : Key) :
    e.ctx = setCtx cfg s.stored n ctx ∧
    get e.settings k = match given cfg ps k with
      | none => get ((bestStored cfg s.stored e.ctx).getD s.defaults) k
      | some x => if cfg.writable.contains k then cfg.conv k x else get ((bestStored cfg s.stored e.ctx).getD s.defaults) k := by
  unfold storesAt at h
  dsimp only at h
  cases ht : (setResult cfg s ps (setCtx cfg s.stored n ctx)).2.2.2 with
  | true => rw [ht] at h; cases h
  | false =>
    rw [ht] at h
    cases h
    exact ⟨rfl, setLoop_content cfg ps _ _ _ ht k⟩

example : (demoRun [.set 1 1 [(kA, 1), (kB, 5)] ⟨10, 0⟩]).map
    (fun s => (storesAt demo s (.set 1 1 [("gr:a".toList, 2), (kB, 99), ("zzz".toList, 3)] ⟨20, 0⟩)).map (·.settings)) =
    some (some [(kA, 2), (kB, 5)]) := by decide +kernel

/-- **C36** (whole histories; without expiry time, removals or repeated time stamps) At any time not earlier than the last clock
reading, a lookup for a context answers with the latest set among *all sets ever stored* for it: dropping outdated sets is
invisible. -/
theorem lookup_history_partial [DecidableEq V] (cfg : Cfg V) (pred : Nat → Nat → Nat → Option Bool) (hb : BestBy cfg pred)
    (hw : cfg.wasm = false) (hx : cfg.expiry = noExpiry) (f : Key → V) (s : St V) (log : List (Entry V)) (clk : Nat)
    (h : Hist cfg f s log clk) (now : Nat) (ctx : Ctx) (hc : ctx.context ∈ s.stored.map (·.1)) (hn : 0 < now)
    (ht : clk ≤ if ctx.time = 0 then now else ctx.time) :
    let t := if ctx.time = 0 then now else ctx.time
    (∀ m, getStored cfg s now ctx = some m → ∃ e, InEffect (logOf log ctx.context) t e ∧ e.settings = m) ∧
    (getStored cfg s now ctx = none → ∀ e ∈ logOf log ctx.context, t < e.ctx.time) := by
  have hinv := h.inv hx hw
  have hq : queryTime cfg now ctx.time = if ctx.time = 0 then now else ctx.time := by unfold queryTime; rw [hw]; rfl
  have hne : (if ctx.time = 0 then now else ctx.time) ≠ 0 := by split <;> omega
  have hspec := bestStored_spec cfg pred hb s.stored hinv.wf ⟨queryTime cfg now ctx.time, ctx.context⟩ (by rw [hq]; exact hne)
  rw [hq] at hspec
  unfold getStored
  rw [hq]
  generalize (if ctx.time = 0 then now else ctx.time) = t at *
  have hsame : ∀ d, Answers pred s.stored ctx.context d → d = ctx.context := by
    intro d hd
    rcases hd with ⟨h1, _⟩ | ⟨h1, _⟩
    · exact h1
    · exact absurd hc h1
  have hcov : ∀ x ∈ logOf log ctx.context, x.ctx.time ≤ t → ∃ e ∈ entriesOf s.stored ctx.context, x.ctx.time ≤ e.ctx.time ∧ e.ctx.time ≤ t := by
    intro x hx hxt
    obtain ⟨hx1, hx2⟩ := List.mem_filter.1 hx
    have hxc : x.ctx.context = ctx.context := of_decide_eq_true hx2
    rcases hinv.cover x hx1 with h1 | ⟨e, h1, h2, h3⟩
    · exact ⟨x, hxc ▸ h1, Nat.le_refl _, hxt⟩
    · exact ⟨e, hxc ▸ h1, by omega, by omega⟩
  constructor
  · intro m hm
    obtain ⟨d, e, hd, hie, _, rfl⟩ := hspec.1 m hm
    have hdc : d = ctx.context := hsame d hd
    subst hdc
    refine ⟨e, ⟨List.mem_filter.2 ⟨hinv.sub _ e hie.1, decide_eq_true (hinv.wf.entries_own _ e hie.1)⟩, hie.2.1, fun x hx hxt => ?_⟩, rfl⟩
    obtain ⟨y, hy, h1, h2⟩ := hcov x hx hxt
    have := hie.2.2 y hy h2
    omega
  · intro hm x hx
    rcases hspec.2 hm with h1 | ⟨d, hd, h1⟩
    · exact absurd hc h1.1
    · have hdc : d = ctx.context := hsame d hd
      subst hdc
      apply Nat.lt_of_not_le
      intro hle
      obtain ⟨y, hy, _, h2⟩ := hcov x hx hle
      have h3 : t < y.ctx.time := h1 y hy
      omega

/-- a history with two dropped sets -/
example : ∃ s log, Hist demo (fun _ => 0) s log 50 ∧ log.length = 3 ∧ (entriesOf s.stored 7).length = 1 ∧
    getStored demo s 50 ⟨0, 7⟩ = some [(kA, 3)] := by
  refine ⟨_, _, .step (.set 50 50 [(kA, 2)] ⟨20, 7⟩) _ 50 (.step (.set 40 40 [(kA, 3)] ⟨30, 7⟩) _ 40
    (.step (.set 15 15 [(kA, 1)] ⟨10, 7⟩) _ 15 .init rfl rfl (by simp [clocks]) (by omega) (by simp)) rfl rfl (by simp [clocks])
    (by omega) ?_) rfl rfl (by simp [clocks]) (by omega) ?_, ?_⟩
  · intro e he x hx _
    have h1 : e.ctx.time = 30 := by cases he; rfl
    have h2 : x.ctx.time = 10 := by
      rcases List.mem_cons.1 hx with rfl | hx
      · rfl
      · simp at hx
    omega
  · intro e he x hx _
    have h1 : e.ctx.time = 20 := by cases he; rfl
    have h2 : x.ctx.time = 30 ∨ x.ctx.time = 10 := by
      rcases List.mem_cons.1 hx with rfl | hx
      · exact Or.inl rfl
      · rcases List.mem_cons.1 hx with rfl | hx
        · exact Or.inr rfl
        · simp at hx
    omega
  · decide +kernel

/-- finding: on WebAssembly a lookup for an explicit time also sees sets up to 100 ns later than requested -/
theorem wasm_lookup_sees_later : ∃ (s : St Nat) (e : Entry Nat), run { demo with wasm := true } (St.fresh (fun _ => 0))
      [.set 1 1 [(kA, 1)] ⟨5000, 0⟩] = some s ∧ e ∈ entriesOf s.stored 0 ∧ 4950 < e.ctx.time ∧
      getStored { demo with wasm := true } s 1 ⟨4950, 0⟩ = some e.settings :=
  ⟨_, ⟨⟨5000, 0⟩, [(kA, 1)]⟩, rfl, by decide +kernel⟩

/-! ## C37 -/

/-- **C37** (ordering) After any sequence of calls the sets stored for a context are ordered by time stamp. -/
theorem entries_ordered [DecidableEq V] (cfg : Cfg V) (f : Key → V) (ops : List (Op V)) (s : St V)
    (hr : run cfg (St.fresh f) ops = some s) (c : Nat) : (entriesOf s.stored c).Pairwise (fun a b => a.ctx.time ≤ b.ctx.time) :=
  ((Inv.fresh (fun _ => True) f).run (cfg := cfg) (fun _ _ => trivial) (fun _ _ => trivial) ops s hr).wf.entries_sorted c

/-- **C37** is false of the native code: a second set stored under an explicit time stamp that already exists (and is not in the
future) is dropped by the same call, the older one stays and is what lookups return. -/
theorem duplicate_time_newest_lost :
    (demoRun [.set 100 100 [(kA, 1)] ⟨50, 0⟩, .set 101 101 [(kA, 2)] ⟨50, 0⟩]).map
      (fun s => (entriesOf s.stored 0, getStored demo s 102 ⟨50, 0⟩)) =
    some ([⟨⟨50, 0⟩, [(kA, 1)]⟩], some [(kA, 1)]) := by decide +kernel

/-- **C37** (future time stamps) A set stored under a time stamp later than the clock is found at that time stamp whatever was stored
under it before: the newest wins. What is missing: the entries need not be distinct, and for time stamps not in the future the
statement is false (`duplicate_time_newest_lost`). -/
theorem newest_wins_partial [DecidableEq V] (cfg : Cfg V) (pred : Nat → Nat → Nat → Option Bool) (hb : BestBy cfg pred)
    (hw : cfg.wasm = false) (hx : cfg.expiry = noExpiry) (f : Key → V) (ops : List (Op V)) (s : St V)
    (hr : run cfg (St.fresh f) ops = some s) (n n' : Nat) (ps : Map V) (ctx : Ctx) (hfut : n' < ctx.time) (e : Entry V)
    (he : storesAt cfg s (.set n n' ps ctx) = some e) (now : Nat) :
    getStored cfg (set cfg s n n' ps ctx).1 now ctx = some e.settings := by
  have hinv := (Inv.fresh (fun _ => True) f).run (cfg := cfg) (fun _ _ => trivial) (fun _ _ => trivial) ops s hr
  have hc : setCtx cfg s.stored n ctx = ctx := by
    have h0 : ¬ ctx.time = 0 := by omega
    unfold setCtx
    rw [hw, if_neg h0]
    rfl
  unfold storesAt at he
  dsimp only at he
  rw [hc] at he
  cases ht : (setResult cfg s ps ctx).2.2.2 with
  | true => rw [ht] at he; cases he
  | false =>
    rw [ht] at he
    cases he
    obtain ⟨a, ha⟩ := (setAt_stored cfg s n' ps ctx).2 ht
    have hst : (set cfg s n n' ps ctx).1.stored = (removeExpired cfg n' (addStored s.stored (setResult cfg s ps ctx).1 ctx) a).1 := by
      unfold set; rw [hc]; exact ha
    have hwf : WF (set cfg s n n' ps ctx).1.stored := by
      rw [hst]; exact expireAll_wf _ _ _ _ (addStored_wf _ _ _ hinv.wf)
    have hent : entriesOf (set cfg s n n' ps ctx).1.stored ctx.context =
        (insertEntry (entriesOf s.stored ctx.context) ⟨ctx, (setResult cfg s ps ctx).1⟩).drop
          (dropCount (insertEntry (entriesOf s.stored ctx.context) ⟨ctx, (setResult cfg s ps ctx).1⟩) n') := by
      rw [hst]
      unfold removeExpired
      rw [hw, entriesOf_expire, expireVec_noExpiry _ _ _ _ hx, entriesOf_add _ _ _ _ hinv.wf, if_pos rfl]
      rfl
    have hsort := sorted_insertEntry (entriesOf s.stored ctx.context) ⟨ctx, (setResult cfg s ps ctx).1⟩ (hinv.wf.entries_sorted ctx.context)
    have hdrop : dropCount (insertEntry (entriesOf s.stored ctx.context) ⟨ctx, (setResult cfg s ps ctx).1⟩) n' ≤
        lowerIdx (entriesOf s.stored ctx.context) ctx.time := by
      apply Nat.le_of_not_lt
      intro hlt
      obtain ⟨q, hq, hqt⟩ := dropCount_kept _ n' hsort (by omega)
      have hnew : (insertEntry (entriesOf s.stored ctx.context) ⟨ctx, (setResult cfg s ps ctx).1⟩)[lowerIdx (entriesOf s.stored ctx.context) ctx.time]? =
          some ⟨ctx, (setResult cfg s ps ctx).1⟩ := by
        unfold insertEntry lowerIdx
        simp
      have h1 := sorted_getElem _ hsort _ _ _ _ (Nat.le_of_lt hlt) hnew hq
      have h2 : ctx.time ≤ q.ctx.time := h1
      omega
    have hfind := find_drop_insert (entriesOf s.stored ctx.context) ⟨ctx, (setResult cfg s ps ctx).1⟩ _ hdrop
    rw [← hent] at hfind
    have hmem := List.mem_of_find?_eq_some hfind
    have hq : queryTime cfg now ctx.time = ctx.time := by unfold queryTime; rw [hw, if_neg (by omega)]; rfl
    have hspec := bestStored_spec cfg pred hb _ hwf ⟨queryTime cfg now ctx.time, ctx.context⟩ (by rw [hq]; show ctx.time ≠ 0; omega)
    rw [hq] at hspec
    have hname : ctx.context ∈ (set cfg s n n' ps ctx).1.stored.map (·.1) := by
      cases hsf : storedFind (set cfg s n n' ps ctx).1.stored ctx.context with
      | none => unfold entriesOf at hmem; rw [hsf] at hmem; simp at hmem
      | some v => exact List.mem_map.2 ⟨_, mem_of_storedFind _ _ _ hsf, rfl⟩
    have hsame : ∀ d, Answers pred (set cfg s n n' ps ctx).1.stored ctx.context d → d = ctx.context := by
      intro d hd
      rcases hd with ⟨h1, _⟩ | ⟨h1, _⟩
      · exact h1
      · exact absurd hname h1
    unfold getStored
    rw [hq]
    cases hbs : bestStored cfg (set cfg s n n' ps ctx).1.stored ⟨ctx.time, ctx.context⟩ with
    | none =>
      exfalso
      rcases hspec.2 hbs with h1 | ⟨d, hd, h1⟩
      · exact h1.1 hname
      · have hdc : d = ctx.context := hsame d hd
        subst hdc
        have h2 : ctx.time < ctx.time := h1 _ hmem
        omega
    | some m =>
      obtain ⟨d, q, hd, hiq, hfq, rfl⟩ := hspec.1 m hbs
      have hdc : d = ctx.context := hsame d hd
      subst hdc
      have h1 : ctx.time ≤ q.ctx.time := hiq.2.2 _ hmem (Nat.le_refl _)
      have h2 : q.ctx.time ≤ ctx.time := hiq.2.1
      have h3 : q.ctx.time = ctx.time := by omega
      rw [h3] at hfq
      have h4 : (entriesOf (set cfg s n n' ps ctx).1.stored ctx.context).find? (fun x => decide (x.ctx.time = ctx.time)) =
          some ⟨ctx, (setResult cfg s ps ctx).1⟩ := hfind
      rw [h4] at hfq
      cases hfq
      rfl

example : (demoRun [.set 1 1 [(kA, 1)] ⟨50, 0⟩, .set 2 2 [(kA, 2)] ⟨50, 0⟩]).map (fun s => getStored demo s 3 ⟨50, 0⟩) =
    some (some [(kA, 2)]) := by decide +kernel

/-- **C37** (WebAssembly) There the time stamp is moved to an unused one, between the requested one and 1001 ns later, unless the two
time stamps exactly 1000 ns and 1001 ns later are both in use. -/
theorem duplicate_time_resolved_partial [DecidableEq V] (cfg : Cfg V) (hw : cfg.wasm = true) (f : Key → V) (ops : List (Op V)) (s : St V)
    (hr : run cfg (St.fresh f) ops = some s) (n : Nat) (ctx : Ctx) (ht : ctx.time ≠ 0) :
    let c := setCtx cfg s.stored n ctx
    c.context = ctx.context ∧ ctx.time ≤ c.time ∧ c.time ≤ ctx.time + 1001 ∧
    ((∃ e ∈ entriesOf s.stored ctx.context, e.ctx.time = c.time) →
      (∃ e ∈ entriesOf s.stored ctx.context, e.ctx.time = ctx.time + 1000) ∧
      ∃ e ∈ entriesOf s.stored ctx.context, e.ctx.time = ctx.time + 1001) := by
  have hinv := (Inv.fresh (fun _ => True) f).run (cfg := cfg) (fun _ _ => trivial) (fun _ _ => trivial) ops s hr
  have hc : setCtx cfg s.stored n ctx = resolveDup s.stored ctx := by
    unfold setCtx
    rw [hw, if_neg ht]
    rfl
  dsimp only
  rw [hc]
  obtain ⟨h1, h2⟩ := resolveDup_spec s.stored hinv.wf ctx
  refine ⟨h1, ?_⟩
  rcases h2 with ⟨h2, h3⟩ | ⟨u, hu, h3, h4, h5, h6⟩
  · rw [h2]
    refine ⟨Nat.le_refl _, by omega, ?_⟩
    rintro ⟨e, he, het⟩
    exact absurd ⟨by omega, by omega⟩ (h3 e he)
  · rw [h5]
    refine ⟨by omega, by omega, ?_⟩
    rintro ⟨e, he, het⟩
    have hgt : ¬ e.ctx.time ≤ ctx.time + 1000 := by
      intro hle
      have := h6 e he hle
      omega
    exact ⟨⟨u, hu, by omega⟩, ⟨e, he, by omega⟩⟩

example : setCtx { demo with wasm := true } [(0, [⟨⟨50, 0⟩, []⟩, ⟨⟨60, 0⟩, ([] : Map Nat)⟩])] 1 ⟨50, 0⟩ = ⟨61, 0⟩ := by decide +kernel

/-- finding: with both of these in use, the moved time stamp collides after all -/
theorem wasm_duplicate_remains :
    (run { demo with wasm := true } (St.fresh (fun _ => 0))
      [.set 1 1 [(kA, 1)] ⟨6000, 0⟩, .set 1 1 [(kA, 2)] ⟨6001, 0⟩, .set 1 1 [(kA, 3)] ⟨5000, 0⟩]).map
      (fun s => (entriesOf s.stored 0).map (fun e => e.ctx.time)) = some [6000, 6001, 6001] := by decide +kernel

/-! ## C38 -/

/-- **C38** After any sequence of calls, applying the staged parameters gives every member with a staged value that converts and
passes validation that value and leaves all other members alone; nothing stays staged; and the reported active parameters are the
members' values, also when the block's own callback changes members. -/
theorem apply_staged [DecidableEq V] (cfg : Cfg V) (f : Key → V) (ops : List (Op V)) (s : St V) (hr : run cfg (St.fresh f) ops = some s)
    (cb : (Key → V) → Key → V) (s' : St V) (applied fwd : Map V) (ha : apply cfg s cb = some (s', applied, fwd)) :
    (∀ k, get applied k = accepted cfg s.staged k) ∧
    s'.fields = (if cfg.hasCallback && !applied.isEmpty then cb (fieldAfter cfg s.staged s.fields) else fieldAfter cfg s.staged s.fields) ∧
    s'.staged = [] ∧
    ∀ k ∈ cfg.readable, get s'.active k = some (s'.fields k) := by
  have hinv := (Inv.fresh (fun _ => True) f).run (cfg := cfg) (fun _ _ => trivial) (fun _ _ => trivial) ops s hr
  have hfold := fun k => applyFold cfg s.staged ⟨s.fields, [], []⟩ hinv.staged.1 k
  have hfields : (s.staged.foldl (applyStep cfg) ⟨s.fields, [], []⟩).fields = fieldAfter cfg s.staged s.fields :=
    funext (fun k => (hfold k).1)
  unfold apply at ha
  split at ha
  · cases ha
  · cases ha
    refine ⟨fun k => ?_, ?_, rfl, ?_⟩
    · rw [(hfold k).2]
      cases accepted cfg s.staged k <;> rfl
    · show (if _ then _ else _) = _
      rw [hfields]
    · intro k hk
      show get (readFields cfg _ _) k = _
      rw [readFields_get, if_pos hk]

/-- `a = 7` is applied, `b = 60` fails validation, the callback then doubles `a` -/
example : ((demoRun [.setStaged [(kA, 7), (kB, 60)]]).bind (fun s => apply demo s (fun g k => if k = kA then g k * 2 else g k))).map
    (fun r => ([r.1.fields kA, r.1.fields kB], get r.1.active kA, r.2.1)) = some ([14, 0], some 14, [(kA, 7)]) := by decide +kernel

/-- **C38** (no deadlock) No sequence of calls ever reaches the branch of `applyStagedParameters` that would lock its own mutex again,
as long as no member of the block is called `gr:reset_default` (which is not a C++ identifier). -/
theorem never_deadlocks [DecidableEq V] (cfg : Cfg V) (hk : resetKey ∉ cfg.writable ++ cfg.readable) (f : Key → V) (ops : List (Op V)) :
    ∃ s, run cfg (St.fresh f) ops = some s :=
  run_some (P := fun k => k ∈ cfg.writable ++ cfg.readable) (fun _ hh => List.mem_append_left _ hh) (fun _ hh => List.mem_append_right _ hh)
    (Inv.fresh _ f) hk ops

example : resetKey ∉ demo.writable ++ demo.readable := by decide +kernel

/-- so a tag or a staged parameter `reset_default` never resets anything: the check in `applyStagedParameters` is dead -/
theorem reset_tag_is_dead [DecidableEq V] (cfg : Cfg V) (hk : resetKey ∉ cfg.writable ++ cfg.readable) (f : Key → V) (ops : List (Op V))
    (s : St V) (hr : run cfg (St.fresh f) ops = some s) : get s.staged resetKey = none := by
  have hinv := (Inv.fresh (fun k => k ∈ cfg.writable ++ cfg.readable) f).run (cfg := cfg) (fun _ hh => List.mem_append_left _ hh)
    (fun _ hh => List.mem_append_right _ hh) ops s hr
  exact (get_eq_none_iff _ _).2 (fun hm => hk (hinv.staged.2 _ hm))

/-- finding: a value that was rejected is still among the parameters to be forwarded downstream -/
theorem rejected_value_forwarded :
    ((demoRun [.setStaged [(kB, 60)]]).bind (fun s => apply demo s id)).map (fun r => (r.1.fields kB, r.2.1, r.2.2)) =
    some (0, [], [(kB, 60)]) := by decide +kernel

/-- finding: `set` alone stages nothing; applying without `activateContext` in between (SchedulerModel.hpp:86-87) has no effect -/
theorem set_alone_not_applied [DecidableEq V] (cfg : Cfg V) (s : St V) (n n' : Nat) (ps : Map V) (ctx : Ctx) :
    (set cfg s n n' ps ctx).1.staged = s.staged ∧ (set cfg s n n' ps ctx).1.fields = s.fields := by
  unfold set setAt
  dsimp only
  split <;> exact ⟨rfl, rfl⟩

/-- finding: switching to another context does not replace a value staged before: the value of the old context is applied -/
theorem context_switch_keeps_staged :
    ((demoRun [.set 10 10 [(kA, 1)] ⟨0, 0⟩, .set 11 11 [(kA, 2)] ⟨0, 7⟩, .activate 12 ⟨0, 0⟩, .activate 13 ⟨0, 7⟩]).bind
      (fun s => apply demo s id)).map (fun r => (r.1.activeCtx.context, r.1.fields kA)) = some (7, 1) := by decide +kernel

/-! ## C39 -/

/-- **C39** (increasing time stamps, no expiry time, no removals) After any sequence of calls in which each context's sets carry
increasing time stamps, a tag leaves the staged value of a parameter as the tag's context switch (if it asks for one) left it,
whenever that parameter was set explicitly for the context in use by a set not later than the one in use, and that set is still
stored. -/
theorem tag_spares_explicit_partial [DecidableEq V] (cfg : Cfg V) (hx : cfg.expiry = noExpiry) (f : Key → V) (s : St V)
    (calls : List (Ctx × List Key)) (h : Calls cfg f s calls) (now : Nat) (tag : Map V)
    (hst : (tagActivate cfg s now tag).1.activeCtx ∈ (entriesOf s.stored (tagActivate cfg s now tag).1.activeCtx.context).map (·.ctx))
    (x : Ctx × List Key) (hxm : x ∈ calls)
    (hxc : x.1.context = ((tagActivate cfg s now tag).2.1.getD (tagActivate cfg s now tag).1.activeCtx).context)
    (hxt : x.1.time ≤ ((tagActivate cfg s now tag).2.1.getD (tagActivate cfg s now tag).1.activeCtx).time) (k : Key) (hk : k ∈ x.2) :
    get (autoUpdate cfg s now tag).1.staged k = get s.staged k ∨
    get (autoUpdate cfg s now tag).1.staged k = get (tagActivate cfg s now tag).1.staged k := by
  have hj := h.inv hx
  have hj1 := hj.tagActivate (cfg := cfg) now tag
  have hsto := tagActivate_stored cfg s now tag
  have hmem : ∃ d, ∃ e ∈ entriesOf s.stored d, e.ctx = (tagActivate cfg s now tag).2.1.getD (tagActivate cfg s now tag).1.activeCtx := by
    cases hb : (tagActivate cfg s now tag).2.1 with
    | some b => exact tagActivate_ctx now tag b hb
    | none =>
      obtain ⟨e, he, hec⟩ := List.mem_map.1 hst
      exact ⟨_, e, he, hec⟩
  generalize hg : (tagActivate cfg s now tag).2.1.getD (tagActivate cfg s now tag).1.activeCtx = ctx at hxc hxt hmem
  obtain ⟨d, e, he, rfl⟩ := hmem
  obtain ⟨ks, hks, hk2⟩ := hj1.slot d e (hsto ▸ he)
  have hdc : e.ctx.context = d := hj.wf.entries_own d e he
  have hkn := hk2 x hxm (hxc.trans hdc) hxt k hk
  unfold autoUpdate
  split
  · exact Or.inl rfl
  · dsimp only
    right
    split
    · rfl
    · show get (tagLoop cfg _ _ _ tag _ false).1 k = _
      rw [hg]
      apply tagLoop_spares
      have : tagAuto cfg (tagActivate cfg s now tag).1.stored (tagActivate cfg s now tag).1.auto e.ctx = (tagActivate cfg s now tag).1.auto := by
        unfold tagAuto; rw [hks]
      rw [this, hks]
      exact hkn

/-- `a` was set explicitly and stays, `b` follows the tag -/
example : (demoRun [.set 10 10 [(kA, 1)] ⟨0, 0⟩, .activate 11 ⟨0, 0⟩, .apply id, .tag 12 [(kA, 5), ("gr:b".toList, 6)], .apply id]).map
    (fun s => (s.fields kA, s.fields kB)) = some (1, 6) := by decide +kernel

/-- its hypotheses hold there -/
example : ∃ s, Calls demo (fun _ => 0) s [(⟨10, 0⟩, [kA])] ∧
    (tagActivate demo s 12 [(kA, 5)]).1.activeCtx ∈ (entriesOf s.stored (tagActivate demo s 12 [(kA, 5)]).1.activeCtx.context).map (·.ctx) := by
  refine ⟨_, .step (.activate 11 ⟨0, 0⟩) _ (.step (.set 10 10 [(kA, 1)] ⟨0, 0⟩) _ .init rfl rfl ?_) rfl rfl (fun x hx => by cases hx), ?_⟩
  · intro x hx
    cases hx
    exact ⟨by decide +kernel, by simp⟩
  · decide +kernel

/-- **C39** (only from the tag) Whatever the state, a staged value changed by a tag is the value the tag carries for that member. -/
theorem tag_stages_own_values [DecidableEq V] (cfg : Cfg V) (s : St V) (now : Nat) (tag : Map V) (k : Key) :
    get (autoUpdate cfg s now tag).1.staged k = get s.staged k ∨
    get (autoUpdate cfg s now tag).1.staged k = get (tagActivate cfg s now tag).1.staged k ∨
    ∃ e ∈ tag, settingsKey e.1 = k ∧ get (autoUpdate cfg s now tag).1.staged k = some e.2 := by
  unfold autoUpdate
  split
  · exact Or.inl rfl
  · dsimp only
    split
    · exact Or.inr (Or.inl rfl)
    · exact Or.inr (tagLoop_from cfg _ _ _ tag _ false k)

/-- **C39** is false as stated: after a second `set`, until `activateContext` is called, the set in use is no longer stored; the tag
then finds no record of what was set explicitly and overwrites `a`, although both sets gave it a value. -/
theorem tag_overwrites_before_activation :
    (demoRun [.set 10 10 [(kA, 1)] ⟨0, 0⟩, .activate 11 ⟨0, 0⟩, .apply id, .set 12 12 [(kA, 2)] ⟨0, 0⟩, .tag 13 [(kA, 5)], .apply id]).map
      (fun s => s.fields kA) = some 5 := by decide +kernel

/-- ... and with a set stored for an earlier time after a later one, the later one is not protected -/
theorem tag_overwrites_out_of_order :
    (demoRun [.set 10 10 [(kB, 3)] ⟨50, 0⟩, .set 11 11 [(kA, 1)] ⟨40, 0⟩, .activate 60 ⟨0, 0⟩, .tag 61 [(kA, 5)], .apply id]).map
      (fun s => s.fields kA) = some 5 := by decide +kernel

/-- ... and a call that throws half-way has already withdrawn its parameters from automatic updates: nothing was stored, but the tag no
longer changes `a` when the same time stamp is used again -/
theorem throwing_set_disables_updates :
    (demoRun [.set 10 10 [(kA, 1), (kB, 100)] ⟨50, 0⟩]).map (fun s => ((entriesOf s.stored 0).length, autoFind s.auto ⟨50, 0⟩)) =
    some (0, some [kB]) := by decide +kernel

/-! ## C40 -/

/-- **C40** (no expiry time) After any sequence of calls, if the sets of a context carry distinct time stamps, the removal of outdated
sets keeps the one in effect now and every later one. -/
theorem expiry_keeps_partial [DecidableEq V] (cfg : Cfg V) (hx : cfg.expiry = noExpiry) (hw : cfg.wasm = false) (f : Key → V)
    (ops : List (Op V)) (s : St V) (hr : run cfg (St.fresh f) ops = some s) (now c : Nat)
    (hd : ((entriesOf s.stored c).map (fun e => e.ctx.time)).Nodup) (e : Entry V)
    (he : InEffect (entriesOf s.stored c) now e ∨ (e ∈ entriesOf s.stored c ∧ now < e.ctx.time)) :
    e ∈ entriesOf (removeExpired cfg now s.stored s.auto).1 c := by
  have hinv := (Inv.fresh (fun _ => True) f).run (cfg := cfg) (fun _ _ => trivial) (fun _ _ => trivial) ops s hr
  have hsort := hinv.wf.entries_sorted c
  have hent : entriesOf (removeExpired cfg now s.stored s.auto).1 c = (entriesOf s.stored c).drop (dropCount (entriesOf s.stored c) now) := by
    unfold removeExpired
    rw [hw, entriesOf_expire, expireVec_noExpiry _ _ _ _ hx]
    rfl
  rw [hent]
  rcases he with he | ⟨he, ht⟩
  · refine expire_inEffect _ now ?_ e he
    have hnd : (entriesOf s.stored c).Pairwise (fun a b => a.ctx.time ≠ b.ctx.time) := List.pairwise_map.1 hd
    exact (hsort.and hnd).imp (fun h => by omega)
  · exact expire_future _ now hsort e he ht

example : ((demoRun [.set 1 1 [(kA, 1)] ⟨10, 7⟩, .set 1 1 [(kA, 2)] ⟨20, 7⟩, .set 1 1 [(kA, 3)] ⟨30, 7⟩]).map
    (fun s => (entriesOf (removeExpired demo 25 s.stored s.auto).1 7).map (fun e => e.ctx.time))) = some [20, 30] := by decide +kernel

/-- **C40** (whole histories; no expiry time, removals or repeated time stamps) At any moment, for every context, of all sets ever
stored for it the one in effect now and all later ones are still stored. -/
theorem expiry_history_partial [DecidableEq V] (cfg : Cfg V) (hw : cfg.wasm = false) (hx : cfg.expiry = noExpiry) (f : Key → V) (s : St V)
    (log : List (Entry V)) (clk : Nat) (h : Hist cfg f s log clk) (c : Nat) (e : Entry V)
    (he : InEffect (logOf log c) clk e ∨ (e ∈ logOf log c ∧ clk < e.ctx.time)) : e ∈ entriesOf s.stored c := by
  have hinv := h.inv hx hw
  have hl : e ∈ logOf log c := by
    rcases he with he | he
    · exact he.1
    · exact he.1
  obtain ⟨h1, h2⟩ := List.mem_filter.1 hl
  have hc : e.ctx.context = c := of_decide_eq_true h2
  rcases hinv.cover e h1 with h3 | ⟨q, hq, h4, h5⟩
  · exact hc ▸ h3
  · exfalso
    rw [hc] at hq
    rcases he with he | ⟨_, ht⟩
    · have := he.2.2 q (List.mem_filter.2 ⟨hinv.sub c q hq, decide_eq_true (hinv.wf.entries_own c q hq)⟩) h5
      omega
    · omega

/-- **C40** is false with an expiry time: the set in effect is removed as soon as it is old enough, even when it is the only one -/
theorem expiry_empties_context :
    (run { demo with expiry := 5 } (St.fresh (fun _ => 0)) [.set 10 10 [(kA, 1)] ⟨0, 7⟩, .set 20 20 [(kB, 1)] ⟨0, 0⟩]).map
      (fun s => (s.stored.map (fun p => (p.1, p.2.length)), getStored { demo with expiry := 5 } s 21 ⟨0, 7⟩)) =
    some ([(0, 1), (7, 0)], none) := by decide +kernel

/-- ... and with a large expiry time the sum wraps around, so that a set of the future is removed at once -/
theorem expiry_wraps :
    (run { demo with expiry := 2 ^ 64 - 2 } (St.fresh (fun _ => 0)) [.set 10 10 [(kA, 1)] ⟨12, 7⟩]).map
      (fun s => entriesOf s.stored 7) = some [] := by decide +kernel

/-- ... and the expiry pass erases the record of explicitly set parameters of a *default-context* set at the same time as an expired
neighbour of another context -/
theorem expiry_erases_foreign_record :
    (run { demo with expiry := 15 } (St.fresh (fun _ => 0))
      [.set 10 10 [(kA, 1)] ⟨20, 0⟩, .set 11 11 [(kB, 1)] ⟨2, 7⟩, .set 12 12 [(kB, 2)] ⟨20, 7⟩, .set 18 18 [] ⟨30, 8⟩]).map
      (fun s => ((entriesOf s.stored 0).map (fun e => e.ctx), autoFind s.auto ⟨20, 0⟩)) = some ([⟨20, 0⟩], none) := by decide +kernel

end Verif.Settings
