import Verif.Grc.ReloadLemmas
import Verif.Grc.Props
/-!
# C74: what of a block's settings survives saving and loading

`reload` is a new block after loading; `ps` are its saved parameters, `sets` the saved sets of other contexts.
-/
namespace Verif.Settings

open Verif.Work.Tags (Key Map settingsKey insertOrAssign)

variable {V : Type}

/-- the states of loading a block -/
theorem reload_steps (cfg : Cfg V) (hw : cfg.wasm = false) (hx : cfg.expiry = noExpiry) (hk : resetKey ∉ cfg.writable ++ cfg.readable)
    (cb : (Key → V) → Key → V) (dom nm : Key × V) (clk : Nat → Nat) (hpos : 0 < clk 0) (hclk : ∀ i j, i ≤ j → clk i ≤ clk j) (f : Key → V)
    (ps : Map V) (hps : Stable cfg ps) (sets : List (Nat × Nat × Map V)) (hsets : ∀ e ∈ sets, e.1 ≠ 0 ∧ Stable cfg e.2.2) :
    ∃ (m : Map V) (s1 s2 s3 s5 s6 s7 : St V) (applied fwd : Map V),
      let i := 2 + 2 * sets.length
      let f' := (assign (St.fresh f) nm.1 nm.2).fields
      let s4 := storeDefaults cfg (assign s3 dom.1 dom.2)
      s1 = (set cfg (St.fresh f') (clk 0) (clk 1) (writableOf cfg ps) ⟨0, 0⟩).1 ∧
      storesAt cfg (St.fresh f') (.set (clk 0) (clk 1) (writableOf cfg ps) ⟨0, 0⟩) = some ⟨⟨clk 0, 0⟩, m⟩ ∧
      Loading cfg m (clk 0) s1 ∧ loadSets cfg clk 2 s1 sets = some s2 ∧ s3 = (activate cfg s2 (clk i) ⟨0, 0⟩).1 ∧
      s5 = (set cfg s4 (clk (i + 1)) (clk (i + 2)) [] ⟨0, 0⟩).1 ∧
      storesAt cfg s4 (.set (clk (i + 1)) (clk (i + 2)) [] ⟨0, 0⟩) = some ⟨⟨clk (i + 1), 0⟩, m⟩ ∧
      s6 = (activate cfg s5 (clk (i + 3)) ⟨0, 0⟩).1 ∧ Ready cfg m (clk (i + 1)) s6 ∧ apply cfg s6 cb = some (s7, applied, fwd) ∧
      (∀ k, get m k = get (writableOf cfg ps) k) ∧
      (s7.fields = cb (fieldAfter cfg s6.staged s6.fields) ∨ s7.fields = fieldAfter cfg s6.staged s6.fields) ∧
      (cfg.hasCallback = false → s7.fields = fieldAfter cfg s6.staged s6.fields) ∧ s7.stored = s6.stored ∧
      (∀ k ∈ cfg.readable, get s7.active k = some (s7.fields k)) ∧
      reload cfg cb dom nm clk f ps sets = some (storeDefaults cfg (setStaged cfg s7 fwd).1) := by
  obtain ⟨s1, m, h1, h1', h1'', hl1, hg, hm⟩ := load_default cfg hw hx (assign (St.fresh f) nm.1 nm.2).fields (clk 0) (clk 1) ps hps
  obtain ⟨s2, h2, hl2⟩ := load_sets cfg hw hx clk m (clk 0) sets hsets 2 s1 hl1
  obtain ⟨s3, h3, h3', hr3⟩ := activate_loading cfg hw m (clk 0) s2 hl2 hg hpos (clk (2 + 2 * sets.length)) (hclk _ _ (by omega))
  have hr4 : Ready cfg m (clk 0) (storeDefaults cfg (assign s3 dom.1 dom.2)) :=
    ⟨⟨hr3.inv.wf, hr3.inv.staged, hr3.inv.defaults.readFields (member_r cfg) _, hr3.inv.entries⟩, hr3.all, hr3.some, hr3.active, hr3.staged⟩
  have hc1 := hclk 0 (2 + 2 * sets.length + 1) (by omega)
  have hc2 := hclk (2 + 2 * sets.length + 1) (2 + 2 * sets.length + 3) (by omega)
  obtain ⟨h5, h5', hr5⟩ := restore_ready cfg hw hx m (clk 0) _ hr4 (clk (2 + 2 * sets.length + 1)) (clk (2 + 2 * sets.length + 2)) (by omega) hc1
  obtain ⟨s6, h6, h6', hr6⟩ := activate_ready cfg hw m _ _ hr5 hg (clk (2 + 2 * sets.length + 3)) (by omega) hc2
  obtain ⟨s7, applied, fwd, h7, h7s, h7f, h7c, h7a⟩ := apply_ready cfg hk s6 hr6.inv cb
  refine ⟨m, s1, s2, s3, _, s6, s7, applied, fwd, h1', h1'', hl1, h2, h3', rfl, h5', h6', hr6, h7, hm, h7f, h7c, h7s, h7a, ?_⟩
  have hinit : initSettings cfg (assign s3 dom.1 dom.2) (clk (2 + 2 * sets.length + 1)) (clk (2 + 2 * sets.length + 2)) (clk (2 + 2 * sets.length + 3)) = some s6 := by
    unfold initSettings
    simp only [h5]
    exact h6
  have hfr : assign (St.fresh f) nm.1 nm.2 = St.fresh (assign (St.fresh f) nm.1 nm.2).fields := rfl
  unfold reload
  rw [hfr, h1]
  simp only [h2, h3]
  unfold initBlock
  rw [hinit]
  simp only [h7]

/-- **C74** (parameters) Loading the saved parameters and the saved sets of other contexts into a new block succeeds, and afterwards every member that can
be written has its saved value, provided the block accepts it and its own callback does not change that member; this is also the value reported as active. Saved values are taken to be of the
member's type already; there is no expiry time. -/
theorem parameters_restored (cfg : Cfg V) (hw : cfg.wasm = false) (hx : cfg.expiry = noExpiry) (hk : resetKey ∉ cfg.writable ++ cfg.readable)
    (cb : (Key → V) → Key → V) (dom nm : Key × V) (clk : Nat → Nat) (hpos : 0 < clk 0) (hclk : ∀ i j, i ≤ j → clk i ≤ clk j) (f : Key → V)
    (ps : Map V) (hps : Stable cfg ps) (sets : List (Nat × Nat × Map V)) (hsets : ∀ e ∈ sets, e.1 ≠ 0 ∧ Stable cfg e.2.2) :
    ∃ s, reload cfg cb dom nm clk f ps sets = some s ∧
      ∀ e ∈ ps, e.1 ∈ cfg.writable → cfg.accept e.1 e.2 = some e.2 → (cfg.hasCallback = true → ∀ g, cb g e.1 = g e.1) →
        s.fields e.1 = e.2 ∧ (e.1 ∈ cfg.readable → get s.active e.1 = some e.2) := by
  obtain ⟨m, s1, s2, s3, s5, s6, s7, applied, fwd, -, -, -, -, -, -, -, -, hr6, -, hm, h7f, h7c, -, h7a, hres⟩ :=
    reload_steps cfg hw hx hk cb dom nm clk hpos hclk f ps hps sets hsets
  refine ⟨_, hres, ?_⟩
  intro e he hew hacc hcb
  have hmem : e ∈ writableOf cfg ps := List.mem_filter.2 ⟨he, by simpa using hew⟩
  have hst : get s6.staged e.1 = some e.2 := by
    rw [hr6.staged, hm, get_of_mem _ (writableOf_keys cfg ps hps.keys) e hmem]
  have hfa : fieldAfter cfg s6.staged s6.fields e.1 = e.2 := by
    unfold fieldAfter
    rw [hst]
    simp only
    rw [if_pos (by simpa using hew), hacc]
    rfl
  have hf7 : s7.fields e.1 = e.2 := by
    cases hc : cfg.hasCallback with
    | false => rw [h7c hc, hfa]
    | true =>
      rcases h7f with h | h
      · rw [h, hcb hc, hfa]
      · rw [h, hfa]
  refine ⟨hf7, fun hr => ?_⟩
  show get s7.active e.1 = _
  rw [h7a e.1 hr, hf7]

/-- members `a`, `b`, the callback doubles `b`; two sets for context 7 -/
example : (reload demo (fun g k => if k = kB then 2 * g k else g k) (['d'], 1) (['n'], 2) (fun i => i + 100) (fun _ => 0) [(kA, 4), (kB, 5), (['x'], 6)]
      [(7, 50, [(kA, 1), (kB, 2)]), (7, 1000, [(kA, 3), (kB, 4)])]).map (fun s => (s.fields kA, s.fields kB, get s.active kA)) = some (4, 10, some 4) ∧
    Stable demo [(kA, 4), (kB, 5), (['x'], 6)] ∧ Stable demo [(kA, 1), (kB, 2)] := by
  refine ⟨by decide +kernel, ⟨by decide, ?_⟩, ⟨by decide, ?_⟩⟩ <;> decide +kernel

/-- **C74** (the default context) Whatever the saved block had stored for the default context, after loading it holds the parameters that were *active* when
the block was saved: a lookup at any time from the end of loading on finds exactly these. -/
theorem default_context_is_active (cfg : Cfg V) (hw : cfg.wasm = false) (hx : cfg.expiry = noExpiry) (hk : resetKey ∉ cfg.writable ++ cfg.readable)
    (cb : (Key → V) → Key → V) (dom nm : Key × V) (clk : Nat → Nat) (hpos : 0 < clk 0) (hclk : ∀ i j, i ≤ j → clk i ≤ clk j) (f : Key → V)
    (ps : Map V) (hps : Stable cfg ps) (sets : List (Nat × Nat × Map V)) (hsets : ∀ e ∈ sets, e.1 ≠ 0 ∧ Stable cfg e.2.2) :
    ∃ s, reload cfg cb dom nm clk f ps sets = some s ∧ ∀ now t, clk (2 * sets.length + 3) ≤ t →
      ∃ m, getStored cfg s now ⟨t, 0⟩ = some m ∧ ∀ k, get m k = if k ∈ cfg.writable then get ps k else none := by
  obtain ⟨m, s1, s2, s3, s5, s6, s7, applied, fwd, -, -, -, -, -, -, -, -, hr6, -, hm, -, -, h7s, -, hres⟩ :=
    reload_steps cfg hw hx hk cb dom nm clk hpos hclk f ps hps sets hsets
  refine ⟨_, hres, fun now t ht => ⟨m, ?_, fun k => ?_⟩⟩
  · have h0 := hclk 0 (2 * sets.length + 3) (by omega)
    have hq : queryTime cfg now t = t := by unfold queryTime; rw [hw, if_neg (by omega)]; rfl
    obtain ⟨x, hxm⟩ := List.exists_mem_of_ne_nil _ hr6.some
    obtain ⟨e, -, -, hb⟩ := best_zero cfg s6.stored m hr6.inv.wf hr6.some (fun e he => (hr6.all e he).1) t (by omega)
      ⟨x, hxm, by
        have := (hr6.all x hxm).2
        rw [show 2 + 2 * sets.length + 1 = 2 * sets.length + 3 by omega] at this
        omega⟩
    show bestStored cfg s7.stored ⟨queryTime cfg now t, 0⟩ = _
    rw [hq, h7s, hb]
  · rw [hm]
    unfold writableOf
    rw [get_filter ps (fun k => cfg.writable.contains k) k]
    simp

/-- a witness of what this loses: the block's default context had `a = 1`, context 7 with `a = 2` was active. After saving and loading the default
context has `a = 2`. -/
theorem default_context_lost :
    ((demoRun [.set 10 10 [(kA, 1), (kB, 0)] ⟨0, 0⟩, .set 11 11 [(kA, 2), (kB, 0)] ⟨0, 7⟩, .activate 12 ⟨0, 7⟩, .apply id]).bind fun s =>
      (reload demo id (['d'], 1) (['n'], 2) (fun i => i + 100) (fun _ => 0) s.active [(7, 11, [(kA, 2), (kB, 0)])]).map fun s' =>
        [(getStored demo s 50 ⟨0, 0⟩).bind (get · kA), (getStored demo s' 200 ⟨0, 0⟩).bind (get · kA), (getStored demo s 50 ⟨11, 7⟩).bind (get · kA)]) =
    some [some 1, some 2, some 2] := by decide +kernel

/-- **C74** (other contexts) If every saved set gives every member a value and the sets of a context have distinct times, then after loading, a lookup for such a
context at any time from the end of loading on finds the values of the saved set in effect then, and nothing if all its sets are later. Missing, because it is
false: sets that leave members out (`loaded_set_gains_members`). -/
theorem contexts_restored_partial (cfg : Cfg V) (pred : Nat → Nat → Nat → Option Bool) (hb : BestBy cfg pred) (hw : cfg.wasm = false)
    (hx : cfg.expiry = noExpiry) (hk : resetKey ∉ cfg.writable ++ cfg.readable) (cb : (Key → V) → Key → V) (dom nm : Key × V) (clk : Nat → Nat)
    (hpos : 0 < clk 0) (hclk : ∀ i j, i ≤ j → clk i ≤ clk j) (f : Key → V)
    (ps : Map V) (hps : Stable cfg ps) (sets : List (Nat × Nat × Map V)) (hsets : ∀ e ∈ sets, e.1 ≠ 0 ∧ Stable cfg e.2.2)
    (hstrict : clk 0 < clk (2 * sets.length + 3)) (ht : ∀ e ∈ sets, e.2.1 ≠ 0) (hd : (sets.map fun e => (e.1, e.2.1)).Nodup)
    (hfull : ∀ e ∈ sets, ∀ k ∈ cfg.writable, k ∈ e.2.2.map (·.1)) :
    ∃ s, reload cfg cb dom nm clk f ps sets = some s ∧ ∀ now t, 0 < now → clk (2 * sets.length + 5) ≤ t → ∀ e ∈ sets,
      (e.2.1 ≤ t → (∀ x ∈ sets, x.1 = e.1 → x.2.1 ≤ t → x.2.1 ≤ e.2.1) →
        ∃ m, getStored cfg s now ⟨t, e.1⟩ = some m ∧ ∀ k ∈ cfg.writable, get m k = get e.2.2 k) ∧
      ((∀ x ∈ sets, x.1 = e.1 → t < x.2.1) → getStored cfg s now ⟨t, e.1⟩ = none) := by
  classical
  obtain ⟨m, s1, s2, s3, s5, s6, s7, applied, fwd, h1, h1', hl1, h2, h3, h5, h5', h6, hr6, h7, hm, -, -, h7s, -, hres⟩ :=
    reload_steps cfg hw hx hk cb dom nm clk hpos hclk f ps hps sets hsets
  refine ⟨_, hres, ?_⟩
  generalize hf' : (assign (St.fresh f) nm.1 nm.2).fields = f' at h1 h1'
  generalize hs4 : assign s3 dom.1 dom.2 = s4 at h5 h5'
  have c01 := hclk 0 1 (by omega)
  have c12 := hclk 1 2 (by omega)
  have ci1 := hclk (2 + 2 * sets.length) (2 + 2 * sets.length + 1) (by omega)
  have ci2 := hclk (2 + 2 * sets.length + 1) (2 + 2 * sets.length + 2) (by omega)
  have ci3 := hclk (2 + 2 * sets.length + 2) (2 + 2 * sets.length + 3) (by omega)
  have hh1 : Hist cfg f' s1 [⟨⟨clk 0, 0⟩, m⟩] (clk 1) := by
    have := Hist.step (.set (clk 0) (clk 1) (writableOf cfg ps) ⟨0, 0⟩) s1 (clk 1) (Hist.init (cfg := cfg) (f := f')) rfl (by rw [h1]; rfl)
      (by
        intro t ht
        simp only [clocks, List.mem_cons, List.not_mem_nil, or_false] at ht
        rcases ht with rfl | rfl <;> omega) (by omega) (by simp)
    rw [h1'] at this
    exact this
  obtain ⟨log, c, hh2, hc2, hlog⟩ := hist_sets cfg hw hx f' clk hclk m (clk 0) sets hsets ht hfull 2 s1 hl1 [] (by simpa using hd) _ _ hh1 c12
    ⟨by simp, by simp, by simp⟩ s2 h2
  rw [List.nil_append] at hlog
  have hh3 : Hist cfg f' s3 log (clk (2 + 2 * sets.length)) :=
    hh2.quiet (.activate (clk (2 + 2 * sets.length)) ⟨0, 0⟩) s3 _ rfl (by rw [h3]; rfl) (by simp only [clocks, List.mem_singleton]; intro t ht; subst ht; omega) hc2 rfl
  have hh4 : Hist cfg f' s4 log (clk (2 + 2 * sets.length)) := hh3.quiet (.touch s4.fields) s4 _ rfl (by rw [← hs4]; rfl) (by simp [clocks]) (Nat.le_refl _) rfl
  have hh4' : Hist cfg f' (storeDefaults cfg s4) log (clk (2 + 2 * sets.length)) := hh4.quiet .storeDefaults _ _ rfl rfl (by simp [clocks]) (Nat.le_refl _) rfl
  have hstr : clk 0 < clk (2 + 2 * sets.length + 1) := by rw [show 2 + 2 * sets.length + 1 = 2 * sets.length + 3 by omega]; exact hstrict
  have hh5 : Hist cfg f' s5 (⟨⟨clk (2 + 2 * sets.length + 1), 0⟩, m⟩ :: log) (clk (2 + 2 * sets.length + 2)) := by
    have := Hist.step (.set (clk (2 + 2 * sets.length + 1)) (clk (2 + 2 * sets.length + 2)) [] ⟨0, 0⟩) s5 (clk (2 + 2 * sets.length + 2)) hh4' rfl (by rw [h5]; rfl)
      (by
        intro t ht
        simp only [clocks, List.mem_cons, List.not_mem_nil, or_false] at ht
        rcases ht with rfl | rfl <;> omega) (by omega)
      (by
        intro y hy z hz hzc hzt
        rw [h5'] at hy
        cases hy
        have := hlog.zero z hz hzc
        simp only at hzt
        omega)
    rw [h5'] at this
    exact this
  have hh6 : Hist cfg f' s6 (⟨⟨clk (2 + 2 * sets.length + 1), 0⟩, m⟩ :: log) (clk (2 + 2 * sets.length + 3)) :=
    hh5.quiet (.activate (clk (2 + 2 * sets.length + 3)) ⟨0, 0⟩) s6 _ rfl (by rw [h6]; rfl)
      (by simp only [clocks, List.mem_singleton]; intro t ht; subst ht; omega) ci3 rfl
  intro now t hnow htle e he
  have htle' : clk (2 + 2 * sets.length + 3) ≤ t := by rw [show 2 + 2 * sets.length + 3 = 2 * sets.length + 5 by omega]; exact htle
  have hlt : t ≠ 0 := by have := hclk 0 (2 + 2 * sets.length + 3) (by omega); omega
  have hgs : getStored cfg (storeDefaults cfg (setStaged cfg s7 fwd).1) now ⟨t, e.1⟩ = getStored cfg s6 now ⟨t, e.1⟩ := by
    show bestStored cfg s7.stored _ = bestStored cfg s6.stored _
    rw [h7s]
  rw [hgs]
  have he0 := (hsets e he).1
  generalize hL : (⟨⟨clk (2 + 2 * sets.length + 1), 0⟩, m⟩ :: log : List (Entry V)) = L at hh6
  have hLlog : ∀ x, x ∈ logOf L e.1 → x ∈ log ∧ x.ctx.context = e.1 := by
    intro x hx
    obtain ⟨hx1, hx2⟩ := List.mem_filter.1 hx
    have hx2 : x.ctx.context = e.1 := of_decide_eq_true hx2
    rw [← hL] at hx1
    rcases List.mem_cons.1 hx1 with rfl | hx1
    · exact absurd hx2.symm he0
    · exact ⟨hx1, hx2⟩
  have hlogL : ∀ x ∈ log, x.ctx.context = e.1 → x ∈ logOf L e.1 := by
    intro x hx hxc
    exact List.mem_filter.2 ⟨by rw [← hL]; simp [hx], decide_eq_true hxc⟩
  have hdist : ∀ a ∈ sets, ∀ b ∈ sets, a.1 = b.1 → a.2.1 = b.2.1 → a = b := by
    intro a ha b hb' h1 h2
    exact nodup_map_inj _ sets hd a b ha hb' (by simp only [h1, h2])
  -- something is stored for the context
  have hcst : e.1 ∈ s6.stored.map (·.1) := by
    obtain ⟨x, hx1, hx2⟩ := hlog.every e he
    have hinv := hh6.inv hx hw
    have hmem : ∃ y, y ∈ entriesOf s6.stored e.1 := by
      rcases hinv.cover x (by rw [← hL]; simp [hx1]) with h | ⟨y, h, -, -⟩
      · exact ⟨x, by rw [hx2.1] at h; exact h⟩
      · exact ⟨y, by rw [hx2.1] at h; exact h⟩
    obtain ⟨y, hy⟩ := hmem
    unfold entriesOf at hy
    cases hsf : storedFind s6.stored e.1 with
    | none => rw [hsf] at hy; simp at hy
    | some v => exact List.mem_map.2 ⟨_, mem_of_storedFind _ _ _ hsf, rfl⟩
  have hlook := lookup_history_partial cfg pred hb hw hx f' s6 L _ hh6 now ⟨t, e.1⟩ hcst hnow (by simp only [hlt, if_false]; exact htle')
  simp only [hlt, if_false] at hlook
  constructor
  · intro het hmax
    obtain ⟨x, hx1, hx2⟩ := hlog.every e he
    have hxL := hlogL x hx1 (by rw [hx2.1])
    cases hg : getStored cfg s6 now ⟨t, e.1⟩ with
    | none =>
      have := hlook.2 hg x hxL
      rw [hx2.1] at this
      simp only at this
      omega
    | some m' =>
      obtain ⟨y, hy, hym⟩ := hlook.1 m' hg
      obtain ⟨hy1, hy2⟩ := hLlog y hy.1
      obtain ⟨e', he', hye⟩ := hlog.only y hy1 (by rw [hy2]; exact he0)
      have hc' : e'.1 = e.1 := by rw [← hy2, hye.1]
      have ht1 : e'.2.1 ≤ t := by have := hy.2.1; rw [hye.1] at this; exact this
      have ht2 := hmax e' he' hc' ht1
      have ht3 := hy.2.2 x hxL (by rw [hx2.1]; exact het)
      rw [hx2.1, hye.1] at ht3
      simp only at ht3
      have := hdist e' he' e he hc' (by omega)
      subst this
      exact ⟨m', rfl, fun k hk => by rw [← hym]; exact hye.2 k hk⟩
  · intro hall
    cases hg : getStored cfg s6 now ⟨t, e.1⟩ with
    | none => rfl
    | some m' =>
      obtain ⟨y, hy, -⟩ := hlook.1 m' hg
      obtain ⟨hy1, hy2⟩ := hLlog y hy.1
      obtain ⟨e', he', hye⟩ := hlog.only y hy1 (by rw [hy2]; exact he0)
      have := hall e' he' (by rw [← hy2, hye.1])
      have h2 := hy.2.1
      rw [hye.1] at h2
      simp only at h2
      omega

/-- two sets for context 7, one of the past and one of the future, one for context 8 -/
example : (reload demo id (['d'], 1) (['n'], 2) (fun i => i + 100) (fun _ => 0) [(kA, 4), (kB, 5)]
      [(7, 50, [(kA, 1), (kB, 2)]), (7, 1000, [(kA, 3), (kB, 4)]), (8, 2000, [(kA, 6), (kB, 7)])]).map (fun s =>
        [getStored demo s 1 ⟨200, 7⟩, getStored demo s 1 ⟨1000, 7⟩, getStored demo s 1 ⟨1000, 8⟩]) =
    some [some [(kA, 1), (kB, 2)], some [(kA, 3), (kB, 4)], none] := by decide +kernel

/-- sets that leave members out are not restored: `b` was stored alone for time 50, then `a` alone for time 40. After saving and loading, the set in effect at
time 50 also has a value for `a`. -/
theorem loaded_set_gains_members :
    ((demoRun [.set 10 10 [(kB, 2)] ⟨50, 7⟩, .set 11 11 [(kA, 1)] ⟨40, 7⟩]).bind fun s =>
      (reload demo id (['d'], 1) (['n'], 2) (fun i => i + 20) (fun _ => 0) s.active ((entriesOf s.stored 7).map fun e => (7, e.ctx.time, e.settings))).map fun s' =>
        (getStored demo s 1 ⟨60, 7⟩, getStored demo s' 1 ⟨60, 7⟩)) =
    some (some [(kB, 2)], some [(kA, 1), (kB, 2)]) := by decide +kernel

end Verif.Settings

namespace Verif.Grc

open Verif.Yaml (Val)
open Verif.Work.Tags (Key Map)
open Verif.Settings (St Cfg Stable)

variable {F : Type}

/-- loading the stored sets through the loader is `loadSets` -/
theorem loadCtx_fold (w : World F) (k : Kind F) (es : List (List Char × Nat × PMap F)) (i : Nat) (s : St (Val F)) :
    es.foldlM (fun s e => (settingsLoader w).loadCtx s e.2.2 e.1 e.2.1) (⟨k, s, i⟩ : Live F) =
      (Settings.loadSets k.cfg w.clk i s (es.map fun e => (w.enc e.1, e.2.1, e.2.2))).map fun s => ⟨k, s, i + 2 * es.length⟩ := by
  induction es generalizing i s with
  | nil => rfl
  | cons e es ih =>
    rw [List.foldlM_cons, List.map_cons]
    show ((Settings.loadParams k.cfg s (w.clk i) (w.clk (i + 1)) e.2.2 ⟨e.2.1, w.enc e.1⟩).map fun s => (⟨k, s, i + 2⟩ : Live F)) >>= _ = _
    unfold Settings.loadSets
    cases Settings.loadParams k.cfg s (w.clk i) (w.clk (i + 1)) e.2.2 ⟨e.2.1, w.enc e.1⟩ with
    | none => rfl
    | some s1 =>
      show es.foldlM (fun s e => (settingsLoader w).loadCtx s e.2.2 e.1 e.2.1) (⟨k, s1, i + 2⟩ : Live F) = _
      rw [ih]
      simp only [List.length_cons]
      rw [show i + 2 * (es.length + 1) = i + 2 + 2 * es.length by omega]

theorem exists_list {α β : Type} (R : α → β → Prop) (l : List α) (h : ∀ a ∈ l, ∃ b, R a b) :
    ∃ (l' : List β) (hl : l'.length = l.length), ∀ i (hi : i < l.length), R l[i] (l'[i]'(hl ▸ hi)) := by
  induction l with
  | nil => exact ⟨[], rfl, fun i hi => by simp at hi⟩
  | cons a l ih =>
    obtain ⟨b, hb⟩ := h a (by simp)
    obtain ⟨l', hl, hr⟩ := ih (fun a ha => h a (by simp [ha]))
    refine ⟨b :: l', by simp [hl], fun i hi => ?_⟩
    cases i with
    | zero => exact hb
    | succ i => exact hr i (by simpa using hi)

theorem apply_kind (w : World F) (b : Live F) : ((settingsLoader w).apply b).kind = b.kind := by
  show (match Settings.apply b.kind.cfg b.st b.kind.cb with
    | some r => ({ b with st := r.1 } : Live F)
    | none => b).kind = _
  cases Settings.apply b.kind.cfg b.st b.kind.cb <;> rfl

/-- what the loader makes of a saved block -/
theorem block_reloaded (w : World F) (hpos : 0 < w.clk 0) (hclk : ∀ i j, i ≤ j → w.clk i ≤ w.clk j) (henc : ∀ c, c ≠ [] → w.enc c ≠ 0) (b : Leaf (Live F))
    (h : Restorable w b) :
    ∃ b' : Leaf (Live F), Reloaded (settingsLoader w) b b' ∧ b'.2.kind = b.2.kind ∧
      ∀ e ∈ (settingsLoader w).params ((settingsLoader w).apply b.2), e.1 ∈ b.2.kind.cfg.writable → b.2.kind.cfg.accept e.1 e.2 = some e.2 →
        (b.2.kind.cfg.hasCallback = true → ∀ g, b.2.kind.cb g e.1 = g e.1) →
        b'.2.st.fields e.1 = e.2 ∧ (e.1 ∈ b.2.kind.cfg.readable → Settings.get b'.2.st.active e.1 = some e.2) := by
  obtain ⟨ty, b⟩ := b
  have hsets : ∀ e ∈ (entries (settingsLoader w) b).map (fun e => (w.enc e.1, e.2.1, e.2.2)), e.1 ≠ 0 ∧ Stable b.kind.cfg e.2.2 := by
    intro e he
    obtain ⟨x, hx, rfl⟩ := List.mem_map.1 he
    refine ⟨?_, h.sets x hx⟩
    obtain ⟨c, hc, hx⟩ := List.mem_flatMap.1 hx
    obtain ⟨y, -, rfl⟩ := List.mem_map.1 hx
    exact henc _ (by simpa using (List.mem_filter.1 hc).2)
  obtain ⟨s, hs, hres⟩ := Settings.parameters_restored b.kind.cfg h.native h.noExpiry h.noReset b.kind.cb ("compute_domain".toList, .str w.domain)
    ("name".toList, .str ((settingsLoader w).name ((settingsLoader w).apply b))) w.clk hpos hclk b.kind.fresh
    ((settingsLoader w).params ((settingsLoader w).apply b)) h.params ((entries (settingsLoader w) b).map (fun e => (w.enc e.1, e.2.1, e.2.2))) hsets
  unfold Settings.reload at hs
  split at hs
  · cases hs
  · rename_i s1 h1
    split at hs
    · cases hs
    · rename_i s2 h2
      dsimp only at hs
      split at hs
      · cases hs
      · rename_i s3 h3
        rw [List.length_map] at h3 hs
        refine ⟨(ty, ⟨b.kind, s, 2 + 2 * (entries (settingsLoader w) b).length + 1 + 3⟩), ⟨rfl, ⟨b.kind, St.fresh b.kind.fresh, 0⟩, ⟨b.kind, s1, 2⟩,
          ⟨b.kind, s2, 2 + 2 * (entries (settingsLoader w) b).length⟩, ⟨b.kind, s3, 2 + 2 * (entries (settingsLoader w) b).length + 1⟩, ?_, ?_, ?_, ?_, ?_⟩, rfl, hres⟩
        · show (w.kinds ty).map _ = _
          rw [h.kind]
          rfl
        · show (Settings.loadParams b.kind.cfg (Settings.assign (St.fresh b.kind.fresh) "name".toList (.str ((settingsLoader w).name ((settingsLoader w).apply b)))) (w.clk 0) (w.clk 1)
            ((settingsLoader w).params ((settingsLoader w).apply b)) ⟨0, 0⟩).map _ = _
          rw [h1]
          rfl
        · show (entries (settingsLoader w) b).foldlM _ (⟨b.kind, s1, 2⟩ : Live F) = _
          rw [loadCtx_fold, h2]
          rfl
        · show (Settings.activateNow b.kind.cfg s2 (w.clk _)).map _ = _
          rw [h3]
          rfl
        · show (Settings.initBlock b.kind.cfg b.kind.cb _ s3 _ _ _).map _ = _
          rw [hs]
          rfl

/-- **C74** (whole graphs) A saved graph of ordinary blocks whose settings can come back loads: the same blocks in the same order, the same edges but for weight
and name, and every writable member of every block has the value it was saved with, unless its block rejects that value or changes it in its own callback. -/
theorem graph_settings_restored_partial (w : World F) (hpos : 0 < w.clk 0) (hclk : ∀ i j, i ≤ j → w.clk i ≤ w.clk j) (henc : ∀ c, c ≠ [] → w.enc c ≠ 0) (n : Nat)
    (blocks : List (Leaf (Live F))) (edges : List Edge) (h : Savable (settingsLoader w) blocks edges) (hr : ∀ b ∈ blocks, Restorable w b) :
    ∃ (blocks' : List (Leaf (Live F))) (hlen : blocks'.length = blocks.length),
      loadGraph (settingsLoader w) (n + 1) (saveGraph (settingsLoader w) (blocks.map fun b => .leaf b.1 b.2) edges) =
        .ok (blocks'.map (fun b => .leaf b.1 b.2), edges.map fun e => { e with weight := 0, label := "unnamed edge".toList }) ∧
      ∀ i (hi : i < blocks.length), (blocks'[i]'(hlen ▸ hi)).1 = blocks[i].1 ∧ (blocks'[i]'(hlen ▸ hi)).2.kind = blocks[i].2.kind ∧
        ∀ e ∈ ((settingsLoader w).apply blocks[i].2).st.active, e.1 ∈ blocks[i].2.kind.cfg.writable → blocks[i].2.kind.cfg.accept e.1 e.2 = some e.2 →
          (blocks[i].2.kind.cfg.hasCallback = true → ∀ g, blocks[i].2.kind.cb g e.1 = g e.1) → (blocks'[i]'(hlen ▸ hi)).2.st.fields e.1 = e.2 := by
  obtain ⟨blocks', hlen, hall⟩ := exists_list (fun b b' => Reloaded (settingsLoader w) b b' ∧ b'.2.kind = b.2.kind ∧
      ∀ e ∈ (settingsLoader w).params ((settingsLoader w).apply b.2), e.1 ∈ b.2.kind.cfg.writable → b.2.kind.cfg.accept e.1 e.2 = some e.2 →
        (b.2.kind.cfg.hasCallback = true → ∀ g, b.2.kind.cb g e.1 = g e.1) →
        b'.2.st.fields e.1 = e.2 ∧ (e.1 ∈ b.2.kind.cfg.readable → Settings.get b'.2.st.active e.1 = some e.2)) blocks
    (fun b hb => block_reloaded w hpos hclk henc b (hr b hb))
  refine ⟨blocks', hlen, graph_roundtrip_partial (settingsLoader w) n blocks blocks' edges h hlen (fun i hi => (hall i hi).1), fun i hi => ?_⟩
  obtain ⟨h1, h2, h3⟩ := hall i hi
  exact ⟨h1.1, h2, fun e he hw ha hc => (h3 e he hw ha hc).1⟩

/-! ## A concrete graph: two amplifiers, each with a set stored for another context -/

def ampKind : Kind Unit where
  cfg := {
    writable := ["name".toList, "gain".toList]
    readable := ["name".toList, "gain".toList]
    conv := fun _ v => some v
    isMono := fun _ => false
    tagOk := fun _ _ => true
    accept := fun _ v => some v
    best := fun _ _ => none
    expiry := Settings.noExpiry
    wasm := false
    hasCallback := false
    forwards := fun _ => true
    tagCtx := fun _ => none }
  cb := id
  fresh := fun _ => .null

def amp (name : List Char) (gain : Int) : Live Unit :=
  ⟨ampKind, { St.fresh (fun k => if k = "name".toList then .str name else .sca (.int ⟨64, true⟩ gain)) with
    stored := [(7, [⟨⟨50, 7⟩, [("gain".toList, .sca (.int ⟨64, true⟩ 3))]⟩])] }, 0⟩

def ampWorld : World Unit where
  kinds ty := if ty = "amp".toList then some ampKind else none
  clk i := i + 1
  enc c := if c = [] then 0 else 7
  dec n := if n = 0 then [] else "seven".toList
  domain := "cpu".toList
  unique _ := []
  category _ := []
  arith _ _ := true
  hasPort _ _ _ := true
  metaInfo _ := []
  ports _ := []

def ampBlocks : List (Leaf (Live Unit)) := [("amp".toList, amp "one".toList 5), ("amp".toList, amp "two".toList 6)]
def ampEdges : List Edge := [⟨0, .index 0 invalidIndex, 1, .name "in".toList, 1024, 3, "e".toList⟩]

theorem amp_params (name : List Char) (gain : Int) : (settingsLoader ampWorld).params ((settingsLoader ampWorld).apply (amp name gain)) =
    [("name".toList, .str name), ("gain".toList, .sca (.int ⟨64, true⟩ gain))] := rfl

theorem amp_entries (name : List Char) (gain : Int) : entries (settingsLoader ampWorld) (amp name gain) =
    [("seven".toList, 50, [("gain".toList, .sca (.int ⟨64, true⟩ 3))])] := rfl

example : Savable (settingsLoader ampWorld) ampBlocks ampEdges ∧ ∀ b ∈ ampBlocks, Restorable ampWorld b := by
  constructor
  · refine ⟨?_, ?_, ?_, by decide +kernel, by decide, ?_, by decide⟩
    · intro b hb
      rcases List.mem_cons.1 hb with rfl | hb
      · decide
      · rw [List.mem_singleton.1 hb]; decide
    · intro b hb
      rcases List.mem_cons.1 hb with rfl | hb
      · decide +kernel
      · rw [List.mem_singleton.1 hb]; decide +kernel
    · intro b hb
      rcases List.mem_cons.1 hb with rfl | hb
      · rfl
      · rw [List.mem_singleton.1 hb]; rfl
    · intro e he
      rw [List.mem_singleton.1 he]
      exact ⟨⟨by decide, Or.inr rfl⟩, trivial⟩
  · have h : ∀ name gain, Restorable ampWorld ("amp".toList, amp name gain) := by
      intro name gain
      refine ⟨rfl, rfl, rfl, ?_, ⟨?_, ?_⟩, ?_⟩
      · show Settings.resetKey ∉ ampKind.cfg.writable ++ ampKind.cfg.readable
        decide
      · rw [amp_params]
        show ["name".toList, "gain".toList].Nodup
        decide
      · rw [amp_params]
        intro e he _
        rcases List.mem_cons.1 he with rfl | he
        · exact ⟨rfl, rfl, rfl⟩
        · rw [List.mem_singleton.1 he]; exact ⟨rfl, rfl, rfl⟩
      · rw [amp_entries]
        intro e he
        rw [List.mem_singleton.1 he]
        refine ⟨by decide, ?_⟩
        intro x hx _
        rw [List.mem_singleton.1 hx]
        exact ⟨rfl, by decide, rfl⟩
    intro b hb
    rcases List.mem_cons.1 hb with rfl | hb
    · exact h _ _
    · rw [List.mem_singleton.1 hb]; exact h _ _

end Verif.Grc
