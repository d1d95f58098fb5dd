import Verif.Sync.Find

/-!
What a call does to every pair of ports.
-/
namespace Verif.Sync

theorem getElem?_zip {β γ} {l : List β} {m : List γ} {k : Nat} {x : β} {y : γ} (hx : l[k]? = some x) (hy : m[k]? = some y) :
    (l.zip m)[k]? = some (x, y) := by
  rw [List.getElem?_zip_eq_some]
  exact ⟨hx, hy⟩

/-- The branch that aligns the inputs. -/
theorem bulk_sync {α} {c : Cfg} {s : St} {ins : List (In α)} {rooms : List Nat} (hi : ∀ i ∈ ins, i.Ok) (hne : ins ≠ [])
    (hd : s.dropped.length = ins.length) (h : CanSync c ins) :
    ∃ T m post, Earliest c ins T ∧
      (processBulk c s ins rooms).1 = ⟨true, s.dropped.map fun _ => 0⟩ ∧
      (processBulk c s ins rooms).2.length = ins.length ∧
      (∀ (k : Nat) (i : In α) (d : Nat), ins[k]? = some i → s.dropped[k]? = some d → ∃ t x, syncData c T i = some x ∧ DataOk c T i t x ∧ m ≤ x.pre ∧ post ≤ x.post ∧
        (processBulk c s ins rooms).2[k]? = some (emit i d (x.index - m) (min (m + 1 + post) (minOf rooms)))) ∧
      (∃ (k : Nat) (i : In α) (x : Data), ins[k]? = some i ∧ syncData c T i = some x ∧ m = x.pre) ∧
      (∃ (k : Nat) (i : In α) (x : Data), ins[k]? = some i ∧ syncData c T i = some x ∧ post = x.post) := by
  obtain ⟨T, hT, -, hm⟩ := synchronize_some hi h
  have hlen := (synchronize_iff hi hne).2 h
  have hget : ∀ (k : Nat) (i : In α), ins[k]? = some i → ∃ x, syncData c T i = some x ∧ (synchronize c ins)[k]? = some x := by
    intro k i hk
    have := congrArg (·[k]?) hm
    simp only [List.getElem?_map, hk, Option.map_some] at this
    cases hx : (synchronize c ins)[k]? with
    | none => rw [hx] at this; cases this
    | some x =>
      rw [hx] at this
      simp only [Option.map_some, Option.some.injEq] at this
      exact ⟨x, this.symm, rfl⟩
  have hmem : ∀ x ∈ synchronize c ins, ∃ (k : Nat) (i : In α), ins[k]? = some i ∧ syncData c T i = some x := by
    intro x hx
    obtain ⟨k, hk⟩ := List.mem_iff_getElem?.1 hx
    have hkl : k < ins.length := by
      rw [← hlen]
      exact (List.getElem?_eq_some_iff.1 hk).1
    have hik : ins[k]? = some ins[k] := List.getElem?_eq_getElem hkl
    obtain ⟨y, hy1, hy2⟩ := hget k _ hik
    rw [hk] at hy2
    cases hy2
    exact ⟨k, _, hik, hy1⟩
  have hsne : synchronize c ins ≠ [] := by
    intro he
    rw [he] at hlen
    exact hne (List.length_eq_zero_iff.1 hlen.symm)
  have e : processBulk c s ins rooms = (⟨true, s.dropped.map fun _ => 0⟩,
      (ins.zip ((synchronize c ins).zip s.dropped)).map fun x => emit x.1 x.2.2 (x.2.1.index - minOf ((synchronize c ins).map (·.pre)))
        (min (minOf ((synchronize c ins).map (·.pre)) + 1 + minOf ((synchronize c ins).map (·.post))) (minOf rooms))) := by
    simp only [processBulk, hlen, if_true]
  refine ⟨T, minOf ((synchronize c ins).map (·.pre)), minOf ((synchronize c ins).map (·.post)), hT, ?_, ?_, ?_, ?_, ?_⟩
  · rw [e]
  · rw [e]; simp [hlen, hd]
  · intro k i d hk hdk
    obtain ⟨x, hx, hxk⟩ := hget k i hk
    obtain ⟨t, ht⟩ := syncData_ok (hi i (List.mem_of_getElem? hk)) hx
    refine ⟨t, x, hx, ht, ?_, ?_, ?_⟩
    · exact minOf_le (List.mem_map.2 ⟨x, List.mem_of_getElem? hxk, rfl⟩)
    · exact minOf_le (List.mem_map.2 ⟨x, List.mem_of_getElem? hxk, rfl⟩)
    · rw [e]
      simp only [List.getElem?_map, getElem?_zip hk (getElem?_zip hxk hdk), Option.map_some]
  · obtain ⟨x, hx, hxe⟩ := List.mem_map.1 (minOf_mem (l := (synchronize c ins).map (·.pre)) (by simpa using hsne))
    obtain ⟨k, i, hk, hs⟩ := hmem x hx
    exact ⟨k, i, x, hk, hs, hxe.symm⟩
  · obtain ⟨x, hx, hxe⟩ := List.mem_map.1 (minOf_mem (l := (synchronize c ins).map (·.post)) (by simpa using hsne))
    obtain ⟨k, i, hk, hs⟩ := hmem x hx
    exact ⟨k, i, x, hk, hs, hxe.symm⟩

/-- The number of samples copied while the inputs stay aligned. -/
def copies {α} (c : Cfg) (ins : List (In α)) (rooms : List Nat) : Nat := min (minOf (ins.map (samplesBefore c))) (minOf rooms)

/-- The branch that copies samples. -/
theorem bulk_copy {α} {c : Cfg} {s : St} {ins : List (In α)} {rooms : List Nat} (hi : ∀ i ∈ ins, i.Ok) (hne : ins ≠ [])
    (h : ¬ CanSync c ins) (hs : s.synced = true) (hc : 0 < copies c ins rooms) :
    processBulk c s ins rooms =
      (⟨true, s.dropped.map fun _ => 0⟩, (ins.zip s.dropped).map fun x => emit x.1 x.2 0 (copies c ins rooms)) := by
  have hn : ¬ (synchronize c ins).length = ins.length := fun hx => h ((synchronize_iff hi hne).1 hx)
  have hc' : min (minOf (ins.map (samplesBefore c))) (minOf rooms) > 0 := hc
  simp only [processBulk, hn, if_false, hs, hc', and_self, if_true]
  rfl

/-- The branch that drops what is beyond the history. -/
theorem bulk_skip {α} {c : Cfg} {s : St} {ins : List (In α)} {rooms : List Nat} (hi : ∀ i ∈ ins, i.Ok) (hne : ins ≠ [])
    (h : ¬ CanSync c ins) (hs : s.synced = false ∨ copies c ins rooms = 0) :
    processBulk c s ins rooms =
      (⟨s.synced && ins.all fun i => decide (excess c i = 0), (ins.zip s.dropped).map fun x => x.2 + excess c x.1⟩,
        ins.map fun i => ⟨excess c i, [], []⟩) := by
  have hn : ¬ (synchronize c ins).length = ins.length := fun hx => h ((synchronize_iff hi hne).1 hx)
  have hc : ¬ (s.synced = true ∧ min (minOf (ins.map (samplesBefore c))) (minOf rooms) > 0) := by
    rintro ⟨h1, h2⟩
    rcases hs with hs | hs
    · rw [hs] at h1; cases h1
    · have : min (minOf (ins.map (samplesBefore c))) (minOf rooms) = 0 := hs
      omega
  simp only [processBulk, hn, if_false, hc]

theorem excess_eq {α} (c : Cfg) (i : In α) : excess c i = i.samples.length - c.history := by
  unfold excess
  split <;> omega

theorem before_le {α} {c : Cfg} {ins : List (In α)} {rooms : List Nat} {i : In α} (h : i ∈ ins) : copies c ins rooms ≤ samplesBefore c i := by
  have := minOf_le (l := ins.map (samplesBefore c)) (List.mem_map.2 ⟨i, h, rfl⟩)
  unfold copies
  omega

/-- What a call does to one pair of ports: drop and publish, or only drop. -/
inductive Did {α} (i : In α) (d q : Nat) (r : Res α) : Nat → Prop
  | emit (drop : Nat) (h : drop + q ≤ i.samples.length) (e : r = Sync.emit i d drop q) : Did i d q r 0
  | skip (n : Nat) (h : n ≤ i.samples.length) (hq : q = 0) (e : r = ⟨n, [], []⟩) : Did i d q r (d + n)

theorem bulk_did {α} {c : Cfg} {s : St} {ins : List (In α)} {rooms : List Nat} (hi : ∀ i ∈ ins, i.Ok) (hne : ins ≠ [])
    (hd : s.dropped.length = ins.length) :
    (processBulk c s ins rooms).2.length = ins.length ∧ (processBulk c s ins rooms).1.dropped.length = ins.length ∧
    ∃ q, ∀ (k : Nat) (i : In α) (d : Nat), ins[k]? = some i → s.dropped[k]? = some d → ∃ r d', (processBulk c s ins rooms).2[k]? = some r ∧
      (processBulk c s ins rooms).1.dropped[k]? = some d' ∧ Did i d q r d' := by
  by_cases h : CanSync c ins
  · obtain ⟨T, m, post, -, h1, h2, h3, -⟩ := bulk_sync (rooms := rooms) hi hne hd h
    refine ⟨h2, by rw [h1]; simpa using hd, min (m + 1 + post) (minOf rooms), fun k i d hk hdk => ?_⟩
    obtain ⟨t, x, -, hx, hm, hp, hr⟩ := h3 k i d hk hdk
    refine ⟨_, 0, hr, by rw [h1]; simp [hdk], .emit _ ?_ rfl⟩
    have := hx.inside
    have := hx.pre
    omega
  · by_cases hs : s.synced = true ∧ 0 < copies c ins rooms
    · rw [bulk_copy hi hne h hs.1 hs.2]
      refine ⟨by simp [hd], by simpa using hd, copies c ins rooms, fun k i d hk hdk => ?_⟩
      refine ⟨_, 0, ?_, by simp [hdk], .emit 0 ?_ rfl⟩
      · simp only [List.getElem?_map, getElem?_zip hk hdk, Option.map_some]
      · have h1 := before_le (c := c) (rooms := rooms) (List.mem_of_getElem? hk)
        have h2 := (samplesBefore_ok (c := c) (hi i (List.mem_of_getElem? hk))).1
        omega
    · have hs' : s.synced = false ∨ copies c ins rooms = 0 := by
        cases hx : s.synced with
        | false => exact .inl rfl
        | true => right; rw [hx] at hs; simp only [true_and] at hs; omega
      rw [bulk_skip hi hne h hs']
      refine ⟨by simp, by simp [hd], 0, fun k i d hk hdk => ?_⟩
      refine ⟨_, _, ?_, ?_, .skip (excess c i) (by rw [excess_eq]; omega) rfl rfl⟩
      · simp only [List.getElem?_map, hk, Option.map_some]
      · simp only [List.getElem?_map, getElem?_zip hk hdk, Option.map_some]

/-- What holds of the block and its ports between calls. -/
structure Sys.Ok {α} (streams : List (List α × List Tag)) (s : Sys α) : Prop where
  len : s.ports.length = streams.length
  dlen : s.st.dropped.length = streams.length
  same : ∀ (k : Nat) (p : Port α), s.ports[k]? = some p → streams[k]? = some (p.stream, p.tags)
  port : ∀ (k : Nat) (p : Port α) (d : Nat), s.ports[k]? = some p → s.st.dropped[k]? = some d → p.Ok d
  lock : ∃ n, ∀ p ∈ s.ports, p.out.length = n

theorem Sys.Ok.each {α} {streams : List (List α × List Tag)} {s : Sys α} (h : s.Ok streams) {k : Nat} {p : Port α} (hk : s.ports[k]? = some p) :
    ∃ d, s.st.dropped[k]? = some d ∧ p.Ok d := by
  have hlt := (List.getElem?_eq_some_iff.1 hk).1
  have : k < s.st.dropped.length := by have := h.len; have := h.dlen; omega
  exact ⟨_, List.getElem?_eq_getElem this, h.port k p _ hk (List.getElem?_eq_getElem this)⟩

theorem init_ok {α} {streams : List (List α × List Tag)} (h : StreamsOk streams) (hl : ∀ x ∈ streams, x.1.length < 2 ^ 32) :
    (Sys.init streams).Ok streams where
  len := by simp [Sys.init]
  dlen := by simp [Sys.init]
  same := by
    intro k p hp
    simp only [Sys.init, List.getElem?_map] at hp
    cases hk : streams[k]? with
    | none => rw [hk] at hp; cases hp
    | some x => rw [hk] at hp; cases hp; rfl
  port := by
    intro k p d hp hd
    simp only [Sys.init, List.getElem?_map] at hp hd
    cases hk : streams[k]? with
    | none => rw [hk] at hp; cases hp
    | some x =>
      rw [hk] at hp hd
      cases hp
      cases hd
      have hx := List.mem_of_getElem? hk
      constructor
      · exact (h x hx).1
      · exact (h x hx).2
      · exact (List.filter_eq_self.2 fun t _ => decide_eq_true (Nat.zero_le _)).symm
      · exact hl x hx
      · rfl
      · exact Nat.zero_le _
      · simp
      · simp
      · simp
      · simp
      · exact List.Pairwise.nil
  lock := by
    refine ⟨0, fun p hp => ?_⟩
    obtain ⟨x, -, rfl⟩ := List.mem_map.1 hp
    rfl

theorem views_ok {α} {streams : List (List α × List Tag)} {s : Sys α} (h : s.Ok streams) (call : List (Nat × Nat)) :
    ∀ i ∈ s.views call, i.Ok := by
  intro i hi
  obtain ⟨x, hx, rfl⟩ := List.mem_map.1 hi
  obtain ⟨k, hk⟩ := List.mem_iff_getElem?.1 hx
  have hk := List.getElem?_zip_eq_some.1 hk
  obtain ⟨d, -, hd⟩ := h.each hk.1
  exact view_ok hd _

theorem views_length {α} {s : Sys α} {call : List (Nat × Nat)} (h : call.length = s.ports.length) : (s.views call).length = s.ports.length := by
  simp [Sys.views, h]

/-- What a call does to the port number `k`. -/
theorem step_port {α} {c : Cfg} {streams : List (List α × List Tag)} {s : Sys α} (h : s.Ok streams) (hne : streams ≠ []) {call : List (Nat × Nat)}
    (hc : call.length = streams.length) :
    (s.step c call).ports.length = streams.length ∧ (s.step c call).st.dropped.length = streams.length ∧
    ∃ q, ∀ (k : Nat) (p : Port α) (d : Nat), s.ports[k]? = some p → s.st.dropped[k]? = some d → ∃ (r : Res α) (d' : Nat) (x : Nat × Nat), call[k]? = some x ∧
      (s.step c call).ports[k]? = some (p.apply x.1 r) ∧ (s.step c call).st.dropped[k]? = some d' ∧ Did (p.view x.1) d q r d' := by
  have hvl : (s.views call).length = streams.length := by rw [views_length (by rw [h.len, hc]), h.len]
  have hvne : s.views call ≠ [] := by
    intro he
    rw [he] at hvl
    exact hne (List.length_eq_zero_iff.1 hvl.symm)
  obtain ⟨h1, h2, q, h3⟩ := bulk_did (c := c) (rooms := call.map (·.2)) (views_ok h call) hvne (by rw [h.dlen, hvl])
  refine ⟨by simp [Sys.step, h.len, hc, h1, hvl], by simp only [Sys.step]; rw [h2, hvl], q, ?_⟩
  intro k p d hp hd
  have hlt : k < call.length := by
    have := (List.getElem?_eq_some_iff.1 hp).1
    have := h.len
    omega
  have hx : call[k]? = some call[k] := List.getElem?_eq_getElem hlt
  have hv : (s.views call)[k]? = some (p.view call[k].1) := by
    simp only [Sys.views, List.getElem?_map, getElem?_zip hp hx, Option.map_some]
  obtain ⟨r, d', hr, hd', hdid⟩ := h3 k _ d hv hd
  refine ⟨r, d', _, hx, ?_, hd', hdid⟩
  simp only [Sys.step, List.getElem?_map, getElem?_zip (getElem?_zip hp hx) hr, Option.map_some]

theorem did_ok {α} {p : Port α} {d q n d' : Nat} {r : Res α} (h : p.Ok d) (hd : Did (p.view n) d q r d') :
    (p.apply n r).Ok d' ∧ (p.apply n r).out.length = p.out.length + q := by
  cases hd with
  | emit drop hle e =>
    subst e
    refine ⟨emit_ok h n hle, ?_⟩
    simp only [Port.apply, Sync.emit, List.length_append, List.length_take, List.length_drop]
    omega
  | skip m hle hq e =>
    subst e
    exact ⟨skip_ok h n hle, by simp [Port.apply, hq]⟩

theorem step_ok {α} {c : Cfg} {streams : List (List α × List Tag)} {s : Sys α} (h : s.Ok streams) (hne : streams ≠ []) {call : List (Nat × Nat)}
    (hc : call.length = streams.length) : (s.step c call).Ok streams := by
  obtain ⟨h1, h2, q, h3⟩ := step_port (c := c) h hne hc
  have hall : ∀ (k : Nat) (p' : Port α), (s.step c call).ports[k]? = some p' → ∃ (p : Port α) (d : Nat) (r : Res α) (d' n : Nat), s.ports[k]? = some p ∧ p' = p.apply n r ∧
      (s.step c call).st.dropped[k]? = some d' ∧ Did (p.view n) d q r d' ∧ p.Ok d := by
    intro k p' hk
    have hlt : k < s.ports.length := by
      have := (List.getElem?_eq_some_iff.1 hk).1
      have := h.len
      omega
    have hp : s.ports[k]? = some s.ports[k] := List.getElem?_eq_getElem hlt
    obtain ⟨d, hd, hok⟩ := h.each hp
    obtain ⟨r, d', x, -, hp', hd', hdid⟩ := h3 k _ d hp hd
    rw [hk] at hp'
    cases hp'
    exact ⟨_, d, r, d', x.1, hp, rfl, hd', hdid, hok⟩
  refine ⟨h1, h2, ?_, ?_, ?_⟩
  · intro k p' hk
    obtain ⟨p, d, r, d', n, hp, rfl, -⟩ := hall k p' hk
    exact h.same k p hp
  · intro k p' d'' hk hd''
    obtain ⟨p, d, r, d', n, hp, rfl, hd', hdid, hok⟩ := hall k p' hk
    rw [hd''] at hd'
    cases hd'
    exact (did_ok hok hdid).1
  · obtain ⟨n, hn⟩ := h.lock
    refine ⟨n + q, ?_⟩
    intro p' hp'
    obtain ⟨k, hk⟩ := List.mem_iff_getElem?.1 hp'
    obtain ⟨p, d, r, d', n', hp, rfl, hd', hdid, hok⟩ := hall k p' hk
    rw [(did_ok hok hdid).2, hn p (List.mem_of_getElem? hp)]

theorem run_ok {α} {c : Cfg} {streams : List (List α × List Tag)} {s : Sys α} (h : s.Ok streams) (hne : streams ≠ []) :
    ∀ {calls : List (List (Nat × Nat))}, CallsOk streams.length calls → (run c s calls).Ok streams := by
  intro calls
  induction calls generalizing s with
  | nil => intro _; exact h
  | cons call calls ih =>
    intro hc
    exact ih (step_ok h hne (hc call (List.mem_cons_self ..))) fun x hx => hc x (List.mem_cons_of_mem _ hx)

end Verif.Sync
