import Verif.Pps.Model

/-!
# Property C166: pulses are published once for each second, with the time of the second
-/

namespace Verif.Pps

/-- What is taken off the clock to get UTC: the offset of TAI, in nanoseconds. -/
def shift (m : Mode) (off : Int) : Int := if m = .tai ∧ 0 < off then off * 1000000000 else 0

/-- `t` is the first full second after `now`. -/
def NextSecond (now : Nat) (t : Int) : Prop := (∃ k : Int, t = k * 1000000000) ∧ (now : Int) < t ∧ t ≤ now + 1000000000

/-- The clock of a history does not go back, and a sleep does not end before the full second it waits for. -/
def Forward (es : List Event) : Prop :=
  (∀ e ∈ es, e.now ≤ e.actual ∧ (e.slept = .ok → ∀ t, NextSecond e.now t → t ≤ e.actual)) ∧ es.Pairwise fun a b => a.actual ≤ b.now

theorem boundary_next (now : Nat) : NextSecond now (boundary now : Int) := by
  unfold NextSecond boundary second
  refine ⟨⟨(now / 1000000000 + 1 : Nat), by omega⟩, by omega, by omega⟩

/-- A pass on a clock: the clock is not changed. -/
theorem clock_step (n : Nat) (s : St) (e : Event) (hm : s.mode ≠ .hwPps) (he : e.slept ≠ .enotsup ∨ s.clock = .realtime) :
    (step n s e).mode = s.mode ∧ (step n s e).clock = s.clock ∧
    ((step n s e).out = s.out ∧ (step n s e).seq = s.seq ∨
     e.slept = .ok ∧ e.room = true ∧ (step n s e).seq = s.seq + 1 ∧
      (step n s e).out = s.out ++ [⟨(boundary e.now : Int) - shift s.mode e.disc.taiUtc, (e.actual : Int) - boundary e.now, s.seq,
        e.disc.synchronised, n⟩]) := by
  unfold step
  rw [if_neg hm]
  unfold clockPps
  cases hs : e.slept with
  | eintr => simp
  | failed => simp
  | enotsup =>
    have : s.clock = .realtime := by
      rcases he with h | h
      · exact absurd hs h
      · exact h
    simp [this]
  | ok =>
    dsimp only
    unfold publish
    cases hr : e.room with
    | false => simp
    | true =>
      simp only [if_true, true_and]
      right
      unfold shift second
      by_cases hc : s.mode = .tai ∧ e.disc.taiUtc > 0
      · rw [if_pos hc, if_pos hc]
        simp
      · rw [if_neg hc, if_neg hc]
        simp

/-- Every pulse of a clock belongs to a pass of the loop: its time is the first full second after the pass began, less the offset of TAI;
the offset in the tag is what the sleep was late. -/
theorem clock_tick (n : Nat) (es : List Event) (s : St) (hm : s.mode ≠ .hwPps) (he : ∀ e ∈ es, e.slept ≠ .enotsup ∨ s.clock = .realtime) :
    ∀ t ∈ (run n s es).out, t ∈ s.out ∨ ∃ e ∈ es, e.slept = .ok ∧ e.room = true ∧
      NextSecond e.now (t.time + shift s.mode e.disc.taiUtc) ∧ t.offset = e.actual - (t.time + shift s.mode e.disc.taiUtc) ∧
      t.locked = e.disc.synchronised ∧ t.samples = n := by
  induction es generalizing s with
  | nil => intro t ht; exact Or.inl ht
  | cons e es ih =>
    intro t ht
    obtain ⟨h1, h2, h3⟩ := clock_step n s e hm (he e (by simp))
    have := ih (step n s e) (by rw [h1]; exact hm) (fun x hx => by rw [h2]; exact he x (by simp [hx])) t ht
    rcases this with h | ⟨x, hx, h⟩
    · rcases h3 with h3 | ⟨ha, hb, _, hd⟩
      · rw [h3.1] at h; exact Or.inl h
      · rw [hd, List.mem_append] at h
        rcases h with h | h
        · exact Or.inl h
        · simp at h
          right
          refine ⟨e, by simp, ha, hb, ?_⟩
          subst h
          dsimp only
          rw [Int.sub_add_cancel]
          exact ⟨boundary_next _, rfl, rfl, rfl⟩
    · rw [h1] at h
      exact Or.inr ⟨x, by simp [hx], h⟩

theorem increasing_aux (n : Nat) (es : List Event) (s : St) (off : Int) (hm : s.mode ≠ .hwPps)
    (he : ∀ e ∈ es, e.slept ≠ .enotsup ∨ s.clock = .realtime) (ho : ∀ e ∈ es, e.disc.taiUtc = off) (hf : Forward es)
    (hp : s.out.Pairwise fun a b => a.time < b.time) (hb : ∀ t ∈ s.out, ∀ e ∈ es, t.time + shift s.mode off ≤ e.now) :
    (run n s es).out.Pairwise fun a b => a.time < b.time := by
  induction es generalizing s with
  | nil => exact hp
  | cons e es ih =>
    obtain ⟨h1, h2, h3⟩ := clock_step n s e hm (he e (by simp))
    obtain ⟨f1, f2⟩ := hf
    rw [List.pairwise_cons] at f2
    have fe := f1 e (by simp)
    refine ih (step n s e) (by rw [h1]; exact hm) (fun x hx => by rw [h2]; exact he x (by simp [hx])) (fun x hx => ho x (by simp [hx]))
      ⟨fun x hx => f1 x (by simp [hx]), f2.2⟩ ?_ ?_
    · rcases h3 with h3 | ⟨_, _, _, hd⟩
      · rw [h3.1]; exact hp
      · rw [hd, List.pairwise_append]
        refine ⟨hp, by simp, fun a ha b hb' => ?_⟩
        simp at hb'
        subst hb'
        have hlt := (boundary_next e.now).2.1
        have := hb a ha e (by simp)
        rw [ho e (by simp)]
        dsimp only
        omega
    · intro t ht x hx
      rw [h1]
      have hxa := f2.1 x hx
      rcases h3 with h3 | ⟨ha, _, _, hd⟩
      · rw [h3.1] at ht
        have := hb t ht e (by simp)
        omega
      · rw [hd, List.mem_append] at ht
        rcases ht with ht | ht
        · have := hb t ht e (by simp)
          omega
        · simp at ht
          subst ht
          have := fe.2 ha _ (boundary_next e.now)
          rw [ho e (by simp)]
          dsimp only
          omega

/-- On a clock that does not go back no second is published twice and they come in order, whatever sleeps are interrupted or fail and
whenever the output has no room; for TAI as long as its offset to UTC stays the same. -/
theorem clock_increasing (n : Nat) (m : Mode) (c : Clock) (es : List Event) (off : Int) (hm : m ≠ .hwPps)
    (he : ∀ e ∈ es, e.slept ≠ .enotsup ∨ c = .realtime) (ho : ∀ e ∈ es, e.disc.taiUtc = off) (hf : Forward es) :
    (run n (start (m, c)) es).out.Pairwise fun a b => a.time < b.time :=
  increasing_aux n es (start (m, c)) off hm he ho hf List.Pairwise.nil (by simp [start])

/-- If every pass begins within the second after the pulse before, no second is left out. -/
theorem clock_complete (n : Nat) (m : Mode) (c : Clock) (es : List Event) (off : Int) (hm : m ≠ .hwPps) (t0 : Nat)
    (hok : ∀ e ∈ es, e.slept = .ok ∧ e.room = true ∧ e.disc.taiUtc = off)
    (hin : ∀ (i : Nat) (e : Event), es[i]? = some e → (t0 + i) * 1000000000 ≤ e.now ∧ e.now < (t0 + i + 1) * 1000000000) :
    (run n (start (m, c)) es).out.map (·.time) = (List.range es.length).map fun (i : Nat) => ((t0 + i + 1 : Nat) : Int) * 1000000000 - shift m off := by
  have key : ∀ (es : List Event) (s : St) (t0 : Nat), s.mode = m → (∀ e ∈ es, e.slept = .ok ∧ e.room = true ∧ e.disc.taiUtc = off) →
      (∀ (i : Nat) (e : Event), es[i]? = some e → (t0 + i) * 1000000000 ≤ e.now ∧ e.now < (t0 + i + 1) * 1000000000) →
      (run n s es).out.map (·.time) = s.out.map (·.time) ++
        (List.range es.length).map fun (i : Nat) => ((t0 + i + 1 : Nat) : Int) * 1000000000 - shift m off := by
    intro es
    induction es with
    | nil => intro s t0 _ _ _; simp [run]
    | cons e es ih =>
      intro s t0 hs hok hin
      obtain ⟨k1, k2, k3⟩ := hok e (by simp)
      obtain ⟨h1, h2, h3⟩ := clock_step n s e (by rw [hs]; exact hm) (Or.inl (by rw [k1]; simp))
      have hout : (step n s e).out = s.out ++ [⟨(boundary e.now : Int) - shift s.mode e.disc.taiUtc, (e.actual : Int) - boundary e.now, s.seq,
          e.disc.synchronised, n⟩] := by
        unfold step clockPps publish
        rw [if_neg (by rw [hs]; exact hm), k1]
        dsimp only
        rw [if_pos k2]
        unfold shift second
        dsimp only
        by_cases hc : s.mode = .tai ∧ e.disc.taiUtc > 0
        · rw [if_pos hc, if_pos hc]
          simp
        · rw [if_neg hc, if_neg hc]
          simp
      have hrec := ih (step n s e) (t0 + 1) (by rw [h1, hs]) (fun x hx => hok x (by simp [hx])) (fun i x hx => by
        have e1 : t0 + 1 + i = t0 + (i + 1) := by omega
        rw [e1]
        exact hin (i + 1) x (by simpa using hx))
      change (run n (step n s e) es).out.map (·.time) = _
      rw [hrec, hout, List.length_cons, List.range_succ_eq_map, List.map_append, List.append_assoc]
      refine congrArg (s.out.map (·.time) ++ ·) ?_
      have h0 := hin 0 e rfl
      have hb : boundary e.now = (t0 + 1) * 1000000000 := by
        unfold boundary second
        omega
      rw [List.map_cons, List.map_cons, List.map_map]
      simp only [List.map_nil, List.singleton_append]
      refine List.cons_eq_cons.mpr ⟨?_, ?_⟩
      · rw [hb, hs, k3]
        omega
      · apply List.map_congr_left
        intro i _
        simp only [Function.comp]
        congr 3
        omega
  have := key es (start (m, c)) t0 rfl hok hin
  simpa [start] using this

/-- The numbers of the pulses are 0, 1, 2 and so on, in every mode. -/
theorem numbers (n : Nat) (m : Mode × Clock) (es : List Event) :
    (run n (start m) es).out.map (·.seq) = List.range (run n (start m) es).out.length := by
  have key : ∀ (es : List Event) (s : St), s.out.map (·.seq) = List.range s.out.length → s.seq = s.out.length →
      (run n s es).out.map (·.seq) = List.range (run n s es).out.length := by
    intro es
    induction es with
    | nil => intro s h _; exact h
    | cons e es ih =>
      intro s h hs
      have hpub : ∀ t o l r, (publish n s t o l r).out.map (·.seq) = List.range (publish n s t o l r).out.length ∧
          (publish n s t o l r).seq = (publish n s t o l r).out.length := by
        intro t o l r
        unfold publish
        cases r with
        | false => exact ⟨h, hs⟩
        | true => simp [h, hs, List.range_succ]
      have : (step n s e).out.map (·.seq) = List.range (step n s e).out.length ∧ (step n s e).seq = (step n s e).out.length := by
        unfold step hwPps clockPps
        split
        · split
          · exact ⟨h, hs⟩
          · exact ⟨h, hs⟩
          · exact hpub _ _ _ _
          · exact hpub _ _ _ _
        · split
          · exact ⟨h, hs⟩
          · split <;> exact ⟨h, hs⟩
          · exact ⟨h, hs⟩
          · exact hpub _ _ _ _
      exact ih (step n s e) this.1 this.2
  exact key es (start m) rfl rfl

/-- The finding: a pulse for which the output has no room leaves no trace: all goes on as if the pass had not been, so the numbers have
no gap. -/
theorem lost (n : Nat) (s : St) (e : Event) (a b : List Event) (hr : e.room = false) (he : e.slept ≠ .enotsup) :
    run n s (a ++ e :: b) = run n s (a ++ b) := by
  unfold run
  rw [List.foldl_append, List.foldl_append, List.foldl_cons]
  congr 1
  generalize a.foldl (step n) s = s
  unfold step hwPps clockPps publish
  rw [hr]
  split
  · split <;> rfl
  · split
    · rfl
    · rename_i h; exact absurd h he
    · rfl
    · rfl

/-- A pulse of the hardware gets the full second at or before it, and the distance as the offset. -/
theorem hardware (n : Nat) (s : St) (e : Event) (sec nsec : Nat) (hm : s.mode = .hwPps) (hf : e.fetched = .pulse sec nsec) (hr : e.room = true)
    (hn : nsec < 1000000000) :
    ∃ t, (step n s e).out = s.out ++ [t] ∧ t.time + t.offset = (sec : Int) * 1000000000 + nsec ∧ (∃ k : Int, t.time = k * 1000000000) ∧
      0 ≤ t.offset ∧ t.offset < 1000000000 ∧ t.locked = e.disc.synchronised := by
  unfold step hwPps publish
  rw [if_pos hm, hf]
  dsimp only
  rw [if_pos hr]
  exact ⟨_, rfl, by dsimp only [second]; omega, ⟨sec, by dsimp only [second]; omega⟩, by dsimp only; omega, by dsimp only; omega, rfl⟩

/-- Without a pulse for two seconds there is one with the time of the clock, marked as not synchronised. -/
theorem hardware_timeout (n : Nat) (s : St) (e : Event) (now : Nat) (hm : s.mode = .hwPps) (hf : e.fetched = .timeout now) (hr : e.room = true) :
    (step n s e).out = s.out ++ [⟨now, 0, s.seq, false, n⟩] := by
  unfold step hwPps publish
  rw [if_pos hm, hf]
  dsimp only
  rw [if_pos hr]

/-- The mode is the one asked for if its device opens, and NTP if not; `auto` is PTP or NTP. A clock that cannot wait is left for the
system clock on the first pass. -/
theorem modes (a : Asked) (ptp pps sleeps : Bool) :
    ((resolve a ptp pps sleeps).1 = .hwPps ↔ a = .hwPps ∧ pps = true) ∧ ((resolve a ptp pps sleeps).1 = .tai ↔ a = .tai) ∧
    ((resolve a ptp pps sleeps).1 = .ptp ↔ ptp = true ∧ (a = .ptp ∨ a = .auto ∧ sleeps = true)) ∧
    ((resolve a ptp pps sleeps).2 = .realtime ↔ (resolve a ptp pps sleeps).1 = .ntp ∨ (resolve a ptp pps sleeps).1 = .hwPps) ∧
    ∀ n (e : Event), e.slept = .enotsup → (resolve a ptp pps sleeps).1 ≠ .hwPps →
      run n (start (resolve a ptp pps sleeps)) [e] = start (.ntp, .realtime) := by
  refine ⟨?_, ?_, ?_, ?_, ?_⟩
  · cases a <;> cases ptp <;> cases pps <;> cases sleeps <;> decide
  · cases a <;> cases ptp <;> cases pps <;> cases sleeps <;> decide
  · cases a <;> cases ptp <;> cases pps <;> cases sleeps <;> decide
  · cases a <;> cases ptp <;> cases pps <;> cases sleeps <;> decide
  · intro n e he hm
    simp only [run, List.foldl_cons, List.foldl_nil, step]
    rw [if_neg (by simpa [start] using hm)]
    unfold clockPps
    rw [he]
    revert hm
    cases a <;> cases ptp <;> cases pps <;> cases sleeps <;> simp [resolve, start]

/-- The findings: a pulse of the hardware one nanosecond before second 5 of the system clock gets second 4; on TAI two pulses have the same
time when the offset to UTC grows by one between them; a rate of 3/2 gives one sample to a second. -/
theorem findings :
    ((run 1 (start (.hwPps, .realtime)) [⟨0, .ok, 0, .pulse 4 999999999, ⟨true, 37⟩, true⟩]).out.map fun t => (t.time, t.offset)) =
      [(4000000000, 999999999)] ∧
    ((run 1 (start (.tai, .tai)) [⟨39500000000, .ok, 40000000001, .eintr, ⟨true, 37⟩, true⟩, ⟨40000000500, .ok, 41000000001, .eintr, ⟨true, 38⟩, true⟩]).out.map
      (·.time)) = [3000000000, 3000000000] ∧
    samplesPerTick false (3 / 2) = 1 := by
  decide +kernel

example : (run 1 (start (.ntp, .realtime)) [⟨1500000000, .ok, 2000000007, .eintr, ⟨true, 37⟩, true⟩, ⟨2000000500, .eintr, 2100000001, .eintr, ⟨true, 37⟩, true⟩,
      ⟨2100000500, .ok, 3000000001, .eintr, ⟨false, 37⟩, true⟩]).out = [⟨2000000000, 7, 0, true, 1⟩, ⟨3000000000, 1, 1, false, 1⟩] := by
  decide +kernel

example : Forward [⟨1500000000, .ok, 2000000007, .eintr, ⟨true, 37⟩, true⟩, ⟨2000000500, .ok, 3000000001, .eintr, ⟨true, 37⟩, true⟩] := by
  unfold Forward NextSecond
  refine ⟨?_, by simp⟩
  simp only [List.mem_cons, List.not_mem_nil, or_false]
  rintro e (rfl | rfl)
  · refine ⟨by decide, fun _ t ⟨⟨k, hk⟩, h1, h2⟩ => ?_⟩
    dsimp only at *
    omega
  · refine ⟨by decide, fun _ t ⟨⟨k, hk⟩, h1, h2⟩ => ?_⟩
    dsimp only at *
    omega

end Verif.Pps
