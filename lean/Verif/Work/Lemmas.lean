import Verif.Work.Model
/-! Helper lemmas about the sample accounting. -/
namespace Verif.Work

theorem clamp_some {v lo hi r : Nat} (h : clamp v lo hi = some r) : lo ≤ r ∧ r ≤ hi ∧ (r ≤ v ∨ r = lo) := by
  unfold clamp at h
  split at h
  · cases h
  · simp only [Option.some.injEq] at h
    subst h
    by_cases h1 : v < lo
    · simp only [if_pos h1]; exact ⟨Nat.le_refl _, by omega, by simp⟩
    · simp only [if_neg h1]
      by_cases h2 : hi < v
      · simp only [if_pos h2]; omega
      · simp only [if_neg h2]; omega

theorem clamp_isSome {v lo hi : Nat} (h : lo ≤ hi) : ∃ r, clamp v lo hi = some r := by
  unfold clamp
  rw [if_neg (by omega)]
  exact ⟨_, rfl⟩

theorem cdiv_some {a b r : Nat} (h : cdiv a b = some r) : 0 < b ∧ r = a / b := by
  unfold cdiv at h
  split at h
  · cases h
  · simp only [Option.some.injEq] at h; exact ⟨by omega, h.symm⟩

theorem cdiv_pos {a b : Nat} (h : 0 < b) : cdiv a b = some (a / b) := if_neg (by omega)

theorem mul_le_of_le_div {k a b : Nat} (h : k ≤ a / b) : k * b ≤ a :=
  Nat.le_trans (Nat.mul_le_mul_right b h) (Nat.div_mul_le_self a b)

theorem le_div_of_mul_le {k a b : Nat} (hb : 0 < b) (h : k * b ≤ a) : k ≤ a / b := (Nat.le_div_iff_mul_le hb).2 h

/-- the largest chunk count that fits. -/
theorem nChunks_spec {c : Cfg} {maxIn maxOut n : Nat} (h : nChunks c maxIn maxOut = some n) :
    n * c.ics ≤ maxIn ∧ n * c.ocs ≤ maxOut ∧ (c.strideActive = true → n ≤ 1) ∧
    (0 < c.ics → 0 < c.ocs → ∀ k, k * c.ics ≤ maxIn → k * c.ocs ≤ maxOut → (c.strideActive = true → k ≤ 1) → k ≤ n) := by
  unfold nChunks at h
  cases hs : c.strideActive with
  | true =>
    rw [hs, if_pos rfl] at h
    simp only [Option.some.injEq] at h
    subst h
    by_cases hc : c.ics ≤ maxIn ∧ c.ocs ≤ maxOut
    · rw [if_pos hc]; exact ⟨by omega, by omega, fun _ => by omega, fun _ _ k _ _ hk => hk rfl⟩
    · rw [if_neg hc]
      refine ⟨by omega, by omega, fun _ => by omega, fun _ _ k h1 h2 hk => ?_⟩
      have := hk rfl
      rcases Nat.eq_zero_or_pos k with hz | hz
      · omega
      · have : k = 1 := by omega
        subst this
        exact absurd ⟨by omega, by omega⟩ hc
  | false =>
    rw [hs] at h
    simp only [Bool.false_eq_true, if_false] at h
    simp only [bind, Option.bind_eq_some_iff, pure, Option.some.injEq] at h
    obtain ⟨x, hx, y, hy, h⟩ := h
    obtain ⟨hi, rfl⟩ := cdiv_some hx
    obtain ⟨ho, rfl⟩ := cdiv_some hy
    subst h
    refine ⟨mul_le_of_le_div (Nat.min_le_left _ _), mul_le_of_le_div (Nat.min_le_right _ _), fun h => (by cases h), fun _ _ k h1 h2 _ => ?_⟩
    have := le_div_of_mul_le hi h1
    have := le_div_of_mul_le ho h2
    omega

theorem nChunks_isSome {c : Cfg} (hi : 0 < c.ics) (ho : 0 < c.ocs) (a b : Nat) : ∃ n, nChunks c a b = some n := by
  unfold nChunks
  split
  · exact ⟨_, rfl⟩
  · rw [cdiv_pos hi, cdiv_pos ho]; exact ⟨_, rfl⟩

/-- the complete specification of `computeResampling`. -/
structure ResSpec (c : Cfg) (minIn maxIn minOut maxOut : Nat) (r : Res) : Prop where
  inLe : r.inp ≤ maxIn
  outLe : r.out ≤ maxOut
  ok : r.status = .ok → minIn ≤ r.inp ∧ minOut ≤ r.out
  bad : r.status ≠ .ok → r.inp = 0 ∧ r.out = 0
  ratio : c.resampling = true → ∃ k, r.inp = k * c.ics ∧ r.out = k * c.ocs
  same : c.resampling = false → r.inp = r.out
  kind : r.status = .ok ∨ r.status = .insufficientIn ∨ r.status = .insufficientOut

theorem oneToOne_spec {minIn maxIn minOut maxOut req : Nat} {r : Res} (h : resampleOneToOne minIn maxIn minOut maxOut req = some r) :
    r.inp = r.out ∧ r.inp ≤ maxIn ∧ r.out ≤ maxOut ∧ (r.status = .ok → minIn ≤ r.inp ∧ minOut ≤ r.out) ∧ (r.status ≠ .ok → r.inp = 0 ∧ r.out = 0) ∧
    (r.status = .ok ∨ r.status = .insufficientIn ∨ r.status = .insufficientOut) := by
  unfold resampleOneToOne at h
  dsimp only at h
  split at h
  · cases h; exact ⟨rfl, Nat.zero_le _, Nat.zero_le _, (fun h => by cases h), fun _ => ⟨rfl, rfl⟩, Or.inr (Or.inl rfl)⟩
  · split at h
    · cases h; exact ⟨rfl, Nat.zero_le _, Nat.zero_le _, (fun h => by cases h), fun _ => ⟨rfl, rfl⟩, Or.inr (Or.inr rfl)⟩
    · simp only [Option.map_eq_some_iff] at h
      obtain ⟨x, hx, rfl⟩ := h
      have := clamp_some hx
      exact ⟨rfl, by dsimp only; omega, by dsimp only; omega, fun _ => ⟨by dsimp only; omega, by dsimp only; omega⟩, fun h => absurd rfl h, Or.inl rfl⟩

theorem resampling_spec {c : Cfg} {minIn maxIn minOut maxOut req : Nat} {r : Res} (h : computeResampling c minIn maxIn minOut maxOut req = some r) :
    ResSpec c minIn maxIn minOut maxOut r := by
  unfold computeResampling at h
  dsimp only at h
  generalize hreq : (if req = 0 then inf else req) = rq at h
  split at h
  · next hc =>
    obtain ⟨h1, h2, h3, h4, h5, h6⟩ := oneToOne_spec h
    refine ⟨h2, h3, h4, h5, fun hr => ?_, fun _ => h1, h6⟩
    rw [hr] at hc
    simp only [Bool.not_true, Bool.false_or, Bool.and_eq_true, decide_eq_true_eq] at hc
    exact ⟨r.inp, by rw [hc.1]; omega, by rw [hc.2]; omega⟩
  · next hc =>
    simp only [bind, Option.bind_eq_some_iff] at h
    obtain ⟨n, hn, h⟩ := h
    obtain ⟨hn1, hn2, hn3, _⟩ := nChunks_spec hn
    have hres : c.resampling = true := by
      cases hr : c.resampling with
      | true => rfl
      | false => rw [hr] at hc; exact absurd rfl hc
    have hnf : c.resampling ≠ false := by rw [hres]; simp
    split at h
    · cases h
      exact ⟨Nat.zero_le _, Nat.zero_le _, fun h => (by cases h), fun _ => ⟨rfl, rfl⟩, fun _ => ⟨0, by simp, by simp⟩, fun h => absurd h hnf, Or.inr (Or.inl rfl)⟩
    · split at h
      · cases h
        exact ⟨Nat.zero_le _, Nat.zero_le _, fun h => (by cases h), fun _ => ⟨rfl, rfl⟩, fun _ => ⟨0, by simp, by simp⟩, fun h => absurd h hnf, Or.inr (Or.inr rfl)⟩
      · have fullCase : ResSpec c minIn maxIn minOut maxOut ⟨n * c.ics, n * c.ocs, .ok⟩ :=
          ⟨hn1, hn2, fun _ => ⟨by dsimp only; omega, by dsimp only; omega⟩, fun h => absurd rfl h, fun _ => ⟨n, rfl, rfl⟩, fun h => absurd h hnf, Or.inl rfl⟩
        split at h
        · simp only [Option.bind_eq_some_iff] at h
          obtain ⟨rr, hrr, x, hx, y, hy, h⟩ := h
          have hcl := clamp_some hrr
          obtain ⟨hi, rfl⟩ := cdiv_some hx
          obtain ⟨ho, rfl⟩ := cdiv_some hy
          split at h
          · next hmin =>
            cases h
            have h1 := mul_le_of_le_div (Nat.min_le_left (rr / c.ics) (maxOut / c.ocs))
            have h2 := mul_le_of_le_div (Nat.min_le_right (rr / c.ics) (maxOut / c.ocs))
            exact ⟨by dsimp only; omega, h2, fun _ => hmin, fun h => absurd rfl h, fun _ => ⟨_, rfl, rfl⟩, fun h => absurd h hnf, Or.inl rfl⟩
          · cases h; exact fullCase
        · cases h; exact fullCase

theorem resampling_defined (c : Cfg) (hi : 0 < c.ics) (ho : 0 < c.ocs) (minIn maxIn minOut maxOut req : Nat) :
    ∃ r, computeResampling c minIn maxIn minOut maxOut req = some r := by
  unfold computeResampling
  dsimp only
  generalize (if req = 0 then inf else req) = rq
  split
  · unfold resampleOneToOne
    dsimp only
    split
    · exact ⟨_, rfl⟩
    · split
      · exact ⟨_, rfl⟩
      · obtain ⟨r, hr⟩ := clamp_isSome (v := rq) (lo := max minIn minOut) (hi := min maxIn maxOut) (by omega)
        rw [hr]; exact ⟨_, rfl⟩
  · obtain ⟨n, hn⟩ := nChunks_isSome hi ho maxIn maxOut
    obtain ⟨h1, h2, _, _⟩ := nChunks_spec hn
    rw [hn]
    simp only [bind, Option.bind_some]
    split
    · exact ⟨_, rfl⟩
    · split
      · exact ⟨_, rfl⟩
      · split
        · next hlt =>
          have hn0 : 0 < n := by
            rcases Nat.eq_zero_or_pos n with h0 | h0
            · subst h0; simp at hlt
            · exact h0
          have : c.ics ≤ n * c.ics := Nat.le_mul_of_pos_left _ hn0
          obtain ⟨r, hr⟩ := clamp_isSome (v := rq) (lo := max minIn c.ics) (hi := maxIn) (by omega)
          rw [hr]
          simp only [Option.bind_some, cdiv_pos hi, cdiv_pos ho]
          split
          · exact ⟨_, rfl⟩
          · exact ⟨_, rfl⟩
        · exact ⟨_, rfl⟩

/-! ### Aggregation over ports -/

theorem foldl_min_le {β : Type} (f : β → Nat) (g : β → Bool) (l : List β) : ∀ (m : Nat), l.foldl (fun m p => if g p then min m (f p) else m) m ≤ m ∧
    ∀ p ∈ l, g p = true → l.foldl (fun m p => if g p then min m (f p) else m) m ≤ f p := by
  induction l with
  | nil => intro m; exact ⟨Nat.le_refl _, fun p hp => by cases hp⟩
  | cons x l ih =>
    intro m
    simp only [List.foldl_cons]
    have hi := ih (if g x then min m (f x) else m)
    refine ⟨?_, ?_⟩
    · refine Nat.le_trans hi.1 ?_
      split <;> omega
    · intro p hp hg
      cases hp with
      | head => refine Nat.le_trans hi.1 ?_; rw [hg, if_pos rfl]; omega
      | tail _ hp => exact hi.2 p hp hg

theorem foldl_max_ge {β : Type} (f : β → Nat) (g : β → Bool) (l : List β) : ∀ (m : Nat), m ≤ l.foldl (fun m p => if g p then max m (f p) else m) m ∧
    ∀ p ∈ l, g p = true → f p ≤ l.foldl (fun m p => if g p then max m (f p) else m) m := by
  induction l with
  | nil => intro m; exact ⟨Nat.le_refl _, fun p hp => by cases hp⟩
  | cons x l ih =>
    intro m
    simp only [List.foldl_cons]
    have hi := ih (if g x then max m (f x) else m)
    refine ⟨?_, ?_⟩
    · refine Nat.le_trans ?_ hi.1
      split <;> omega
    · intro p hp hg
      cases hp with
      | head => refine Nat.le_trans ?_ hi.1; rw [hg, if_pos rfl]; omega
      | tail _ hp => exact hi.2 p hp hg

theorem nextTag_le {ps : List InPort} {p : InPort} (hp : p ∈ ps) (hc : p.connected = true) (hs : p.sync = true) :
    nextTag ps ≤ (untilNextTag p).getD inf :=
  (foldl_min_le (fun p => (untilNextTag p).getD inf) (fun p => p.connected && p.sync) ps inf).2 p hp (by simp [hc, hs])

theorem nextEos_le {ps : List InPort} {p : InPort} (hp : p ∈ ps) (hc : p.connected = true) (hs : p.sync = true) :
    nextEos ps ≤ (untilEos p).getD inf :=
  (foldl_min_le (fun p => (untilEos p).getD inf) (fun p => p.connected && p.sync) ps inf).2 p hp (by simp [hc, hs])

theorem avail_le {ps : List InPort} {p : InPort} (hp : p ∈ ps) (hc : p.connected = true) (hs : p.sync = true) :
    availSync (ps.map fun p => (p.sync, p.optional, p.connected, p.available)) ≤ p.available := by
  have := (foldl_min_le (fun (p : Bool × Bool × Bool × Nat) => if p.2.1 && !p.2.2.1 then inf else p.2.2.2) (fun p => p.1) (ps.map fun p => (p.sync, p.optional, p.connected, p.available)) inf).2
    (p.sync, p.optional, p.connected, p.available) (List.mem_map.2 ⟨p, hp, rfl⟩) hs
  simpa [availSync, hc] using this

theorem availOut_le {ps : List OutPort} {p : OutPort} (hp : p ∈ ps) (hc : p.connected = true) (hs : p.sync = true) :
    availSync (ps.map fun p => (p.sync, p.optional, p.connected, p.available)) ≤ p.available := by
  have := (foldl_min_le (fun (p : Bool × Bool × Bool × Nat) => if p.2.1 && !p.2.2.1 then inf else p.2.2.2) (fun p => p.1) (ps.map fun p => (p.sync, p.optional, p.connected, p.available)) inf).2
    (p.sync, p.optional, p.connected, p.available) (List.mem_map.2 ⟨p, hp, rfl⟩) hs
  simpa [availSync, hc] using this

theorem max_le {ps : List InPort} {p : InPort} (hp : p ∈ ps) (hs : p.sync = true) : maxSync (ps.map fun p => (p.sync, p.maxSamples)) ≤ p.maxSamples := by
  have h : (p.sync, p.maxSamples) ∈ ps.map fun p => (p.sync, p.maxSamples) := List.mem_map.2 ⟨p, hp, rfl⟩
  exact (foldl_min_le (fun (p : Bool × Nat) => p.2) (fun p => p.1) (ps.map fun p => (p.sync, p.maxSamples)) inf).2 (p.sync, p.maxSamples) h hs

theorem maxOut_le {ps : List OutPort} {p : OutPort} (hp : p ∈ ps) (hs : p.sync = true) : maxSync (ps.map fun p => (p.sync, p.maxSamples)) ≤ p.maxSamples := by
  have h : (p.sync, p.maxSamples) ∈ ps.map fun p => (p.sync, p.maxSamples) := List.mem_map.2 ⟨p, hp, rfl⟩
  exact (foldl_min_le (fun (p : Bool × Nat) => p.2) (fun p => p.1) (ps.map fun p => (p.sync, p.maxSamples)) inf).2 (p.sync, p.maxSamples) h hs

theorem min_ge {ps : List InPort} {p : InPort} (hp : p ∈ ps) (hc : p.connected = true) (hs : p.sync = true) :
    p.minSamples ≤ minSync (ps.map fun p => (p.sync, p.optional, p.connected, p.minSamples)) := by
  have := (foldl_max_ge (fun (p : Bool × Bool × Bool × Nat) => if p.2.1 && !p.2.2.1 then 0 else p.2.2.2) (fun p => p.1) (ps.map fun p => (p.sync, p.optional, p.connected, p.minSamples)) 0).2
    (p.sync, p.optional, p.connected, p.minSamples) (List.mem_map.2 ⟨p, hp, rfl⟩) hs
  simpa [minSync, hc] using this

theorem minOut_ge {ps : List OutPort} {p : OutPort} (hp : p ∈ ps) (hc : p.connected = true) (hs : p.sync = true) :
    p.minSamples ≤ minSync (ps.map fun p => (p.sync, p.optional, p.connected, p.minSamples)) := by
  have := (foldl_max_ge (fun (p : Bool × Bool × Bool × Nat) => if p.2.1 && !p.2.2.1 then 0 else p.2.2.2) (fun p => p.1) (ps.map fun p => (p.sync, p.optional, p.connected, p.minSamples)) 0).2
    (p.sync, p.optional, p.connected, p.minSamples) (List.mem_map.2 ⟨p, hp, rfl⟩) hs
  simpa [minSync, hc] using this

/-! ### Sample limits -/

theorem skip_le (c : Cfg) (counter avail : Nat) : skipBefore c counter avail ≤ avail ∧ skipBefore c counter avail ≤ counter := by
  unfold skipBefore; split <;> omega

structure LimSpec (c : Cfg) (counter : Nat) (a : Agg) (l : Limits) : Prop where
  skip : l.skip = skipBefore c counter (min (min a.availIn (if c.forwardTags then inf else a.nextTag)) a.nextEos)
  cnt : l.counter = counter - l.skip
  res : ∃ toProcess, toProcess ≤ a.maxIn ∧ toProcess ≤ c.chunkLimit ∧ toProcess ≤ a.availIn - l.skip ∧ toProcess ≤ a.nextEos - l.skip ∧
    (c.forwardTags = false → a.minIn ≤ a.nextTag - l.skip → toProcess ≤ max c.ics (a.nextTag - l.skip)) ∧
    ResSpec c (min a.minIn a.nextEos) toProcess a.minOut (min a.maxOut a.availOut) l.res
  eos : l.eos = false → 0 < a.nextEos ∧ a.minIn ≤ a.nextEos - l.skip ∧ c.ics ≤ a.nextEos - l.skip

theorem limits_spec {c : Cfg} {counter : Nat} {a : Agg} {req : Nat} {l : Limits} (h : sampleLimits c counter a req = some l) : LimSpec c counter a l := by
  unfold sampleLimits at h
  simp only [bind, Option.bind_eq_some_iff, pure, Option.some.injEq] at h
  obtain ⟨r, hr, n, hn, rfl⟩ := h
  have hs := resampling_spec hr
  refine ⟨rfl, rfl, ⟨_, ?_, ?_, ?_, ?_, ?_, hs⟩, ?_⟩
  · omega
  · omega
  · dsimp only; omega
  · dsimp only; omega
  · intro hf hm
    dsimp only at hm ⊢
    simp only [hf, Bool.false_eq_true, if_false] at hm ⊢
    rw [if_pos hm]
    split <;> omega
  · intro he
    simp only [Bool.or_eq_false_iff, decide_eq_false_iff_not] at he
    dsimp only
    omega

end Verif.Work
