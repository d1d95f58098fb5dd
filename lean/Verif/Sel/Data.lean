import Verif.Sel.Lemmas
/-!
# Data sets: what every entry holds between calls
-/
namespace Verif.Sel

variable {α τ σ : Type}

/-- samples kept of `n` -/
def lim (c : Cfg τ σ) (n : Nat) : Nat := if c.nMax = 0 then n else min c.nMax n

/-- an entry belongs to a range, `P` samples having been seen -/
structure At (c : Cfg τ σ) (On Off : σ → Prop) (xs : Strm α τ) (P : Nat) (r : Range) (i : Item α τ σ) : Prop where
  startLe : r.start ≤ P
  ds : i.ds = DS.ofSamples c.isEmpty (min c.nPre r.start) ((xs.drop (r.start - c.nPre)).take i.acc.n)
  pre : i.acc.pre = false
  npre : i.acc.nPre = min c.nPre r.start
  opened : r.stop = none → i.acc.active = true ∧ i.acc.post = false ∧ On i.st ∧ i.acc.n = lim c (P - (r.start - c.nPre))
  closed : ∀ e, r.stop = some e → e ≤ P ∧ r.start ≤ e ∧ Off i.st ∧ i.acc.n = lim c (min P (e + c.nPost) - (r.start - c.nPre)) ∧
    (i.acc.active = true → i.acc.post = true ∧ i.acc.remain = c.nPost - (i.acc.n - lim c (e - (r.start - c.nPre))) ∧
      (e < P → 0 < i.acc.remain)) ∧
    (i.acc.active = false → e < P ∧ (e + c.nPost ≤ P ∨ c.nMax ≠ 0 ∧ i.acc.n = c.nMax))

theorem ofSamples_append (e : τ → Bool) (pre : Nat) (w v : Strm α τ) :
    DS.ofSamples e pre (w ++ v) =
      { values := (DS.ofSamples e pre w).values ++ v.map (·.1)
        axis := (DS.ofSamples e pre w).axis ++ fillAxis ((w.length : Int) - pre) v.length
        events := (DS.ofSamples e pre w).events ++ ((tagsOf v).filter (fun t => !e t.2)).map (fun t => (w.length + t.1, t.2)) } := by
  unfold DS.ofSamples fillAxis
  simp only [List.map_append, List.length_append, List.range_add, List.map_map, tagsOf_append, List.filter_append, List.filter_map,
    Function.comp_def, DS.mk.injEq, true_and]
  refine ⟨?_, trivial⟩
  congr 1
  apply List.map_congr_left
  intro a _
  omega

theorem lim_le (c : Cfg τ σ) (n : Nat) : lim c n ≤ n := by unfold lim; split <;> omega

theorem freeD_eq (c : Cfg τ σ) (hm : c.nMax < 2 ^ 64) (k : Nat) (h : k ≤ c.nMax) : freeD c k = c.nMax - k := by
  unfold freeD
  omega

/-- the copied part of the input -/
theorem copied (xs : Strm α τ) (P n lo m k : Nat) (hP : P + n ≤ xs.length) (hk : k ≤ n) (h : k = 0 ∨ lo + m = P) :
    (xs.drop lo).take m ++ (window P (P + n) xs).take k = (xs.drop lo).take (m + k) := by
  rcases h with rfl | rfl
  · simp
  · rw [List.take_add, window_eq, List.take_take, List.drop_drop]
    congr 2
    omega

theorem postSamples_n (a : Acc) (k : Nat) : (a.postSamples k).n = a.n + k := by unfold Acc.postSamples; dsimp only; split <;> rfl
theorem postSamples_pre (a : Acc) (k : Nat) : (a.postSamples k).pre = a.pre := by unfold Acc.postSamples; dsimp only; split <;> rfl
theorem postSamples_nPre (a : Acc) (k : Nat) : (a.postSamples k).nPre = a.nPre := by unfold Acc.postSamples; dsimp only; split <;> rfl
theorem postSamples_remain (a : Acc) (k : Nat) : (a.postSamples k).remain = a.remain - k := by
  unfold Acc.postSamples; dsimp only; split <;> rfl
theorem postSamples_active (a : Acc) (k : Nat) : (a.postSamples k).active = (a.active && decide (0 < a.remain - k)) := by
  unfold Acc.postSamples; dsimp only
  split
  · next h => simp [h]
  · next h => simp; intro _; omega
theorem postSamples_post (a : Acc) (k : Nat) (h : (a.postSamples k).active = true) : (a.postSamples k).post = a.post := by
  unfold Acc.postSamples at h ⊢; dsimp only at h ⊢
  split
  · next h' => rw [if_pos h'] at h; cases h
  · rfl

/-- data part of `copyD` -/
theorem copyD_ds (c : Cfg τ σ) (xs : Strm α τ) (P n : Nat) (hP : P + n ≤ xs.length) (lo pre : Nat) (i : Item α τ σ)
    (hlo : lo + i.acc.n ≤ P)
    (hds : i.ds = DS.ofSamples c.isEmpty pre ((xs.drop lo).take i.acc.n)) (hpre : i.acc.nPre = pre)
    (hk : countD c i n ≤ n) (hc : countD c i n = 0 ∨ lo + i.acc.n = P) :
    (copyD c ((window P (P + n) xs).map (·.1)) (tagsOf (window P (P + n) xs)) i).ds =
        DS.ofSamples c.isEmpty pre ((xs.drop lo).take (i.acc.n + countD c i n)) ∧
      (copyD c ((window P (P + n) xs).map (·.1)) (tagsOf (window P (P + n) xs)) i).acc.n = i.acc.n + countD c i n := by
  have hl : ((window P (P + n) xs).map (·.1)).length = n := by rw [List.length_map, window_length _ _ _ hP]; omega
  have hwl : ((xs.drop lo).take i.acc.n).length = i.acc.n := by rw [List.length_take, List.length_drop]; omega
  unfold copyD
  dsimp only
  rw [hl]
  by_cases h0 : countD c i n = 0
  · rw [if_pos h0, h0, Nat.add_zero]
    split
    · exact ⟨hds, rfl⟩
    · exact ⟨hds, rfl⟩
  · rw [if_neg h0]
    have hn : (if i.acc.post = true then i.acc.postSamples (countD c i n) else { i.acc with n := i.acc.n + countD c i n }).n
        = i.acc.n + countD c i n := by
      split
      · exact postSamples_n _ _
      · rfl
    refine ⟨?_, hn⟩
    dsimp only
    rw [hn, ← copied xs P n lo i.acc.n _ hP hk hc, ofSamples_append, hwl, ← hds, hpre, List.map_take, tagsOf_take, List.filter_filter,
      List.length_take, window_length _ _ _ hP]
    congr 1
    · congr 2; omega
    · rw [show i.acc.n + countD c i n - countD c i n = i.acc.n by omega]
      congr 2
      apply List.filter_congr
      intro t _
      exact Bool.and_comm _ _

/-- arithmetic of the samples after the stop, without a limit -/
theorem ar0 (P n e q lo m rem k : Nat) (h1 : lo ≤ e) (h2 : e ≤ P) (hm : m = min P (e + q) - lo) (hr : rem = q - (m - (e - lo)))
    (hp : e < P → 0 < rem) (hk : k = min rem n) :
    (k = 0 ∨ lo + m = P) ∧ m + k = min (P + n) (e + q) - lo ∧ rem - k = q - (m + k - (e - lo)) ∧
      (¬ (0 < k ∧ 0 < rem - k) → 0 < n → e + q ≤ P + n) := by
  by_cases h3 : P ≤ e + q
  · rw [Nat.min_eq_left h3] at hm
    subst hm
    by_cases h4 : rem ≤ n
    · rw [Nat.min_eq_left h4] at hk
      rw [Nat.min_eq_right (by omega)]
      omega
    · rw [Nat.min_eq_right (by omega)] at hk
      rw [Nat.min_eq_left (by omega)]
      omega
  · rw [Nat.min_eq_right (by omega)] at hm
    omega

/-- arithmetic of the samples after the stop, with a limit -/
theorem ar1 (M P n e q lo m rem k : Nat) (h1 : lo ≤ e) (h2 : e ≤ P) (hm : m = min M (min P (e + q) - lo))
    (hr : rem = q - (m - min M (e - lo))) (hp : e < P → 0 < rem) (hk : k = min (M - m) (min rem n)) :
    (k = 0 ∨ lo + m = P) ∧ m + k = min M (min (P + n) (e + q) - lo) ∧ (0 < k → rem - k = q - (m + k - min M (e - lo))) ∧
      (¬ (0 < k ∧ 0 < rem - k) → 0 < n → e + q ≤ P + n ∨ m + k = M) := by
  by_cases h5 : M ≤ min P (e + q) - lo
  · rw [Nat.min_eq_left h5] at hm
    subst hm
    rw [Nat.sub_self, Nat.zero_min] at hk
    subst hk
    refine ⟨Or.inl rfl, ?_, fun h => absurd h (by omega), fun _ _ => Or.inr (by omega)⟩
    rw [Nat.add_zero, Nat.min_eq_left]
    omega
  · rw [Nat.min_eq_right (by omega)] at hm
    rw [Nat.min_eq_right (show e - lo ≤ M by omega)] at hr ⊢
    by_cases h3 : P ≤ e + q
    · rw [Nat.min_eq_left h3] at hm
      subst hm
      by_cases h4 : rem ≤ n
      · rw [Nat.min_eq_left h4] at hk
        rw [Nat.min_eq_right (show e + q ≤ P + n by omega)]
        omega
      · rw [Nat.min_eq_right (show n ≤ rem by omega)] at hk
        rw [Nat.min_eq_left (show P + n ≤ e + q by omega)]
        omega
    · rw [Nat.min_eq_right (by omega)] at hm
      omega

/-- **the samples of a call** -/
theorem at_copy (c : Cfg τ σ) (On Off : σ → Prop) (xs : Strm α τ) (hm : c.nMax < 2 ^ 64) (P n : Nat) (hP : P + n ≤ xs.length) (h0 : 0 < n)
    (r : Range) (i : Item α τ σ) (hact : i.acc.active = true) (h : At c On Off xs P r i) :
    At c On Off xs (P + n) r (copyD c ((window P (P + n) xs).map (·.1)) (tagsOf (window P (P + n) xs)) i) := by
  obtain ⟨lo, hlo⟩ : ∃ lo, lo = r.start - c.nPre := ⟨_, rfl⟩
  have hsl := h.startLe
  have hl : ((window P (P + n) xs).map (·.1)).length = n := by rw [List.length_map, window_length _ _ _ hP]; omega
  have hnle : lo + i.acc.n ≤ P := by
    cases hs : r.stop with
    | none => have := (h.opened hs).2.2.2; have h2 := lim_le c (P - (r.start - c.nPre)); omega
    | some e => have := (h.closed e hs).2.2.2.1; have h2 := lim_le c (min P (e + c.nPost) - (r.start - c.nPre)); omega
  have hvl : i.ds.values.length = i.acc.n := by
    rw [h.ds]
    unfold DS.ofSamples
    rw [List.length_map, List.length_take, List.length_drop]
    omega
  have hnm : c.nMax = 0 ∨ i.acc.n ≤ c.nMax := by
    cases hs : r.stop with
    | none => have := (h.opened hs).2.2.2; unfold lim at this; split at this <;> omega
    | some e => have := (h.closed e hs).2.2.2.1; unfold lim at this; split at this <;> omega
  have hcount : countD c i n = (if c.nMax = 0 then (if i.acc.post then min i.acc.remain n else n)
      else min (c.nMax - i.acc.n) (if i.acc.post then min i.acc.remain n else n)) := by
    unfold countD
    dsimp only
    split
    · rfl
    · next hz => rw [hvl, freeD_eq c hm _ (by omega)]
  have hk : countD c i n ≤ n := by rw [hcount]; split <;> split <;> omega
  cases hs : r.stop with
  | none =>
    obtain ⟨ha, hp, hon, hn⟩ := h.opened hs
    rw [hp] at hcount
    have hc : countD c i n = 0 ∨ lo + i.acc.n = P := by
      rw [hcount, hn]; unfold lim; split <;> simp <;> omega
    have key := copyD_ds c xs P n hP lo (min c.nPre r.start) i hnle (by rw [hlo]; exact h.ds) h.npre hk hc
    have hrest : (copyD c ((window P (P + n) xs).map (·.1)) (tagsOf (window P (P + n) xs)) i).acc.pre = false ∧
        (copyD c ((window P (P + n) xs).map (·.1)) (tagsOf (window P (P + n) xs)) i).acc.nPre = min c.nPre r.start ∧
        (copyD c ((window P (P + n) xs).map (·.1)) (tagsOf (window P (P + n) xs)) i).acc.active = true ∧
        (copyD c ((window P (P + n) xs).map (·.1)) (tagsOf (window P (P + n) xs)) i).acc.post = false ∧
        (copyD c ((window P (P + n) xs).map (·.1)) (tagsOf (window P (P + n) xs)) i).st = i.st := by
      unfold copyD
      dsimp only
      rw [hl]
      split
      · simp only [hp]; exact ⟨h.pre, h.npre, ha, hp, rfl⟩
      · simp [hp, h.pre, h.npre, ha]
    refine ⟨by omega, ?_, hrest.1, hrest.2.1, fun _ => ⟨hrest.2.2.1, hrest.2.2.2.1, by rw [hrest.2.2.2.2]; exact hon, ?_⟩, ?_⟩
    · rw [key.2, ← hlo]; exact key.1
    · rw [key.2, hcount, hn]; unfold lim; split <;> simp <;> omega
    · intro e he; rw [hs] at he; cases he
  | some e =>
    obtain ⟨heP, hse, hoff, hn, hA, _⟩ := h.closed e hs
    obtain ⟨hp, hrem, hrpos⟩ := hA hact
    rw [hp] at hcount
    simp only [if_true] at hcount
    have ar : (countD c i n = 0 ∨ lo + i.acc.n = P) ∧ i.acc.n + countD c i n = lim c (min (P + n) (e + c.nPost) - lo) ∧
        (0 < countD c i n → i.acc.remain - countD c i n = c.nPost - (i.acc.n + countD c i n - lim c (e - lo))) ∧
        (¬ (0 < countD c i n ∧ 0 < i.acc.remain - countD c i n) →
          e + c.nPost ≤ P + n ∨ c.nMax ≠ 0 ∧ i.acc.n + countD c i n = c.nMax) := by
      rw [← hlo] at hn hrem
      unfold lim at hn hrem ⊢
      by_cases hz : c.nMax = 0
      · simp only [hz, if_true] at hn hrem hcount ⊢
        have := ar0 P n e c.nPost lo _ _ _ (by omega) heP hn hrem hrpos hcount
        exact ⟨this.1, this.2.1, fun _ => this.2.2.1, fun h => Or.inl (this.2.2.2 h h0)⟩
      · simp only [hz, if_false] at hn hrem hcount ⊢
        have := ar1 c.nMax P n e c.nPost lo _ _ _ (by omega) heP hn hrem hrpos hcount
        exact ⟨this.1, this.2.1, this.2.2.1, fun h => (this.2.2.2 h h0).imp id (fun h => ⟨hz, h⟩)⟩
    have hc := ar.1
    have key := copyD_ds c xs P n hP lo (min c.nPre r.start) i hnle (by rw [hlo]; exact h.ds) h.npre hk hc
    have hrest : (copyD c ((window P (P + n) xs).map (·.1)) (tagsOf (window P (P + n) xs)) i).acc.pre = false ∧
        (copyD c ((window P (P + n) xs).map (·.1)) (tagsOf (window P (P + n) xs)) i).acc.nPre = min c.nPre r.start ∧
        (copyD c ((window P (P + n) xs).map (·.1)) (tagsOf (window P (P + n) xs)) i).acc.active =
          decide (0 < countD c i n ∧ 0 < i.acc.remain - countD c i n) ∧
        ((copyD c ((window P (P + n) xs).map (·.1)) (tagsOf (window P (P + n) xs)) i).acc.active = true →
          (copyD c ((window P (P + n) xs).map (·.1)) (tagsOf (window P (P + n) xs)) i).acc.post = true ∧
          (copyD c ((window P (P + n) xs).map (·.1)) (tagsOf (window P (P + n) xs)) i).acc.remain = i.acc.remain - countD c i n) ∧
        (copyD c ((window P (P + n) xs).map (·.1)) (tagsOf (window P (P + n) xs)) i).st = i.st := by
      unfold copyD
      dsimp only
      rw [hl]
      split
      · next h0 => rw [hp]; exact ⟨h.pre, h.npre, by simp [h0], nofun, rfl⟩
      · next h0 =>
        simp only [hp, if_true]
        refine ⟨by rw [postSamples_pre]; exact h.pre, by rw [postSamples_nPre]; exact h.npre, ?_, ?_, trivial⟩
        · rw [postSamples_active, hact]; simp; intro _; omega
        · intro ha
          rw [postSamples_post _ _ ha, postSamples_remain]
          exact ⟨hp, rfl⟩
    refine ⟨by omega, ?_, hrest.1, hrest.2.1, ?_, ?_⟩
    · rw [key.2, ← hlo]; exact key.1
    · intro hn'; rw [hs] at hn'; cases hn'
    · intro e' he'
      have : e = e' := by rw [hs] at he'; exact Option.some.inj he'
      subst this
      have hrest2 := hrest.2.2.1
      have hrest3 := hrest.2.2.2.1
      refine ⟨by omega, hse, by rw [hrest.2.2.2.2]; exact hoff, ?_, ?_, ?_⟩
      · rw [key.2, ← hlo]; exact ar.2.1
      · intro ha
        rw [ha] at hrest2
        have hd : 0 < countD c i n ∧ 0 < i.acc.remain - countD c i n := by simpa using hrest2.symm
        refine ⟨(hrest3 ha).1, ?_, fun _ => by rw [(hrest3 ha).2]; exact hd.2⟩
        rw [(hrest3 ha).2, key.2, ← hlo]
        exact ar.2.2.1 hd.1
      · intro ha
        rw [ha] at hrest2
        have hd : ¬ (0 < countD c i n ∧ 0 < i.acc.remain - countD c i n) := by simpa using hrest2.symm
        refine ⟨by omega, ?_⟩
        rw [key.2]
        exact ar.2.2.2 hd

end Verif.Sel
