import Verif.Selector.Joint

/-!
A call of the routing block and what holds in a run.
-/
namespace Verif.Selector

variable {α : Type}

/-- What a call does. -/
structure CallDone (streams : List (List α × List Tag)) (c : Cfg) (ps : List (Nat × Nat)) (sel : Option Nat) (ins : List (In α)) (rooms : List Nat)
    (mon : Nat) (r : Res α) : Prop where
  consumedLen : r.consumed.length = ins.length
  tagsUntil : r.tagsUntil = r.consumed
  outsLen : r.outs.length = rooms.length
  selTaken : r.selTaken = true
  le : ∀ (i k : Nat) (x : In α), r.consumed[i]? = some k → ins[i]? = some x → k ≤ x.samples.length
  unmapped : ∀ (i k : Nat) (x : In α), (∀ o, (i, o) ∉ ps) → r.consumed[i]? = some k → ins[i]? = some x →
    k = if sel = some i then min x.samples.length mon else if c.back then 0 else x.samples.length
  outs : ∀ (o : Nat) (w : Out α), r.outs[o]? = some w → ∃ tr, Carries streams tr w ∧ w.samples.length ≤ (rooms[o]?).getD 0 ∧
    (∀ i, from_ tr i = if (i, o) ∈ ps then (List.range ((r.consumed[i]?).getD 0)).map (startAt ins i + ·) else []) ∧
    (c.sync = true → 2 ≤ (feeds ps o).length → ∃ k, (∀ i ∈ feeds ps o, r.consumed[i]? = some k) ∧ tr = traceS ins k (feeds ps o)) ∧
    (c.sync = false → tr.Pairwise fun p q => p.1 < q.1 ∨ p.1 = q.1 ∧ p.2 < q.2)
  most : ∀ i o, (i, o) ∈ ps → ∀ N, (c.sync = false → ∀ q, (i, q) ∈ ps → feeds ps q = [i]) →
    (∀ j, Linked ps i j → (∀ x, ins[j]? = some x → N ≤ x.samples.length) ∧ (sel = some j → N ≤ mon) ∧
      ∀ q, (j, q) ∈ ps → N * (feeds ps q).length ≤ (rooms[q]?).getD 0) → N ≤ (r.consumed[i]?).getD 0
  monSel : ∀ i, sel = some i → i < ins.length →
    ∃ k, r.consumed[i]? = some k ∧ k ≤ mon ∧ Carries streams ((List.range k).map fun s => (i, startAt ins i + s)) r.mon
  monNone : (∀ i, sel = some i → ¬ i < ins.length) → r.mon = Out.empty

theorem monitor_spec {streams : List (List α × List Tag)} {c : Cfg} {ps : List (Nat × Nat)} {sel : Option Nat}
    {ins : List (In α)} (hs : Srcs streams ins) {rooms : List Nat} {mon : Nat} {s : List (Out α) × Counts}
    (h : Done streams c ps sel ins rooms mon s) :
    ∃ m n', monitor sel ins mon s.2 = some (m, n') ∧ n'.length = ins.length ∧
      (∀ i, (∃ o, (i, o) ∈ ps) → Counts.at n' i = s.2.at i) ∧
      (∀ i, (∀ o, (i, o) ∉ ps) → ∀ x, ins[i]? = some x → Counts.at n' i = if sel = some i then some (min x.samples.length mon) else none) ∧
      (∀ i, sel = some i → i < ins.length → ∃ k x, ins[i]? = some x ∧ Counts.at n' i = some k ∧ k ≤ mon ∧ k ≤ x.samples.length ∧
        Carries streams ((List.range k).map fun s => (i, startAt ins i + s)) m) ∧
      ((∀ i, sel = some i → ¬ i < ins.length) → m = Out.empty) := by
  unfold monitor
  cases sel with
  | none =>
    refine ⟨Out.empty, s.2, rfl, h.countsLen, fun _ _ => rfl, ?_, by simp, fun _ => rfl⟩
    intro i hi x _
    rw [if_neg (by simp)]
    exact h.unmapped i hi
  | some i =>
    simp only
    cases hx : ins[i]? with
    | none =>
      have hlt : ¬ i < ins.length := by
        intro hlt
        rw [List.getElem?_eq_getElem hlt] at hx
        cases hx
      refine ⟨Out.empty, s.2, rfl, h.countsLen, fun _ _ => rfl, ?_, by rintro j ⟨⟩ hj; exact absurd hj hlt, fun _ => rfl⟩
      intro j hj y hy
      rw [if_neg]
      · exact h.unmapped j hj
      · rintro ⟨⟩
        rw [hx] at hy
        cases hy
    | some x =>
      have hlt : i < ins.length := (List.getElem?_eq_some_iff.1 hx).1
      have hcl : i < s.2.length := by rw [h.countsLen]; exact hlt
      simp only
      have hk : ∃ k, minC (minC (some x.samples.length) (some mon)) (s.2.at i) = some k ∧ k ≤ x.samples.length ∧ k ≤ mon ∧
          ((∃ o, (i, o) ∈ ps) → s.2.at i = some k) ∧ ((∀ o, (i, o) ∉ ps) → k = min x.samples.length mon) := by
        by_cases hm : ∃ o, (i, o) ∈ ps
        · obtain ⟨o, ho⟩ := hm
          obtain ⟨k, y, k1, k2, k3, k4⟩ := h.mapped i o ho
          rw [hx] at k2
          cases k2
          have := k4 rfl
          refine ⟨k, ?_, k3, this, fun _ => k1, fun hn => absurd ho (hn o)⟩
          rw [k1]
          simp only [minC, Option.some.injEq]
          omega
        · have hn : ∀ o, (i, o) ∉ ps := fun o ho => hm ⟨o, ho⟩
          refine ⟨min x.samples.length mon, ?_, by omega, by omega, fun h => absurd h hm, fun _ => rfl⟩
          rw [h.unmapped i hn]
          rfl
      obtain ⟨k, k1, k2, k3, k4, k5⟩ := hk
      rw [k1]
      simp only
      rw [copyTo_eq, if_pos ⟨k2, by simpa using k3⟩]
      refine ⟨_, _, rfl, by rw [List.length_set, h.countsLen], ?_, ?_, ?_, fun hn => absurd hlt (hn i rfl)⟩
      · intro j hj
        rw [Counts.at_set _ _ _ _ hcl]
        by_cases hij : i = j
        · subst hij; rw [if_pos rfl, k4 hj]
        · rw [if_neg hij]
      · intro j hj y hy
        rw [Counts.at_set _ _ _ _ hcl]
        by_cases hij : i = j
        · subst hij
          rw [hx] at hy
          cases hy
          rw [if_pos rfl, if_pos rfl, k5 hj]
        · rw [if_neg hij, if_neg (by simpa using hij)]
          exact h.unmapped j hj
      · rintro j ⟨⟩ _
        refine ⟨k, x, hx, by rw [Counts.at_set _ _ _ _ hcl, if_pos rfl], k3, k2, ?_⟩
        have e : (⟨[], []⟩ : Out α) = Out.empty := rfl
        rw [e, Out.empty_append]
        have e : startAt ins i = x.start := by simp [startAt, hx]
        rw [e]
        exact (hs i x hx).chunk k2

theorem call_spec {streams : List (List α × List Tag)} {c : Cfg} {ps : List (Nat × Nat)} (hm : Maps c ps) (hps : ps ≠ []) (hz : ZeroLinked c ps)
    (sels : List Nat) {ins : List (In α)} (hs : Srcs streams ins) (hin : ins.length = c.nIn) {rooms : List Nat} (hout : rooms.length = c.nOut) (mon : Nat) :
    ∃ r, processBulk c sels ins rooms mon = some r ∧ CallDone streams c ps sels.getLast? ins rooms mon r := by
  have hne : c.inOut ≠ [] := by
    obtain ⟨p, hp⟩ := List.exists_mem_of_ne_nil _ hps
    exact List.ne_nil_of_mem (hm.inOut.mem_of hp)
  have hvalid : (∀ e ∈ c.inOut, e.1 < ins.length ∧ ∀ o ∈ e.2, o < rooms.length) ∧ ∀ e ∈ c.outIn, e.1 < rooms.length ∧ ∀ i ∈ e.2, i < ins.length := by
    constructor
    · intro e he
      obtain ⟨o0, ho0⟩ := List.exists_mem_of_ne_nil _ (hm.inOut.ok.full e he)
      constructor
      · have := (hm.proper.2 _ ((hm.mem_in he o0).1 ho0)).1
        simp only at this
        omega
      · intro o ho
        have := (hm.proper.2 _ ((hm.mem_in he o).1 ho)).2
        simp only at this
        omega
    · intro e he
      have hf := hm.feeds_eq he
      obtain ⟨i0, hi0⟩ := List.exists_mem_of_ne_nil _ (hm.outIn.ok.full e he)
      constructor
      · have := (hm.proper.2 _ ((mem_feeds _ _ _).1 (hf ▸ hi0))).2
        simp only at this
        omega
      · intro i hi
        have := (hm.proper.2 _ ((mem_feeds _ _ _).1 (hf ▸ hi))).1
        simp only at this
        omega
  unfold processBulk
  rw [if_neg hne, if_neg (not_not_intro hvalid)]
  dsimp only
  have hbr : ∃ s, (if (c.sync && c.outIn.any fun e => decide (e.2.length > 1)) = true then syncBranch c sels.getLast? ins rooms mon
      else plainBranch c sels.getLast? ins rooms mon) = some s ∧ Done streams c ps sels.getLast? ins rooms mon s := by
    by_cases hb : (c.sync && c.outIn.any fun e => decide (e.2.length > 1)) = true
    · rw [if_pos hb]
      have hb := Bool.and_eq_true_iff.1 hb
      exact sync_done hm _ hs hin hout mon hb.1 (hz hb.1)
    · rw [if_neg hb]
      apply plain_done hm _ hs hin hout mon
      intro hc o
      apply Classical.byContradiction
      intro ho
      exact hb (Bool.and_eq_true_iff.2 ⟨hc, (any_iff hm).2 ⟨o, by omega⟩⟩)
  obtain ⟨⟨outs, n⟩, b1, b2⟩ := hbr
  rw [b1]
  obtain ⟨m, n', m1, m2, m3, m4, m5, m6⟩ := monitor_spec hs b2
  simp only at m1 m3 ⊢
  rw [m1]
  dsimp only
  have hcons : ∀ (i : Nat) (x : In α), ins[i]? = some x → ((ins.zip n').map fun x => finalCount c.back x.1 x.2)[i]? = some (finalCount c.back x (Counts.at n' i)) := by
    intro i x hx
    have hlt := (List.getElem?_eq_some_iff.1 hx).1
    have hlt' : i < n'.length := by rw [m2]; exact hlt
    rw [List.getElem?_map, (List.getElem?_zip_eq_some (z := (x, n'[i]))).2 ⟨hx, List.getElem?_eq_getElem hlt'⟩]
    unfold Counts.at
    rw [List.getElem?_eq_getElem hlt']
    rfl
  have hmap : ∀ i o, (i, o) ∈ ps → ∃ (k : Nat) (x : In α), n.at i = some k ∧ ins[i]? = some x ∧ k ≤ x.samples.length ∧
      ((ins.zip n').map fun x => finalCount c.back x.1 x.2)[i]? = some k := by
    intro i o hio
    obtain ⟨k, x, k1, k2, k3, -⟩ := b2.mapped i o hio
    refine ⟨k, x, k1, k2, k3, ?_⟩
    simp only at k1
    rw [hcons i x k2, m3 i ⟨o, hio⟩, k1]
    rfl
  refine ⟨_, rfl, ?_, rfl, b2.outsLen, rfl, ?_, ?_, ?_, ?_, ?_, ?_⟩
  · simp only [List.length_map, List.length_zip]
    omega
  · intro i k x hk hx
    simp only at hk
    by_cases hmp : ∃ o, (i, o) ∈ ps
    · obtain ⟨o, ho⟩ := hmp
      obtain ⟨k', x', -, h2, h3, h4⟩ := hmap i o ho
      rw [hx] at h2
      cases h2
      rw [hk] at h4
      cases h4
      exact h3
    · have hmp : ∀ o, (i, o) ∉ ps := fun o ho => hmp ⟨o, ho⟩
      rw [hcons i x hx, m4 i hmp x hx] at hk
      by_cases hse : sels.getLast? = some i
      · rw [if_pos hse] at hk
        simp only [finalCount, Option.some.injEq] at hk
        omega
      · rw [if_neg hse] at hk
        simp only [finalCount, Option.some.injEq] at hk
        split at hk <;> omega
  · intro i k x hmp hk hx
    simp only at hk
    rw [hcons i x hx, m4 i hmp x hx] at hk
    by_cases hse : sels.getLast? = some i
    · rw [if_pos hse] at hk ⊢
      simp only [finalCount, Option.some.injEq] at hk
      exact hk.symm
    · rw [if_neg hse] at hk ⊢
      simp only [finalCount, Option.some.injEq] at hk
      exact hk.symm
  · intro o w hw
    obtain ⟨tr, t1, t2, t3, t4, t5⟩ := b2.outs o w hw
    refine ⟨tr, t1, t2, ?_, ?_, t5⟩
    · intro i
      rw [t3]
      by_cases hio : (i, o) ∈ ps
      · rw [if_pos hio, if_pos hio]
        obtain ⟨k, x, k1, k2, k3, k4⟩ := hmap i o hio
        simp only at k4 ⊢
        rw [k4, k1]
      · rw [if_neg hio, if_neg hio]
    · intro hc h2
      obtain ⟨k, k1, k2⟩ := t4 hc h2
      refine ⟨k, ?_, k2⟩
      intro i hi
      obtain ⟨k', x, h1, h2, h3, h4⟩ := hmap i o ((mem_feeds _ _ _).1 hi)
      have := k1 i hi
      simp only at this
      rw [h1] at this
      cases this
      exact h4
  · intro i o hio N hN1 hN
    have := b2.most i o hio N hN1 hN
    obtain ⟨k, x, k1, k2, k3, k4⟩ := hmap i o hio
    simp only at this k4 ⊢
    rw [k1, fits_some] at this
    rw [k4]
    exact this
  · intro i hse hlt
    obtain ⟨k, x, a1, a2, a3, a4, a5⟩ := m5 i hse hlt
    refine ⟨k, ?_, a3, a5⟩
    simp only
    rw [hcons i x a1, a2]
    rfl
  · exact m6

end Verif.Selector
