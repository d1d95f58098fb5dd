import Verif.Selector.Settle

/-!
The branch that keeps combined inputs in step, and what both branches have in common.
-/
namespace Verif.Selector

variable {α : Type}

/-- The samples of inputs taken in turn. -/
def traceS (ins : List (In α)) (k : Nat) (is : List Nat) : List (Nat × Nat) :=
  (List.range k).flatMap fun s => is.map fun i => (i, startAt ins i + s)

theorem traceS_length (ins : List (In α)) (k : Nat) (is : List Nat) : (traceS ins k is).length = k * is.length := by
  unfold traceS
  induction k with
  | zero => simp
  | succ k ih => rw [List.range_succ, List.flatMap_append, List.length_append, ih, Nat.succ_mul]; simp

theorem traceS_one (ins : List (In α)) (k i : Nat) : traceS ins k [i] = (List.range k).map fun s => (i, startAt ins i + s) := by
  unfold traceS
  induction k with
  | zero => rfl
  | succ k ih => rw [List.range_succ, List.flatMap_append, List.map_append, ih]; rfl

theorem from_append (a b : List (Nat × Nat)) (i : Nat) : from_ (a ++ b) i = from_ a i ++ from_ b i := by
  simp [from_]

theorem from_map_self (i : Nat) (l : List Nat) : from_ (l.map fun k => (i, k)) i = l := by
  unfold from_
  rw [List.filter_eq_self.2]
  · rw [List.map_map]
    exact List.map_id l
  · intro p hp
    obtain ⟨k, _, rfl⟩ := List.mem_map.1 hp
    simp

theorem from_map_ne {i j : Nat} (h : j ≠ i) (l : List Nat) : from_ (l.map fun k => (j, k)) i = [] := by
  unfold from_
  rw [List.filter_eq_nil_iff.2]
  · rfl
  · intro p hp
    obtain ⟨k, _, rfl⟩ := List.mem_map.1 hp
    simpa using h

theorem from_each (f : Nat → Nat) (is : List Nat) (hnd : is.Nodup) (i : Nat) :
    from_ (is.map fun j => (j, f j)) i = if i ∈ is then [f i] else [] := by
  induction is with
  | nil => simp [from_]
  | cons j is ih =>
    have hnd := List.nodup_cons.1 hnd
    have e : (j :: is).map (fun j => (j, f j)) = [f j].map (fun k => (j, k)) ++ is.map fun j => (j, f j) := rfl
    rw [e, from_append, ih hnd.2]
    by_cases hij : j = i
    · subst hij
      rw [from_map_self, if_neg hnd.1]
      simp
    · rw [from_map_ne hij]
      have : i ∈ j :: is ↔ i ∈ is := by simp [Ne.symm hij]
      simp [Ne.symm hij]

theorem from_traceS (ins : List (In α)) (k : Nat) (is : List Nat) (hnd : is.Nodup) (i : Nat) :
    from_ (traceS ins k is) i = if i ∈ is then (List.range k).map (startAt ins i + ·) else [] := by
  unfold traceS
  induction k with
  | zero => simp [from_]
  | succ k ih =>
    rw [List.range_succ, List.flatMap_append, from_append, ih, List.map_append]
    simp only [List.flatMap_cons, List.flatMap_nil, List.append_nil]
    rw [from_each (fun i => startAt ins i + k) is hnd]
    by_cases h : i ∈ is <;> simp [h]

theorem from_blocks (g : Nat → List Nat) (o i : Nat) : ∀ (m : Map), (m.Pairwise fun a b => a.1 < b.1) →
    from_ (m.flatMap fun e => if o ∈ e.2 then (g e.1).map fun k => (e.1, k) else []) i = if ∃ e ∈ m, e.1 = i ∧ o ∈ e.2 then g i else [] := by
  intro m
  induction m with
  | nil => intro _; simp [from_]
  | cons e m ih =>
    intro h
    have h := List.pairwise_cons.1 h
    rw [List.flatMap_cons, from_append, ih h.2]
    by_cases hei : e.1 = i
    · have hno : ¬ ∃ d ∈ m, d.1 = i ∧ o ∈ d.2 := by
        rintro ⟨d, hd, hdi, -⟩
        have := h.1 d hd
        omega
      rw [if_neg hno, List.append_nil]
      by_cases ho : o ∈ e.2
      · rw [if_pos ho, if_pos ⟨e, by simp, hei, ho⟩, hei, from_map_self]
      · rw [if_neg ho, if_neg]
        · rfl
        · rintro ⟨d, hd, hdi, hod⟩
          rcases List.mem_cons.1 hd with rfl | hd
          · exact ho hod
          · exact hno ⟨d, hd, hdi, hod⟩
    · have hz : from_ (if o ∈ e.2 then (g e.1).map fun k => (e.1, k) else []) i = [] := by
        by_cases ho : o ∈ e.2
        · rw [if_pos ho, from_map_ne hei]
        · rw [if_neg ho]; rfl
      rw [hz, List.nil_append]
      have : (∃ d ∈ e :: m, d.1 = i ∧ o ∈ d.2) ↔ ∃ d ∈ m, d.1 = i ∧ o ∈ d.2 := by
        constructor
        · rintro ⟨d, hd, hdi, hod⟩
          rcases List.mem_cons.1 hd with rfl | hd
          · exact absurd hdi hei
          · exact ⟨d, hd, hdi, hod⟩
        · rintro ⟨d, hd, x⟩
          exact ⟨d, by simp [hd], x⟩
      by_cases hx : ∃ d ∈ m, d.1 = i ∧ o ∈ d.2
      · rw [if_pos hx, if_pos (this.2 hx)]
      · rw [if_neg hx, if_neg fun h => hx (this.1 h)]

/-- What a branch does: numbers of samples to consume and outputs. -/
structure Done (streams : List (List α × List Tag)) (c : Cfg) (ps : List (Nat × Nat)) (sel : Option Nat) (ins : List (In α)) (rooms : List Nat)
    (mon : Nat) (s : List (Out α) × Counts) : Prop where
  outsLen : s.1.length = rooms.length
  countsLen : s.2.length = ins.length
  mapped : ∀ i o, (i, o) ∈ ps → ∃ (k : Nat) (x : In α), s.2.at i = some k ∧ ins[i]? = some x ∧ k ≤ x.samples.length ∧ (sel = some i → k ≤ mon)
  unmapped : ∀ i, (∀ o, (i, o) ∉ ps) → s.2.at i = none
  outs : ∀ (o : Nat) (w : Out α), s.1[o]? = some w → ∃ tr, Carries streams tr w ∧ w.samples.length ≤ (rooms[o]?).getD 0 ∧
    (∀ i, from_ tr i = if (i, o) ∈ ps then (List.range ((s.2.at i).getD 0)).map (startAt ins i + ·) else []) ∧
    (c.sync = true → 2 ≤ (feeds ps o).length → ∃ k, (∀ i ∈ feeds ps o, s.2.at i = some k) ∧ tr = traceS ins k (feeds ps o)) ∧
    (c.sync = false → tr.Pairwise fun p q => p.1 < q.1 ∨ p.1 = q.1 ∧ p.2 < q.2)
  most : ∀ i o, (i, o) ∈ ps → ∀ N, (c.sync = false → ∀ q, (i, q) ∈ ps → feeds ps q = [i]) →
    (∀ j, Linked ps i j → (∀ x, ins[j]? = some x → N ≤ x.samples.length) ∧ (sel = some j → N ≤ mon) ∧
      ∀ q, (j, q) ∈ ps → N * (feeds ps q).length ≤ (rooms[q]?).getD 0) → Fits N (s.2.at i)

/-- Some output has several inputs. -/
theorem any_iff {c : Cfg} {ps : List (Nat × Nat)} (hm : Maps c ps) :
    (c.outIn.any fun e => decide (e.2.length > 1)) = true ↔ ∃ o, 2 ≤ (feeds ps o).length := by
  rw [List.any_eq_true]
  constructor
  · rintro ⟨e, he, h⟩
    refine ⟨e.1, ?_⟩
    rw [← hm.feeds_eq he]
    have : 1 < e.2.length := by simpa using h
    omega
  · rintro ⟨o, ho⟩
    refine ⟨(o, feeds ps o), ?_, decide_eq_true ho⟩
    rw [hm.outIn.mem]
    refine ⟨rfl, ?_⟩
    intro h
    simp only at h
    rw [h] at ho
    simp at ho

theorem range_lt (f : Nat → Nat) (hf : ∀ a b, a < b → f a < f b) (k : Nat) : ((List.range k).map f).Pairwise (· < ·) := by
  rw [List.pairwise_map]
  exact List.pairwise_lt_range.imp fun h => hf _ _ h

theorem plain_done {streams : List (List α × List Tag)} {c : Cfg} {ps : List (Nat × Nat)} (hm : Maps c ps) (sel : Option Nat)
    {ins : List (In α)} (hs : Srcs streams ins) (hin : ins.length = c.nIn) {rooms : List Nat} (hout : rooms.length = c.nOut) (mon : Nat)
    (hsync : c.sync = true → ∀ o, (feeds ps o).length ≤ 1) :
    ∃ s, plainBranch c sel ins rooms mon = some s ∧ Done streams c ps sel ins rooms mon s := by
  obtain ⟨s, h1, h2⟩ := plain_spec hm sel hs hin hout mon
  have hkey : ∀ i, (∃ e ∈ c.inOut, e.1 = i) ↔ ∃ o, (i, o) ∈ ps := by
    intro i
    constructor
    · rintro ⟨e, he, rfl⟩
      obtain ⟨o, ho⟩ := List.exists_mem_of_ne_nil _ (hm.inOut.ok.full e he)
      exact ⟨o, (hm.mem_in he o).1 ho⟩
    · rintro ⟨o, ho⟩
      exact ⟨_, hm.inOut.mem_of ho, rfl⟩
  refine ⟨s, h1, h2.outsLen, h2.countsLen, ?_, ?_, ?_, ?_⟩
  · intro i o ho
    obtain ⟨e, he, rfl⟩ := (hkey i).2 ⟨o, ho⟩
    obtain ⟨n, x, g1, g2, g3, g4, -⟩ := h2.count e he
    exact ⟨n, x, g1, g2, g3, g4⟩
  · intro i hi
    apply h2.fresh
    intro e he hei
    obtain ⟨o, ho⟩ := (hkey i).1 ⟨e, he, hei⟩
    exact hi o ho
  · intro o w hw
    obtain ⟨g1, room, g2, g3⟩ := h2.outs o w hw
    refine ⟨_, g1, by rw [g2]; exact g3, ?_, ?_, ?_⟩
    · intro i
      unfold traceP
      have := from_blocks (fun j => (List.range ((s.2.at j).getD 0)).map (startAt ins j + ·)) o i c.inOut hm.inOut.ok.sorted
      simp only [List.map_map] at this
      have e : (c.inOut.flatMap fun e => if o ∈ e.2 then (List.range ((s.2.at e.1).getD 0)).map fun k => (e.1, startAt ins e.1 + k) else []) =
          c.inOut.flatMap fun e => if o ∈ e.2 then (List.range ((s.2.at e.1).getD 0)).map ((fun k => (e.1, k)) ∘ (startAt ins e.1 + ·)) else [] := rfl
      rw [e, this]
      have : (∃ e ∈ c.inOut, e.1 = i ∧ o ∈ e.2) ↔ (i, o) ∈ ps := by
        constructor
        · rintro ⟨e, he, rfl, ho⟩
          exact (hm.mem_in he o).1 ho
        · intro h
          exact ⟨_, hm.inOut.mem_of h, rfl, (hm.mem_in (hm.inOut.mem_of h) o).2 h⟩
      by_cases hx : (i, o) ∈ ps
      · rw [if_pos hx, if_pos (this.2 hx)]
      · rw [if_neg hx, if_neg fun h => hx (this.1 h)]
    · intro hc ho
      have := hsync hc o
      omega
    · intro _
      unfold traceP
      have : ∀ (m : Map), (m.Pairwise fun a b => a.1 < b.1) →
          (m.flatMap fun e => if o ∈ e.2 then (List.range ((s.2.at e.1).getD 0)).map fun k => (e.1, startAt ins e.1 + k) else []).Pairwise
            fun p q => p.1 < q.1 ∨ p.1 = q.1 ∧ p.2 < q.2 := by
        intro m
        induction m with
        | nil => intro _; exact List.Pairwise.nil
        | cons e m ih =>
          intro h
          have h := List.pairwise_cons.1 h
          rw [List.flatMap_cons, List.pairwise_append]
          refine ⟨?_, ih h.2, ?_⟩
          · by_cases ho : o ∈ e.2
            · rw [if_pos ho, List.pairwise_map]
              refine List.pairwise_lt_range.imp ?_
              intro a b hab
              exact Or.inr ⟨rfl, Nat.add_lt_add_left hab _⟩
            · rw [if_neg ho]; exact List.Pairwise.nil
          · intro p hp q hq
            obtain ⟨d, hd, hq⟩ := List.mem_flatMap.1 hq
            have h1 : p.1 = e.1 := by
              by_cases ho : o ∈ e.2
              · rw [if_pos ho] at hp
                obtain ⟨_, _, rfl⟩ := List.mem_map.1 hp
                rfl
              · rw [if_neg ho] at hp; cases hp
            have h2 : q.1 = d.1 := by
              by_cases ho : o ∈ d.2
              · rw [if_pos ho] at hq
                obtain ⟨_, _, rfl⟩ := List.mem_map.1 hq
                rfl
              · rw [if_neg ho] at hq; cases hq
            left
            have := h.1 d hd
            omega
      exact this _ hm.inOut.ok.sorted
  · intro i o ho N hN1 hN
    obtain ⟨e, he, rfl⟩ := (hkey i).2 ⟨o, ho⟩
    obtain ⟨n, x, g1, g2, g3, g4, g5⟩ := h2.count e he
    rw [g1, fits_some]
    have hself := hN e.1 .refl
    refine g5 N (hself.1 x g2) hself.2.1 ?_
    intro q hq
    have hq' := (hm.mem_in he q).1 hq
    have hf : feeds ps q = [e.1] := by
      cases hc : c.sync with
      | false => exact hN1 hc q hq'
      | true =>
        have h1 := hsync hc q
        have h2 : e.1 ∈ feeds ps q := (mem_feeds _ _ _).2 hq'
        match hl : feeds ps q, h1, h2 with
        | [a], _, h2 => rw [List.mem_singleton.1 h2]
    have hroom := hself.2.2 q hq'
    rw [hf] at hroom
    have hlt := (hm.proper.2 _ hq').2
    simp only at hlt
    refine ⟨?_, rooms[q]'(by omega), List.getElem?_eq_getElem _, ?_⟩
    · intro e' he' hqe'
      have h3 : e'.1 ∈ feeds ps q := (mem_feeds _ _ _).2 ((hm.mem_in he' q).1 hqe')
      rw [hf] at h3
      have h4 : e'.1 = e.1 := List.mem_singleton.1 h3
      have a := ((hm.inOut.mem e').1 he').1
      have b := ((hm.inOut.mem e).1 he).1
      rw [h4] at a
      exact Prod.ext h4 (a.trans b.symm)
    · rw [List.getElem?_eq_getElem (show q < rooms.length by omega)] at hroom
      simpa using hroom

theorem writeOne_spec {streams : List (List α × List Tag)} {ins : List (In α)} (hs : Srcs streams ins) {rooms : List Nat} {n : Counts}
    {e : Nat × List Nat} {k room : Nat} {outs : List (Out α)} (hne : e.2 ≠ []) (ho : outs[e.1]? = some Out.empty) (hr : rooms[e.1]? = some room)
    (hi : ∀ i ∈ e.2, n.at i = some k ∧ ∃ x, ins[i]? = some x ∧ k ≤ x.samples.length) (h0 : 2 ≤ e.2.length → n.at 0 = some k)
    (hk : k * e.2.length ≤ room) :
    ∃ w, writeOne ins rooms n e outs = some (outs.set e.1 w) ∧ Carries streams (traceS ins k e.2) w := by
  obtain ⟨o, is⟩ := e
  simp only at *
  unfold writeOne
  simp only [ho, hr]
  match is, hne with
  | [i], _ =>
    obtain ⟨h1, x, h2, h3⟩ := hi i (by simp)
    refine ⟨Out.empty.append (chunk k x), ?_, ?_⟩
    · simp only [h1, h2]
      rw [copyTo_eq, if_pos ⟨h3, by simpa [Out.empty] using hk⟩]
      rfl
    · rw [Out.empty_append, traceS_one]
      have := (hs i x h2).chunk h3
      have e : startAt ins i = x.start := by simp [startAt, h2]
      rw [e]
      exact this
  | i :: j :: is, _ =>
    refine ⟨weave k ((i :: j :: is).filterMap fun i => ins[i]?), ?_, ?_⟩
    · simp only [h0 (by simp)]
      rw [if_pos]
      refine ⟨?_, hk⟩
      intro x hx
      obtain ⟨a, ha, hax⟩ := List.mem_filterMap.1 hx
      obtain ⟨-, y, h2, h3⟩ := hi a ha
      rw [h2] at hax
      cases hax
      exact h3
    · exact weave_carries hs _ k fun a ha => (hi a ha).2

theorem sync_done {streams : List (List α × List Tag)} {c : Cfg} {ps : List (Nat × Nat)} (hm : Maps c ps) (sel : Option Nat)
    {ins : List (In α)} (hs : Srcs streams ins) (hin : ins.length = c.nIn) {rooms : List Nat} (hout : rooms.length = c.nOut) (mon : Nat)
    (hsync : c.sync = true) (hz : ∀ o, 2 ≤ (feeds ps o).length → ∀ i ∈ feeds ps o, Linked ps 0 i) :
    ∃ s, syncBranch c sel ins rooms mon = some s ∧ Done streams c ps sel ins rooms mon s := by
  have hrange : ∀ e ∈ c.outIn, e.1 < rooms.length ∧ ∀ i ∈ e.2, i < ins.length := by
    intro e he
    have hf := hm.feeds_eq he
    obtain ⟨i0, hi0⟩ := List.exists_mem_of_ne_nil _ (hm.outIn.ok.full e he)
    constructor
    · have := (hm.proper.2 _ ((mem_feeds _ _ _).1 (hf ▸ hi0))).2
      simp only at this
      omega
    · intro i hi
      have := (hm.proper.2 _ ((mem_feeds _ _ _).1 (hf ▸ hi))).1
      simp only at this
      omega
  have hentry : ∀ i o, (i, o) ∈ ps → (o, feeds ps o) ∈ c.outIn := fun i o h => hm.outIn.mem_of h
  obtain ⟨f1, f2⟩ := firstCounts_spec sel ins rooms mon c.outIn (fun e he => (hrange e he).2)
  have hset : Set c.outIn (firstCounts c.outIn sel ins rooms mon) := by
    intro e he i hi
    refine ⟨by rw [f1]; exact (hrange e he).2 i hi, ?_⟩
    cases hn : Counts.at (firstCounts c.outIn sel ins rooms mon) i with
    | some k => exact ⟨k, rfl⟩
    | none =>
      exfalso
      have := (f2 ((rooms[e.1]?).getD 0 / e.2.length + 1) i).1 (by rw [hn]; exact fits_none _) e he hi
      have := ((fits_allowed _ _ _ _ _ _ _).1 this).2.1
      omega
  obtain ⟨n, s1, s2, s3⟩ := settle_spec (rounds (firstCounts c.outIn sel ins rooms mon)) _ hset (by unfold rounds weight; omega)
  have hns := s2.isSet hset
  have hnl : n.length = ins.length := s2.len.trans f1
  -- what the numbers allow
  have hle : ∀ i o, (i, o) ∈ ps → ∃ (k : Nat) (x : In α), n.at i = some k ∧ ins[i]? = some x ∧ k ≤ x.samples.length ∧ (sel = some i → k ≤ mon) ∧
      k * (feeds ps o).length ≤ (rooms[o]?).getD 0 := by
    intro i o hio
    have he := hentry i o hio
    have hi : i ∈ feeds ps o := (mem_feeds _ _ _).2 hio
    obtain ⟨hlt, k, hk⟩ := hns _ he i hi
    have hx : i < ins.length := by omega
    have h1 := s2.down k i (by rw [hk]; exact (fits_some _ _).2 (Nat.le_refl _))
    have h2 := (fits_allowed _ _ _ _ _ _ _).1 ((f2 k i).1 h1 _ he hi)
    refine ⟨k, ins[i], hk, List.getElem?_eq_getElem hx, h2.1 i hi _ (List.getElem?_eq_getElem hx), fun hsel => h2.2.2 ⟨i, hi, hsel⟩, ?_⟩
    exact Nat.le_trans (Nat.mul_le_mul_right _ h2.2.1) (Nat.div_mul_le_self _ _)
  have hlink : ∀ i j, Linked ps i j → n.at i = n.at j := by
    intro i j h
    induction h with
    | refl => rfl
    | step _ h1 h2 ih => exact ih.trans (s3 _ (hentry _ _ h1) _ ((mem_feeds _ _ _).2 h1) _ ((mem_feeds _ _ _).2 h2))
  -- writing the outputs
  have key : ∀ (todo done : Map), c.outIn = done ++ todo → ∀ outs : List (Out α), outs.length = rooms.length →
      (∀ e ∈ todo, outs[e.1]? = some Out.empty) →
      ∃ outs', todo.foldl (fun s e => s.bind (writeOne ins rooms n e)) (some outs) = some outs' ∧ outs'.length = rooms.length ∧
        (∀ q : Nat, (∀ e ∈ todo, e.1 ≠ q) → outs'[q]? = outs[q]?) ∧
        ∀ e ∈ todo, ∃ k w, (∀ i ∈ e.2, n.at i = some k) ∧ outs'[e.1]? = some w ∧ Carries streams (traceS ins k e.2) w ∧
          k * e.2.length ≤ (rooms[e.1]?).getD 0 := by
    intro todo
    induction todo with
    | nil => intro done _ outs hl _; exact ⟨outs, rfl, hl, fun _ _ => rfl, by simp⟩
    | cons e todo ih =>
      intro done hd outs hl hempty
      have he : e ∈ c.outIn := by rw [hd]; simp
      have hf := hm.feeds_eq he
      have hne := hm.outIn.ok.full e he
      obtain ⟨i0, hi0⟩ := List.exists_mem_of_ne_nil _ hne
      have hio : ∀ i ∈ e.2, (i, e.1) ∈ ps := fun i hi => (mem_feeds _ _ _).1 (hf ▸ hi)
      obtain ⟨k, x0, k1, -, -, -, k5⟩ := hle i0 e.1 (hio i0 hi0)
      have hall : ∀ i ∈ e.2, n.at i = some k := fun i hi => (s3 e he i hi i0 hi0).trans k1
      have hroom := List.getElem?_eq_getElem (hrange e he).1
      have k5' : k * e.2.length ≤ rooms[e.1]'((hrange e he).1) := by
        rw [hroom, ← hf] at k5; exact k5
      obtain ⟨w, w1, w2⟩ := writeOne_spec hs hne (hempty e (by simp)) hroom
        (by
          intro i hi
          obtain ⟨k', x, a1, a2, a3, -, -⟩ := hle i e.1 (hio i hi)
          have := hall i hi
          rw [a1] at this
          cases this
          exact ⟨a1, x, a2, a3⟩)
        (by
          intro h2
          rw [hf] at h2
          exact (hlink 0 i0 (hz e.1 h2 i0 (hf ▸ hi0))).trans k1)
        k5'
      have hsort := hm.outIn.ok.sorted
      rw [hd] at hsort
      have hsort := List.pairwise_cons.1 (List.pairwise_append.1 hsort).2.1
      obtain ⟨outs', o1, o2, o3, o4⟩ := ih (done ++ [e]) (by rw [hd]; simp) (outs.set e.1 w) (by rw [List.length_set]; exact hl)
        (by
          intro d hd'
          have := hsort.1 d hd'
          rw [List.getElem?_set, if_neg (by omega)]
          exact hempty d (by simp [hd']))
      refine ⟨outs', ?_, o2, ?_, ?_⟩
      · rw [List.foldl_cons, Option.bind_some, w1]; exact o1
      · intro q hq
        rw [o3 q (fun d hd' => hq d (by simp [hd'])), List.getElem?_set, if_neg (hq e (by simp))]
      · intro d hd'
        rcases List.mem_cons.1 hd' with rfl | hd'
        · refine ⟨k, w, hall, ?_, w2, by rw [hroom]; exact k5'⟩
          rw [o3 d.1 (fun d' h' => by have := hsort.1 d' h'; omega), List.getElem?_set, if_pos rfl, if_pos]
          rw [hl]; exact (hrange d he).1
        · exact o4 d hd'
  obtain ⟨outs, o1, o2, o3, o4⟩ := key c.outIn [] rfl (rooms.map fun _ => ⟨[], []⟩) (by simp) (by
    intro e he
    rw [List.getElem?_map, List.getElem?_eq_getElem (hrange e he).1]
    rfl)
  refine ⟨(outs, n), ?_, o2, hnl, ?_, ?_, ?_, ?_⟩
  · unfold syncBranch
    simp only [s1, o1, Option.map_some]
  · intro i o hio
    obtain ⟨k, x, a, b, d, e, -⟩ := hle i o hio
    exact ⟨k, x, a, b, d, e⟩
  · intro i hi
    have hno : ∀ e ∈ c.outIn, i ∉ e.2 := by
      intro e he hie
      rw [hm.feeds_eq he] at hie
      exact hi e.1 ((mem_feeds _ _ _).1 hie)
    show n.at i = none
    rw [s2.same i hno]
    exact fits_all fun N => (f2 N i).2 fun e he hie => absurd hie (hno e he)
  · intro o w hw
    simp only at hw ⊢
    by_cases hf : feeds ps o = []
    · have hnot : ∀ e ∈ c.outIn, e.1 ≠ o := by
        rintro e he rfl
        exact hm.outIn.ok.full e he ((hm.feeds_eq he).trans hf)
      rw [o3 o hnot, List.getElem?_map] at hw
      have hwe : w = Out.empty := by
        cases hr : rooms[o]? with
        | none => rw [hr] at hw; cases hw
        | some r => rw [hr] at hw; cases hw; rfl
      subst hwe
      refine ⟨[], Carries.empty _, by simp [Out.empty], ?_, ?_, fun _ => List.Pairwise.nil⟩
      · intro i
        rw [if_neg]
        · rfl
        · intro h
          have := (mem_feeds ps o i).2 h
          rw [hf] at this
          cases this
      · intro _ h2
        rw [hf] at h2
        simp at h2
    · have he : (o, feeds ps o) ∈ c.outIn := by
        rw [hm.outIn.mem]
        exact ⟨rfl, hf⟩
      obtain ⟨k, w', k1, k2, k3, k4⟩ := o4 _ he
      simp only at k1 k2 k3 k4
      rw [hw] at k2
      cases k2
      refine ⟨_, k3, ?_, ?_, ?_, ?_⟩
      · rw [k3.length, traceS_length]; exact k4
      · intro i
        rw [from_traceS _ _ _ (nodup_feeds hm.proper.1 o)]
        by_cases hi : i ∈ feeds ps o
        · rw [if_pos hi, if_pos ((mem_feeds _ _ _).1 hi), k1 i hi]; rfl
        · rw [if_neg hi, if_neg fun h => hi ((mem_feeds _ _ _).2 h)]
      · intro _ _
        exact ⟨k, k1, rfl⟩
      · intro h
        rw [hsync] at h
        cases h
  · intro i o hio N _ hN
    apply s2.keep (Linked ps i) N
    · intro e he a ha b hb hla
      rw [hm.feeds_eq he] at ha hb
      exact .step hla ((mem_feeds _ _ _).1 ha) ((mem_feeds _ _ _).1 hb)
    · intro j hj
      rw [f2]
      intro e he hje
      rw [fits_allowed]
      have hf := hm.feeds_eq he
      have hpos : 0 < e.2.length := List.length_pos_of_mem hje
      have hle' : ∀ a ∈ e.2, Linked ps i a := fun a ha =>
        .step hj ((mem_feeds _ _ _).1 (hf ▸ hje)) ((mem_feeds _ _ _).1 (hf ▸ ha))
      refine ⟨fun a ha x hx => (hN a (hle' a ha)).1 x hx, ?_, ?_⟩
      · have := (hN j hj).2.2 e.1 ((mem_feeds _ _ _).1 (hf ▸ hje))
        rw [← hf] at this
        exact (Nat.le_div_iff_mul_le hpos).2 this
      · rintro ⟨a, ha, hsa⟩
        exact (hN a (hle' a ha)).2.1 hsa
    · exact .refl

end Verif.Selector
