import Verif.Selector.Carry

/-!
The branch that copies inputs one after another.
-/
namespace Verif.Selector

variable {α : Type}

/-- At most this number, where `none` is no limit. -/
def Fits (n : Nat) (o : Option Nat) : Prop := ∀ m, o = some m → n ≤ m

theorem fits_none (n : Nat) : Fits n none := by intro m h; cases h

theorem fits_some (n m : Nat) : Fits n (some m) ↔ n ≤ m := by
  constructor
  · intro h; exact h m rfl
  · intro h k hk; cases hk; exact h

theorem fits_minC (n : Nat) (a b : Option Nat) : Fits n (minC a b) ↔ Fits n a ∧ Fits n b := by
  cases a with
  | none => simp [minC, fits_none]
  | some a =>
    cases b with
    | none => simp [minC, fits_none]
    | some b => simp only [minC, fits_some]; omega

theorem minC_some (a : Nat) (b : Option Nat) : ∃ k, minC (some a) b = some k := by
  cases b <;> simp [minC]

theorem minC_some' (a : Option Nat) (b : Nat) : ∃ k, minC a (some b) = some k := by
  cases a <;> simp [minC]

theorem fits_foldl (n : Nat) (f : Nat → Option Nat) (is : List Nat) : ∀ a, Fits n (is.foldl (fun m i => minC m (f i)) a) ↔ Fits n a ∧ ∀ i ∈ is, Fits n (f i) := by
  induction is with
  | nil => intro a; simp
  | cons i is ih =>
    intro a
    simp only [List.foldl_cons]
    rw [ih, fits_minC]
    simp only [List.mem_cons, forall_eq_or_imp, and_assoc]

theorem fits_minAt (n : Nat) (f : Nat → Option Nat) (is : List Nat) : Fits n (minAt f is) ↔ ∀ i ∈ is, Fits n (f i) := by
  unfold minAt
  rw [fits_foldl]
  simp [fits_none]

theorem copyAll_spec (n : Nat) (x : In α) (rooms : List Nat) (hn : n ≤ x.samples.length) : ∀ (os : List Nat) (outs : List (Out α)), os.Nodup →
    (∀ o ∈ os, ∃ w room, outs[o]? = some w ∧ rooms[o]? = some room ∧ w.samples.length + n ≤ room) →
    ∃ outs', copyAll n x os rooms outs = some outs' ∧ outs'.length = outs.length ∧
      ∀ q : Nat, outs'[q]? = if q ∈ os then (outs[q]?).map (·.append (chunk n x)) else outs[q]? := by
  intro os
  induction os with
  | nil => intro outs _ _; exact ⟨outs, rfl, rfl, by simp⟩
  | cons o os ih =>
    intro outs hnd h
    obtain ⟨w, room, h1, h2, h3⟩ := h o (by simp)
    have hnd := List.nodup_cons.1 hnd
    have hlt : o < outs.length := (List.getElem?_eq_some_iff.1 h1).1
    obtain ⟨outs', e1, e2, e3⟩ := ih (outs.set o (w.append (chunk n x))) hnd.2 (by
      intro q hq
      obtain ⟨w', room', g1, g2, g3⟩ := h q (by simp [hq])
      refine ⟨w', room', ?_, g2, g3⟩
      rw [List.getElem?_set, if_neg, g1]
      rintro rfl
      exact hnd.1 hq)
    refine ⟨outs', ?_, by rw [e2, List.length_set], ?_⟩
    · unfold copyAll at e1 ⊢
      rw [List.foldl_cons]
      simp only [Option.bind_some, h1, h2]
      rw [copyTo_eq, if_pos ⟨hn, h3⟩]
      exact e1
    · intro q
      rw [e3, List.getElem?_set]
      by_cases hq : q ∈ os
      · have hne : o ≠ q := by rintro rfl; exact hnd.1 hq
        rw [if_pos hq, if_neg hne, if_pos (List.mem_cons.2 (Or.inr hq))]
      · rw [if_neg hq]
        by_cases hoq : o = q
        · subst hoq
          rw [if_pos rfl, if_pos hlt, if_pos (by simp), h1]
          rfl
        · rw [if_neg hoq, if_neg]
          simp [hq, Ne.symm hoq]

/-- The samples written to output `o` so far. -/
def traceP (ins : List (In α)) (c : Counts) (o : Nat) (done : Map) : List (Nat × Nat) :=
  done.flatMap fun e => if o ∈ e.2 then (List.range ((c.at e.1).getD 0)).map fun k => (e.1, startAt ins e.1 + k) else []

/-- What holds after the inputs of some entries were copied. -/
structure PInv (streams : List (List α × List Tag)) (sel : Option Nat) (ins : List (In α)) (rooms : List Nat) (mon : Nat)
    (all done : Map) (s : List (Out α) × Counts) : Prop where
  outsLen : s.1.length = rooms.length
  countsLen : s.2.length = ins.length
  fresh : ∀ i, (∀ e ∈ done, e.1 ≠ i) → s.2.at i = none
  count : ∀ e ∈ done, ∃ (n : Nat) (x : In α), s.2.at e.1 = some n ∧ ins[e.1]? = some x ∧ n ≤ x.samples.length ∧ (sel = some e.1 → n ≤ mon) ∧
    ∀ N, N ≤ x.samples.length → (sel = some e.1 → N ≤ mon) →
      (∀ o ∈ e.2, (∀ e' ∈ all, o ∈ e'.2 → e' = e) ∧ ∃ room, rooms[o]? = some room ∧ N ≤ room) → N ≤ n
  outs : ∀ (o : Nat) (w : Out α), s.1[o]? = some w → Carries streams (traceP ins s.2 o done) w ∧ ∃ room, rooms[o]? = some room ∧ w.samples.length ≤ room

theorem Counts.at_set (c : Counts) (i j : Nat) (v : Option Nat) (h : i < c.length) : Counts.at (c.set i v) j = if i = j then v else c.at j := by
  unfold Counts.at
  rw [List.getElem?_set]
  by_cases hij : i = j
  · subst hij; rw [if_pos rfl, if_pos h, if_pos rfl]; rfl
  · rw [if_neg hij, if_neg hij]

theorem copyOne_spec {streams : List (List α × List Tag)} {sel : Option Nat} {ins : List (In α)} {rooms : List Nat} {mon : Nat}
    {all done : Map} {s : List (Out α) × Counts} (hs : Srcs streams ins) (h : PInv streams sel ins rooms mon all done s)
    (e : Nat × List Nat) (hlt : e.1 < ins.length) (hos : ∀ o ∈ e.2, o < rooms.length) (hne : e.2 ≠ []) (hnd : e.2.Nodup)
    (hnew : ∀ d ∈ done, d.1 ≠ e.1) (hall : ∀ d ∈ done, d ∈ all) :
    ∃ s', copyOne sel ins rooms mon e s = some s' ∧ PInv streams sel ins rooms mon all (done ++ [e]) s' := by
  obtain ⟨x, hx⟩ : ∃ x, ins[e.1]? = some x := ⟨ins[e.1], List.getElem?_eq_getElem hlt⟩
  have hwr : ∀ o ∈ e.2, ∃ w room, s.1[o]? = some w ∧ rooms[o]? = some room ∧ w.samples.length ≤ room := by
    intro o ho
    have h1 : o < s.1.length := by rw [h.outsLen]; exact hos o ho
    obtain ⟨-, room, h2, h3⟩ := h.outs o s.1[o] (List.getElem?_eq_getElem h1)
    exact ⟨s.1[o], room, List.getElem?_eq_getElem h1, h2, h3⟩
  obtain ⟨n0, hn0⟩ := minC_some x.samples.length (if sel = some e.1 then some mon else none)
  obtain ⟨n, hn⟩ := minC_some n0 (minAt (fun o => match rooms[o]?, s.1[o]? with
      | some room, some w => some (room - w.samples.length)
      | _, _ => none) e.2)
  have hcc : copyCount sel e.1 x e.2 rooms mon s.1 = some n := by
    unfold copyCount; rw [hn0]; exact hn
  have hfit : ∀ N, N ≤ n ↔ N ≤ x.samples.length ∧ (sel = some e.1 → N ≤ mon) ∧ ∀ o ∈ e.2, ∀ w room, s.1[o]? = some w → rooms[o]? = some room → N ≤ room - w.samples.length := by
    intro N
    rw [← fits_some, ← hn, fits_minC, ← hn0, fits_minC, fits_some, fits_minAt, and_assoc]
    refine and_congr_right fun _ => and_congr ?_ ?_
    · by_cases hse : sel = some e.1
      · rw [if_pos hse, fits_some]; exact ⟨fun h _ => h, fun h => h hse⟩
      · rw [if_neg hse]; exact ⟨fun _ h => absurd h hse, fun _ => fits_none _⟩
    · constructor
      · intro h o ho w room h1 h2
        have := h o ho
        rw [h1, h2] at this
        exact (fits_some _ _).1 this
      · intro h o ho
        obtain ⟨w, room, h1, h2, -⟩ := hwr o ho
        rw [h1, h2]
        exact (fits_some _ _).2 (h o ho w room h1 h2)
  have hnn := (hfit n).1 (Nat.le_refl n)
  obtain ⟨outs', c1, c2, c3⟩ := copyAll_spec n x rooms hnn.1 e.2 s.1 hnd (by
    intro o ho
    obtain ⟨w, room, h1, h2, h3⟩ := hwr o ho
    have := hnn.2.2 o ho w room h1 h2
    exact ⟨w, room, h1, h2, by omega⟩)
  refine ⟨(outs', s.2.set e.1 (some n)), ?_, ?_⟩
  · unfold copyOne
    rw [hx]
    simp only [hcc, c1, Option.map_some]
  · have hcl : e.1 < s.2.length := by rw [h.countsLen]; exact hlt
    have hat : ∀ j, Counts.at (s.2.set e.1 (some n)) j = if e.1 = j then some n else s.2.at j := fun j => Counts.at_set _ _ _ _ hcl
    have htr : ∀ o, traceP ins (s.2.set e.1 (some n)) o done = traceP ins s.2 o done := by
      intro o
      unfold traceP
      have : ∀ (l : Map), (∀ d ∈ l, d.1 ≠ e.1) → l.flatMap (fun d => if o ∈ d.2 then (List.range ((Counts.at (s.2.set e.1 (some n)) d.1).getD 0)).map fun k => (d.1, startAt ins d.1 + k) else []) =
          l.flatMap (fun d => if o ∈ d.2 then (List.range ((s.2.at d.1).getD 0)).map fun k => (d.1, startAt ins d.1 + k) else []) := by
        intro l
        induction l with
        | nil => intro _; rfl
        | cons d l ih =>
          intro hl
          rw [List.flatMap_cons, List.flatMap_cons, ih fun d' h' => hl d' (by simp [h']), hat, if_neg (Ne.symm (hl d (by simp)))]
      exact this done hnew
    have hse : startAt ins e.1 = x.start := by simp [startAt, hx]
    have hte : ∀ o, traceP ins (s.2.set e.1 (some n)) o (done ++ [e]) =
        traceP ins s.2 o done ++ if o ∈ e.2 then (List.range n).map fun k => (e.1, x.start + k) else [] := by
      intro o
      rw [← htr o]
      unfold traceP
      rw [List.flatMap_append]
      simp only [List.flatMap_cons, List.flatMap_nil, List.append_nil]
      rw [hat, if_pos rfl, hse]
      rfl
    refine ⟨by simp only; rw [c2, h.outsLen], by simp only; rw [List.length_set, h.countsLen], ?_, ?_, ?_⟩
    · intro i hi
      simp only
      rw [hat, if_neg (hi e (by simp))]
      exact h.fresh i fun d hd => hi d (by simp [hd])
    · intro d hd
      simp only
      rcases List.mem_append.1 hd with hd | hd
      · obtain ⟨n', x', g1, g2⟩ := h.count d hd
        refine ⟨n', x', ?_, g2⟩
        rw [hat, if_neg (Ne.symm (hnew d hd)), g1]
      · have hd : d = e := by simpa using hd
        subst hd
        refine ⟨n, x, by rw [hat, if_pos rfl], hx, hnn.1, hnn.2.1, ?_⟩
        intro N h1 h2 h3
        rw [hfit]
        refine ⟨h1, h2, ?_⟩
        intro o ho w room hw hr
        obtain ⟨ha, room', hr', hN⟩ := h3 o ho
        rw [hr] at hr'
        cases hr'
        have hc := (h.outs o w hw).1
        have hz : traceP ins s.2 o done = [] := by
          unfold traceP
          rw [List.flatMap_eq_nil_iff]
          intro d' hd'
          rw [if_neg]
          intro hod
          exact hnew d' hd' (by rw [ha d' (hall d' hd') hod])
        have := hc.length
        rw [hz] at this
        simp only [List.length_nil] at this
        omega
    · intro o w hw
      simp only at hw ⊢
      rw [c3] at hw
      rw [hte]
      by_cases ho : o ∈ e.2
      · rw [if_pos ho] at hw ⊢
        obtain ⟨w0, room, h1, h2, h3⟩ := hwr o ho
        rw [h1] at hw
        simp only [Option.map_some, Option.some.injEq] at hw
        subst hw
        refine ⟨(h.outs o w0 h1).1.append ((hs e.1 x hx).chunk hnn.1), room, h2, ?_⟩
        have := hnn.2.2 o ho w0 room h1 h2
        simp only [Out.append, chunk, List.length_append, List.length_take]
        omega
      · rw [if_neg ho] at hw ⊢
        rw [List.append_nil]
        exact h.outs o w hw

theorem PInv.init (streams : List (List α × List Tag)) (sel : Option Nat) (ins : List (In α)) (rooms : List Nat) (mon : Nat) (all : Map) :
    PInv streams sel ins rooms mon all [] (rooms.map fun _ => ⟨[], []⟩, ins.map fun _ => none) := by
  refine ⟨by simp, by simp, ?_, by simp, ?_⟩
  · intro i _
    unfold Counts.at
    rw [List.getElem?_map]
    cases ins[i]? <;> rfl
  · intro o w hw
    simp only [List.getElem?_map] at hw
    cases hr : rooms[o]? with
    | none => rw [hr] at hw; simp at hw
    | some room =>
      rw [hr] at hw
      simp only [Option.map_some, Option.some.injEq] at hw
      subst hw
      exact ⟨Carries.empty _, room, rfl, by simp⟩

theorem plain_spec {streams : List (List α × List Tag)} {c : Cfg} {ps : List (Nat × Nat)} (hm : Maps c ps) (sel : Option Nat)
    {ins : List (In α)} (hs : Srcs streams ins) (hin : ins.length = c.nIn) {rooms : List Nat} (hout : rooms.length = c.nOut) (mon : Nat) :
    ∃ s, plainBranch c sel ins rooms mon = some s ∧ PInv streams sel ins rooms mon c.inOut c.inOut s := by
  have key : ∀ (todo done : Map), c.inOut = done ++ todo → ∀ s, PInv streams sel ins rooms mon c.inOut done s →
      ∃ s', todo.foldl (fun s e => s.bind (copyOne sel ins rooms mon e)) (some s) = some s' ∧ PInv streams sel ins rooms mon c.inOut c.inOut s' := by
    intro todo
    induction todo with
    | nil =>
      intro done hd s h
      rw [List.append_nil] at hd
      rw [← hd] at h
      exact ⟨s, rfl, h⟩
    | cons e todo ih =>
      intro done hd s h
      have he : e ∈ c.inOut := by rw [hd]; simp
      have hv := (hm.inOut.mem e).1 he
      obtain ⟨o0, ho0⟩ := List.exists_mem_of_ne_nil _ hv.2
      have hsort := hm.inOut.ok.sorted
      rw [hd] at hsort
      have hsort := (List.pairwise_append.1 hsort).2.2
      obtain ⟨s', e1, e2⟩ := copyOne_spec hs h e
        (by have := (hm.proper.2 _ ((hm.mem_in he o0).1 ho0)).1; simp only at this; omega)
        (by intro o ho; have := (hm.proper.2 _ ((hm.mem_in he o).1 ho)).2; simp only at this; omega)
        hv.2 (by rw [hv.1]; exact nodup_vals hm.proper.1 _)
        (by intro d hd'; have := hsort d hd' e (by simp); omega)
        (by intro d hd'; rw [hd]; simp [hd'])
      obtain ⟨s'', e3, e4⟩ := ih (done ++ [e]) (by rw [hd]; simp) s' e2
      refine ⟨s'', ?_, e4⟩
      rw [List.foldl_cons]
      simp only [Option.bind_some]
      rw [e1]
      exact e3
  exact key c.inOut [] rfl _ (PInv.init ..)

end Verif.Selector
