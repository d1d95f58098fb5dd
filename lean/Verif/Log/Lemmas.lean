import Verif.Log.Spec
/-! # The invariant of the log record store -/
namespace Verif.Log
open Spec

/-- The array holds the newest records. -/
def Rep (m : Mem) (kept : List Rec) : Prop :=
  m.records.length = 20 ∧
  ∀ i, i < kept.length → kept.length ≤ i + 20 → m.records.getD (i % 20) blank = kept.getD i blank

/-- The fields agree with the description. -/
def Good (m : Mem) (kept : List Rec) (seen : Nat) : Prop :=
  Rep m kept ∧ m.published = kept.length ∧ m.drained = seen ∧ seen ≤ kept.length

/-- The thread owns the busy flag. -/
def holds : Pc → Bool
  | .idle | .pubLock _ | .refused _ | .readLock _ | .clearLock => false
  | _ => true

/-- Where a read starts. -/
def firstOf (c : Bool) (len seen : Nat) : Nat := if c then max (len - 20) seen else len - 20

/-- What holds while a thread owns the busy flag. -/
def Hold (m : Mem) (kept : List Rec) (seen : Nat) : Pc → Prop
  | .pubSeq _ => Good m kept seen
  | .pubStamp _ sequence => Good m kept seen ∧ sequence = kept.length
  | .pubStore r sequence => ∃ k0, kept = k0 ++ [r] ∧ sequence = k0.length ∧ Good m k0 seen
  | .pubCommit sequence =>
      Rep m kept ∧ sequence + 1 = kept.length ∧ m.drained = seen ∧ seen ≤ kept.length
  | .readEnd _ => Good m kept seen
  | .readBegin _ e => Good m kept seen ∧ e = kept.length
  | .readLoop c e b n i given =>
      Good m kept seen ∧ e = kept.length ∧ b = firstOf c kept.length seen ∧
      n = kept.length - b ∧ i ≤ n ∧ given = (kept.drop b).take i
  | .readStore e given =>
      Good m kept seen ∧ e = kept.length ∧ given = kept.drop (firstOf true kept.length seen)
  | .clearRecords => True
  | .clearDrained => m.records.length = 20
  | .clearContended => m.records.length = 20 ∧ m.drained = 0
  | .clearPublished => m.records.length = 20 ∧ m.drained = 0 ∧ kept = [] ∧ seen = 0
  | .unlock => Good m kept seen
  | _ => True

/-- The invariant of the whole system. -/
structure Inv (s : Sys) : Prop where
  lock : ∀ t, holds (s.pc t) = true → s.mem.busy = true
  one : ∀ t u, holds (s.pc t) = true → holds (s.pc u) = true → t = u
  owner : s.mem.busy = true → ∃ t, holds (s.pc t) = true
  free : (∀ t, holds (s.pc t) = false) →
    Good s.mem (state s.events).accepted (state s.events).seen
  inside : ∀ t, holds (s.pc t) = true →
    Hold s.mem (state s.events).accepted (state s.events).seen (s.pc t)
  lost : s.mem.contended = (state s.events).refused
  legal : Legal s.events

/-! ## The description -/

theorem state_snoc (es : List Ev) (e : Ev) : state (es ++ [e]) = (state es).after e := by
  simp [state]

theorem legal_snoc {es : List Ev} {e : Ev} (h : Legal es) (he : (state es).Allows e) :
    Legal (es ++ [e]) := by
  intro before x rest heq
  rcases List.eq_nil_or_concat rest with rfl | ⟨r', y, rfl⟩
  · have := List.append_inj' heq (by simp)
    rcases this with ⟨rfl, h2⟩
    cases h2
    exact he
  · rw [show before ++ x :: (r'.concat y) = (before ++ x :: r') ++ [y] by simp] at heq
    have := List.append_inj' heq (by simp)
    exact h before x r' this.1

theorem legal_prefix {es fs : List Ev} (h : Legal (es ++ fs)) : Legal es := by
  intro before x rest heq
  exact h before x (rest ++ fs) (by simp [heq])

theorem newest_eq (l : List Rec) : newest l = l.drop (l.length - 20) := by
  simp [newest, List.take_reverse]

theorem newest_drop (l : List Rec) (k : Nat) (hk : k ≤ l.length) :
    newest (l.drop k) = l.drop (max (l.length - 20) k) := by
  rw [newest_eq, List.drop_drop, List.length_drop]
  congr 1
  omega

/-! ## The array -/

theorem rep_push {m : Mem} {kept : List Rec} (r : Rec) (h : Rep m kept) :
    Rep { m with records := m.records.set (historyIndex kept.length) r } (kept ++ [r]) := by
  obtain ⟨hl, hr⟩ := h
  refine ⟨by simpa using hl, ?_⟩
  intro i hi hlo
  simp only [List.length_append, List.length_singleton] at hi hlo
  have hm : historyIndex kept.length < m.records.length := by
    rw [hl]; exact Nat.mod_lt _ (by decide)
  by_cases he : i = kept.length
  · subst he
    simp only [historyIndex, capacity] at hm ⊢
    simp [List.getD_eq_getElem?_getD, List.getElem?_set, hm]
  · have hne : historyIndex kept.length ≠ i % 20 := by
      simp only [historyIndex, capacity]; omega
    have := hr i (by omega) (by omega)
    simp only [List.getD_eq_getElem?_getD] at this ⊢
    rw [List.getElem?_set_ne hne, this, List.getElem?_append_left (by omega)]

theorem rep_empty {m : Mem} (h : m.records.length = 20) : Rep m [] :=
  ⟨h, fun i hi => absurd hi (by simp)⟩

theorem drop_take_snoc {l : List Rec} {b i : Nat} (h : b + i < l.length) :
    (l.drop b).take (i + 1) = (l.drop b).take i ++ [l.getD (b + i) blank] := by
  rw [List.take_succ, List.getElem?_drop]
  simp [List.getD_eq_getElem?_getD, List.getElem?_eq_getElem h]

/-! ## Where the threads are -/

theorem pc_at (s : Sys) (t u : Nat) (p : Pc) :
    (s.at_ t p).pc u = if u = t then p else s.pc u := rfl

@[simp] theorem mem_at (s : Sys) (t : Nat) (p : Pc) : (s.at_ t p).mem = s.mem := rfl
@[simp] theorem events_at (s : Sys) (t : Nat) (p : Pc) : (s.at_ t p).events = s.events := rfl

theorem inv_init : Inv {} where
  lock := by intro t h; cases h
  one := by intro t u h; cases h
  owner := by intro h; cases h
  free := fun _ => ⟨rep_empty (by simp [capacity]), rfl, rfl, Nat.le_refl _⟩
  inside := by intro t h; cases h
  lost := rfl
  legal := by intro b e r h; cases b <;> cases h

/-- The owner moves on, keeping the flag. -/
theorem inv_own {s : Sys} (h : Inv s) {t : Nat} (ht : holds (s.pc t) = true) {m' : Mem}
    {ev' : List Ev} {p : Pc} (hp : holds p = true) (hb : m'.busy = s.mem.busy)
    (hh : Hold m' (state ev').accepted (state ev').seen p)
    (hl : m'.contended = (state ev').refused) (hg : Legal ev') :
    Inv (({ s with mem := m', events := ev' } : Sys).at_ t p) := by
  have hbt : s.mem.busy = true := h.lock t ht
  constructor
  · intro u _; simp [hb, hbt]
  · intro u v hu hv
    rw [pc_at] at hu hv
    have : ∀ w, holds (if w = t then p else s.pc w) = true → w = t := by
      intro w hw
      split at hw
      · assumption
      · exact h.one w t hw ht
    exact (this u hu).trans (this v hv).symm
  · intro _; exact ⟨t, by simp [pc_at, hp]⟩
  · intro hf; have := hf t; simp [pc_at, hp] at this
  · intro u hu
    rw [pc_at] at hu ⊢
    split at hu
    · rename_i he; rw [if_pos he]; exact hh
    · rename_i hne; exact absurd (h.one u t hu ht) hne
  · exact hl
  · exact hg

/-- A thread takes the free flag. -/
theorem inv_take {s : Sys} (h : Inv s) {t : Nat} {p : Pc} (hb : s.mem.busy = false)
    (hp : holds p = true)
    (hh : ∀ m, Good m (state s.events).accepted (state s.events).seen →
      Hold m (state s.events).accepted (state s.events).seen p) :
    Inv (({ s with mem := { s.mem with busy := true } } : Sys).at_ t p) := by
  have hfree : ∀ u, holds (s.pc u) = false := by
    intro u
    cases hu : holds (s.pc u) with
    | false => rfl
    | true => have := h.lock u hu; simp [hb] at this
  constructor
  · intro u _; rfl
  · intro u v hu hv
    rw [pc_at] at hu hv
    have : ∀ w, holds (if w = t then p else s.pc w) = true → w = t := by
      intro w hw
      split at hw
      · assumption
      · have := hfree w; simp [this] at hw
    exact (this u hu).trans (this v hv).symm
  · intro _; exact ⟨t, by simp [pc_at, hp]⟩
  · intro hf; have := hf t; simp [pc_at, hp] at this
  · intro u hu
    rw [pc_at] at hu ⊢
    split at hu
    · rename_i he
      rw [if_pos he]
      exact hh _ (h.free hfree)
    · have := hfree u; simp only at hu; simp [this] at hu
  · exact h.lost
  · exact h.legal

/-- A thread that does not own the flag moves on without touching what the flag protects. -/
theorem inv_other {s : Sys} (h : Inv s) {t : Nat} {p : Pc} (ht : holds (s.pc t) = false)
    (hp : holds p = false) {n : Nat} {ev' : List Ev}
    (ha : (state ev').accepted = (state s.events).accepted)
    (hs : (state ev').seen = (state s.events).seen)
    (hl : n = (state ev').refused) (hg : Legal ev') :
    Inv (({ s with mem := { s.mem with contended := n }, events := ev' } : Sys).at_ t p) := by
  have hpc : ∀ u, holds ((({ s with mem := { s.mem with contended := n }, events := ev' } : Sys).at_
      t p).pc u) = holds (s.pc u) := by
    intro u
    rw [pc_at]
    split
    · rename_i he; rw [he, hp, ht]
    · rfl
  have hgood : ∀ k e, Good s.mem k e → Good { s.mem with contended := n } k e := fun _ _ g => g
  have hhold : ∀ k e q, Hold s.mem k e q → Hold { s.mem with contended := n } k e q := by
    intro k e q g
    cases q <;> exact g
  constructor
  · intro u hu; rw [hpc] at hu; exact h.lock u hu
  · intro u v hu hv; rw [hpc] at hu hv; exact h.one u v hu hv
  · intro hb
    obtain ⟨u, hu⟩ := h.owner hb
    exact ⟨u, (hpc u).trans hu⟩
  · intro hf
    simp only [events_at, mem_at, ha, hs]
    exact hgood _ _ (h.free fun u => (hpc u).symm.trans (hf u))
  · intro u hu
    have hu' := (hpc u).symm.trans hu
    simp only [events_at, mem_at, ha, hs]
    rw [pc_at]
    split
    · rename_i he; rw [he, ht] at hu'; cases hu'
    · exact hhold _ _ _ (h.inside u hu')
  · exact hl
  · exact hg

/-- The owner gives the flag back. -/
theorem inv_release {s : Sys} (h : Inv s) {t : Nat} (ht : holds (s.pc t) = true)
    (hh : Good s.mem (state s.events).accepted (state s.events).seen) :
    Inv (({ s with mem := { s.mem with busy := false } } : Sys).at_ t .idle) := by
  have hnone : ∀ u, holds (if u = t then Pc.idle else s.pc u) = false := by
    intro u
    split
    · rfl
    · rename_i hne
      cases hu : holds (s.pc u) with
      | false => rfl
      | true => exact absurd (h.one u t hu ht) hne
  constructor
  · intro u hu; rw [pc_at] at hu; have := hnone u; simp only at hu; simp [this] at hu
  · intro u v hu; rw [pc_at] at hu; have := hnone u; simp only at hu; simp [this] at hu
  · intro hb; cases hb
  · intro _; exact hh
  · intro u hu; rw [pc_at] at hu; have := hnone u; simp only at hu; simp [this] at hu
  · exact h.lost
  · exact h.legal

/-! ## Every step keeps the invariant -/

theorem stamp_allowed (a : Store) (r : Rec) :
    a.Allows (.accepted r (stamp r a.accepted.length a.refused)) := by
  have hcap : capacity = 20 := rfl
  simp only [Store.Allows, stamp]
  by_cases hc : capacity ≤ a.accepted.length
  · rw [if_pos hc, if_pos (by omega)]
    exact ⟨rfl, by simp only [hcap]⟩
  · rw [if_neg hc]
    by_cases hr : 0 + a.refused > 0
    · rw [if_pos hr]
      exact ⟨rfl, by simp only; omega⟩
    · rw [if_neg hr]
      exact ⟨rfl, by omega⟩

theorem inv_invoke {s : Sys} (h : Inv s) (t : Nat) (op : Op) : Inv (invoke s t op) := by
  unfold invoke
  split
  · rename_i hpc
    have ht : holds (s.pc t) = false := by rw [hpc]; rfl
    split
    · exact inv_other (n := s.mem.contended) (ev' := s.events) h ht rfl rfl rfl h.lost h.legal
    · exact inv_other (n := s.mem.contended) (ev' := s.events) h ht rfl rfl rfl h.lost h.legal
    · have e := inv_other (n := s.mem.contended) (ev' := s.events ++ [.gaveNothing]) h ht
        (p := .idle) rfl (by simp [state_snoc, Store.after]) (by simp [state_snoc, Store.after])
        (by simp [state_snoc, Store.after, h.lost])
        (legal_snoc (e := .gaveNothing) h.legal trivial)
      have : (fun u => if u = t then Pc.idle else s.pc u) = s.pc := by
        funext u
        split
        · rename_i he; rw [he, hpc]
        · rfl
      simpa only [Sys.at_, this] using e
    · exact inv_other (n := s.mem.contended) (ev' := s.events) h ht rfl rfl rfl h.lost h.legal
  · exact h

theorem inv_step {s : Sys} (h : Inv s) (t : Nat) : Inv (step s t) := by
  have hin := h.inside t
  unfold step
  split
  · exact h
  -- pubLock
  · rename_i r hpc
    have ht : holds (s.pc t) = false := by rw [hpc]; rfl
    dsimp only
    split
    · exact inv_other (n := s.mem.contended) (ev' := s.events) h ht rfl rfl rfl h.lost h.legal
    · rename_i hb
      exact inv_take h (by simpa using hb) rfl (fun _ g => g)
  -- refused
  · rename_i r hpc
    have ht : holds (s.pc t) = false := by rw [hpc]; rfl
    exact inv_other h ht rfl (by simp [state_snoc, Store.after]) (by simp [state_snoc, Store.after])
      (by simp [state_snoc, Store.after, h.lost]) (legal_snoc h.legal trivial)
  -- pubSeq
  · rename_i r hpc
    have ht : holds (s.pc t) = true := by rw [hpc]; rfl
    have hg := hin ht
    rw [hpc] at hg
    exact inv_own (m' := s.mem) (ev' := s.events) h ht rfl rfl ⟨hg, hg.2.1⟩ h.lost h.legal
  -- pubStamp
  · rename_i r sequence hpc
    have ht : holds (s.pc t) = true := by rw [hpc]; rfl
    have hg := hin ht
    rw [hpc] at hg
    obtain ⟨hg, rfl⟩ := hg
    simp only [h.lost]
    refine inv_own (m' := s.mem) h ht rfl rfl ?_ ?_ (legal_snoc h.legal (stamp_allowed _ _))
    · simp only [state_snoc, Store.after, Hold]
      exact ⟨_, rfl, rfl, hg⟩
    · simp [state_snoc, Store.after, h.lost]
  -- pubStore
  · rename_i r sequence hpc
    have ht : holds (s.pc t) = true := by rw [hpc]; rfl
    have hg := hin ht
    rw [hpc] at hg
    obtain ⟨k0, hk, rfl, hg⟩ := hg
    refine inv_own (ev' := s.events) h ht rfl rfl ?_ h.lost h.legal
    simp only [Hold, hk]
    exact ⟨rep_push r hg.1, by simp, hg.2.2.1, by have := hg.2.2.2; simp; omega⟩
  -- pubCommit
  · rename_i sequence hpc
    have ht : holds (s.pc t) = true := by rw [hpc]; rfl
    have hg := hin ht
    rw [hpc] at hg
    exact inv_own (ev' := s.events) h ht rfl rfl ⟨hg.1, hg.2.1, hg.2.2.1, hg.2.2.2⟩ h.lost h.legal
  -- readLock
  · rename_i c hpc
    have ht : holds (s.pc t) = false := by rw [hpc]; rfl
    dsimp only
    split
    · exact inv_other (n := s.mem.contended) h ht rfl (by simp [state_snoc, Store.after])
        (by simp [state_snoc, Store.after]) (by simp [state_snoc, Store.after, h.lost])
        (legal_snoc h.legal trivial)
    · rename_i hb
      exact inv_take h (by simpa using hb) rfl (fun _ g => g)
  -- readEnd
  · rename_i c hpc
    have ht : holds (s.pc t) = true := by rw [hpc]; rfl
    have hg := hin ht
    rw [hpc] at hg
    exact inv_own (m' := s.mem) (ev' := s.events) h ht rfl rfl ⟨hg, hg.2.1⟩ h.lost h.legal
  -- readBegin
  · rename_i c e hpc
    have ht : holds (s.pc t) = true := by rw [hpc]; rfl
    have hg := hin ht
    rw [hpc] at hg
    obtain ⟨hg, rfl⟩ := hg
    have hb : (if c = true then
        max (if capacity < (state s.events).accepted.length
          then (state s.events).accepted.length - capacity else 0)
          (min s.mem.drained (state s.events).accepted.length)
        else if capacity < (state s.events).accepted.length
          then (state s.events).accepted.length - capacity else 0) =
        firstOf c (state s.events).accepted.length (state s.events).seen := by
      have h1 := hg.2.2.1
      have h2 := hg.2.2.2
      have hcap : capacity = 20 := rfl
      simp only [firstOf]
      split <;> split <;> omega
    simp only [hb]
    refine inv_own (m' := s.mem) (ev' := s.events) h ht rfl rfl ?_ h.lost h.legal
    refine ⟨hg, rfl, rfl, ?_, Nat.zero_le _, by simp⟩
    have : (state s.events).accepted.length -
        firstOf c (state s.events).accepted.length (state s.events).seen ≤ 20 := by
      simp only [firstOf]; split <;> omega
    simp only [capacity]; omega
  -- readLoop
  · rename_i c e b n i given hpc
    have ht : holds (s.pc t) = true := by rw [hpc]; rfl
    have hg := hin ht
    rw [hpc] at hg
    obtain ⟨hg, rfl, rfl, rfl, hi, rfl⟩ := hg
    split
    · rename_i hlt
      refine inv_own (m' := s.mem) (ev' := s.events) h ht rfl rfl ?_ h.lost h.legal
      refine ⟨hg, rfl, rfl, rfl, hlt, ?_⟩
      rw [drop_take_snoc (by omega)]
      congr 2
      have h20 : (state s.events).accepted.length - 20 ≤
          firstOf c (state s.events).accepted.length (state s.events).seen := by
        simp only [firstOf]; split <;> omega
      exact hg.1.2 _ (by omega) (by omega)
    · rename_i hge
      have hdone : ((state s.events).accepted.drop
          (firstOf c (state s.events).accepted.length (state s.events).seen)).take i =
          (state s.events).accepted.drop
            (firstOf c (state s.events).accepted.length (state s.events).seen) :=
        List.take_of_length_le (by simp; omega)
      split
      · rename_i hc
        subst hc
        refine inv_own (m' := s.mem) (ev' := s.events) h ht rfl rfl ?_ h.lost h.legal
        exact ⟨hg, rfl, hdone⟩
      · rename_i hc
        have hc : c = false := by simpa using hc
        subst hc
        refine inv_own (m' := s.mem) h ht rfl rfl ?_ ?_ (legal_snoc h.legal ?_)
        · simpa [state_snoc, Store.after, Hold] using hg
        · simp [state_snoc, Store.after, h.lost]
        · simp only [Store.Allows]
          rw [hdone, newest_eq]
          rfl
  -- readStore
  · rename_i e given hpc
    have ht : holds (s.pc t) = true := by rw [hpc]; rfl
    have hg := hin ht
    rw [hpc] at hg
    obtain ⟨hg, rfl, rfl⟩ := hg
    refine inv_own h ht rfl rfl ?_ ?_ (legal_snoc h.legal ?_)
    · simp only [state_snoc, Store.after, Hold]
      exact ⟨hg.1, hg.2.1, rfl, Nat.le_refl _⟩
    · simp [state_snoc, Store.after, h.lost]
    · simp only [Store.Allows]
      rw [newest_drop _ _ hg.2.2.2]
      rfl
  -- clearLock
  · rename_i hpc
    have ht : holds (s.pc t) = false := by rw [hpc]; rfl
    dsimp only
    split
    · exact inv_other (n := s.mem.contended) h ht rfl (by simp [state_snoc, Store.after])
        (by simp [state_snoc, Store.after]) (by simp [state_snoc, Store.after, h.lost])
        (legal_snoc h.legal trivial)
    · rename_i hb
      exact inv_take h (by simpa using hb) rfl (fun _ _ => trivial)
  -- clearRecords
  · rename_i hpc
    have ht : holds (s.pc t) = true := by rw [hpc]; rfl
    exact inv_own (ev' := s.events) h ht rfl rfl (by simp [Hold, capacity]) h.lost h.legal
  · rename_i hpc
    have ht : holds (s.pc t) = true := by rw [hpc]; rfl
    have hg := hin ht
    rw [hpc] at hg
    exact inv_own (ev' := s.events) h ht rfl rfl ⟨hg, rfl⟩ h.lost h.legal
  · rename_i hpc
    have ht : holds (s.pc t) = true := by rw [hpc]; rfl
    have hg := hin ht
    rw [hpc] at hg
    refine inv_own h ht rfl rfl ?_ ?_ (legal_snoc h.legal trivial)
    · simpa [state_snoc, Store.after, Hold] using hg
    · simp [state_snoc, Store.after]
  · rename_i hpc
    have ht : holds (s.pc t) = true := by rw [hpc]; rfl
    have hg := hin ht
    rw [hpc] at hg
    obtain ⟨h1, h2, h3, h4⟩ := hg
    refine inv_own (ev' := s.events) h ht rfl rfl ?_ h.lost h.legal
    simp only [Hold, h3, h4]
    exact ⟨rep_empty h1, rfl, h2, Nat.le_refl _⟩
  -- unlock
  · rename_i hpc
    have ht : holds (s.pc t) = true := by rw [hpc]; rfl
    have hg := hin ht
    rw [hpc] at hg
    exact inv_release h ht hg

theorem inv_runFrom {s : Sys} (h : Inv s) (acts : List Act) : Inv (runFrom s acts) := by
  induction acts generalizing s with
  | nil => exact h
  | cons a as ih =>
    refine ih ?_
    cases a with
    | call t op => exact inv_invoke h t op
    | go t => exact inv_step h t

theorem inv_run (acts : List Act) : Inv (run acts) := inv_runFrom inv_init acts

end Verif.Log
