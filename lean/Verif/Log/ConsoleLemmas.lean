import Verif.Log.ConsoleSpec
/-! # Invariants of the console backend -/
namespace Verif.Log.Console
open Verif.Log (Rec)

/-- The thread owns the flush flag. -/
def flushing : Pc → Bool
  | .flushGet | .flushNext .. | .flushWrite .. | .flushWritten .. | .flushConsume _ | .flushDone => true
  | _ => false

/-- The thread owns the console. -/
def writing : Pc → Bool
  | .directWrite _ | .directDone | .flushWrite .. | .flushWritten .. => true
  | _ => false

/-- Who owns what. -/
structure Locks (s : Sys) : Prop where
  flushLock : ∀ t, flushing (s.pc t) = true → s.mem.flushBusy = true
  flushOne : ∀ t u, flushing (s.pc t) = true → flushing (s.pc u) = true → t = u
  conLock : ∀ t, writing (s.pc t) = true → s.mem.consoleBusy = true
  conOne : ∀ t u, writing (s.pc t) = true → writing (s.pc u) = true → t = u
  flushOwner : s.mem.flushBusy = true → ∃ t, flushing (s.pc t) = true
  conOwner : s.mem.consoleBusy = true → ∃ t, writing (s.pc t) = true

theorem locks_at {s : Sys} (h : Locks s) {t : Nat} {p : Pc} {m' : Mem}
    (hf : (flushing p = flushing (s.pc t) ∧ m'.flushBusy = s.mem.flushBusy) ∨
      (flushing p = true ∧ s.mem.flushBusy = false ∧ m'.flushBusy = true) ∨
      (flushing p = false ∧ flushing (s.pc t) = true ∧ m'.flushBusy = false))
    (hc : (writing p = writing (s.pc t) ∧ m'.consoleBusy = s.mem.consoleBusy) ∨
      (writing p = true ∧ s.mem.consoleBusy = false ∧ m'.consoleBusy = true) ∨
      (writing p = false ∧ writing (s.pc t) = true ∧ m'.consoleBusy = false)) :
    Locks (({ s with mem := m' } : Sys).at_ t p) := by
  obtain ⟨h1, h2, h3, h4, h5, h6⟩ := h
  constructor
  · intro u hu
    simp only [Sys.at_] at hu ⊢
    grind
  · intro u v hu hv
    simp only [Sys.at_] at hu hv
    grind
  · intro u hu
    simp only [Sys.at_] at hu ⊢
    grind
  · intro u v hu hv
    simp only [Sys.at_] at hu hv
    grind
  · intro hb
    simp only [Sys.at_] at hb ⊢
    rcases hf with ⟨hf, hm⟩ | ⟨hf, hm, _⟩ | ⟨hf, ht, hm⟩
    · obtain ⟨u, hu⟩ := h5 (hm ▸ hb)
      refine ⟨u, ?_⟩
      split
      · rename_i he; rw [hf, ← he]; exact hu
      · exact hu
    · exact ⟨t, by simp [hf]⟩
    · rw [hm] at hb; cases hb
  · intro hb
    simp only [Sys.at_] at hb ⊢
    rcases hc with ⟨hf, hm⟩ | ⟨hf, hm, _⟩ | ⟨hf, ht, hm⟩
    · obtain ⟨u, hu⟩ := h6 (hm ▸ hb)
      refine ⟨u, ?_⟩
      split
      · rename_i he; rw [hf, ← he]; exact hu
      · exact hu
    · exact ⟨t, by simp [hf]⟩
    · rw [hm] at hb; cases hb

theorem locks_init : Locks {} where
  flushLock := by intro t h; cases h
  flushOne := by intro t u h; cases h
  conLock := by intro t h; cases h
  conOne := by intro t u h; cases h
  flushOwner := by intro h; cases h
  conOwner := by intro h; cases h

theorem locks_invoke {s : Sys} (h : Locks s) (t : Nat) (op : Op) : Locks (invoke s t op) := by
  unfold invoke
  split
  · rename_i hpc
    split <;> refine locks_at (m' := s.mem) h (.inl ?_) (.inl ?_) <;> rw [hpc] <;> exact ⟨rfl, rfl⟩
  · exact h

theorem locks_step {s : Sys} (h : Locks s) (cap t : Nat) : Locks (step cap s t) := by
  unfold step
  dsimp only
  split <;> rename_i hpc
  · exact h
  · exact locks_at (m' := s.mem) h (.inl (by rw [hpc]; exact ⟨rfl, rfl⟩))
      (.inl (by rw [hpc]; exact ⟨rfl, rfl⟩))
  · split
    · exact locks_at h (.inl (by rw [hpc]; exact ⟨rfl, rfl⟩)) (.inl (by rw [hpc]; exact ⟨rfl, rfl⟩))
    · exact locks_at h (.inl (by rw [hpc]; exact ⟨rfl, rfl⟩)) (.inl (by rw [hpc]; exact ⟨rfl, rfl⟩))
  · exact locks_at h (.inl (by rw [hpc]; exact ⟨rfl, rfl⟩)) (.inl (by rw [hpc]; exact ⟨rfl, rfl⟩))
  · exact locks_at h (.inl (by rw [hpc]; exact ⟨rfl, rfl⟩)) (.inl (by rw [hpc]; exact ⟨rfl, rfl⟩))
  · split
    · exact locks_at (m' := s.mem) h (.inl (by rw [hpc]; exact ⟨rfl, rfl⟩))
        (.inl (by rw [hpc]; exact ⟨rfl, rfl⟩))
    · rename_i hb
      exact locks_at h (.inl (by rw [hpc]; exact ⟨rfl, rfl⟩))
        (.inr (.inl ⟨rfl, by simpa using hb, rfl⟩))
  · exact locks_at h (.inl (by rw [hpc]; exact ⟨rfl, rfl⟩)) (.inl (by rw [hpc]; exact ⟨rfl, rfl⟩))
  · exact locks_at h (.inl (by rw [hpc]; exact ⟨rfl, rfl⟩))
      (.inr (.inr ⟨rfl, by rw [hpc]; rfl, rfl⟩))
  · split
    · exact locks_at (m' := s.mem) h (.inl (by rw [hpc]; exact ⟨rfl, rfl⟩))
        (.inl (by rw [hpc]; exact ⟨rfl, rfl⟩))
    · rename_i hb
      exact locks_at h (.inr (.inl ⟨rfl, by simpa using hb, rfl⟩))
        (.inl (by rw [hpc]; exact ⟨rfl, rfl⟩))
  · exact locks_at (m' := s.mem) h (.inl (by rw [hpc]; exact ⟨rfl, rfl⟩))
      (.inl (by rw [hpc]; exact ⟨rfl, rfl⟩))
  · split
    · exact locks_at (m' := s.mem) h (.inl (by rw [hpc]; exact ⟨rfl, rfl⟩))
        (.inl (by rw [hpc]; exact ⟨rfl, rfl⟩))
    · split
      · exact locks_at (m' := s.mem) h (.inl (by rw [hpc]; exact ⟨rfl, rfl⟩))
          (.inl (by rw [hpc]; exact ⟨rfl, rfl⟩))
      · rename_i hb
        exact locks_at h (.inl (by rw [hpc]; exact ⟨rfl, rfl⟩))
          (.inr (.inl ⟨rfl, by simpa using hb, rfl⟩))
  · exact locks_at h (.inl (by rw [hpc]; exact ⟨rfl, rfl⟩)) (.inl (by rw [hpc]; exact ⟨rfl, rfl⟩))
  · exact locks_at h (.inl (by rw [hpc]; exact ⟨rfl, rfl⟩))
      (.inr (.inr ⟨rfl, by rw [hpc]; rfl, rfl⟩))
  · exact locks_at h (.inl (by rw [hpc]; exact ⟨rfl, rfl⟩)) (.inl (by rw [hpc]; exact ⟨rfl, rfl⟩))
  · exact locks_at h (.inr (.inr ⟨rfl, by rw [hpc]; rfl, rfl⟩))
      (.inl (by rw [hpc]; exact ⟨rfl, rfl⟩))

/-! ## The ring -/

/-- How many records of the ring the flushing thread has taken. -/
def spanLen : Pc → Nat
  | .flushNext _ n | .flushWrite _ _ n | .flushWritten _ n | .flushConsume n => n
  | _ => 0

/-- The ring and what was claimed. -/
structure Ring (s : Sys) : Prop where
  slots : ∀ t r k, s.pc t = .commit r k →
    s.mem.consumed ≤ k ∧ s.mem.ring[k - s.mem.consumed]? = some (r, false)
  distinct : ∀ t u r r' k, s.pc t = .commit r k → s.pc u = .commit r' k → t = u
  open_ : ∀ i r, s.mem.ring[i]? = some (r, false) → ∃ t, s.pc t = .commit r (s.mem.consumed + i)
  claimed : s.mem.claimed.drop s.mem.consumed = s.mem.ring.map Prod.fst
  bound : s.mem.consumed ≤ s.mem.claimed.length
  span : ∀ t i, i < spanLen (s.pc t) → ∃ r, s.mem.ring[i]? = some (r, true)

theorem Ring.length {s : Sys} (h : Ring s) :
    s.mem.claimed.length = s.mem.consumed + s.mem.ring.length := by
  have := congrArg List.length h.claimed
  have := h.bound
  simp only [List.length_drop, List.length_map] at *
  omega

theorem Ring.span_le {s : Sys} (h : Ring s) (t : Nat) : spanLen (s.pc t) ≤ s.mem.ring.length := by
  cases hn : spanLen (s.pc t) with
  | zero => exact Nat.zero_le _
  | succ n =>
    obtain ⟨r, hr⟩ := h.span t n (by omega)
    have := (List.getElem?_eq_some_iff.1 hr).1
    omega

theorem ring_init : Ring {} where
  slots := by intro t r k h; cases h
  distinct := by intro t u r r' k h; cases h
  open_ := by intro i r h; simp at h
  claimed := rfl
  bound := Nat.le_refl _
  span := by intro t i h; cases h

theorem readable_get (ring : List (Rec × Bool)) (i : Nat) (h : i < (readable ring).length) :
    ∃ r, ring[i]? = some (r, true) := by
  induction ring generalizing i with
  | nil => simp [readable] at h
  | cons x ring ih =>
    rcases x with ⟨r, b⟩
    cases b with
    | false => simp [readable] at h
    | true =>
      cases i with
      | zero => exact ⟨r, rfl⟩
      | succ i =>
        simp only [readable, List.length_cons] at h
        simpa using ih i (by omega)

theorem readable_eq (ring : List (Rec × Bool)) :
    readable ring = (ring.map Prod.fst).take (readable ring).length := by
  induction ring with
  | nil => rfl
  | cons x ring ih =>
    rcases x with ⟨r, b⟩
    cases b with
    | false => rfl
    | true => simp only [readable, List.map_cons, List.length_cons, List.take_succ_cons]; rw [← ih]

/-- Moves that leave the ring alone. -/
theorem ring_same {s : Sys} (h : Ring s) {t : Nat} {p : Pc} {m' : Mem}
    (hr : m'.ring = s.mem.ring) (hk : m'.consumed = s.mem.consumed)
    (hc : m'.claimed = s.mem.claimed) (hp : ∀ r k, p ≠ .commit r k)
    (ht : ∀ r k, s.pc t ≠ .commit r k)
    (hs : ∀ i, i < spanLen p → ∃ r, s.mem.ring[i]? = some (r, true)) :
    Ring (({ s with mem := m' } : Sys).at_ t p) := by
  have hpc : ∀ u r k, (if u = t then p else s.pc u) = .commit r k ↔ s.pc u = .commit r k := by
    intro u r k
    split
    · rename_i he
      subst he
      exact ⟨fun h => absurd h (hp r k), fun h => absurd h (ht r k)⟩
    · exact Iff.rfl
  constructor
  · intro u r k hu
    simp only [Sys.at_] at hu ⊢
    rw [hr, hk]
    exact h.slots u r k ((hpc u r k).1 hu)
  · intro u v r r' k hu hv
    exact h.distinct u v r r' k ((hpc u r k).1 hu) ((hpc v r' k).1 hv)
  · intro i r hi
    simp only [Sys.at_] at hi ⊢
    rw [hr] at hi
    obtain ⟨u, hu⟩ := h.open_ i r hi
    exact ⟨u, (hpc u r _).2 (by rw [hk]; exact hu)⟩
  · simp only [Sys.at_, hr, hk, hc]; exact h.claimed
  · simp only [Sys.at_, hk, hc]; exact h.bound
  · intro u i hi
    simp only [Sys.at_] at hi ⊢
    rw [hr]
    split at hi
    · exact hs i hi
    · exact h.span u i hi

theorem ring_invoke {s : Sys} (h : Ring s) (t : Nat) (op : Op) : Ring (invoke s t op) := by
  unfold invoke
  split
  · rename_i hpc
    split <;> exact ring_same (m' := s.mem) h rfl rfl rfl nofun (by rw [hpc]; nofun)
      (by intro i hi; cases hi)
  · exact h

theorem ring_step {s : Sys} (hl : Locks s) (h : Ring s) (cap t : Nat) : Ring (step cap s t) := by
  have hsp := h.span t
  unfold step
  dsimp only
  split <;> rename_i hpc
  · exact h
  · exact ring_same (m' := s.mem) h rfl rfl rfl nofun (by rw [hpc]; nofun) (by intro i hi; cases hi)
  -- claim
  · rename_i r
    split
    · constructor
      · intro u r' k hu
        simp only [Sys.at_] at hu ⊢
        split at hu
        · cases hu
          exact ⟨by omega, by
            rw [show s.mem.consumed + s.mem.ring.length - s.mem.consumed = s.mem.ring.length by omega]
            simp⟩
        · obtain ⟨h1, h2⟩ := h.slots u r' k hu
          refine ⟨h1, ?_⟩
          rw [List.getElem?_append_left (List.getElem?_eq_some_iff.1 h2).1]
          exact h2
      · intro u v r1 r2 k hu hv
        simp only [Sys.at_] at hu hv
        have hno : ∀ w r', s.pc w ≠ .commit r' (s.mem.consumed + s.mem.ring.length) := by
          intro w r' hw
          have := (List.getElem?_eq_some_iff.1 (h.slots w r' _ hw).2).1
          omega
        split at hu <;> split at hv
        · rename_i a b; rw [a, b]
        · cases hu; exact absurd hv (hno _ _)
        · cases hv; exact absurd hu (hno _ _)
        · exact h.distinct u v r1 r2 k hu hv
      · intro i r' hi
        simp only [Sys.at_] at hi ⊢
        by_cases hlt : i < s.mem.ring.length
        · rw [List.getElem?_append_left hlt] at hi
          obtain ⟨u, hu⟩ := h.open_ i r' hi
          refine ⟨u, ?_⟩
          split
          · rename_i he; rw [he, hpc] at hu; cases hu
          · exact hu
        · have hi' : i = s.mem.ring.length := by
            have := (List.getElem?_eq_some_iff.1 hi).1
            simp at this
            omega
          subst hi'
          simp at hi
          subst hi
          exact ⟨t, by simp⟩
      · simp only [Sys.at_, List.map_append, List.map_cons, List.map_nil]
        rw [List.drop_append_of_le_length h.bound, h.claimed]
      · simp only [Sys.at_, List.length_append]; have := h.bound; omega
      · intro u i hi
        simp only [Sys.at_] at hi ⊢
        split at hi
        · cases hi
        · obtain ⟨r', hr⟩ := h.span u i hi
          exact ⟨r', by rw [List.getElem?_append_left (List.getElem?_eq_some_iff.1 hr).1]; exact hr⟩
    · exact ring_same h rfl rfl rfl nofun (by rw [hpc]; nofun) (by intro i hi; cases hi)
  -- commit
  · rename_i r slot
    obtain ⟨h1, h2⟩ := h.slots t r slot hpc
    have hlt := (List.getElem?_eq_some_iff.1 h2).1
    constructor
    · intro u r' k hu
      simp only [Sys.at_] at hu ⊢
      split at hu
      · cases hu
      · rename_i hne
        obtain ⟨h3, h4⟩ := h.slots u r' k hu
        refine ⟨h3, ?_⟩
        rw [List.getElem?_set_ne]
        · exact h4
        · intro he
          have : k = slot := by omega
          subst this
          exact hne (h.distinct u t r' r k hu hpc)
    · intro u v r1 r2 k hu hv
      simp only [Sys.at_] at hu hv
      split at hu
      · cases hu
      · split at hv
        · cases hv
        · exact h.distinct u v r1 r2 k hu hv
    · intro i r' hi
      simp only [Sys.at_] at hi ⊢
      by_cases he : slot - s.mem.consumed = i
      · subst he
        rw [List.getElem?_set_self hlt] at hi
        cases hi
      · rw [List.getElem?_set_ne he] at hi
        obtain ⟨u, hu⟩ := h.open_ i r' hi
        refine ⟨u, ?_⟩
        split
        · rename_i hut
          rw [hut, hpc] at hu
          cases hu
          omega
        · exact hu
    · simp only [Sys.at_]
      rw [h.claimed, List.map_set]
      apply List.ext_getElem?
      intro i
      by_cases he : slot - s.mem.consumed = i
      · subst he
        rw [List.getElem?_set_self (by simpa using hlt)]
        simp [h2]
      · rw [List.getElem?_set_ne he]
    · exact h.bound
    · intro u i hi
      simp only [Sys.at_] at hi ⊢
      split at hi
      · cases hi
      · obtain ⟨r', hr⟩ := h.span u i hi
        by_cases he : slot - s.mem.consumed = i
        · subst he; rw [h2] at hr; cases hr
        · exact ⟨r', by rw [List.getElem?_set_ne he]; exact hr⟩
  · exact ring_same h rfl rfl rfl nofun (by rw [hpc]; nofun) (by intro i hi; cases hi)
  · split
    · exact ring_same (m' := s.mem) h rfl rfl rfl nofun (by rw [hpc]; nofun)
        (by intro i hi; cases hi)
    · exact ring_same h rfl rfl rfl nofun (by rw [hpc]; nofun) (by intro i hi; cases hi)
  · exact ring_same h rfl rfl rfl nofun (by rw [hpc]; nofun) (by intro i hi; cases hi)
  · exact ring_same h rfl rfl rfl nofun (by rw [hpc]; nofun) (by intro i hi; cases hi)
  · split
    · exact ring_same (m' := s.mem) h rfl rfl rfl nofun (by rw [hpc]; nofun)
        (by intro i hi; cases hi)
    · exact ring_same h rfl rfl rfl nofun (by rw [hpc]; nofun) (by intro i hi; cases hi)
  -- flushGet
  · exact ring_same (m' := s.mem) h rfl rfl rfl nofun (by rw [hpc]; nofun)
      (fun i hi => readable_get _ i hi)
  -- flushNext
  · rw [hpc] at hsp
    split
    · exact ring_same (m' := s.mem) h rfl rfl rfl nofun (by rw [hpc]; nofun) hsp
    · split
      · exact ring_same (m' := s.mem) h rfl rfl rfl nofun (by rw [hpc]; nofun) hsp
      · exact ring_same h rfl rfl rfl nofun (by rw [hpc]; nofun) hsp
  · rw [hpc] at hsp
    exact ring_same h rfl rfl rfl nofun (by rw [hpc]; nofun) hsp
  · rw [hpc] at hsp
    exact ring_same h rfl rfl rfl nofun (by rw [hpc]; nofun) hsp
  -- flushConsume
  · rename_i n
    have hn := h.span_le t
    rw [hpc] at hsp hn
    simp only [spanLen] at hsp hn
    have hcommit : ∀ u r k, s.pc u = .commit r k → s.mem.consumed + n ≤ k := by
      intro u r k hu
      obtain ⟨h1, h2⟩ := h.slots u r k hu
      apply Classical.byContradiction
      intro hlt
      obtain ⟨r', hr⟩ := hsp (k - s.mem.consumed) (by omega)
      rw [h2] at hr
      cases hr
    constructor
    · intro u r k hu
      simp only [Sys.at_] at hu ⊢
      split at hu
      · cases hu
      · obtain ⟨h1, h2⟩ := h.slots u r k hu
        have := hcommit u r k hu
        refine ⟨this, ?_⟩
        rw [List.getElem?_drop, show n + (k - (s.mem.consumed + n)) = k - s.mem.consumed by omega]
        exact h2
    · intro u v r1 r2 k hu hv
      simp only [Sys.at_] at hu hv
      split at hu
      · cases hu
      · split at hv
        · cases hv
        · exact h.distinct u v r1 r2 k hu hv
    · intro i r hi
      simp only [Sys.at_] at hi ⊢
      rw [List.getElem?_drop] at hi
      obtain ⟨u, hu⟩ := h.open_ _ r hi
      refine ⟨u, ?_⟩
      split
      · rename_i he; rw [he, hpc] at hu; cases hu
      · rw [hu]; congr 1; omega
    · simp only [Sys.at_]
      rw [← List.drop_drop, h.claimed, List.map_drop]
    · simp only [Sys.at_]
      have := h.length
      omega
    · intro u i hi
      simp only [Sys.at_] at hi ⊢
      split at hi
      · cases hi
      · rename_i hne
        have hf : flushing (s.pc u) = true := by
          revert hi
          cases s.pc u <;> simp [spanLen, flushing]
        exact absurd (hl.flushOne u t hf (by rw [hpc]; rfl)) hne
  · exact ring_same h rfl rfl rfl nofun (by rw [hpc]; nofun) (by intro i hi; cases hi)

/-! ## The console -/

/-- What holds of the lines while a thread flushes: `claimed`, `consumed` and the lines `out`. -/
def Printed (claimed : List Rec) (consumed : Nat) (out : List Rec) : Pc → Prop
  | .flushGet | .flushDone => out.Sublist (claimed.take consumed)
  | .flushNext todo n | .flushWritten todo n =>
      ∃ k, k + todo.length = n ∧ todo = (claimed.drop (consumed + k)).take (n - k) ∧
        out.Sublist (claimed.take (consumed + k))
  | .flushWrite r todo n =>
      ∃ k, k + todo.length + 1 = n ∧ r :: todo = (claimed.drop (consumed + k)).take (n - k) ∧
        out.Sublist (claimed.take (consumed + k))
  | .flushConsume n => out.Sublist (claimed.take (consumed + n))
  | _ => True

/-- The lines that came through the ring follow the order of the ring. -/
structure Lines (s : Sys) : Prop where
  inside : ∀ t, flushing (s.pc t) = true →
    Printed s.mem.claimed s.mem.consumed (ringLines s.mem) (s.pc t)
  free : (∀ t, flushing (s.pc t) = false) →
    (ringLines s.mem).Sublist (s.mem.claimed.take s.mem.consumed)

theorem lines_init : Lines {} where
  inside := by intro t h; cases h
  free := fun _ => List.Sublist.refl _

/-- A move by a thread that is not flushing before or after. -/
theorem lines_other {s : Sys} (hl : Lines s) {t : Nat} {p : Pc} {m' : Mem}
    (hk : m'.consumed = s.mem.consumed) (hout : ringLines m' = ringLines s.mem)
    (ht : flushing (s.pc t) = false) (hp : flushing p = false)
    (hc : ∀ u, flushing (s.pc u) = true → Printed s.mem.claimed s.mem.consumed (ringLines s.mem)
      (s.pc u) → Printed m'.claimed s.mem.consumed (ringLines s.mem) (s.pc u))
    (hfc : (s.mem.claimed.take s.mem.consumed).Sublist (m'.claimed.take s.mem.consumed)) :
    Lines (({ s with mem := m' } : Sys).at_ t p) := by
  constructor
  · intro u hu
    simp only [Sys.at_] at hu ⊢
    rw [hk, hout]
    split at hu
    · rw [hp] at hu; cases hu
    · rename_i hne
      rw [if_neg hne]
      exact hc u hu (hl.inside u hu)
  · intro hf
    simp only [Sys.at_] at hf ⊢
    rw [hk, hout]
    refine (hl.free ?_).trans hfc
    intro u
    have := hf u
    split at this
    · rename_i he; rw [he]; exact ht
    · exact this

/-- A move by the flushing thread. -/
theorem lines_own {s : Sys} (hk : Locks s) {t : Nat} {p : Pc} {m' : Mem}
    (ht : flushing (s.pc t) = true) (hp : flushing p = true)
    (h : Printed m'.claimed m'.consumed (ringLines m') p) :
    Lines (({ s with mem := m' } : Sys).at_ t p) := by
  constructor
  · intro u hu
    simp only [Sys.at_] at hu ⊢
    split at hu
    · rename_i he; rw [if_pos he]; exact h
    · rename_i hne; exact absurd (hk.flushOne u t hu ht) hne
  · intro hf
    have := hf t
    simp [Sys.at_, hp] at this

theorem lines_invoke {s : Sys} (hl : Lines s) (t : Nat) (op : Op) : Lines (invoke s t op) := by
  unfold invoke
  split
  · rename_i hpc
    split <;> exact lines_other (m' := s.mem) hl rfl rfl (by rw [hpc]; rfl) rfl (fun _ _ h => h)
      (List.Sublist.refl _)
  · exact hl

theorem ringLines_direct (m : Mem) (r : Rec) :
    ringLines { m with lines := m.lines ++ [(true, r)] } = ringLines m := by
  simp [ringLines]

theorem ringLines_ring (m : Mem) (r : Rec) :
    ringLines { m with lines := m.lines ++ [(false, r)] } = ringLines m ++ [r] := by
  simp [ringLines]

/-- One more claimed record changes nothing for the thread that flushes. -/
theorem printed_claim {claimed : List Rec} {consumed : Nat} {out : List Rec} {p : Pc} (r : Rec)
    (hb : consumed + spanLen p ≤ claimed.length)
    (h : Printed claimed consumed out p) : Printed (claimed ++ [r]) consumed out p := by
  cases p <;> simp only [Printed, spanLen] at h hb ⊢
  · rwa [List.take_append_of_le_length (by omega)]
  · obtain ⟨k, h1, h2, h3⟩ := h
    refine ⟨k, h1, ?_, ?_⟩
    · rw [List.drop_append_of_le_length (by omega),
        List.take_append_of_le_length (by simp; omega)]
      exact h2
    · rwa [List.take_append_of_le_length (by omega)]
  · obtain ⟨k, h1, h2, h3⟩ := h
    refine ⟨k, h1, ?_, ?_⟩
    · rw [List.drop_append_of_le_length (by omega),
        List.take_append_of_le_length (by simp; omega)]
      exact h2
    · rwa [List.take_append_of_le_length (by omega)]
  · obtain ⟨k, h1, h2, h3⟩ := h
    refine ⟨k, h1, ?_, ?_⟩
    · rw [List.drop_append_of_le_length (by omega),
        List.take_append_of_le_length (by simp; omega)]
      exact h2
    · rwa [List.take_append_of_le_length (by omega)]
  · rwa [List.take_append_of_le_length (by omega)]
  · rwa [List.take_append_of_le_length (by omega)]

theorem take_sub (l : List Rec) {a b : Nat} (h : a ≤ b) : (l.take a).Sublist (l.take b) := by
  have : l.take a = (l.take b).take a := by rw [List.take_take]; congr 1; omega
  rw [this]
  exact List.take_sublist _ _

/-- The head of what is left is the next claimed record. -/
theorem span_head {claimed todo : List Rec} {c k n : Nat} {r : Rec} (hk : k + todo.length + 1 = n)
    (h : r :: todo = (claimed.drop (c + k)).take (n - k)) :
    todo = (claimed.drop (c + (k + 1))).take (n - (k + 1)) ∧
    claimed.take (c + (k + 1)) = claimed.take (c + k) ++ [r] := by
  have hn : n - k = (n - (k + 1)) + 1 := by omega
  rw [hn] at h
  cases hd : claimed.drop (c + k) with
  | nil => rw [hd] at h; simp at h
  | cons x rest =>
    rw [hd] at h
    simp only [List.take_succ_cons, List.cons.injEq] at h
    obtain ⟨rfl, h⟩ := h
    constructor
    · rw [h, show c + (k + 1) = (c + k) + 1 by omega, ← List.drop_drop, hd]
      rfl
    · rw [show c + (k + 1) = (c + k) + 1 by omega, List.take_succ]
      congr 1
      have : claimed[c + k]? = some r := by
        have := List.getElem?_drop (xs := claimed) (i := c + k) (j := 0)
        rw [hd] at this
        simpa using this.symm
      rw [this]
      rfl

theorem lines_step {s : Sys} (hk : Locks s) (hr : Ring s) (hl : Lines s) (cap t : Nat) :
    Lines (step cap s t) := by
  have hin := hl.inside t
  unfold step
  dsimp only
  split <;> rename_i hpc
  · exact hl
  · exact lines_other (m' := s.mem) hl rfl rfl (by rw [hpc]; rfl) rfl (fun _ _ h => h)
      (List.Sublist.refl _)
  · rename_i r
    split
    · refine lines_other hl rfl rfl (by rw [hpc]; rfl) rfl (fun u _ h => ?_) ?_
      · refine printed_claim r ?_ h
        have := hr.span_le u
        have := hr.length
        omega
      · rw [List.take_append_of_le_length hr.bound]
        exact List.Sublist.refl _
    · exact lines_other hl rfl rfl (by rw [hpc]; rfl) rfl (fun _ _ h => h) (List.Sublist.refl _)
  · exact lines_other hl rfl rfl (by rw [hpc]; rfl) rfl (fun _ _ h => h) (List.Sublist.refl _)
  · exact lines_other hl rfl rfl (by rw [hpc]; rfl) rfl (fun _ _ h => h) (List.Sublist.refl _)
  · split
    · exact lines_other (m' := s.mem) hl rfl rfl (by rw [hpc]; rfl) rfl (fun _ _ h => h)
        (List.Sublist.refl _)
    · exact lines_other hl rfl rfl (by rw [hpc]; rfl) rfl (fun _ _ h => h) (List.Sublist.refl _)
  · exact lines_other hl rfl (ringLines_direct _ _) (by rw [hpc]; rfl) rfl (fun _ _ h => h)
      (List.Sublist.refl _)
  · exact lines_other hl rfl rfl (by rw [hpc]; rfl) rfl (fun _ _ h => h) (List.Sublist.refl _)
  -- flushLock
  · split
    · exact lines_other (m' := s.mem) hl rfl rfl (by rw [hpc]; rfl) rfl (fun _ _ h => h)
        (List.Sublist.refl _)
    · rename_i hb
      have hnone : ∀ u, flushing (s.pc u) = false := by
        intro u
        cases hu : flushing (s.pc u) with
        | false => rfl
        | true => exact absurd (hk.flushLock u hu) hb
      constructor
      · intro u hu
        simp only [Sys.at_] at hu ⊢
        split at hu
        · rename_i he; rw [if_pos he]; exact hl.free hnone
        · rw [hnone u] at hu; cases hu
      · intro hf
        have := hf t
        simp [Sys.at_, flushing] at this
  -- flushGet
  · rw [hpc] at hin
    have hin := hin rfl
    refine lines_own (m' := s.mem) hk (by rw [hpc]; rfl) rfl ⟨0, by simp, ?_, hin⟩
    rw [Nat.add_zero, hr.claimed, Nat.sub_zero]
    exact readable_eq _
  -- flushNext
  · rw [hpc] at hin
    obtain ⟨k, h1, h2, h3⟩ := hin rfl
    split
    · refine lines_own (m' := s.mem) hk (by rw [hpc]; rfl) rfl ?_
      simp only [List.length_nil, Nat.add_zero] at h1
      subst h1
      exact h3
    · rename_i r rest
      split
      · obtain ⟨h4, h5⟩ := span_head (by simpa [Nat.add_assoc] using h1) h2
        refine lines_own (m' := s.mem) hk (by rw [hpc]; rfl) rfl ⟨k + 1, ?_, h4, ?_⟩
        · simp only [List.length_cons] at h1; omega
        · exact h3.trans (take_sub _ (by omega))
      · exact lines_own hk (by rw [hpc]; rfl) rfl ⟨k, by simpa [Nat.add_assoc] using h1, h2, h3⟩
  -- flushWrite
  · rw [hpc] at hin
    obtain ⟨k, h1, h2, h3⟩ := hin rfl
    obtain ⟨h4, h5⟩ := span_head h1 h2
    refine lines_own hk (by rw [hpc]; rfl) rfl ⟨k + 1, by omega, h4, ?_⟩
    simp only
    rw [ringLines_ring, h5]
    exact List.Sublist.append h3 (List.Sublist.refl _)
  · rw [hpc] at hin
    exact lines_own hk (by rw [hpc]; rfl) rfl (hin rfl)
  · rw [hpc] at hin
    exact lines_own hk (by rw [hpc]; rfl) rfl (hin rfl)
  -- flushDone
  · rw [hpc] at hin
    have hin := hin rfl
    have hnone : ∀ u, flushing (if u = t then Pc.idle else s.pc u) = false := by
      intro u
      split
      · rfl
      · rename_i hne
        cases hu : flushing (s.pc u) with
        | false => rfl
        | true => exact absurd (hk.flushOne u t hu (by rw [hpc]; rfl)) hne
    constructor
    · intro u hu
      simp only [Sys.at_] at hu
      rw [hnone u] at hu
      cases hu
    · intro _; exact hin

/-! ## Lines written directly -/

/-- Where the direct lines come from. -/
structure Directs (s : Sys) : Prop where
  full : ∀ t r, s.pc t = .full r → r ∈ s.mem.turnedAway
  direct : ∀ t r, s.pc t = .direct r ∨ s.pc t = .directWrite r →
    1 ≤ r.droppedBefore ∧ ∃ q ∈ s.mem.turnedAway, q.body = r.body ∧ q.droppedBefore ≤ r.droppedBefore
  lines : ∀ r, (true, r) ∈ s.mem.lines →
    1 ≤ r.droppedBefore ∧ ∃ q ∈ s.mem.turnedAway, q.body = r.body ∧ q.droppedBefore ≤ r.droppedBefore

theorem directs_init : Directs {} where
  full := by intro t r h; cases h
  direct := by intro t r h; rcases h with h | h <;> cases h
  lines := by intro r h; cases h

theorem directs_at {s : Sys} (h : Directs s) {t : Nat} {p : Pc} {m' : Mem}
    (ha : ∀ q, q ∈ s.mem.turnedAway → q ∈ m'.turnedAway)
    (hlines : ∀ r, (true, r) ∈ m'.lines → (true, r) ∈ s.mem.lines ∨ s.pc t = .directWrite r)
    (hf : ∀ r, p = .full r → r ∈ m'.turnedAway)
    (hd : ∀ r, p = .direct r ∨ p = .directWrite r →
      1 ≤ r.droppedBefore ∧ ∃ q ∈ m'.turnedAway, q.body = r.body ∧ q.droppedBefore ≤ r.droppedBefore) :
    Directs (({ s with mem := m' } : Sys).at_ t p) := by
  have up : ∀ r : Rec, (1 ≤ r.droppedBefore ∧ ∃ q ∈ s.mem.turnedAway, q.body = r.body ∧ q.droppedBefore ≤ r.droppedBefore) →
      1 ≤ r.droppedBefore ∧ ∃ q ∈ m'.turnedAway, q.body = r.body ∧ q.droppedBefore ≤ r.droppedBefore :=
    fun r ⟨h1, q, hq, hb⟩ => ⟨h1, q, ha q hq, hb⟩
  constructor
  · intro u r hu
    simp only [Sys.at_] at hu ⊢
    split at hu
    · exact hf r hu
    · exact ha _ (h.full u r hu)
  · intro u r hu
    simp only [Sys.at_] at hu ⊢
    split at hu
    · exact hd r hu
    · exact up r (h.direct u r hu)
  · intro r hm
    rcases hlines r hm with hm | hm
    · exact up r (h.lines r hm)
    · exact up r (h.direct t r (.inr hm))

theorem directs_invoke {s : Sys} (h : Directs s) (t : Nat) (op : Op) : Directs (invoke s t op) := by
  unfold invoke
  split
  · split <;> exact directs_at (m' := s.mem) h (fun _ hq => hq) (fun _ hm => .inl hm) nofun
      (fun r hr => by rcases hr with hr | hr <;> cases hr)
  · exact h

theorem directs_step {s : Sys} (h : Directs s) (cap t : Nat) : Directs (step cap s t) := by
  have hno : ∀ {p : Pc} {m' : Mem}, (∀ r, p ≠ .direct r) → (∀ r, p ≠ .directWrite r) →
      ∀ r, p = .direct r ∨ p = .directWrite r →
        1 ≤ r.droppedBefore ∧ ∃ q ∈ m'.turnedAway, q.body = r.body ∧ q.droppedBefore ≤ r.droppedBefore :=
    fun h1 h2 r hr => hr.elim (fun e => absurd e (h1 r)) (fun e => absurd e (h2 r))
  unfold step
  dsimp only
  split <;> rename_i hpc
  · exact h
  · exact directs_at (m' := s.mem) h (fun _ hq => hq) (fun _ hm => .inl hm) nofun (hno nofun nofun)
  · split
    · exact directs_at h (fun _ hq => hq) (fun _ hm => .inl hm) nofun (hno nofun nofun)
    · exact directs_at h (fun _ hq => List.mem_append_left _ hq) (fun _ hm => .inl hm)
        (fun r hr => by cases hr; simp) (hno nofun nofun)
  · exact directs_at h (fun _ hq => hq) (fun _ hm => .inl hm) nofun (hno nofun nofun)
  · rename_i r
    refine directs_at h (fun _ hq => hq) (fun _ hm => .inl hm) nofun ?_
    intro r' hr'
    rcases hr' with hr' | hr'
    · cases hr'
      exact ⟨by simp only; omega, r, h.full t r hpc, rfl, by simp only; omega⟩
    · cases hr'
  · rename_i r
    split
    · exact directs_at (m' := s.mem) h (fun _ hq => hq) (fun _ hm => .inl hm) nofun (hno nofun nofun)
    · refine directs_at h (fun _ hq => hq) (fun _ hm => .inl hm) nofun ?_
      intro r' hr'
      rcases hr' with hr' | hr'
      · cases hr'
      · cases hr'; exact h.direct t r (.inl hpc)
  · rename_i r
    refine directs_at h (fun _ hq => hq) (fun r' hm => ?_) nofun (hno nofun nofun)
    simp only [List.mem_append, List.mem_singleton, Prod.mk.injEq, true_and] at hm
    rcases hm with hm | rfl
    · exact .inl hm
    · exact .inr hpc
  · exact directs_at h (fun _ hq => hq) (fun _ hm => .inl hm) nofun (hno nofun nofun)
  · split
    · exact directs_at (m' := s.mem) h (fun _ hq => hq) (fun _ hm => .inl hm) nofun (hno nofun nofun)
    · exact directs_at h (fun _ hq => hq) (fun _ hm => .inl hm) nofun (hno nofun nofun)
  · exact directs_at (m' := s.mem) h (fun _ hq => hq) (fun _ hm => .inl hm) nofun (hno nofun nofun)
  · split
    · exact directs_at (m' := s.mem) h (fun _ hq => hq) (fun _ hm => .inl hm) nofun (hno nofun nofun)
    · split
      · exact directs_at (m' := s.mem) h (fun _ hq => hq) (fun _ hm => .inl hm) nofun
          (hno nofun nofun)
      · exact directs_at h (fun _ hq => hq) (fun _ hm => .inl hm) nofun (hno nofun nofun)
  · refine directs_at h (fun _ hq => hq) (fun r' hm => ?_) nofun (hno nofun nofun)
    simp only [List.mem_append, List.mem_singleton, Prod.mk.injEq, Bool.true_eq_false,
      false_and, or_false] at hm
    exact .inl hm
  · exact directs_at h (fun _ hq => hq) (fun _ hm => .inl hm) nofun (hno nofun nofun)
  · exact directs_at h (fun _ hq => hq) (fun _ hm => .inl hm) nofun (hno nofun nofun)
  · exact directs_at h (fun _ hq => hq) (fun _ hm => .inl hm) nofun (hno nofun nofun)

/-! ## Counting the records that found the ring full -/

/-- Every record that found the ring full is counted or about to be. -/
def Counted (s : Sys) : Prop :=
  ∃ L : List Nat, L.Nodup ∧ (∀ t, t ∈ L ↔ ∃ r, s.pc t = .full r) ∧
    s.mem.turnedAway.length = s.mem.dropped + L.length

theorem counted_at {s : Sys} (h : Counted s) {t : Nat} {p : Pc} {m' : Mem} (hm : m'.turnedAway = s.mem.turnedAway)
    (hd : m'.dropped = s.mem.dropped) (ht : ∀ r, s.pc t ≠ .full r) (hp : ∀ r, p ≠ .full r) :
    Counted (({ s with mem := m' } : Sys).at_ t p) := by
  obtain ⟨L, h1, h2, h3⟩ := h
  refine ⟨L, h1, fun u => ?_, by simp only [Sys.at_, hm, hd]; exact h3⟩
  rw [h2 u]
  simp only [Sys.at_]
  by_cases hu : u = t
  · subst hu
    rw [if_pos rfl]
    exact ⟨fun ⟨r, hr⟩ => absurd hr (ht r), fun ⟨r, hr⟩ => absurd hr (hp r)⟩
  · rw [if_neg hu]

theorem counted_invoke {s : Sys} (h : Counted s) (t : Nat) (op : Op) : Counted (invoke s t op) := by
  unfold invoke
  split
  · rename_i hpc
    split <;> exact counted_at (m' := s.mem) h rfl rfl (by simp [hpc]) (by simp)
  · exact h

theorem counted_step {s : Sys} (h : Counted s) (cap t : Nat) : Counted (step cap s t) := by
  unfold step
  dsimp only
  split <;> rename_i hpc
  · exact h
  · exact counted_at (m' := s.mem) h rfl rfl (by simp [hpc]) (by simp)
  · split
    · exact counted_at h rfl rfl (by simp [hpc]) (by simp)
    · obtain ⟨L, h1, h2, h3⟩ := h
      have ht : t ∉ L := fun hm => by obtain ⟨r, hr⟩ := (h2 t).1 hm; rw [hpc] at hr; cases hr
      refine ⟨t :: L, List.nodup_cons.2 ⟨ht, h1⟩, fun u => ?_, ?_⟩
      · simp only [Sys.at_, List.mem_cons]
        by_cases hu : u = t
        · simp [hu]
        · simp [hu, h2 u]
      · simp only [Sys.at_, List.length_append, List.length_cons, List.length_nil, h3]; omega
  · exact counted_at h rfl rfl (by simp [hpc]) (by simp)
  · rename_i r
    obtain ⟨L, h1, h2, h3⟩ := h
    have ht : t ∈ L := (h2 t).2 ⟨r, hpc⟩
    refine ⟨L.erase t, h1.erase t, fun u => ?_, ?_⟩
    · simp only [Sys.at_]
      rw [h1.mem_erase_iff, h2 u]
      by_cases hu : u = t
      · simp [hu]
      · simp [hu]
    · simp only [Sys.at_, h3, List.length_erase_of_mem ht]
      have := List.length_pos_of_mem ht
      omega
  · split
    · exact counted_at (m' := s.mem) h rfl rfl (by simp [hpc]) (by simp)
    · exact counted_at h rfl rfl (by simp [hpc]) (by simp)
  · exact counted_at h rfl rfl (by simp [hpc]) (by simp)
  · exact counted_at h rfl rfl (by simp [hpc]) (by simp)
  · split
    · exact counted_at (m' := s.mem) h rfl rfl (by simp [hpc]) (by simp)
    · exact counted_at h rfl rfl (by simp [hpc]) (by simp)
  · exact counted_at (m' := s.mem) h rfl rfl (by simp [hpc]) (by simp)
  · split
    · exact counted_at (m' := s.mem) h rfl rfl (by simp [hpc]) (by simp)
    · split
      · exact counted_at (m' := s.mem) h rfl rfl (by simp [hpc]) (by simp)
      · exact counted_at h rfl rfl (by simp [hpc]) (by simp)
  · exact counted_at h rfl rfl (by simp [hpc]) (by simp)
  · exact counted_at h rfl rfl (by simp [hpc]) (by simp)
  · exact counted_at h rfl rfl (by simp [hpc]) (by simp)
  · exact counted_at h rfl rfl (by simp [hpc]) (by simp)

theorem counted_run (cap : Nat) (acts : List Act) : Counted (run cap acts) := by
  have : ∀ (as : List Act) (s : Sys), Counted s → Counted (runFrom cap s as) := by
    intro as
    induction as with
    | nil => intro s h; exact h
    | cons x as ih =>
      intro s h
      refine ih _ ?_
      cases x with
      | call t op => exact counted_invoke h t op
      | go t => exact counted_step h cap t
  exact this acts {} ⟨[], List.nodup_nil, fun t => by simp, rfl⟩

/-! ## All together -/

/-- All invariants. -/
structure Inv (s : Sys) : Prop where
  locks : Locks s
  ring : Ring s
  lines : Lines s
  directs : Directs s

theorem inv_run (cap : Nat) (acts : List Act) : Inv (run cap acts) := by
  have : ∀ s, Inv s → Inv (runFrom cap s acts) := by
    induction acts with
    | nil => intro s h; exact h
    | cons a as ih =>
      intro s h
      refine ih _ ?_
      cases a with
      | call t op =>
        exact ⟨locks_invoke h.locks t op, ring_invoke h.ring t op, lines_invoke h.lines t op,
          directs_invoke h.directs t op⟩
      | go t =>
        exact ⟨locks_step h.locks cap t, ring_step h.locks h.ring cap t,
          lines_step h.locks h.ring h.lines cap t, directs_step h.directs cap t⟩
  exact this _ ⟨locks_init, ring_init, lines_init, directs_init⟩

end Verif.Log.Console
