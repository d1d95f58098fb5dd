import Verif.RingMp.Spec
/-! Helper lemmas for the multi-producer ring. -/
namespace Verif.RingMp
variable {α : Type}

theorem upd_same {β : Type} (f : Nat → β) (i : Nat) (v : β) : upd f i v i = v := if_pos rfl
theorem upd_other {β : Type} (f : Nat → β) {i j : Nat} (v : β) (h : j ≠ i) : upd f i v j = f j := if_neg h

theorem mod_ne_of_window {a b n : Nat} (h1 : a < b) (h2 : b < a + n) : a % n ≠ b % n := by
  intro h
  have : (b - a) % n = 0 := Nat.sub_mod_eq_zero_of_mod_eq h.symm
  rw [Nat.mod_eq_of_lt (by omega)] at this
  omega

theorem gap_of_mod {a b n : Nat} (h : a % n = b % n) (hne : a < b) : a + n ≤ b := by
  rcases Nat.lt_or_ge b (a + n) with h' | h'
  · exact absurd h (mod_ne_of_window hne h')
  · exact h'

structure Core (size nReaders : Nat) (s : St α) : Prop where
  sz : s.size = size
  nr : s.nReaders = nReaders
  le : s.pub ≤ s.reserve
  win : s.reserve ≤ s.pub + s.size
  rwin : ∀ r, r < s.nReaders → s.cursor r ≤ s.pub ∧ s.reserve ≤ s.cursor r + s.size ∧ s.cachedMin ≤ s.cursor r
  cmin : s.cachedMin ≤ s.pub
  slotOk : ∀ x q, s.slot x = some q → q % s.size = x ∧ Complete s q
  marked : ∀ p, s.pub ≤ p → Complete s p → s.slot (p % s.size) = some p
  pubOk : ∀ p, p < s.pub → Complete s p
  disj : ∀ t u p, t ≠ u → holds (s.pc t) p → ¬ holds (s.pc u) p
  owned : ∀ t p, holds (s.pc t) p → p < s.reserve ∧ s.aband p = false
  ab : ∀ p, s.aband p = true → p < s.reserve
  data : ∀ p v, s.val p = some v → s.reserve ≤ p + s.size → s.mem (p % s.size) = v
  valLt : ∀ p v, s.val p = some v → p < s.reserve

/-- facts local to one thread. -/
def PInv (s : St α) : Pc → Prop
  | .load n _ => 0 < n ∧ n ≤ s.size
  | .check n _ _ => 0 < n ∧ n ≤ s.size
  | .fresh n _ i acc _ => 0 < n ∧ n ≤ s.size ∧ i ≤ s.nReaders ∧ (acc = none → i = 0) ∧
      ∀ m, acc = some m → m ≤ s.pub ∧ ∀ r, r < i → m ≤ s.cursor r
  | .cas n cur _ => 0 < n ∧ n ≤ s.size ∧ cur + n ≤ s.pub + s.size ∧ ∀ r, r < s.nReaders → cur + n ≤ s.cursor r + s.size
  | .avail i acc => i ≤ s.nReaders ∧ (acc = none → i = 0) ∧ ∀ m, acc = some m → m ≤ s.pub ∧ ∀ r, r < i → m ≤ s.cursor r
  | .marking _ k i => i ≤ k ∧ 0 < k
  | .scan cur nxt => cur ≤ nxt ∧ cur ≤ s.pub ∧ ∀ p, cur ≤ p → p < nxt → Complete s p
  | .pubCas cur nxt => cur < nxt ∧ cur ≤ s.pub ∧ ∀ p, cur ≤ p → p < nxt → Complete s p
  | _ => True

/-- a thread that will look at the publish cursor again or try to move it. -/
def Active (s : St α) : Pc → Prop
  | .marking _ _ _ => True
  | .pubLoad => True
  | .scan cur nxt => cur < nxt ∨ s.slot (cur % s.size) = some cur
  | .pubCas _ _ => True
  | _ => False

structure Live (s : St α) : Prop where
  i1 : s.slot (s.pub % s.size) = some s.pub → ∃ u, Active s (s.pc u)
  i2 : ∀ u cur nxt, s.pc u = .pubCas cur nxt → cur = s.pub → s.slot (nxt % s.size) = some nxt → ∃ v, v ≠ u ∧ Active s (s.pc v)

structure Inv (size nReaders : Nat) (s : St α) : Prop where
  core : Core size nReaders s
  thr : ∀ t, PInv s (s.pc t)
  live : Live s

theorem PInv.mono {s s' : St α} {pc : Pc} (h : PInv s pc) (hsz : s'.size = s.size) (hnr : s'.nReaders = s.nReaders) (hp : s.pub ≤ s'.pub)
    (hc : ∀ r, s.cursor r ≤ s'.cursor r) (hC : ∀ p, Complete s p → Complete s' p) : PInv s' pc := by
  cases pc with
  | load n b => simp only [PInv, hsz] at *; exact h
  | check n cur b => simp only [PInv, hsz] at *; exact h
  | fresh n cur i acc b =>
    simp only [PInv, hsz, hnr] at *
    obtain ⟨h1, h2, h3, h4, h5⟩ := h
    refine ⟨h1, h2, h3, h4, fun m hm => ⟨by have := (h5 m hm).1; omega, fun r hr => Nat.le_trans ((h5 m hm).2 r hr) (hc r)⟩⟩
  | cas n cur b =>
    simp only [PInv, hsz, hnr] at *
    obtain ⟨h1, h2, h3, h4⟩ := h
    exact ⟨h1, h2, by omega, fun r hr => by have := h4 r hr; have := hc r; omega⟩
  | avail i acc =>
    simp only [PInv, hnr] at *
    obtain ⟨h3, h4, h5⟩ := h
    exact ⟨h3, h4, fun m hm => ⟨by have := (h5 m hm).1; omega, fun r hr => Nat.le_trans ((h5 m hm).2 r hr) (hc r)⟩⟩
  | scan cur nxt =>
    simp only [PInv] at *
    exact ⟨h.1, by omega, fun p h1 h2 => hC p (h.2.2 p h1 h2)⟩
  | pubCas cur nxt =>
    simp only [PInv] at *
    exact ⟨h.1, by omega, fun p h1 h2 => hC p (h.2.2 p h1 h2)⟩
  | marking lo k i => exact h
  | _ => trivial

/-- a thread moves without changing what it holds, nothing else changes. -/
theorem complete_go {s : St α} {t : Nat} {pc' : Pc} (hh : ∀ p, holds pc' p ↔ holds (s.pc t) p) (p : Nat) :
    Complete (s.go t pc') p ↔ Complete s p := by
  unfold Complete St.go
  refine and_congr Iff.rfl (and_congr Iff.rfl (forall_congr' fun u => not_congr ?_))
  dsimp only
  by_cases hu : u = t
  · subst hu; rw [upd_same]; exact hh p
  · rw [upd_other _ _ hu]

theorem Core.go {size R : Nat} {s : St α} (h : Core size R s) {t : Nat} {pc' : Pc} (hh : ∀ p, holds pc' p ↔ holds (s.pc t) p) :
    Core size R (s.go t pc') := by
  have hC := complete_go (s := s) (t := t) hh
  have hh' : ∀ u p, holds ((s.go t pc').pc u) p ↔ holds (s.pc u) p := by
    intro u p
    show holds (upd s.pc t pc' u) p ↔ _
    by_cases hu : u = t
    · subst hu; rw [upd_same]; exact hh p
    · rw [upd_other _ _ hu]
  exact ⟨h.sz, h.nr, h.le, h.win, h.rwin, h.cmin, fun x q hx => ⟨(h.slotOk x q hx).1, (hC q).2 (h.slotOk x q hx).2⟩,
    fun p hp hc => h.marked p hp ((hC p).1 hc), fun p hp => (hC p).2 (h.pubOk p hp),
    fun t' u p hne h1 h2 => h.disj t' u p hne ((hh' t' p).1 h1) ((hh' u p).1 h2), fun t' p h1 => h.owned t' p ((hh' t' p).1 h1),
    h.ab, h.data, h.valLt⟩

theorem thr_go {s : St α} (h : ∀ t, PInv s (s.pc t)) {t : Nat} {pc' : Pc} (hh : ∀ p, holds pc' p ↔ holds (s.pc t) p) (hp : PInv s pc') :
    ∀ u, PInv (s.go t pc') ((s.go t pc').pc u) := by
  intro u
  have hC := complete_go (s := s) (t := t) hh
  refine PInv.mono (s := s) ?_ rfl rfl (Nat.le_refl _) (fun _ => Nat.le_refl _) (fun p => (hC p).2)
  show PInv s (upd s.pc t pc' u)
  by_cases hu : u = t
  · subst hu; rw [upd_same]; exact hp
  · rw [upd_other _ _ hu]; exact h u

theorem live_go {s : St α} (h : Live s) {t : Nat} {pc' : Pc} (ha : Active s (s.pc t) → Active s pc')
    (hcas : ∀ cur nxt, pc' = .pubCas cur nxt → cur = s.pub → s.slot (nxt % s.size) ≠ some nxt) : Live (s.go t pc') := by
  have act : ∀ u, Active s (s.pc u) → Active (s.go t pc') ((s.go t pc').pc u) := by
    intro u hu
    show Active s (upd s.pc t pc' u)
    by_cases he : u = t
    · subst he; rw [upd_same]; exact ha hu
    · rw [upd_other _ _ he]; exact hu
  refine ⟨fun hm => ?_, fun u cur nxt hu hc hm => ?_⟩
  · obtain ⟨v, hv⟩ := h.i1 hm; exact ⟨v, act v hv⟩
  · have hu : upd s.pc t pc' u = .pubCas cur nxt := hu
    by_cases he : u = t
    · subst he; rw [upd_same] at hu; exact absurd hm (hcas cur nxt hu hc)
    · rw [upd_other _ _ he] at hu
      obtain ⟨v, hne, hv⟩ := h.i2 u cur nxt hu hc hm
      exact ⟨v, hne, act v hv⟩

theorem inv_go {size R : Nat} {s : St α} (h : Inv size R s) {t : Nat} {pc' : Pc} (hh : ∀ p, holds pc' p ↔ holds (s.pc t) p) (hp : PInv s pc')
    (ha : Active s (s.pc t) → Active s pc')
    (hcas : ∀ cur nxt, pc' = .pubCas cur nxt → cur = s.pub → s.slot (nxt % s.size) ≠ some nxt) : Inv size R (s.go t pc') :=
  ⟨h.core.go hh, thr_go h.thr hh hp, live_go h.live ha hcas⟩

theorem inv_cmin {size R : Nat} {s : St α} (h : Inv size R s) {m : Nat} (h1 : m ≤ s.pub) (h2 : ∀ r, r < s.nReaders → m ≤ s.cursor r) :
    Inv size R { s with cachedMin := m } := by
  obtain ⟨hc, ht, hl⟩ := h
  refine ⟨⟨hc.sz, hc.nr, hc.le, hc.win, fun r hr => ⟨(hc.rwin r hr).1, (hc.rwin r hr).2.1, h2 r hr⟩, h1, hc.slotOk, hc.marked, hc.pubOk,
    hc.disj, hc.owned, hc.ab, hc.data, hc.valLt⟩, fun t => ?_, ⟨hl.i1, hl.i2⟩⟩
  exact (ht t).mono rfl rfl (Nat.le_refl _) (fun _ => Nat.le_refl _) (fun p hp => hp)

theorem tooFar_false {size next m : Nat} (h : tooFar size next m = false) : m ≤ next ∧ next ≤ m + size := by
  simp only [tooFar, Bool.or_eq_false_iff, decide_eq_false_iff_not] at h; omega

theorem inv_tick {size R : Nat} {s : St α} (hs : 0 < size) (h : Inv size R s) (t : Nat) : Inv size R (tick s t) := by
  have hs' : 0 < s.size := h.core.sz ▸ hs
  have hpt := h.thr t
  unfold tick
  cases hpc : s.pc t with
  | idle => exact h
  | opened lo n => exact h
  | load n b =>
    rw [hpc] at hpt
    exact inv_go h (fun p => by rw [hpc]; simp [holds]) hpt (by rw [hpc]; exact id) (by intro _ _ e; cases e)
  | check n cur b =>
    rw [hpc] at hpt
    dsimp only
    split
    · exact inv_go h (fun p => by rw [hpc]; simp [holds]) ⟨hpt.1, hpt.2, Nat.zero_le _, fun _ => rfl, fun m e => by cases e⟩ (by rw [hpc]; exact id) (by intro _ _ e; cases e)
    · next hf =>
      have hf := tooFar_false (by simpa using hf)
      have h1 := h.core.cmin
      refine inv_go h (fun p => by rw [hpc]; simp [holds]) ⟨hpt.1, hpt.2, by omega, fun r hr => ?_⟩ (by rw [hpc]; exact id) (by intro _ _ e; cases e)
      have := (h.core.rwin r hr).2.2
      omega
  | fresh n cur i acc b =>
    rw [hpc] at hpt
    simp only [PInv] at hpt
    obtain ⟨h1, h2, h3, h4, h5⟩ := hpt
    dsimp only
    split
    · next hi =>
      have hci := (h.core.rwin i hi).1
      refine inv_go h (fun p => by rw [hpc]; simp [holds]) ⟨h1, h2, by omega, (fun e => by cases e), fun m e => ?_⟩ (by rw [hpc]; exact id) (by intro _ _ e; cases e)
      cases acc with
      | none =>
        have := h4 rfl
        subst this
        simp only [minAcc, Option.some.injEq] at e
        exact ⟨by omega, fun r hr => by have : r = 0 := by omega
                                        subst this; omega⟩
      | some m0 =>
        simp only [minAcc, Option.some.injEq] at e
        obtain ⟨g1, g2⟩ := h5 m0 rfl
        refine ⟨by omega, fun r hr => ?_⟩
        by_cases hri : r = i
        · subst hri; omega
        · have := g2 r (by omega); omega
    · next hi =>
      have hm : acc.getD 0 ≤ s.pub ∧ ∀ r, r < s.nReaders → acc.getD 0 ≤ s.cursor r := by
        cases acc with
        | none => exact ⟨Nat.zero_le _, fun r _ => Nat.zero_le _⟩
        | some m => exact ⟨(h5 m rfl).1, fun r hr => (h5 m rfl).2 r (by omega)⟩
      have hI := inv_cmin h hm.1 hm.2
      split
      · split
        · exact inv_go hI (fun p => by show _ ↔ holds (s.pc t) p; rw [hpc]; simp [holds]) ⟨h1, h2⟩ (by show Active s (s.pc t) → _; rw [hpc]; exact id) (by intro _ _ e; cases e)
        · exact inv_go hI (fun p => by show _ ↔ holds (s.pc t) p; rw [hpc]; simp [holds]) trivial (by show Active s (s.pc t) → _; rw [hpc]; exact id) (by intro _ _ e; cases e)
      · next hf =>
        have hf := tooFar_false (by simpa using hf)
        refine inv_go hI (fun p => by show _ ↔ holds (s.pc t) p; rw [hpc]; simp [holds]) ⟨h1, h2, ?_, fun r hr => ?_⟩ (by show Active s (s.pc t) → _; rw [hpc]; exact id) (by intro _ _ e; cases e)
        · show cur + n ≤ s.pub + s.size
          have : cur + n ≤ acc.getD 0 + s.size := hf.2
          omega
        · show cur + n ≤ s.cursor r + s.size
          have : cur + n ≤ acc.getD 0 + s.size := hf.2
          have := hm.2 r hr
          omega
  | avail i acc =>
    rw [hpc] at hpt
    simp only [PInv] at hpt
    obtain ⟨h3, h4, h5⟩ := hpt
    dsimp only
    split
    · next hi =>
      have hci := (h.core.rwin i hi).1
      refine inv_go h (fun p => by rw [hpc]; simp [holds]) ⟨by omega, (fun e => by cases e), fun m e => ?_⟩ (by rw [hpc]; exact id) (by intro _ _ e; cases e)
      cases acc with
      | none =>
        have := h4 rfl
        subst this
        simp only [minAcc, Option.some.injEq] at e
        exact ⟨by omega, fun r hr => by have : r = 0 := by omega
                                        subst this; omega⟩
      | some m0 =>
        simp only [minAcc, Option.some.injEq] at e
        obtain ⟨g1, g2⟩ := h5 m0 rfl
        refine ⟨by omega, fun r hr => ?_⟩
        by_cases hri : r = i
        · subst hri; omega
        · have := g2 r (by omega); omega
    · next hi =>
      have hm : acc.getD 0 ≤ s.pub ∧ ∀ r, r < s.nReaders → acc.getD 0 ≤ s.cursor r := by
        cases acc with
        | none => exact ⟨Nat.zero_le _, fun r _ => Nat.zero_le _⟩
        | some m => exact ⟨(h5 m rfl).1, fun r hr => (h5 m rfl).2 r (by omega)⟩
      have hI := inv_go (pc' := .idle) h (t := t) (fun p => by rw [hpc]; simp [holds]) trivial (by rw [hpc]; exact id) (by intro _ _ e; cases e)
      exact inv_cmin hI hm.1 hm.2
  | cas n cur b =>
    rw [hpc] at hpt
    simp only [PInv] at hpt
    obtain ⟨h1, h2, h3, h4⟩ := hpt
    dsimp only
    split
    · next hcur =>
      obtain ⟨hc, ht, hl⟩ := h
      have hle := hc.le
      have hholds : ∀ u p, holds (upd s.pc t (.opened cur n) u) p → (u = t ∧ cur ≤ p ∧ p < cur + n) ∨ (u ≠ t ∧ holds (s.pc u) p) := by
        intro u p hu
        by_cases he : u = t
        · subst he; rw [upd_same] at hu; exact Or.inl ⟨rfl, hu⟩
        · rw [upd_other _ _ he] at hu; exact Or.inr ⟨he, hu⟩
      have hC : ∀ p, Complete s p → Complete { s.go t (.opened cur n) with reserve := cur + n } p := by
        intro p hp
        refine ⟨by have := hp.1; dsimp only; omega, hp.2.1, fun u hu => ?_⟩
        rcases hholds u p hu with ⟨_, h5, _⟩ | ⟨_, h5⟩
        · have := hp.1; omega
        · exact hp.2.2 u h5
      have hC' : ∀ p, Complete { s.go t (.opened cur n) with reserve := cur + n } p → Complete s p := by
        intro p hp
        have hnt := hp.2.2 t
        have : (upd s.pc t (.opened cur n)) t = .opened cur n := upd_same _ _ _
        have hnt : ¬ holds ((upd s.pc t (.opened cur n)) t) p := hnt
        rw [this] at hnt
        have hlt : p < cur + n := hp.1
        have hplt : p < s.reserve := by simp only [holds, not_and, Nat.not_lt] at hnt; omega
        refine ⟨hplt, hp.2.1, fun u hu => ?_⟩
        by_cases he : u = t
        · subst he; rw [hpc] at hu; exact hu
        · exact hp.2.2 u (by show holds (upd s.pc t (.opened cur n) u) p; rw [upd_other _ _ he]; exact hu)
      refine ⟨⟨hc.sz, hc.nr, ?_, h3, ?_, hc.cmin, ?_, ?_, ?_, ?_, ?_, ?_, ?_, ?_⟩, ?_, ?_⟩
      · show s.pub ≤ cur + n; omega
      · intro r hr; exact ⟨(hc.rwin r hr).1, h4 r hr, (hc.rwin r hr).2.2⟩
      · intro x q hx; exact ⟨(hc.slotOk x q hx).1, hC q (hc.slotOk x q hx).2⟩
      · intro p hp hcp; exact hc.marked p hp (hC' p hcp)
      · intro p hp; exact hC p (hc.pubOk p hp)
      · intro t' u p hne h5 h6
        rcases hholds t' p h5 with ⟨rfl, g1⟩ | ⟨_, g1⟩ <;> rcases hholds u p h6 with ⟨rfl, g2⟩ | ⟨_, g2⟩
        · exact hne rfl
        · have := (hc.owned u p g2).1; omega
        · have := (hc.owned t' p g1).1; omega
        · exact hc.disj t' u p hne g1 g2
      · intro t' p h5
        rcases hholds t' p h5 with ⟨rfl, g1⟩ | ⟨_, g1⟩
        · refine ⟨g1.2, ?_⟩
          cases hab : s.aband p with
          | false => exact hab
          | true => have := hc.ab p hab; omega
        · have := hc.owned t' p g1; exact ⟨by show p < cur + n; omega, this.2⟩
      · intro p hp; have := hc.ab p hp; show p < cur + n; omega
      · intro p v hv hw
        have hw : cur + n ≤ p + s.size := hw
        exact hc.data p v hv (by omega)
      · intro p v hv; have := hc.valLt p v hv; show p < cur + n; omega
      · intro u
        refine PInv.mono (s := s) ?_ rfl rfl (Nat.le_refl _) (fun _ => Nat.le_refl _) hC
        show PInv s (upd s.pc t (.opened cur n) u)
        by_cases he : u = t
        · subst he; rw [upd_same]; trivial
        · rw [upd_other _ _ he]; exact ht u
      · have := live_go hl (t := t) (pc' := .opened cur n) (by rw [hpc]; exact id) (by intro _ _ e; cases e)
        exact ⟨this.i1, this.i2⟩
    · exact inv_go h (fun p => by rw [hpc]; simp [holds]) ⟨h1, h2⟩ (by rw [hpc]; exact id) (by intro _ _ e; cases e)
  | marking lo k i =>
    rw [hpc] at hpt
    simp only [PInv] at hpt
    dsimp only
    split
    · next hi =>
      obtain ⟨hc, ht, hl⟩ := h
      have hown : holds (s.pc t) (lo + i) := by rw [hpc]; exact ⟨Nat.le_refl _, by omega⟩
      obtain ⟨hlt, hab⟩ := hc.owned t _ hown
      have hpub : s.pub ≤ lo + i := by
        rcases Nat.lt_or_ge (lo + i) s.pub with h' | h'
        · exact absurd hown ((hc.pubOk _ h').2.2 t)
        · exact h'
      have hholds : ∀ u p, holds (upd s.pc t (.marking lo k (i + 1)) u) p ↔ holds (s.pc u) p ∧ ¬ (u = t ∧ p = lo + i) := by
        intro u p
        by_cases he : u = t
        · subst he; rw [upd_same, hpc]; simp only [holds, true_and]; omega
        · rw [upd_other _ _ he]; simp [he]
      have hC : ∀ p, Complete { s.go t (.marking lo k (i + 1)) with slot := upd s.slot ((lo + i) % s.size) (some (lo + i)) } p ↔
          Complete s p ∨ p = lo + i := by
        intro p
        constructor
        · intro hp
          by_cases hpe : p = lo + i
          · exact Or.inr hpe
          · exact Or.inl ⟨hp.1, hp.2.1, fun u hu => hp.2.2 u ((hholds u p).2 ⟨hu, fun h => hpe h.2⟩)⟩
        · rintro (hp | rfl)
          · exact ⟨hp.1, hp.2.1, fun u hu => hp.2.2 u ((hholds u p).1 hu).1⟩
          · refine ⟨hlt, hab, fun u hu => ?_⟩
            obtain ⟨g1, g2⟩ := (hholds u _).1 hu
            by_cases he : u = t
            · exact g2 ⟨he, rfl⟩
            · exact hc.disj u t _ he g1 hown
      refine ⟨⟨hc.sz, hc.nr, hc.le, hc.win, hc.rwin, hc.cmin, ?_, ?_, ?_, ?_, ?_, hc.ab, hc.data, hc.valLt⟩, ?_, ?_⟩
      · intro x q hx
        have hx : upd s.slot ((lo + i) % s.size) (some (lo + i)) x = some q := hx
        by_cases he : x = (lo + i) % s.size
        · subst he; rw [upd_same] at hx; cases hx
          exact ⟨rfl, (hC _).2 (Or.inr rfl)⟩
        · rw [upd_other _ _ he] at hx
          exact ⟨(hc.slotOk x q hx).1, (hC q).2 (Or.inl (hc.slotOk x q hx).2)⟩
      · intro p hp hcp
        show upd s.slot ((lo + i) % s.size) (some (lo + i)) (p % s.size) = some p
        rcases (hC p).1 hcp with hcp | rfl
        · have hne : p ≠ lo + i := by rintro rfl; exact hcp.2.2 t hown
          rw [upd_other]
          · exact hc.marked p hp hcp
          · have hp : s.pub ≤ p := hp
            have := hcp.1
            have := hc.win
            rcases Nat.lt_or_gt_of_ne hne with h' | h'
            · exact mod_ne_of_window h' (by omega)
            · exact (mod_ne_of_window h' (by omega)).symm
        · exact upd_same _ _ _
      · intro p hp; exact (hC p).2 (Or.inl (hc.pubOk p hp))
      · intro t' u p hne h5 h6
        exact hc.disj t' u p hne ((hholds t' p).1 h5).1 ((hholds u p).1 h6).1
      · intro t' p h5; exact hc.owned t' p ((hholds t' p).1 h5).1
      · intro u
        refine PInv.mono (s := s) ?_ rfl rfl (Nat.le_refl _) (fun _ => Nat.le_refl _) (fun p hp => (hC p).2 (Or.inl hp))
        show PInv s (upd s.pc t (.marking lo k (i + 1)) u)
        by_cases he : u = t
        · subst he; rw [upd_same]; exact ⟨by omega, hpt.2⟩
        · rw [upd_other _ _ he]; exact ht u
      · have hat : Active { s.go t (.marking lo k (i + 1)) with slot := upd s.slot ((lo + i) % s.size) (some (lo + i)) } (upd s.pc t (.marking lo k (i + 1)) t) := by
          rw [upd_same]; trivial
        refine ⟨fun _ => ⟨t, hat⟩, fun u cur nxt hu _ _ => ⟨t, ?_, hat⟩⟩
        rintro rfl
        have hu : upd s.pc t (.marking lo k (i + 1)) t = .pubCas cur nxt := hu
        rw [upd_same] at hu; cases hu
    · next hi => exact inv_go h (fun p => by rw [hpc]; simp only [holds, false_iff]; omega) trivial (fun _ => trivial) (by intro _ _ e; cases e)
  | pubLoad =>
    dsimp only
    refine ⟨h.core.go (fun p => by rw [hpc]; simp [holds]), thr_go h.thr (fun p => by rw [hpc]; simp [holds]) ⟨Nat.le_refl _, Nat.le_refl _, fun p h1 h2 => by omega⟩, ?_⟩
    have hl := h.live
    have act : ∀ u, u ≠ t → Active s (s.pc u) → Active (s.go t (.scan s.pub s.pub)) ((s.go t (.scan s.pub s.pub)).pc u) := by
      intro u hu ha
      show Active s (upd s.pc t _ u)
      rw [upd_other _ _ hu]; exact ha
    have actt : s.slot (s.pub % s.size) = some s.pub → Active (s.go t (.scan s.pub s.pub)) ((s.go t (.scan s.pub s.pub)).pc t) := by
      intro hm
      show Active s (upd s.pc t _ t)
      rw [upd_same]; exact Or.inr hm
    refine ⟨fun hm => ⟨t, actt hm⟩, fun u cur nxt hu hc hm => ?_⟩
    have hu : upd s.pc t (.scan s.pub s.pub) u = .pubCas cur nxt := hu
    have hut : u ≠ t := by rintro rfl; rw [upd_same] at hu; cases hu
    rw [upd_other _ _ hut] at hu
    have hpu := h.thr u
    rw [hu] at hpu
    simp only [PInv] at hpu
    have hc : cur = s.pub := hc
    exact ⟨t, fun e => hut e.symm, actt (h.core.marked s.pub (Nat.le_refl _) (hpu.2.2 _ (by omega) (by omega)))⟩
  | scan cur nxt =>
    rw [hpc] at hpt
    simp only [PInv] at hpt
    obtain ⟨h1, h2, h3⟩ := hpt
    dsimp only
    split
    · next hsc =>
      refine inv_go h (fun p => by rw [hpc]; simp [holds]) ⟨by omega, h2, fun p g1 g2 => ?_⟩ (fun _ => Or.inl (by omega)) (by intro _ _ e; cases e)
      by_cases hpn : p = nxt
      · subst hpn; exact (h.core.slotOk _ _ hsc.2).2
      · exact h3 p g1 (by omega)
    · next hsc =>
      split
      · next hn =>
        subst hn
        refine inv_go h (fun p => by rw [hpc]; simp [holds]) trivial ?_ (by intro _ _ e; cases e)
        rw [hpc]
        intro ha
        rcases ha with ha | ha
        · omega
        · exact absurd ⟨by omega, ha⟩ hsc
      · next hn =>
        refine inv_go h (fun p => by rw [hpc]; simp [holds]) ⟨by omega, h2, h3⟩ (fun _ => trivial) ?_
        intro cur' nxt' e hcp hm
        cases e
        refine hsc ⟨?_, hm⟩
        have := (h.core.slotOk _ _ hm).2.1
        have := h.core.win
        omega
  | pubCas cur nxt =>
    rw [hpc] at hpt
    simp only [PInv] at hpt
    obtain ⟨h1, h2, h3⟩ := hpt
    dsimp only
    split
    · next hcur =>
      obtain ⟨hc, ht, hl⟩ := h
      have hh : ∀ p, holds (Pc.idle) p ↔ holds (s.pc t) p := fun p => by rw [hpc]; simp [holds]
      have hC := complete_go (s := s) (t := t) hh
      have hcg := hc.go hh
      have hlt : nxt ≤ s.reserve := by
        have := (h3 (nxt - 1) (by omega) (by omega)).1; omega
      refine ⟨⟨hc.sz, hc.nr, hlt, ?_, ?_, ?_, hcg.slotOk, ?_, ?_, hcg.disj, hcg.owned, hcg.ab, hcg.data, hcg.valLt⟩, ?_, ?_⟩
      · show s.reserve ≤ nxt + s.size; have := hc.win; omega
      · intro r hr; obtain ⟨g1, g2, g3⟩ := hc.rwin r hr
        exact ⟨by show s.cursor r ≤ nxt; omega, g2, g3⟩
      · show s.cachedMin ≤ nxt; have := hc.cmin; omega
      · intro p hp hcp
        have hp : nxt ≤ p := hp
        exact hc.marked p (by omega) ((hC p).1 hcp)
      · intro p hp
        have hp : p < nxt := hp
        refine (hC p).2 ?_
        rcases Nat.lt_or_ge p s.pub with h' | h'
        · exact hc.pubOk p h'
        · exact h3 p (by omega) hp
      · intro u
        refine PInv.mono (s := s) ?_ rfl rfl (by show s.pub ≤ nxt; omega) (fun _ => Nat.le_refl _) (fun p => (hC p).2)
        show PInv s (upd s.pc t .idle u)
        by_cases he : u = t
        · subst he; rw [upd_same]; trivial
        · rw [upd_other _ _ he]; exact ht u
      · refine ⟨fun hm => ?_, fun u cur' nxt' hu hcp hm => ?_⟩
        · have hm : s.slot (nxt % s.size) = some nxt := hm
          obtain ⟨v, hne, hv⟩ := hl.i2 t cur nxt hpc hcur.symm hm
          exact ⟨v, by show Active s (upd s.pc t .idle v); rw [upd_other _ _ hne]; exact hv⟩
        · have hu : upd s.pc t .idle u = .pubCas cur' nxt' := hu
          have hut : u ≠ t := by rintro rfl; rw [upd_same] at hu; cases hu
          rw [upd_other _ _ hut] at hu
          have hpu := ht u
          rw [hu] at hpu
          simp only [PInv] at hpu
          have hcp : cur' = nxt := hcp
          omega
    · exact inv_go h (fun p => by rw [hpc]; simp [holds]) trivial (fun _ => trivial) (by intro _ _ e; cases e)

theorem inv_step {size R : Nat} {s : St α} (hs : 0 < size) (h : Inv size R s) (a : Act α) : Inv size R (step s a) := by
  cases a with
  | tick t => exact inv_tick hs h t
  | call t n b =>
    simp only [step]
    split
    · next hpc =>
      split
      · next hn => exact inv_go h (fun p => by rw [hpc]; simp [holds]) hn (by rw [hpc]; exact id) (by intro _ _ e; cases e)
      · exact h
    · exact h
  | avail t =>
    simp only [step]
    split
    · next hpc => exact inv_go h (fun p => by rw [hpc]; simp [holds]) ⟨Nat.zero_le _, fun _ => rfl, fun m e => by cases e⟩ (by rw [hpc]; exact id) (by intro _ _ e; cases e)
    · exact h
  | write t j v =>
    simp only [step]
    split
    · next lo n hpc =>
      split
      · next hj =>
        obtain ⟨hc, ht, hl⟩ := h
        have hown : holds (s.pc t) (lo + j) := by rw [hpc]; exact ⟨by omega, by omega⟩
        obtain ⟨hlt, _⟩ := hc.owned t _ hown
        have hpub : s.pub ≤ lo + j := by
          rcases Nat.lt_or_ge (lo + j) s.pub with h' | h'
          · exact absurd hown ((hc.pubOk _ h').2.2 t)
          · exact h'
        refine ⟨⟨hc.sz, hc.nr, hc.le, hc.win, hc.rwin, hc.cmin, hc.slotOk, hc.marked, hc.pubOk, hc.disj, hc.owned, hc.ab, ?_, ?_⟩, fun u => ?_, ⟨hl.i1, hl.i2⟩⟩
        · intro p w hp hw
          have hp : upd s.val (lo + j) (some v) p = some w := hp
          have hw : s.reserve ≤ p + s.size := hw
          show upd s.mem ((lo + j) % s.size) v (p % s.size) = w
          by_cases he : p = lo + j
          · subst he; rw [upd_same] at hp; cases hp; exact upd_same _ _ _
          · rw [upd_other _ _ he] at hp
            have := hc.valLt p w hp
            have := hc.win
            rw [upd_other]
            · exact hc.data p w hp hw
            · rcases Nat.lt_or_gt_of_ne he with h' | h'
              · exact mod_ne_of_window h' (by omega)
              · exact (mod_ne_of_window h' (by omega)).symm
        · intro p w hp
          have hp : upd s.val (lo + j) (some v) p = some w := hp
          by_cases he : p = lo + j
          · subst he; exact hlt
          · rw [upd_other _ _ he] at hp; exact hc.valLt p w hp
        · exact (ht u).mono rfl rfl (Nat.le_refl _) (fun _ => Nat.le_refl _) (fun p hp => hp)
      · exact h
    · exact h
  | close t k =>
    simp only [step]
    split
    · next lo n hpc =>
      split
      · next hk =>
        obtain ⟨hc, ht, hl⟩ := h
        have hheld : ∀ p, lo ≤ p → p < lo + n → holds (s.pc t) p := fun p h1 h2 => by rw [hpc]; exact ⟨h1, h2⟩
        generalize hpc' : (if k = 0 then Pc.idle else .marking lo k 0) = pc'
        have hh : ∀ p, holds pc' p ↔ lo ≤ p ∧ p < lo + k := by
          intro p
          rw [← hpc']
          by_cases h0 : k = 0
          · simp only [h0, ↓reduceIte, holds, false_iff]; omega
          · simp only [h0, ↓reduceIte, holds]; omega
        have hholds : ∀ u p, holds (upd s.pc t pc' u) p ↔ (u ≠ t ∧ holds (s.pc u) p) ∨ (u = t ∧ lo ≤ p ∧ p < lo + k) := by
          intro u p
          by_cases he : u = t
          · subst he; rw [upd_same, hh]; simp
          · rw [upd_other _ _ he]; simp [he]
        have hC : ∀ p, Complete { s.go t pc' with aband := fun p => s.aband p || (decide (lo + k ≤ p) && decide (p < lo + n)) } p ↔ Complete s p := by
          intro p
          constructor
          · intro hp
            obtain ⟨g1, g2, g3⟩ := hp
            have g2 : (s.aband p || (decide (lo + k ≤ p) && decide (p < lo + n))) = false := g2
            simp only [Bool.or_eq_false_iff, Bool.and_eq_false_iff, decide_eq_false_iff_not] at g2
            refine ⟨g1, g2.1, fun u hu => ?_⟩
            by_cases he : u = t
            · subst he
              rw [hpc] at hu
              exact g3 u ((hholds u p).2 (Or.inr ⟨rfl, hu.1, by have := hu.2; omega⟩))
            · exact g3 u ((hholds u p).2 (Or.inl ⟨he, hu⟩))
          · intro hp
            have hnt : ¬ (lo ≤ p ∧ p < lo + n) := fun hx => hp.2.2 t (hheld p hx.1 hx.2)
            refine ⟨hp.1, ?_, fun u hu => ?_⟩
            · show (s.aband p || (decide (lo + k ≤ p) && decide (p < lo + n))) = false
              simp only [Bool.or_eq_false_iff, Bool.and_eq_false_iff, decide_eq_false_iff_not]
              exact ⟨hp.2.1, by omega⟩
            · rcases (hholds u p).1 hu with ⟨_, g⟩ | ⟨_, g⟩
              · exact hp.2.2 u g
              · omega
        refine ⟨⟨hc.sz, hc.nr, hc.le, hc.win, hc.rwin, hc.cmin, ?_, ?_, ?_, ?_, ?_, ?_, hc.data, hc.valLt⟩, ?_, ?_⟩
        · intro x q hx; exact ⟨(hc.slotOk x q hx).1, (hC q).2 (hc.slotOk x q hx).2⟩
        · intro p hp hcp; exact hc.marked p hp ((hC p).1 hcp)
        · intro p hp; exact (hC p).2 (hc.pubOk p hp)
        · intro t' u p hne h5 h6
          have tolt : ∀ w, holds (upd s.pc t pc' w) p → holds (s.pc w) p := by
            intro w hw
            rcases (hholds w p).1 hw with ⟨_, g⟩ | ⟨rfl, g⟩
            · exact g
            · exact hheld p g.1 (by omega)
          exact hc.disj t' u p hne (tolt t' h5) (tolt u h6)
        · intro t' p h5
          show _ ∧ (s.aband p || (decide (lo + k ≤ p) && decide (p < lo + n))) = false
          simp only [Bool.or_eq_false_iff, Bool.and_eq_false_iff, decide_eq_false_iff_not]
          rcases (hholds t' p).1 h5 with ⟨hne, g⟩ | ⟨rfl, g⟩
          · refine ⟨(hc.owned t' p g).1, (hc.owned t' p g).2, ?_⟩
            have : ¬ (lo ≤ p ∧ p < lo + n) := fun hx => hc.disj t' t p hne g (hheld p hx.1 hx.2)
            omega
          · have := hc.owned t' p (hheld p g.1 (by omega))
            exact ⟨this.1, this.2, by omega⟩
        · intro p hp
          have hp : (s.aband p || (decide (lo + k ≤ p) && decide (p < lo + n))) = true := hp
          simp only [Bool.or_eq_true, Bool.and_eq_true, decide_eq_true_eq] at hp
          rcases hp with hp | hp
          · exact hc.ab p hp
          · exact (hc.owned t p (hheld p (by omega) hp.2)).1
        · intro u
          refine PInv.mono (s := s) ?_ rfl rfl (Nat.le_refl _) (fun _ => Nat.le_refl _) (fun p => (hC p).2)
          show PInv s (upd s.pc t pc' u)
          by_cases he : u = t
          · subst he; rw [upd_same, ← hpc']
            by_cases h0 : k = 0
            · simp only [h0, ↓reduceIte]; trivial
            · simp only [h0, ↓reduceIte]; exact ⟨Nat.zero_le _, by omega⟩
          · rw [upd_other _ _ he]; exact ht u
        · have := live_go hl (t := t) (pc' := pc') (by rw [hpc]; exact fun x => x.elim) (by
            intro cur nxt e; rw [← hpc'] at e; split at e <;> cases e)
          exact ⟨this.i1, this.i2⟩
      · exact h
    · exact h
  | consume r k =>
    simp only [step]
    split
    · next hr =>
      obtain ⟨hc, ht, hl⟩ := h
      have hmono : ∀ x, s.cursor x ≤ upd s.cursor r (s.cursor r + k) x := by
        intro x
        by_cases he : x = r
        · subst he; rw [upd_same]; omega
        · rw [upd_other _ _ he]; exact Nat.le_refl _
      refine ⟨⟨hc.sz, hc.nr, hc.le, hc.win, ?_, hc.cmin, hc.slotOk, hc.marked, hc.pubOk, hc.disj, hc.owned, hc.ab, hc.data, hc.valLt⟩, fun u => ?_, ⟨hl.i1, hl.i2⟩⟩
      · intro x hx
        obtain ⟨g1, g2, g3⟩ := hc.rwin x hx
        have := hmono x
        refine ⟨?_, by show s.reserve ≤ upd s.cursor r (s.cursor r + k) x + s.size; omega, by show s.cachedMin ≤ upd s.cursor r (s.cursor r + k) x; omega⟩
        show upd s.cursor r (s.cursor r + k) x ≤ s.pub
        by_cases he : x = r
        · subst he; rw [upd_same]; omega
        · rw [upd_other _ _ he]; exact g1
      · exact (ht u).mono rfl rfl (Nat.le_refl _) hmono (fun p hp => hp)
    · exact h

theorem inv_reach {size R : Nat} {s : St α} (hs : 0 < size) (h : Reach size R s) : Inv size R s := by
  induction h with
  | init mem =>
    refine ⟨⟨rfl, rfl, Nat.le_refl _, Nat.zero_le _, fun r _ => ⟨Nat.le_refl _, Nat.zero_le _, Nat.le_refl _⟩, Nat.le_refl _, ?_, ?_, ?_, ?_, ?_, ?_, ?_, ?_⟩, ?_, ?_⟩
    · intro x q hx; cases hx
    · intro p _ hp; exact absurd hp.1 (Nat.not_lt_zero _)
    · intro p hp; exact absurd hp (Nat.not_lt_zero _)
    · intro t u p _ ht; exact ht.elim
    · intro t p ht; exact ht.elim
    · intro p hp; cases hp
    · intro p v hv; cases hv
    · intro p v hv; cases hv
    · intro t; trivial
    · exact ⟨fun hm => (by cases hm), fun u cur nxt hu => (by cases hu)⟩
  | step a _ ih => exact inv_step hs ih a

end Verif.RingMp
