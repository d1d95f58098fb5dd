import Verif.RingMp.Lemmas
/-!
# C03: several producers on one buffer

All theorems range over every reachable state: any number of threads, any interleaving of their atomic accesses, any buffer size.
-/
namespace Verif.RingMp
variable {α : Type} {size R : Nat} {s : St α}

/-- Two producers never hold positions that share a storage slot. -/
theorem claims_disjoint (hs : 0 < size) (h : Reach size R s) {t u p q : Nat} (hne : t ≠ u) (hp : holds (s.pc t) p) (hq : holds (s.pc u) q) :
    p % size ≠ q % size := by
  have hc := (inv_reach hs h).core
  have lo : ∀ w x, holds (s.pc w) x → s.pub ≤ x ∧ x < s.reserve := by
    intro w x hx
    refine ⟨?_, (hc.owned w x hx).1⟩
    rcases Nat.lt_or_ge x s.pub with h' | h'
    · exact absurd hx ((hc.pubOk _ h').2.2 w)
    · exact h'
  have h1 := lo t p hp
  have h2 := lo u q hq
  have hpq : p ≠ q := by rintro rfl; exact hc.disj t u p hne hp hq
  have hw := hc.win
  rw [hc.sz] at hw
  rcases Nat.lt_or_gt_of_ne hpq with h' | h'
  · exact mod_ne_of_window h' (by omega)
  · exact (mod_ne_of_window h' (by omega)).symm

/-- One producer's own positions are in distinct slots. -/
theorem claim_is_injective (hs : 0 < size) (h : Reach size R s) {t p q : Nat} (hne : p ≠ q) (hp : holds (s.pc t) p) (hq : holds (s.pc t) q) :
    p % size ≠ q % size := by
  have hc := (inv_reach hs h).core
  have lo : ∀ x, holds (s.pc t) x → s.pub ≤ x ∧ x < s.reserve := by
    intro x hx
    refine ⟨?_, (hc.owned t x hx).1⟩
    rcases Nat.lt_or_ge x s.pub with h' | h'
    · exact absurd hx ((hc.pubOk _ h').2.2 t)
    · exact h'
  have h1 := lo p hp
  have h2 := lo q hq
  have hw := hc.win
  rw [hc.sz] at hw
  rcases Nat.lt_or_gt_of_ne hne with h' | h'
  · exact mod_ne_of_window h' (by omega)
  · exact (mod_ne_of_window h' (by omega)).symm

/-- A held position never shares a slot with a sample some reader has not consumed. -/
theorem claim_disjoint_from_unread (hs : 0 < size) (h : Reach size R s) {t p r q : Nat} (hp : holds (s.pc t) p) (hr : r < R)
    (h1 : s.cursor r ≤ q) (h2 : q < s.pub) : p % size ≠ q % size := by
  have hc := (inv_reach hs h).core
  have hpp : s.pub ≤ p := by
    rcases Nat.lt_or_ge p s.pub with h' | h'
    · exact absurd hp ((hc.pubOk _ h').2.2 t)
    · exact h'
  have hlt := (hc.owned t p hp).1
  have hw := (hc.rwin r (hc.nr ▸ hr)).2.1
  rw [hc.sz] at hw
  exact (mod_ne_of_window (by omega : q < p) (by omega)).symm

/-- Everything readers may read has been claimed and completely published by its producer. -/
theorem readable_is_complete (hs : 0 < size) (h : Reach size R s) {p : Nat} (hp : p < s.pub) : Complete s p :=
  (inv_reach hs h).core.pubOk p hp

/-- The readable position never moves back and readers never pass it. -/
theorem pub_monotone (hs : 0 < size) (h : Reach size R s) (a : Act α) : s.pub ≤ (step s a).pub := by
  have hi := inv_reach hs h
  cases a with
  | tick t =>
    have ht := hi.thr t
    simp only [step, tick]
    cases hpc : s.pc t with
    | pubCas cur nxt =>
      rw [hpc] at ht
      simp only [PInv] at ht
      dsimp only
      split
      · show s.pub ≤ nxt; omega
      · exact Nat.le_refl _
    | _ => dsimp only; repeat (first | exact Nat.le_refl _ | split)
  | _ => simp only [step]; repeat (first | exact Nat.le_refl _ | split)

theorem reader_behind_published (hs : 0 < size) (h : Reach size R s) {r : Nat} (hr : r < R) : s.cursor r ≤ s.pub :=
  ((inv_reach hs h).core.rwin r ((inv_reach hs h).core.nr ▸ hr)).1

/-- A readable, unconsumed sample shows what its producer last wrote there. -/
theorem read_shows_written (hs : 0 < size) (h : Reach size R s) {r p : Nat} {v : α} (hr : r < R) (h1 : s.cursor r ≤ p) (_h2 : p < s.pub)
    (hv : s.val p = some v) : s.mem (p % size) = v := by
  have hc := (inv_reach hs h).core
  have hw := (hc.rwin r (hc.nr ▸ hr)).2.1
  have := hc.data p v hv (by omega)
  rwa [hc.sz] at this

/-- What is recorded as written at a position changes only by a write of the producer holding it, to the value written. -/
theorem written_only_by_holder (a : Act α) (p : Nat) (h : (step s a).val p ≠ s.val p) :
    ∃ t j v, a = .write t j v ∧ holds (s.pc t) p ∧ (step s a).val p = some v := by
  cases a with
  | write t j v =>
    simp only [step] at h ⊢
    split at h
    · next lo n hpc =>
      by_cases hj : j < n
      · rw [if_pos hj] at h
        rw [if_pos hj]
        dsimp only at h ⊢
        by_cases he : p = lo + j
        · subst he; exact ⟨t, j, v, rfl, by rw [hpc]; exact ⟨by omega, by omega⟩, upd_same _ _ _⟩
        · rw [upd_other _ _ he] at h; exact absurd rfl h
      · rw [if_neg hj] at h; exact absurd rfl h
    · exact absurd rfl h
  | tick t =>
    exfalso
    apply h
    simp only [step, tick]
    cases s.pc t <;> dsimp only <;> repeat (first | rfl | split)
  | _ =>
    exfalso
    apply h
    simp only [step]
    repeat (first | rfl | split)

/-- no thread is inside `publish`. -/
def NoPublishRunning (s : St α) : Prop := ∀ t,
  match s.pc t with
  | .marking _ _ _ | .pubLoad | .scan _ _ | .pubCas _ _ => False
  | _ => True

/-- Whenever no publish call is running, the readable position is exactly the first one not completed: readers see the longest
completed prefix, with no sample withheld. -/
theorem completed_prefix_visible (hs : 0 < size) (h : Reach size R s) (hq : NoPublishRunning s) : ¬ Complete s s.pub := by
  intro hc
  have hi := inv_reach hs h
  obtain ⟨u, hu⟩ := hi.live.i1 (hi.core.marked s.pub (Nat.le_refl _) hc)
  have := hq u
  revert this hu
  cases s.pc u <;> simp [Active]

/-- Once every claim is published in full and every producer is idle, everything claimed is visible. -/
theorem all_published_all_visible (hs : 0 < size) (h : Reach size R s) (hidle : ∀ t, s.pc t = .idle) (hfull : ∀ p, s.aband p = false) :
    s.pub = s.reserve := by
  have hi := inv_reach hs h
  have hn := completed_prefix_visible hs h (fun t => by rw [hidle t]; trivial)
  have hle := hi.core.le
  rcases Nat.lt_or_ge s.pub s.reserve with h' | h'
  · exact absurd ⟨h', hfull _, fun t => by rw [hidle t]; exact id⟩ hn
  · omega

/-- A successful claim hands out fresh positions directly after everything claimed before (no gaps, no overlap). -/
theorem claim_is_next (n cur : Nat) (b : Bool) (t : Nat) (hpc : s.pc t = .cas n cur b) :
    ((step s (.tick t)).reserve = s.reserve ∧ (step s (.tick t)).pc t = .load n b) ∨
    ((step s (.tick t)).reserve = s.reserve + n ∧ (step s (.tick t)).pc t = .opened s.reserve n) := by
  simp only [step, tick, hpc]
  by_cases hc : s.reserve = cur
  · right
    rw [if_pos hc]
    exact ⟨by show cur + n = _; omega, by rw [hc]; exact upd_same _ _ _⟩
  · left
    rw [if_neg hc]
    exact ⟨rfl, upd_same _ _ _⟩

/-- Positions released without being published stop the readable position for good. -/
theorem gap_is_permanent (hs : 0 < size) (h : Reach size R s) {p : Nat} (hp : s.aband p = true) : s.pub ≤ p := by
  rcases Nat.lt_or_ge p s.pub with h' | h'
  · have := ((inv_reach hs h).core.pubOk p h').2.1; rw [hp] at this; cases this
  · exact h'

/-! ### Progress of publish -/

def ticks : Nat → St α → Nat → St α
  | 0, s, _ => s
  | k + 1, s, t => ticks k (tick s t) t

theorem scan_finishes (fuel : Nat) : ∀ (s : St α) (t cur nxt : Nat), s.pc t = .scan cur nxt → s.pub = cur → cur ≤ nxt → s.size + cur - nxt ≤ fuel →
    ∃ k, k ≤ fuel + 2 ∧ (ticks k s t).pc t = .idle := by
  induction fuel with
  | zero =>
    intro s t cur nxt hpc hpub hle hf
    have h1 : tick s t = if nxt = cur then s.go t .idle else s.go t (.pubCas cur nxt) := by
      rw [tick, hpc]; dsimp only; rw [if_neg (fun h => by omega)]
    by_cases hn : nxt = cur
    · exact ⟨1, by omega, by show (tick s t).pc t = _; rw [h1, if_pos hn]; exact upd_same _ _ _⟩
    · refine ⟨2, by omega, ?_⟩
      show (tick (tick s t) t).pc t = _
      rw [h1, if_neg hn]
      have hp : (s.go t (.pubCas cur nxt)).pc t = .pubCas cur nxt := upd_same _ _ _
      rw [tick, hp]
      dsimp only
      rw [if_pos (show (s.go t (.pubCas cur nxt)).pub = cur from hpub)]
      exact upd_same _ _ _
  | succ f ih =>
    intro s t cur nxt hpc hpub hle hf
    by_cases hc : nxt - cur < s.size ∧ s.slot (nxt % s.size) = some nxt
    · have h1 : tick s t = s.go t (.scan cur (nxt + 1)) := by rw [tick, hpc]; dsimp only; rw [if_pos hc]
      obtain ⟨k, hk, h2⟩ := ih (s.go t (.scan cur (nxt + 1))) t cur (nxt + 1) (upd_same _ _ _) hpub (by omega) (by show s.size + cur - (nxt + 1) ≤ f; omega)
      exact ⟨k + 1, by omega, by show (ticks k (tick s t) t).pc t = _; rw [h1]; exact h2⟩
    · have h1 : tick s t = if nxt = cur then s.go t .idle else s.go t (.pubCas cur nxt) := by
        rw [tick, hpc]; dsimp only; rw [if_neg hc]
      by_cases hn : nxt = cur
      · exact ⟨1, by omega, by show (tick s t).pc t = _; rw [h1, if_pos hn]; exact upd_same _ _ _⟩
      · refine ⟨2, by omega, ?_⟩
        show (tick (tick s t) t).pc t = _
        rw [h1, if_neg hn]
        have hp : (s.go t (.pubCas cur nxt)).pc t = .pubCas cur nxt := upd_same _ _ _
        rw [tick, hp]
        dsimp only
        rw [if_pos (show (s.go t (.pubCas cur nxt)).pub = cur from hpub)]
        exact upd_same _ _ _

theorem marking_finishes (m : Nat) : ∀ (s : St α) (t lo k i : Nat), s.pc t = .marking lo k i → k - i ≤ m →
    ∃ j, j ≤ m + s.size + 4 ∧ (ticks j s t).pc t = .idle := by
  induction m with
  | zero =>
    intro s t lo k i hpc hm
    have h1 : tick s t = s.go t .pubLoad := by rw [tick, hpc]; dsimp only; rw [if_neg (by omega)]
    have h2 : tick (s.go t .pubLoad) t = (s.go t .pubLoad).go t (.scan s.pub s.pub) := by
      have hp : (s.go t .pubLoad).pc t = .pubLoad := upd_same _ _ _
      rw [tick, hp]; rfl
    obtain ⟨j, hj, h3⟩ := scan_finishes s.size ((s.go t .pubLoad).go t (.scan s.pub s.pub)) t s.pub s.pub (upd_same _ _ _) rfl (Nat.le_refl _) (by show s.size + s.pub - s.pub ≤ _; omega)
    exact ⟨j + 2, by omega, by show (ticks j (tick (tick s t) t) t).pc t = _; rw [h1, h2]; exact h3⟩
  | succ m ih =>
    intro s t lo k i hpc hm
    by_cases hi : i < k
    · have h1 : tick s t = { s.go t (.marking lo k (i + 1)) with slot := upd s.slot ((lo + i) % s.size) (some (lo + i)) } := by
        rw [tick, hpc]; dsimp only; rw [if_pos hi]
      obtain ⟨j, hj, h2⟩ := ih { s.go t (.marking lo k (i + 1)) with slot := upd s.slot ((lo + i) % s.size) (some (lo + i)) } t lo k (i + 1) (upd_same _ _ _) (by omega)
      exact ⟨j + 1, by have : j ≤ m + s.size + 4 := hj
                       omega, by show (ticks j (tick s t) t).pc t = _; rw [h1]; exact h2⟩
    · obtain ⟨j, hj, h2⟩ := (show ∃ j, j ≤ 0 + s.size + 4 ∧ (ticks j s t).pc t = .idle from by
        have h1 : tick s t = s.go t .pubLoad := by rw [tick, hpc]; dsimp only; rw [if_neg hi]
        have h2 : tick (s.go t .pubLoad) t = (s.go t .pubLoad).go t (.scan s.pub s.pub) := by
          have hp : (s.go t .pubLoad).pc t = .pubLoad := upd_same _ _ _
          rw [tick, hp]; rfl
        obtain ⟨j, hj, h3⟩ := scan_finishes s.size ((s.go t .pubLoad).go t (.scan s.pub s.pub)) t s.pub s.pub (upd_same _ _ _) rfl (Nat.le_refl _) (by show s.size + s.pub - s.pub ≤ _; omega)
        exact ⟨j + 2, by omega, by show (ticks j (tick (tick s t) t) t).pc t = _; rw [h1, h2]; exact h3⟩)
      exact ⟨j, by omega, h2⟩

/-- A publish call running undisturbed returns within `k + size + 4` of its own steps, from any state. -/
theorem publish_finishes_undisturbed (s : St α) (t lo k : Nat) (hpc : s.pc t = .marking lo k 0) :
    ∃ j, j ≤ k + s.size + 4 ∧ (ticks j s t).pc t = .idle :=
  marking_finishes k s t lo k 0 hpc (by omega)

/-! ### Without a reader nothing is ever reclaimed -/

structure NoReader (size : Nat) (s : St α) : Prop where
  cm : s.cachedMin = 0
  nr : s.nReaders = 0
  sz : s.size = size
  re : s.reserve ≤ size
  th : ∀ t, (∀ n cur i acc b, s.pc t = .fresh n cur i acc b → acc = none) ∧ (∀ i acc, s.pc t = .avail i acc → acc = none) ∧
    (∀ n cur b, s.pc t = .cas n cur b → cur + n ≤ size)

theorem NoReader.go {size : Nat} {s : St α} (h : NoReader size s) {t : Nat} {pc' : Pc}
    (h1 : (∀ n cur i acc b, pc' = .fresh n cur i acc b → acc = none) ∧ (∀ i acc, pc' = .avail i acc → acc = none) ∧
      (∀ n cur b, pc' = .cas n cur b → cur + n ≤ size)) : NoReader size (s.go t pc') := by
  refine ⟨h.cm, h.nr, h.sz, h.re, fun u => ?_⟩
  show (∀ n cur i acc b, upd s.pc t pc' u = .fresh n cur i acc b → acc = none) ∧ (∀ i acc, upd s.pc t pc' u = .avail i acc → acc = none) ∧
      (∀ n cur b, upd s.pc t pc' u = .cas n cur b → cur + n ≤ size)
  by_cases hu : u = t
  · subst hu; rw [upd_same]; exact h1
  · rw [upd_other _ _ hu]; exact h.th u

theorem noReader_tick {size : Nat} {s : St α} (h : NoReader size s) (t : Nat) : NoReader size (tick s t) := by
  have ht := h.th t
  unfold tick
  cases hpc : s.pc t with
  | idle => exact h
  | opened lo n => exact h
  | load n b => exact h.go ⟨by simp, by simp, by simp⟩
  | check n cur b =>
    dsimp only
    split
    · exact h.go ⟨by rintro _ _ _ _ _ ⟨⟩; rfl, by simp, by simp⟩
    · next hf =>
      have hf := tooFar_false (by simpa using hf)
      rw [h.cm, h.sz] at hf
      exact h.go ⟨by simp, by simp, by rintro _ _ _ ⟨⟩; omega⟩
  | fresh n cur i acc b =>
    have ha := ht.1 n cur i acc b hpc
    subst ha
    dsimp only
    rw [if_neg (by rw [h.nr]; exact Nat.not_lt_zero _)]
    have h' : NoReader size { s with cachedMin := 0 } := ⟨rfl, h.nr, h.sz, h.re, h.th⟩
    split
    · split
      · refine NoReader.go h' ?_; exact ⟨by simp, by simp, by simp⟩
      · refine NoReader.go h' ?_; exact ⟨by simp, by simp, by simp⟩
    · next hf =>
      have hf := tooFar_false (by simpa using hf)
      rw [h.sz] at hf
      refine NoReader.go h' ?_; exact ⟨by simp, by simp, by rintro _ _ _ ⟨⟩; omega⟩
  | cas n cur b =>
    have hb := ht.2.2 n cur b hpc
    dsimp only
    split
    · have := h.go (t := t) (pc' := .opened cur n) ⟨by simp, by simp, by simp⟩
      exact ⟨this.cm, this.nr, this.sz, hb, this.th⟩
    · exact h.go ⟨by simp, by simp, by simp⟩
  | avail i acc =>
    have ha := ht.2.1 i acc hpc
    subst ha
    dsimp only
    rw [h.nr, if_neg (Nat.not_lt_zero _)]
    have := h.go (t := t) (pc' := .idle) ⟨by simp, by simp, by simp⟩
    exact ⟨rfl, this.nr, this.sz, this.re, this.th⟩
  | marking lo k i =>
    dsimp only
    split
    · have := h.go (t := t) (pc' := .marking lo k (i + 1)) ⟨by simp, by simp, by simp⟩
      exact ⟨this.cm, this.nr, this.sz, this.re, this.th⟩
    · exact h.go ⟨by simp, by simp, by simp⟩
  | pubLoad => exact h.go ⟨by simp, by simp, by simp⟩
  | scan cur nxt =>
    dsimp only
    split
    · exact h.go ⟨by simp, by simp, by simp⟩
    · split
      · exact h.go ⟨by simp, by simp, by simp⟩
      · exact h.go ⟨by simp, by simp, by simp⟩
  | pubCas cur nxt =>
    dsimp only
    split
    · have := h.go (t := t) (pc' := .idle) ⟨by simp, by simp, by simp⟩
      exact ⟨this.cm, this.nr, this.sz, this.re, this.th⟩
    · exact h.go ⟨by simp, by simp, by simp⟩

/-- With no reader attached, at most `size` positions are ever handed out: producers block for good once the buffer was filled. -/
theorem without_reader_fills_up (h : Reach size 0 s) : s.reserve ≤ size := by
  suffices NoReader size s from this.re
  induction h with
  | init mem => exact ⟨rfl, rfl, rfl, Nat.zero_le _, fun t => ⟨by simp [St.init], by simp [St.init], by simp [St.init]⟩⟩
  | step a _ ih =>
    cases a with
    | tick t => exact noReader_tick ih t
    | call t n b =>
      simp only [step]
      split
      · split
        · exact ih.go ⟨by simp, by simp, by simp⟩
        · exact ih
      · exact ih
    | avail t =>
      simp only [step]
      split
      · exact ih.go ⟨by simp, by simp, by simp⟩
      · exact ih
    | write t j v =>
      simp only [step]
      split
      · split
        · exact ⟨ih.cm, ih.nr, ih.sz, ih.re, ih.th⟩
        · exact ih
      · exact ih
    | close t k =>
      simp only [step]
      split
      · split
        · next lo n _ _ =>
          have := ih.go (t := t) (pc' := if k = 0 then Pc.idle else .marking lo k 0) ⟨by split <;> simp, by split <;> simp, by split <;> simp⟩
          exact ⟨this.cm, this.nr, this.sz, this.re, this.th⟩
        · exact ih
      · exact ih
    | consume r k =>
      simp only [step]
      split
      · exact ⟨ih.cm, ih.nr, ih.sz, ih.re, ih.th⟩
      · exact ih

/-! ### Concrete executions -/

def run (s : St α) (as : List (Act α)) : St α := as.foldl step s

theorem run_reach (mem : Nat → α) (as : List (Act α)) : Reach size R (run (St.init size R mem) as) := by
  have : ∀ (as : List (Act α)) (s : St α), Reach size R s → Reach size R (run s as) := by
    intro as
    induction as with
    | nil => exact fun s h => h
    | cons a as ih => exact fun s h => ih _ (.step a h)
  exact this as _ (.init mem)

def tk (t k : Nat) : List (Act Nat) := List.replicate k (.tick t)

/-- Producer 0 claims two slots of a 4-slot buffer and writes; producer 1 claims one slot, writes and publishes first. -/
def demo : List (Act Nat) :=
  [.call 0 2 true] ++ tk 0 3 ++ [.call 1 1 false] ++ tk 1 3 ++
  [.write 0 0 10, .write 0 1 11, .write 1 0 12, .close 1 1] ++ tk 1 4

/-- both hold their claims, producer 1 has published its slot, nothing is readable yet -/
example : let s := run (St.init 4 1 fun _ => 0) demo
    s.pc 0 = .opened 0 2 ∧ s.pc 1 = .idle ∧ s.reserve = 3 ∧ s.pub = 0 := by decide

/-- after producer 0 publishes, all three samples become readable at once -/
example : let s := run (St.init 4 1 fun _ => 0) (demo ++ [.close 0 2] ++ tk 0 9)
    s.pc 0 = .idle ∧ s.pub = 3 ∧ s.reserve = 3 ∧ s.mem 0 = 10 ∧ s.mem 1 = 11 ∧ s.mem 2 = 12 ∧ s.val 2 = some 12 := by decide

/-- the hypotheses of `claims_disjoint` are met by two concurrent holders -/
example : let s := run (St.init 4 1 fun _ => 0) ([.call 0 2 true] ++ tk 0 3 ++ [.call 1 1 false] ++ tk 1 3)
    s.pc 0 = .opened 0 2 ∧ s.pc 1 = .opened 2 1 := by decide

/-- the compare-and-set of a slower producer fails and it claims behind the faster one -/
example : let s := run (St.init 4 1 fun _ => 0) ([.call 0 2 true] ++ tk 0 2 ++ [.call 1 1 false] ++ tk 1 3 ++ tk 0 4)
    s.pc 0 = .opened 1 2 ∧ s.pc 1 = .opened 0 1 := by decide

/-- a hand-over of the publish duty: producer 1 marks its slot between the last scan of producer 0 and its cursor update -/
example : let s := run (St.init 4 1 fun _ => 0) ([.call 0 1 true] ++ tk 0 3 ++ [.call 1 1 false] ++ tk 1 3 ++ [.close 0 1] ++ tk 0 5 ++ [.close 1 1] ++ tk 1 3 ++ tk 0 1 ++ tk 1 8)
    s.pc 0 = .idle ∧ s.pc 1 = .idle ∧ s.pub = 2 := by decide

/-- Publishing fewer samples than claimed leaves a gap: a later, completely published sample never becomes readable
(`gap_is_permanent`). -/
theorem partial_publish_blocks_readers : ∃ s : St Nat, Reach 4 1 s ∧ (∀ t, s.pc t = .idle) ∧ Complete s 2 ∧ s.aband 1 = true ∧ s.pub = 1 := by
  refine ⟨run (St.init 4 1 fun _ => 0) ([.call 0 2 true] ++ tk 0 3 ++ [.close 0 1] ++ tk 0 6 ++ [.call 1 1 true] ++ tk 1 3 ++ [.close 1 1] ++ tk 1 6),
    run_reach _ _, ?_, ?_, by decide, by decide⟩
  · have h0 : ∀ t, t ≠ 0 → t ≠ 1 → (run (St.init 4 1 fun _ => 0) ([.call 0 2 true] ++ tk 0 3 ++ [.close 0 1] ++ tk 0 6 ++ [.call 1 1 true] ++ tk 1 3 ++ [.close 1 1] ++ tk 1 6)).pc t = .idle := by
      intro t h0 h1
      simp [run, tk, step, tick, St.init, St.go, upd, tooFar, h0, h1, List.replicate]
    intro t
    by_cases h : t = 0
    · subst h; decide
    · by_cases h' : t = 1
      · subst h'; decide
      · exact h0 t h h'
  · refine ⟨by decide, by decide, fun t => ?_⟩
    by_cases h : t = 0
    · subst h; exact fun h => by revert h; simp [run, tk, step, tick, St.init, St.go, upd, tooFar, holds, List.replicate]
    · by_cases h' : t = 1
      · subst h'; exact fun h => by revert h; simp [run, tk, step, tick, St.init, St.go, upd, tooFar, holds, List.replicate]
      · simp [run, tk, step, tick, St.init, St.go, upd, tooFar, holds, h, h', List.replicate]

/-- A non-blocking claim can be refused although the buffer is completely free: the wrapped difference of a stale reserve cursor
and a newer reader position looks like a full buffer. -/
theorem try_claim_refused_on_empty_buffer : ∃ s : St Nat, Reach 4 1 s ∧ s.pc 0 = .fresh 1 0 1 (some 4) false ∧
    s.reserve = 4 ∧ s.pub = 4 ∧ s.cursor 0 = 4 ∧ (step s (.tick 0)).pc 0 = .idle ∧ (step s (.tick 0)).reserve = 4 :=
  ⟨run (St.init 4 1 fun _ => 0) ([.call 0 1 false] ++ tk 0 1 ++ [.call 1 4 true] ++ tk 1 3 ++ [.close 1 4] ++ tk 1 12 ++ [.consume 0 4, .avail 1] ++ tk 1 2 ++ tk 0 2),
    run_reach _ _, by decide, by decide, by decide, by decide, by decide, by decide⟩

end Verif.RingMp
