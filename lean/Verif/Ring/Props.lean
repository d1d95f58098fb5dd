import Verif.Ring.Lemmas
/-!
# Properties of the single-producer `CircularBuffer` (C01, C02, C04, parts of C05, C06, C07)

`Reach size mmap s` ranges over every schedule of the producer's and all readers' atomic steps, with readers created and
destroyed at any time.
-/
namespace Verif.Ring
variable {α : Type} {size : Nat} {mmap : Bool} {s : Ring α}

/-! ## C01 -/

/-- **C01** What a reader has consumed is exactly the piece of the published stream from the position at which it was attached
up to its current position: every sample once, in order, unmodified. -/
theorem delivered_once_in_order (hs : 0 < size) (hs64 : size < 2 ^ 64) (h : Reach size mmap s) (i : Nat) (rd : RState α)
    (hi : s.readers[i]? = some rd) : rd.recv = (s.log.drop rd.start).take (rd.cursor - rd.start) ∧ rd.recv.length = rd.cursor - rd.start := by
  have hI := inv_reach hs hs64 h
  obtain ⟨a1, a2, a3, _⟩ := hI.rdr i rd hi
  have hlen := hI.len
  exact ⟨a3, by rw [a3]; simp; omega⟩

/-- **C01** Every span a reader can hold shows the next published samples. -/
theorem span_shows_published (hs : 0 < size) (hs64 : size < 2 ^ 64) (h : Reach size mmap s) (i : Nat) (rd : RState α)
    (hi : s.readers[i]? = some rd) (ha : rd.attached) (n : Nat) (hn : n ≤ s.pub - rd.cursor) :
    s.view rd.cursor n = (s.log.drop rd.cursor).take n := by
  have hI := inv_reach hs hs64 h
  have hlen := hI.len
  obtain ⟨a1, a2, a3, _⟩ := hI.rdr i rd hi
  refine List.ext_getElem (by simp [Ring.view]; omega) ?_
  intro j hj1 hj2
  simp [Ring.view] at hj1
  simp only [Ring.view, List.getElem_map, List.getElem_range, List.getElem_take, List.getElem_drop]
  exact view_eq hs hI hi ha (by omega)

/-- **C01** A write through the open span changes that element of the span and no other. -/
theorem write_exact (hs : 0 < size) (hs64 : size < 2 ^ 64) (h : Reach size mmap s) (n : Nat) (hw : s.wpc = .opened n) (j : Nat)
    (hj : j < n) (v : α) : (step s (.write j v)).window n = (s.window n).set j v := by
  have hI := inv_reach hs hs64 h
  have hwi := hI.w
  simp only [WInv, hw] at hwi
  obtain ⟨e1, e2, e3⟩ := hwi
  have hs' : 0 < s.size := hI.sz ▸ hs
  simp only [step, hw, hj, ↓reduceIte]
  refine List.ext_getElem (by simp [Ring.window]) ?_
  intro l hl1 hl2
  simp [Ring.window] at hl1
  rw [List.getElem_set]
  simp only [Ring.window, List.getElem_map, List.getElem_range, Ring.cell, Ring.poke]
  by_cases hjl : j = l
  · subst hjl; simp
  · rw [if_neg, if_neg hjl]
    obtain ⟨u, hu⟩ := phys_cell (mmap := s.mmap) (c := s.pub) hs' (by omega : l < s.size)
    obtain ⟨u', hu'⟩ := phys_cell (mmap := s.mmap) (c := s.pub) hs' (by omega : j < s.size)
    rw [e3, hu, hu']
    apply slotAddr_ne hs'
    rcases Nat.lt_or_gt_of_ne hjl with h' | h'
    · exact (mod_ne_of_window (by omega) (by omega)).symm
    · exact mod_ne_of_window (by omega) (by omega)

/-- **C01** Nothing a reader does changes what the producer has written, published or released. -/
theorem reader_does_not_disturb (a : Act α) (ha : isProducer a = false) :
    (∀ n, (step s a).window n = s.window n) ∧ (step s a).data = s.data ∧ (step s a).log = s.log ∧ (step s a).wpc = s.wpc ∧
      (step s a).pub = s.pub := by
  cases a with
  | attach => exact ⟨fun _ => rfl, rfl, rfl, rfl, rfl⟩
  | detach r => simp only [step]; split <;> exact ⟨fun _ => rfl, rfl, rfl, rfl, rfl⟩
  | get r req => simp only [step]; split <;> (try split) <;> (try split) <;> (try split) <;> exact ⟨fun _ => rfl, rfl, rfl, rfl, rfl⟩
  | release r k => simp only [step]; split <;> (try split) <;> exact ⟨fun _ => rfl, rfl, rfl, rfl, rfl⟩
  | _ => simp [isProducer] at ha

/-- **C01, C05** Releasing a span of `n` with `k` samples to publish: until the publishing step, whatever else happens, the
pending data stays the first `k` samples of the span and the stream is unchanged. -/
theorem pending_stable (hc : Closing s.wpc) (a : Act α) (ha : a ≠ .publish) :
    (step s a).data = s.data ∧ (step s a).log = s.log ∧ (step s a).pub = s.pub ∧ Closing (step s a).wpc := by
  by_cases hp : isProducer a = false
  · obtain ⟨_, h2, h3, h4, h5⟩ := reader_does_not_disturb (s := s) a hp
    exact ⟨h2, h3, h5, h4 ▸ hc⟩
  · cases hw : s.wpc <;> rw [hw] at hc <;> simp only [Closing] at hc <;> cases a <;> simp only [isProducer, not_true_eq_false, reduceCtorEq, not_false_eq_true] at hp <;>
      simp only [step, hw] <;> (try split) <;> (try split) <;> simp_all [Closing, Ring.poke]

/-- **C01, C05** The publishing step appends exactly the pending samples, and moves the published position by their number. -/
theorem publish_appends (hs : 0 < size) (hs64 : size < 2 ^ 64) (h : Reach size mmap s) (k : Nat) (hw : s.wpc = .publishing k) :
    (step s .publish).log = s.log ++ s.data ∧ (step s .publish).pub = s.pub + k ∧ s.data.length = k ∧ (step s .publish).wpc = .idle := by
  have hI := inv_reach hs hs64 h
  have hwi := hI.w
  simp only [WInv, hw] at hwi
  simp only [step, hw, hI.off]
  exact ⟨trivial, trivial, hwi.2.2.1, trivial⟩

/-- **C01, C05** Released with `k`, a span of `n` leaves exactly its first `k` samples to publish. -/
theorem close_takes_prefix (n k : Nat) (hw : s.wpc = .opened n) (hk : k ≤ n) :
    (step s (.close k)).data = (s.window n).take k ∧ Closing (step s (.close k)).wpc := by
  simp only [step, hw, hk, ↓reduceIte, Closing, and_true]
  rw [Ring.window, ← List.map_take, List.take_range, Nat.min_eq_left hk]

/-- The producer's release always completes: mirroring `k` samples takes at most `k + 2` steps. -/
theorem release_completes (k : Nat) : ∀ (s : Ring α), s.wpc = .mirrorA k 0 → ∃ m, m ≤ k + 2 ∧ (run s (List.replicate m .mirror)).wpc = .publishing k := by
  intro s hw
  have run_add : ∀ (s : Ring α) (a b : Nat), run s (List.replicate (a + b) .mirror) = run (run s (List.replicate a .mirror)) (List.replicate b .mirror) := by
    intro s a b
    simp only [run, ← List.replicate_append_replicate, List.foldl_append]
  have run_one : ∀ s : Ring α, run s (List.replicate 1 .mirror) = step s .mirror := fun _ => rfl
  cases hm : s.mmap
  · have stA : ∀ d (s : Ring α) i, s.mmap = false → s.wpc = .mirrorA k i → min (s.size - s.index) k - i = d →
        ∃ t, t = run s (List.replicate (d + 1) .mirror) ∧ t.wpc = .mirrorB k 0 ∧ t.size = s.size ∧ t.index = s.index := by
      intro d
      induction d with
      | zero =>
        intro s i hm hw hd
        refine ⟨_, rfl, ?_⟩
        rw [show 0 + 1 = 1 from rfl, run_one]
        simp only [step, hw, hm, Bool.false_eq_true, ↓reduceIte]
        rw [if_neg (by omega)]
        exact ⟨rfl, rfl, rfl⟩
      | succ d ih =>
        intro s i hm hw hd
        have hst : step s .mirror = { s.poke (s.index + s.size + i) (s.mem (s.index + i)) with wpc := .mirrorA k (i + 1) } := by
          simp only [step, hw, hm, Bool.false_eq_true, ↓reduceIte]
          rw [if_pos (by omega)]
        obtain ⟨t, ht, h1, h2, h3⟩ := ih (step s .mirror) (i + 1) (by rw [hst]; exact hm) (by rw [hst]) (by rw [hst]; show min (s.size - s.index) k - (i + 1) = d; omega)
        refine ⟨t, ?_, h1, by rw [h2, hst]; rfl, by rw [h3, hst]; rfl⟩
        rw [show d + 1 + 1 = 1 + (d + 1) by omega, run_add, run_one, ht]
    have stB : ∀ d (s : Ring α) i, s.wpc = .mirrorB k i → k - min (s.size - s.index) k - i = d →
        (run s (List.replicate (d + 1) .mirror)).wpc = .publishing k := by
      intro d
      induction d with
      | zero =>
        intro s i hw hd
        rw [show 0 + 1 = 1 from rfl, run_one]
        simp only [step, hw]
        rw [if_neg (by omega)]
      | succ d ih =>
        intro s i hw hd
        rw [show d + 1 + 1 = 1 + (d + 1) by omega, run_add, run_one]
        have hst : step s .mirror = { s.poke i (s.mem (s.size + i)) with wpc := .mirrorB k (i + 1) } := by
          simp only [step, hw]
          rw [if_pos (by omega)]
        refine ih _ (i + 1) (by rw [hst]) ?_
        rw [hst]; show k - min (s.size - s.index) k - (i + 1) = d; omega
    obtain ⟨t, ht, h1, h2, h3⟩ := stA _ s 0 hm hw rfl
    refine ⟨(min (s.size - s.index) k - 0 + 1) + (k - min (t.size - t.index) k - 0 + 1), ?_, ?_⟩
    · rw [h2, h3]; omega
    · rw [run_add, ← ht]; exact stB _ t 0 h1 rfl
  · refine ⟨1, by omega, ?_⟩
    rw [run_one]; simp only [step, hw, hm, ↓reduceIte]

/-! ## C02 -/

/-- **C02** While the producer holds a span, none of its slots is a cell (in either half of the storage) of a published sample
some attached reader has not consumed. -/
theorem reserved_disjoint_from_unread (hs : 0 < size) (hs64 : size < 2 ^ 64) (h : Reach size mmap s) (n : Nat) (hw : s.wpc = .opened n)
    (i : Nat) (rd : RState α) (hi : s.readers[i]? = some rd) (ha : rd.attached) (p : Nat) (h1 : rd.cursor ≤ p) (h2 : p < s.pub)
    (j : Nat) (hj : j < n) (u : Bool) : phys s.mmap s.size (s.index + j) ≠ slotAddr s.mmap s.size p u := by
  have hI := inv_reach hs hs64 h
  have hwi := hI.w
  simp only [WInv, hw] at hwi
  obtain ⟨e1, e2, e3⟩ := hwi
  have hs' : 0 < s.size := hI.sz ▸ hs
  have := hI.win i rd hi ha
  obtain ⟨u', hu⟩ := phys_cell (mmap := s.mmap) (c := s.pub) hs' (by omega : j < s.size)
  rw [e3, hu]
  exact slotAddr_ne hs' (mod_ne_of_window (by omega) (by omega)).symm _ _

/-- **C02** Published-but-unread plus reserved samples never exceed the buffer size. -/
theorem unread_plus_reserved_le_size (hs : 0 < size) (hs64 : size < 2 ^ 64) (h : Reach size mmap s) (i : Nat) (rd : RState α)
    (hi : s.readers[i]? = some rd) (ha : rd.attached) : (s.pub - rd.cursor) + (s.reserve - s.pub) ≤ size := by
  have hI := inv_reach hs hs64 h
  have h1 := hI.win i rd hi ha
  have h2 := (hI.rdr i rd hi).2.1
  have h3 := hI.sz
  have : s.pub ≤ s.reserve := by
    have := hI.w
    unfold WInv at this
    split at this <;> omega
  omega

/-- **C02** No step of anybody — a write, a mirror copy, a later reservation — changes a cell of a sample that an attached
reader has not consumed. -/
theorem unread_never_overwritten (hs : 0 < size) (hs64 : size < 2 ^ 64) (h : Reach size mmap s) (a : Act α)
    (i : Nat) (rd : RState α) (hi : s.readers[i]? = some rd) (ha : rd.attached) (p : Nat) (h1 : rd.cursor ≤ p) (h2 : p < s.pub) (u : Bool) :
    (step s a).mem (slotAddr s.mmap s.size p u) = s.mem (slotAddr s.mmap s.size p u) := by
  have hI := inv_reach hs hs64 h
  have hI' := inv_step hs hs64 hI a
  have hlen := hI.len
  by_cases hr : (step s a).readers = s.readers
  · have hlog : (step s a).log = s.log ∨ (step s a).log = s.log ++ s.data := by
      cases a <;> simp only [step] <;> (repeat' split) <;> simp [Ring.poke]
    have hp : p < s.log.length := by omega
    have e1 := hI.keep i rd hi ha p hp h1 u
    have e2 := hI'.keep i rd (hr ▸ hi) ha p (by rcases hlog with h | h <;> rw [h] <;> (try rw [List.length_append]) <;> omega) h1 u
    rw [hI'.sz, ← hI.sz, hI'.mm, ← hI.mm] at e2
    rw [e1, e2]
    rcases hlog with h | h
    · simp only [h]
    · simp only [h]; rw [List.getElem_append_left hp]
  · have : (step s a).mem = s.mem := by
      cases a <;> simp only [step] at hr ⊢ <;> (repeat' split) <;> first | rfl | (exfalso; apply hr; (repeat' split) <;> first | rfl | simp_all [Ring.poke])
    rw [this]

/-! ## C04 -/

/-- **C04** For every sample an attached reader may still read, the two copies of its position agree and hold that sample. -/
theorem copies_agree (hs : 0 < size) (hs64 : size < 2 ^ 64) (h : Reach size mmap s) (i : Nat) (rd : RState α)
    (hi : s.readers[i]? = some rd) (ha : rd.attached) (p : Nat) (h1 : rd.cursor ≤ p) (h2 : p < s.log.length) (u : Bool) :
    s.mem (slotAddr s.mmap s.size p u) = s.log[p] :=
  (inv_reach hs hs64 h).keep i rd hi ha p h2 h1 u

/-- **C04** A reader's span and the producer's span lie inside the allocated storage (twice the size, in addresses before
mapping), also when they cross the end of the ring. -/
theorem spans_inside_storage (hs : 0 < size) (hs64 : size < 2 ^ 64) (h : Reach size mmap s) :
    (∀ (i : Nat) (rd : RState α), s.readers[i]? = some rd → rd.attached → calcIndex s.size rd.cursor + (s.pub - rd.cursor) < 2 * size) ∧
    (∀ n, s.wpc = .opened n → s.index + n < 2 * size) := by
  have hI := inv_reach hs hs64 h
  have hsz := hI.sz
  refine ⟨?_, ?_⟩
  · intro i rd hi ha
    have := unread_plus_reserved_le_size hs hs64 h i rd hi ha
    have := Nat.mod_lt rd.cursor (hsz ▸ hs : 0 < s.size)
    rw [calcIndex_eq]; omega
  · intro n hw
    have hwi := hI.w
    simp only [WInv, hw] at hwi
    have := Nat.mod_lt s.pub (hsz ▸ hs : 0 < s.size)
    omega

/-! ## C06 -/

/-- **C06** No reader is ever past the published position, nor does any span it holds reach past it. -/
theorem reader_behind_published (hs : 0 < size) (hs64 : size < 2 ^ 64) (h : Reach size mmap s) (i : Nat) (rd : RState α)
    (hi : s.readers[i]? = some rd) : rd.cursor ≤ s.pub ∧ ∀ n, rd.span = some n → rd.cursor + n ≤ s.pub :=
  ⟨((inv_reach hs hs64 h).rdr i rd hi).2.1, ((inv_reach hs hs64 h).rdr i rd hi).2.2.2⟩

/-- **C06** A reader's position never moves backwards, whatever anybody does. -/
theorem reader_monotone (hs : 0 < size) (hs64 : size < 2 ^ 64) (_h : Reach size mmap s) (a : Act α) (i : Nat) (rd : RState α)
    (hi : s.readers[i]? = some rd) : ∃ rd', (step s a).readers[i]? = some rd' ∧ rd.cursor ≤ rd'.cursor := by
  have same : ∀ t : Ring α, t.readers = s.readers → ∃ rd', t.readers[i]? = some rd' ∧ rd.cursor ≤ rd'.cursor :=
    fun t e => ⟨rd, by rw [e]; exact hi, Nat.le_refl _⟩
  cases a with
  | attach =>
    refine ⟨rd, ?_, Nat.le_refl _⟩
    simp only [step]
    rw [List.getElem?_append_left]; exact hi
    rcases Nat.lt_or_ge i s.readers.length with h | h
    · exact h
    · rw [List.getElem?_eq_none h] at hi; cases hi
  | detach r =>
    simp only [step]; split
    · next hr => refine set_keep hr ?_ i rd hi; exact Nat.le_refl _
    · exact same _ rfl
  | get r req =>
    simp only [step]; split
    · next hr =>
      split
      · split
        · refine set_keep hr ?_ i rd hi; exact Nat.le_refl _
        · split
          · refine set_keep hr ?_ i rd hi; exact Nat.le_refl _
          · exact same _ rfl
      · exact same _ rfl
    · exact same _ rfl
  | release r k =>
    simp only [step]; split
    · next hr =>
      split
      · refine set_keep hr ?_ i rd hi; dsimp only; omega
      · exact same _ rfl
    · exact same _ rfl
  | _ => exact same _ (by simp only [step]; (repeat' split) <;> rfl)

/-! ## C07 -/

/-- **C07** With a reader attached, the free space the buffer reports — computed with 64-bit wrap-around arithmetic — is the
true one: size minus published-but-unread minus reserved, counted to the slowest reader; never more than the size. -/
theorem capacity_truthful (hs : 0 < size) (hs64 : size < 2 ^ 64) (h : Reach size mmap s) (i : Nat) (rd : RState α)
    (hi : s.readers[i]? = some rd) (ha : rd.attached)
    (hmin : ∀ (j : Nat) (rd' : RState α), s.readers[j]? = some rd' → rd'.attached → rd.cursor ≤ rd'.cursor) :
    capacity s.size s.reserve rd.cursor = size - (s.reserve - rd.cursor) ∧ capacity s.size s.reserve rd.cursor ≤ size ∧
      ∀ (j : Nat) (rd' : RState α), s.readers[j]? = some rd' → rd'.attached →
        s.reserve + capacity s.size s.reserve rd.cursor ≤ rd'.cursor + size := by
  have hI := inv_reach hs hs64 h
  have h1 := hI.win i rd hi ha
  have h2 := (hI.rdr i rd hi).2.1
  have h3 := hI.sz
  have : s.pub ≤ s.reserve := by
    have := hI.w
    unfold WInv at this
    split at this <;> omega
  have e := capacity_eq (h3 ▸ hs64) (by omega : rd.cursor ≤ s.reserve) h1
  rw [e, h3]
  refine ⟨rfl, by omega, ?_⟩
  intro j rd' hj ha'
  have := hmin j rd' hj ha'
  omega

/-- running the loads of `getMinReaderCursor` alone. -/
theorem run_loads (s : Ring α) (n : Nat) (b : Bool) : ∀ (todo : List Nat) (acc : Option Nat) (t : Ring α), t.readers = s.readers → t.size = s.size →
    t.reserve = s.reserve → t.pub = s.pub → t.wpc = .loading n todo acc b → (∀ r ∈ todo, ∃ rd, s.readers[r]? = some rd) →
    ∃ acc' t', t' = run t (List.replicate todo.length .load) ∧ t'.wpc = .loading n [] acc' b ∧ t'.readers = s.readers ∧ t'.size = s.size ∧
      t'.reserve = s.reserve ∧ t'.pub = s.pub ∧ (acc' = none ↔ acc = none ∧ todo = []) ∧
      (∀ m, acc' = some m → (acc = some m ∨ ∃ r ∈ todo, ∃ rd, s.readers[r]? = some rd ∧ rd.cursor = m) ∧
        (∀ r ∈ todo, ∀ rd, s.readers[r]? = some rd → m ≤ rd.cursor) ∧ ∀ m0, acc = some m0 → m ≤ m0) := by
  intro todo
  induction todo with
  | nil =>
    intro acc t h1 h2 h3 h4 h5 _
    refine ⟨acc, t, rfl, h5, h1, h2, h3, h4, by simp, ?_⟩
    intro m hm
    exact ⟨Or.inl hm, fun r hr => by simp at hr, fun m0 h0 => by rw [hm] at h0; cases h0; exact Nat.le_refl _⟩
  | cons r todo ih =>
    intro acc t h1 h2 h3 h4 h5 hall
    obtain ⟨rd, hr⟩ := hall r List.mem_cons_self
    have hst : step t .load = { t with wpc := .loading n todo (some (minAcc acc rd.cursor)) b } := by
      simp only [step, h5, h1, hr]
    obtain ⟨acc', t', e0, e1, e2, e3, e4, e5, e6, e7⟩ := ih (some (minAcc acc rd.cursor)) (step t .load)
      (by rw [hst]; exact h1) (by rw [hst]; exact h2) (by rw [hst]; exact h3) (by rw [hst]; exact h4) (by rw [hst])
      (fun x hx => hall x (List.mem_cons_of_mem _ hx))
    refine ⟨acc', t', ?_, e1, e2, e3, e4, e5, ?_, ?_⟩
    · rw [e0]; rfl
    · simp only [reduceCtorEq, false_and, iff_false, and_false] at e6 ⊢; exact e6
    · intro m hm
      obtain ⟨f1, f2, f3⟩ := e7 m hm
      have f3 := f3 _ rfl
      refine ⟨?_, ?_, ?_⟩
      · rcases f1 with f1 | ⟨x, hx, rd', g1, g2⟩
        · cases acc with
          | none => simp [minAcc] at f1; exact Or.inr ⟨r, List.mem_cons_self, rd, hr, f1⟩
          | some m0 =>
            simp [minAcc] at f1
            rcases Nat.le_total m0 rd.cursor with hle | hle
            · left; rw [← f1, Nat.min_eq_left hle]
            · right; exact ⟨r, List.mem_cons_self, rd, hr, by rw [← f1, Nat.min_eq_right hle]⟩
        · exact Or.inr ⟨x, List.mem_cons_of_mem _ hx, rd', g1, g2⟩
      · intro x hx rd' hrd'
        rcases List.mem_cons.mp hx with rfl | hx
        · rw [hr] at hrd'; cases hrd'
          cases acc <;> simp [minAcc] at f3 <;> omega
        · exact f2 x hx rd' hrd'
      · intro m0 h0
        subst h0
        simp [minAcc] at f3; omega

/-- **C07** With at least one reader attached, a `tryReserve(n)` by the (single) producer that runs without a reader moving
in between succeeds exactly when `n` samples fit in front of every attached reader — no space is lost and none is invented. -/
theorem try_reserve_iff (hs : 0 < size) (hs64 : size < 2 ^ 64) (h : Reach size mmap s) (hidle : s.wpc = .idle) (n : Nat) (hn : 0 < n) (hn' : n ≤ size)
    (hsome : s.attachedIdx ≠ []) :
    (run s (.reserve n false :: List.replicate s.attachedIdx.length .load ++ [.claim])).wpc = .opened n ↔
      ∀ (i : Nat) (rd : RState α), s.readers[i]? = some rd → rd.attached → s.pub + n ≤ rd.cursor + size := by
  have hI := inv_reach hs hs64 h
  have hsz := hI.sz
  have hwi := hI.w
  simp only [WInv, hidle] at hwi
  have hst : step s (.reserve n false) = { s with wpc := .loading n s.attachedIdx none false } := by
    simp only [step, hidle]; rw [if_neg (by omega), if_pos (by omega)]
  have hall : ∀ r ∈ s.attachedIdx, ∃ rd, s.readers[r]? = some rd ∧ rd.attached := by
    intro r hr
    simp only [Ring.attachedIdx, List.mem_filter, List.mem_range] at hr
    obtain ⟨hlt, ha⟩ := hr
    have he : s.readers[r]? = some s.readers[r] := List.getElem?_eq_getElem hlt
    exact ⟨_, he, by simpa [he] using ha⟩
  obtain ⟨acc', t', e0, e1, e2, e3, e4, e5, e6, e7⟩ := run_loads s n false s.attachedIdx none (step s (.reserve n false))
    (by rw [hst]) (by rw [hst]) (by rw [hst]) (by rw [hst]) (by rw [hst]) (fun r hr => (hall r hr).imp fun _ h => h.1)
  have hrun : run s (.reserve n false :: List.replicate s.attachedIdx.length .load ++ [.claim]) = step t' .claim := by
    rw [e0]; simp only [run, List.cons_append, List.foldl_cons, List.foldl_append, List.foldl_nil]
  rw [hrun]
  cases acc' with
  | none => simp [hsome] at e6
  | some m =>
    obtain ⟨f1, f2, _⟩ := e7 m rfl
    obtain ⟨r, hr, rd, g1, g2⟩ : ∃ r ∈ s.attachedIdx, ∃ rd, s.readers[r]? = some rd ∧ rd.cursor = m := by
      rcases f1 with f1 | f1
      · cases f1
      · exact f1
    obtain ⟨rd', g1', ga⟩ := hall r hr
    rw [g1] at g1'; cases g1'
    have hw := hI.win r rd g1 ga
    have hle := (hI.rdr r rd g1).2.1
    have hcap : capacity t'.size t'.reserve ((some m : Option Nat).getD 0) = size - (s.pub - m) := by
      show capacity t'.size t'.reserve m = _
      rw [e3, e4, capacity_eq (by omega) (by omega) (by omega)]; omega
    simp only [step, e1, hcap]
    by_cases hfit : n ≤ size - (s.pub - m)
    · rw [if_pos hfit]
      simp only [true_iff]
      intro i rd' hi hat
      have : i ∈ s.attachedIdx := by
        have hlt : i < s.readers.length := by
          rcases Nat.lt_or_ge i s.readers.length with h | h
          · exact h
          · rw [List.getElem?_eq_none h] at hi; cases hi
        simp only [Ring.attachedIdx, List.mem_filter, List.mem_range]
        exact ⟨hlt, by simp [hi, hat]⟩
      have := f2 i this rd' hi
      omega
    · rw [if_neg hfit]
      simp only [Bool.false_eq_true, ↓reduceIte, reduceCtorEq, false_iff]
      intro hc
      have := hc r rd g1 ga
      omega

theorem minReader_spec (s : Ring α) : ∀ (l : List Nat) (acc : Option Nat), (∀ r ∈ l, ∃ rd, s.readers[r]? = some rd) →
    ∀ res, res = l.foldl (fun acc r => match s.readers[r]? with | some rd => some (minAcc acc rd.cursor) | none => acc) acc →
      (res = none ↔ acc = none ∧ l = []) ∧
      (∀ m, res = some m → (acc = some m ∨ ∃ r ∈ l, ∃ rd, s.readers[r]? = some rd ∧ rd.cursor = m) ∧
        (∀ r ∈ l, ∀ rd, s.readers[r]? = some rd → m ≤ rd.cursor) ∧ ∀ m0, acc = some m0 → m ≤ m0) := by
  intro l
  induction l with
  | nil =>
    intro acc _ res hres
    simp at hres
    subst hres
    exact ⟨by simp, fun m hm => ⟨Or.inl hm, fun r hr => by simp at hr, fun m0 h0 => by rw [hm] at h0; cases h0; exact Nat.le_refl _⟩⟩
  | cons r l ih =>
    intro acc hall res hres
    obtain ⟨rd, hr⟩ := hall r List.mem_cons_self
    simp only [List.foldl_cons, hr] at hres
    obtain ⟨e6, e7⟩ := ih (some (minAcc acc rd.cursor)) (fun x hx => hall x (List.mem_cons_of_mem _ hx)) res hres
    refine ⟨?_, ?_⟩
    · simp only [reduceCtorEq, false_and, iff_false, and_false] at e6 ⊢; exact e6
    · intro m hm
      obtain ⟨f1, f2, f3⟩ := e7 m hm
      have f3 := f3 _ rfl
      refine ⟨?_, ?_, ?_⟩
      · rcases f1 with f1 | ⟨x, hx, rd', g1, g2⟩
        · cases acc with
          | none => simp [minAcc] at f1; exact Or.inr ⟨r, List.mem_cons_self, rd, hr, f1⟩
          | some m0 =>
            simp [minAcc] at f1
            rcases Nat.le_total m0 rd.cursor with hle | hle
            · left; rw [← f1, Nat.min_eq_left hle]
            · right; exact ⟨r, List.mem_cons_self, rd, hr, by rw [← f1, Nat.min_eq_right hle]⟩
        · exact Or.inr ⟨x, List.mem_cons_of_mem _ hx, rd', g1, g2⟩
      · intro x hx rd' hrd'
        rcases List.mem_cons.mp hx with rfl | hx
        · rw [hr] at hrd'; cases hrd'
          cases acc <;> simp [minAcc] at f3 <;> omega
        · exact f2 x hx rd' hrd'
      · intro m0 h0
        subst h0
        simp [minAcc] at f3; omega

/-- **C07** With at least one reader attached, `Writer::available()` is the number of samples that fit in front of every
attached reader (beyond what is already reserved), and never more than the size. -/
theorem available_truthful (hs : 0 < size) (hs64 : size < 2 ^ 64) (h : Reach size mmap s) (hsome : s.attachedIdx ≠ []) :
    s.available ≤ size ∧ ∀ n, n ≤ s.available ↔
      ∀ (i : Nat) (rd : RState α), s.readers[i]? = some rd → rd.attached → s.reserve + n ≤ rd.cursor + size := by
  have hI := inv_reach hs hs64 h
  have hall : ∀ r ∈ s.attachedIdx, ∃ rd, s.readers[r]? = some rd ∧ rd.attached := by
    intro r hr
    simp only [Ring.attachedIdx, List.mem_filter, List.mem_range] at hr
    obtain ⟨hlt, ha⟩ := hr
    have he : s.readers[r]? = some s.readers[r] := List.getElem?_eq_getElem hlt
    exact ⟨_, he, by simpa [he] using ha⟩
  have hidx : ∀ (i : Nat) (rd : RState α), s.readers[i]? = some rd → rd.attached → i ∈ s.attachedIdx := by
    intro i rd hi hat
    have hlt : i < s.readers.length := by
      rcases Nat.lt_or_ge i s.readers.length with h | h
      · exact h
      · rw [List.getElem?_eq_none h] at hi; cases hi
    simp only [Ring.attachedIdx, List.mem_filter, List.mem_range]
    exact ⟨hlt, by simp [hi, hat]⟩
  obtain ⟨e6, e7⟩ := minReader_spec s s.attachedIdx none (fun r hr => (hall r hr).imp fun _ h => h.1) s.minReader rfl
  cases hm : s.minReader with
  | none => rw [hm] at e6; simp [hsome] at e6
  | some m =>
    obtain ⟨f1, f2, _⟩ := e7 m hm
    obtain ⟨r, hr, rd, g1, g2⟩ : ∃ r ∈ s.attachedIdx, ∃ rd, s.readers[r]? = some rd ∧ rd.cursor = m := by
      rcases f1 with f1 | f1
      · cases f1
      · exact f1
    obtain ⟨rd', g1', ga⟩ := hall r hr
    rw [g1] at g1'; cases g1'
    have hc := capacity_truthful hs hs64 h r rd g1 ga (fun j rd' hj ha' => by rw [g2]; exact f2 j (hidx j rd' hj ha') rd' hj)
    have hav : s.available = capacity s.size s.reserve rd.cursor := by simp [Ring.available, hm, g2]
    have hw := hI.win r rd g1 ga
    have hsz := hI.sz
    rw [hav]
    refine ⟨hc.2.1, fun n => ⟨fun hn i rd' hi ha' => ?_, fun hn => ?_⟩⟩
    · have := hc.2.2 i rd' hi ha'; omega
    · have := hn r rd g1 ga
      have h2 := (hI.rdr r rd g1).2.1
      have : s.pub ≤ s.reserve := by
        have := hI.w
        unfold WInv at this
        split at this <;> omega
      rw [hc.1]; omega

/-! ## A concrete execution

Size 3, storage kept twice, one reader from the start and one attached later, the second span crosses the end of the ring. -/

/-- one complete write of `xs`, publishing the first `k` of them. -/
def push (readers : Nat) (xs : List Nat) (k : Nat) : List (Act Nat) :=
  .reserve xs.length false :: List.replicate readers .load ++ [.claim] ++ (List.range xs.length).map (fun j => .write j (xs.getD j 0)) ++
    [.close k] ++ List.replicate (k + 2) .mirror ++ [.publish]

def demo : List (Act Nat) :=
  .attach :: push 1 [10, 11] 2 ++ [.get 0 none, .release 0 1, .attach] ++ push 2 [20, 21] 2 ++ [.get 0 none, .get 1 (some 1), .release 0 3, .release 1 1]

theorem demo_reach {as : List (Act α)} {mem : Nat → α} : Reach size mmap (run (Ring.init size mmap mem) as) := by
  suffices ∀ (as : List (Act α)) (s : Ring α), Reach size mmap s → Reach size mmap (run s as) from this as _ (.init mem)
  intro as
  induction as with
  | nil => exact fun s h => h
  | cons a as ih => exact fun s h => ih _ (h.step a)

abbrev demoState : Ring Nat := run (Ring.init 3 false (fun _ => 0)) demo

example : demoState.log = [10, 11, 20, 21] ∧ demoState.readers.map (·.recv) = [[10, 11, 20, 21], [20]] ∧
    demoState.readers.map (·.cursor) = [4, 3] ∧ demoState.available = 2 ∧ demoState.wpc = .idle := by decide

/-- meets the hypotheses of the theorems above, with an open span across the wrap-around point -/
example : (run demoState [.reserve 2 true, .load, .load, .claim]).wpc = .opened 2 ∧ demoState.attachedIdx = [0, 1] ∧
    (run demoState [.reserve 2 true, .load, .load, .claim]).index = 1 ∧
    (run demoState [.reserve 2 true, .load, .load, .claim, .write 1 7]).window 2 = [11, 7] ∧
    (run demoState ([.reserve 2 true, .load, .load, .claim, .write 1 7, .close 1] ++ List.replicate 3 .mirror)).wpc = .publishing 1 ∧
    (run demoState [.reserve 3 false, .load, .load, .claim]).wpc = .mirrorA 0 0 := by decide

/-! ## Where the free-space report fails: no reader attached -/

/-- **C07 (negative)** After the last reader has gone, `available()` can report 2^64 - 1, and reservations succeed without
limit; the minimum over no readers is taken as position 0. -/
theorem available_exceeds_size_without_reader :
    ∃ s : Ring Nat, Reach 3 false s ∧ s.wpc = .idle ∧ s.attachedIdx = [] ∧ s.available = 2 ^ 64 - 1 ∧ s.size < s.available :=
  ⟨run (Ring.init 3 false (fun _ => 0)) (.attach :: push 1 [1, 2, 3] 3 ++ [.get 0 none, .release 0 3] ++ push 1 [4] 1 ++ [.detach 0]),
    demo_reach, by decide, by decide, by decide, by decide⟩

/-- **C07 (negative)** In a buffer that never had a reader the report drops to 0 after `size` samples although nobody needs
them, and a further reservation fails. -/
theorem unread_buffer_fills_up :
    ∃ s : Ring Nat, Reach 3 false s ∧ s.wpc = .idle ∧ s.readers = [] ∧ s.available = 0 ∧ (run s [.reserve 1 false, .claim]).wpc ≠ .opened 1 :=
  ⟨run (Ring.init 3 false (fun _ => 0)) (push 0 [1, 2, 3] 3), demo_reach, by decide, rfl, by decide, by decide⟩

end Verif.Ring
