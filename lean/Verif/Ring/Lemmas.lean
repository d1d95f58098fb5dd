import Verif.Ring.Spec
/-! Helper lemmas for the single-producer ring. -/
namespace Verif.Ring
variable {α : Type}

theorem calcIndex_eq (size c : Nat) : calcIndex size c = c % size := by
  unfold calcIndex
  split
  · next h =>
    simp only [hasSingleBit, beq_iff_eq] at h
    rw [h, Nat.and_two_pow_sub_one_eq_mod]
  · rfl

theorem capacity_eq {size reserve m : Nat} (hs : size < 2 ^ 64) (h1 : m ≤ reserve) (h2 : reserve ≤ m + size) :
    capacity size reserve m = size - (reserve - m) := by
  unfold capacity wsub
  have : (2 : Nat) ^ 64 = 18446744073709551616 := rfl
  omega

/-- the two addresses of slot `p`. -/
theorem cell_addr {size i j p : Nat} (hi : i < size) (hj : j ≤ size) (h : (i + j) % size = p % size) (hlt : i + j < 2 * size) :
    i + j = p % size ∨ i + j = p % size + size := by
  rcases Nat.lt_or_ge (i + j) size with h' | h'
  · left; rw [← h, Nat.mod_eq_of_lt h']
  · right
    rw [← h, Nat.mod_eq_sub_mod h', Nat.mod_eq_of_lt (by omega)]; omega

theorem mod_ne_of_window {a b n : Nat} (h1 : a < b) (h2 : b < a + n) : a % n ≠ b % n := by
  intro h
  have : (b - a) % n = 0 := by
    have := Nat.sub_mod_eq_zero_of_mod_eq h.symm
    exact this
  rw [Nat.mod_eq_of_lt (by omega)] at this
  omega

theorem phys_cell {mmap : Bool} {size c j : Nat} (hs : 0 < size) (hj : j < size) :
    ∃ u, phys mmap size (c % size + j) = slotAddr mmap size (c + j) u := by
  have hc := Nat.mod_lt c hs
  have e : (c % size + j) % size = (c + j) % size := Nat.mod_add_mod c size j
  rcases cell_addr hc (Nat.le_of_lt hj) e (by omega) with h | h
  · exact ⟨false, by simp [slotAddr, h]⟩
  · exact ⟨true, by simp [slotAddr, h]⟩

theorem slotAddr_ne {mmap : Bool} {size p q : Nat} (hs : 0 < size) (h : p % size ≠ q % size) (u v : Bool) :
    slotAddr mmap size p u ≠ slotAddr mmap size q v := by
  have hp := Nat.mod_lt p hs
  have hq := Nat.mod_lt q hs
  simp only [slotAddr, phys]
  cases mmap
  · cases u <;> cases v <;> simp <;> omega
  · cases u <;> cases v <;> simp [Nat.mod_eq_of_lt hp, Nat.mod_eq_of_lt hq, h]

/-- the part of the invariant about the producer's position. -/
def WInv (s : Ring α) : Prop :=
  match s.wpc with
  | .idle => s.reserve = s.pub
  | .loading n todo acc _ => s.reserve = s.pub ∧ n ≤ s.size ∧ 0 < n ∧
      (∀ m, acc = some m → m ≤ s.pub ∧ s.pub ≤ m + s.size) ∧
      (∀ (i : Nat) (rd : RState α), s.readers[i]? = some rd → rd.attached → i ∈ todo ∨ rd.cursor = s.pub ∨ ∃ m, acc = some m ∧ m ≤ rd.cursor) ∧
      (∀ i ∈ todo, ∃ rd, s.readers[i]? = some rd ∧ s.pub ≤ rd.cursor + s.size)
  | .opened n => s.reserve = s.pub + n ∧ n ≤ s.size ∧ s.index = s.pub % s.size
  | .mirrorA k i => s.pub + k ≤ s.reserve ∧ s.reserve ≤ s.pub + s.size ∧ s.data.length = k ∧ (0 < k → s.index = s.pub % s.size) ∧
      i ≤ min (s.size - s.index) k ∧
      (∀ j (h : j < s.data.length), s.cell s.index j = s.data[j]) ∧
      (∀ j (h : j < s.data.length), j < i → s.mem (s.index + s.size + j) = s.data[j])
  | .mirrorB k i => s.mmap = false ∧ s.pub + k ≤ s.reserve ∧ s.reserve ≤ s.pub + s.size ∧ s.data.length = k ∧ (0 < k → s.index = s.pub % s.size) ∧
      i ≤ k - min (s.size - s.index) k ∧
      (∀ j (h : j < s.data.length), s.cell s.index j = s.data[j]) ∧
      (∀ j (h : j < s.data.length), j < min (s.size - s.index) k → s.mem (s.index + s.size + j) = s.data[j]) ∧
      (∀ j (h : min (s.size - s.index) k + j < s.data.length), j < i → s.mem j = s.data[min (s.size - s.index) k + j])
  | .publishing k => s.pub + k ≤ s.reserve ∧ s.reserve ≤ s.pub + s.size ∧ s.data.length = k ∧
      (∀ j (h : j < s.data.length), Holds s (s.pub + j) s.data[j])

structure Inv (size : Nat) (mmap : Bool) (s : Ring α) : Prop where
  sz : s.size = size
  mm : s.mmap = mmap
  len : s.log.length = s.pub
  off : s.offset = s.pub
  win : ∀ (i : Nat) (rd : RState α), s.readers[i]? = some rd → rd.attached → s.reserve ≤ rd.cursor + s.size
  rdr : ∀ (i : Nat) (rd : RState α), s.readers[i]? = some rd → rd.start ≤ rd.cursor ∧ rd.cursor ≤ s.pub ∧
    rd.recv = (s.log.drop rd.start).take (rd.cursor - rd.start) ∧ ∀ n, rd.span = some n → rd.cursor + n ≤ s.pub
  keep : ∀ (i : Nat) (rd : RState α), s.readers[i]? = some rd → rd.attached → ∀ p (h : p < s.log.length), rd.cursor ≤ p → Holds s p s.log[p]
  w : WInv s

/-- writing a claimed slot does not disturb anything a reader still needs. -/
theorem keep_claimed {s : Ring α} {cursor p j : Nat} {v w : α} {u : Bool} (hs : 0 < s.size) (hwin : s.reserve ≤ cursor + s.size)
    (hj : s.pub + j < s.reserve) (h1 : cursor ≤ p) (h2 : p < s.pub) (h : Holds s p w) :
    Holds (s.poke (slotAddr s.mmap s.size (s.pub + j) u) v) p w := by
  intro u'
  show (if slotAddr s.mmap s.size p u' = _ then v else _) = w
  rw [if_neg]
  · exact h u'
  · exact slotAddr_ne hs (mod_ne_of_window (by omega) (by omega)) _ _

theorem inv_reserve {size : Nat} {mmap : Bool} {s : Ring α} (hs : 0 < size) (h : Inv size mmap s) (n : Nat) (b : Bool) :
    Inv size mmap (step s (.reserve n b)) := by
  obtain ⟨h1, h2, h3, h4, h5, h6, h7, h8⟩ := h
  simp only [step]
  split
  · next hw =>
    simp only [WInv, hw] at h8
    split
    · refine ⟨h1, h2, h3, h4, h5, h6, h7, ?_⟩
      simp only [WInv]
      exact ⟨by omega, by omega, rfl, by omega, by omega, fun j hj => absurd hj (Nat.not_lt_zero _), fun j hj => absurd hj (Nat.not_lt_zero _)⟩
    · split
      · next hn0 hn =>
        refine ⟨h1, h2, h3, h4, h5, h6, h7, ?_⟩
        simp only [WInv]
        refine ⟨h8, hn, by omega, fun m e => (by cases e), ?_, ?_⟩
        · intro i rd hi ha
          left
          have hlt : i < s.readers.length := by
            rcases Nat.lt_or_ge i s.readers.length with h | h
            · exact h
            · rw [List.getElem?_eq_none h] at hi; cases hi
          simp only [Ring.attachedIdx, List.mem_filter, List.mem_range]
          exact ⟨hlt, by simp [hi, ha]⟩
        · intro i hi
          simp only [Ring.attachedIdx, List.mem_filter, List.mem_range] at hi
          obtain ⟨hlt, ha⟩ := hi
          have he : s.readers[i]? = some s.readers[i] := List.getElem?_eq_getElem hlt
          refine ⟨_, he, ?_⟩
          have := h5 i _ he (by simpa [he] using ha)
          omega
      · exact ⟨h1, h2, h3, h4, h5, h6, h7, by simpa only [WInv, hw] using h8⟩
  · exact ⟨h1, h2, h3, h4, h5, h6, h7, h8⟩

theorem inv_load {size : Nat} {mmap : Bool} {s : Ring α} (h : Inv size mmap s) :
    Inv size mmap (step s .load) := by
  have h0 := h
  obtain ⟨h1, h2, h3, h4, h5, h6, h7, h8⟩ := h
  simp only [step]
  split
  · next n r todo acc b hw =>
    simp only [WInv, hw] at h8
    obtain ⟨e1, e2, e3, e4, e5, e6⟩ := h8
    obtain ⟨rd, hr, hle⟩ := e6 r List.mem_cons_self
    rw [hr]
    dsimp only
    have hpub := (h6 r rd hr).2.1
    refine ⟨h1, h2, h3, h4, h5, h6, h7, ?_⟩
    simp only [WInv]
    refine ⟨e1, e2, e3, ?_, ?_, fun i hi => e6 i (List.mem_cons_of_mem _ hi)⟩
    · intro m em
      cases acc with
      | none => simp [minAcc] at em; omega
      | some m0 =>
        have := e4 m0 rfl
        simp [minAcc] at em; omega
    · intro i rd' hi ha
      rcases e5 i rd' hi ha with hm | hm | ⟨m0, em, hm⟩
      · rcases List.mem_cons.mp hm with rfl | hm
        · rw [hr] at hi; cases hi
          right; right
          cases acc with
          | none => exact ⟨_, rfl, Nat.le_refl _⟩
          | some m0 => exact ⟨_, rfl, Nat.min_le_right _ _⟩
        · exact Or.inl hm
      · exact Or.inr (Or.inl hm)
      · subst em
        exact Or.inr (Or.inr ⟨_, rfl, Nat.le_trans (Nat.min_le_left _ _) hm⟩)
  · exact h0

theorem inv_claim {size : Nat} {mmap : Bool} {s : Ring α} (hs : 0 < size) (hs64 : size < 2 ^ 64) (h : Inv size mmap s) :
    Inv size mmap (step s .claim) := by
  have h0 := h
  obtain ⟨h1, h2, h3, h4, h5, h6, h7, h8⟩ := h
  simp only [step]
  split
  · next n acc b hw =>
    simp only [WInv, hw] at h8
    obtain ⟨e1, e2, e3, e4, e5, e6⟩ := h8
    split
    · next hcap =>
      have key : ∀ (i : Nat) (rd : RState α), s.readers[i]? = some rd → rd.attached → s.reserve + n ≤ rd.cursor + s.size := by
        intro i rd hi ha
        rcases e5 i rd hi ha with hm | hm | ⟨m, em, hm⟩
        · cases hm
        · omega
        · have := e4 m em
          rw [em] at hcap
          rw [show (some m : Option Nat).getD 0 = m from rfl, capacity_eq (h1 ▸ hs64) (by omega) (by omega)] at hcap
          omega
      refine ⟨h1, h2, h3, ?_, key, h6, h7, ?_⟩
      · dsimp only; omega
      · simp only [WInv]
        refine ⟨by omega, e2, ?_⟩
        rw [calcIndex_eq, show s.reserve + n + s.size - n = s.pub + s.size by omega, Nat.add_mod_right]
    · split
      · refine ⟨h1, h2, h3, h4, h5, h6, h7, ?_⟩
        have hi := (inv_reserve hs (s := { s with wpc := .idle }) ⟨h1, h2, h3, h4, h5, h6, h7, e1⟩ n b).w
        simp only [step] at hi
        rw [if_neg (by omega), if_pos e2] at hi
        exact hi
      · refine ⟨h1, h2, h3, h4, h5, h6, h7, ?_⟩
        simp only [WInv]
        exact ⟨by omega, by omega, rfl, by omega, by omega, fun j hj => absurd hj (Nat.not_lt_zero _), fun j hj => absurd hj (Nat.not_lt_zero _)⟩
  · exact h0

theorem inv_write {size : Nat} {mmap : Bool} {s : Ring α} (hs : 0 < size) (h : Inv size mmap s) (j : Nat) (v : α) :
    Inv size mmap (step s (.write j v)) := by
  have h0 := h
  obtain ⟨h1, h2, h3, h4, h5, h6, h7, h8⟩ := h
  simp only [step]
  split
  · next n hw =>
    simp only [WInv, hw] at h8
    obtain ⟨e1, e2, e3⟩ := h8
    split
    · next hj =>
      obtain ⟨u, hu⟩ := phys_cell (mmap := s.mmap) (c := s.pub) (h1 ▸ hs : 0 < s.size) (by omega : j < s.size)
      rw [e3, hu]
      refine ⟨h1, h2, h3, h4, h5, h6, ?_, ?_⟩
      · intro i rd hi ha p hp hc
        exact keep_claimed (h1 ▸ hs) (h5 i rd hi ha) (by omega) hc (by rw [← h3]; exact hp) (h7 i rd hi ha p hp hc)
      · simp only [WInv, Ring.poke, hw]; exact ⟨e1, e2, e3⟩
    · exact h0
  · exact h0

theorem inv_close {size : Nat} {mmap : Bool} {s : Ring α} (h : Inv size mmap s) (k : Nat) :
    Inv size mmap (step s (.close k)) := by
  have h0 := h
  obtain ⟨h1, h2, h3, h4, h5, h6, h7, h8⟩ := h
  simp only [step]
  split
  · next n hw =>
    simp only [WInv, hw] at h8
    obtain ⟨e1, e2, e3⟩ := h8
    split
    · next hk =>
      refine ⟨h1, h2, h3, h4, h5, h6, h7, ?_⟩
      simp only [WInv]
      refine ⟨by omega, by omega, by simp, fun _ => e3, by omega, ?_, fun j _ hj => absurd hj (Nat.not_lt_zero _)⟩
      intro j hj
      simp; rfl
    · exact h0
  · exact h0

theorem slotAddr_lin {size p : Nat} {u : Bool} : slotAddr false size p u = p % size + if u then size else 0 := rfl

theorem inv_mirror {size : Nat} {mmap : Bool} {s : Ring α} (hs : 0 < size) (h : Inv size mmap s) :
    Inv size mmap (step s .mirror) := by
  have h0 := h
  obtain ⟨h1, h2, h3, h4, h5, h6, h7, h8⟩ := h
  have hs' : 0 < s.size := h1 ▸ hs
  have hmod := Nat.mod_lt s.pub hs'
  simp only [step]
  split
  · next k i hw =>
    simp only [WInv, hw] at h8
    obtain ⟨e1, e2, e3, e4, e5, e6, e7⟩ := h8
    split
    · next hm =>
      refine ⟨h1, h2, h3, h4, h5, h6, h7, ?_⟩
      simp only [WInv]
      refine ⟨e1, e2, e3, ?_⟩
      intro j hj u
      rw [← e6 j hj]
      simp only [Ring.cell, slotAddr, phys, hm, ↓reduceIte]
      congr 1
      rw [e4 (by omega), Nat.mod_add_mod]
      cases u <;> simp
    · next hm =>
      have hm : s.mmap = false := by simpa using hm
      split
      · next hi =>
        have hix := e4 (by omega)
        have ha : s.index + s.size + i = slotAddr s.mmap s.size (s.pub + i) true := by
          rw [hm, slotAddr_lin]
          have : (s.pub + i) % s.size = s.index + i := by
            rw [← Nat.mod_add_mod, ← hix, Nat.mod_eq_of_lt (by omega)]
          rw [this]; simp; omega
        refine ⟨h1, h2, h3, h4, h5, h6, ?_, ?_⟩
        · intro q rd hq hat p hp hc
          rw [ha]
          exact keep_claimed hs' (h5 q rd hq hat) (by omega) hc (by rw [← h3]; exact hp) (h7 q rd hq hat p hp hc)
        · simp only [WInv]
          refine ⟨e1, e2, e3, e4, by show i + 1 ≤ min (s.size - s.index) k; omega, ?_, ?_⟩
          · intro j hj
            have hj : j < s.data.length := hj
            show (if phys s.mmap s.size (s.index + j) = s.index + s.size + i then _ else s.mem _) = _
            rw [if_neg (by rw [hm]; show s.index + j ≠ _; omega)]
            exact e6 j hj
          · intro j hj hji
            have hj : j < s.data.length := hj
            show (if s.index + s.size + j = s.index + s.size + i then s.mem (s.index + i) else s.mem (s.index + s.size + j)) = s.data[j]
            rcases Nat.lt_or_ge j i with hlt | hge
            · rw [if_neg (by omega)]; exact e7 j hj hlt
            · have : j = i := by omega
              subst this
              rw [if_pos rfl]
              have := e6 j hj
              simp only [Ring.cell, phys, hm, Bool.false_eq_true, ↓reduceIte] at this
              exact this
      · next hi =>
        refine ⟨h1, h2, h3, h4, h5, h6, h7, ?_⟩
        simp only [WInv]
        refine ⟨hm, e1, e2, e3, e4, Nat.zero_le _, e6, ?_, fun j _ hj => absurd hj (Nat.not_lt_zero _)⟩
        intro j hj hlt
        exact e7 j hj (by omega)
  · next k i hw =>
    simp only [WInv, hw] at h8
    obtain ⟨hm, e1, e2, e3, e4, e5, e6, e7, e8⟩ := h8
    split
    · next hi =>
      have hix := e4 (by omega)
      have hmin : min (s.size - s.index) k = s.size - s.index := by omega
      rw [hmin] at hi e5 e7
      simp only [hmin] at e8
      have ha : i = slotAddr s.mmap s.size (s.pub + (s.size - s.index + i)) false := by
        rw [hm, slotAddr_lin]
        have : (s.pub + (s.size - s.index + i)) % s.size = i := by
          rw [← Nat.mod_add_mod, ← hix, show s.index + (s.size - s.index + i) = i + s.size by omega, Nat.add_mod_right,
            Nat.mod_eq_of_lt (by omega)]
        rw [this]; simp
      refine ⟨h1, h2, h3, h4, h5, h6, ?_, ?_⟩
      · intro q rd hq hat p hp hc
        have := keep_claimed (v := s.mem (s.size + i)) (u := false) hs' (h5 q rd hq hat) (by omega : s.pub + (s.size - s.index + i) < s.reserve)
          hc (by rw [← h3]; exact hp) (h7 q rd hq hat p hp hc)
        rw [← ha] at this
        exact this
      · simp only [WInv]
        refine ⟨hm, e1, e2, e3, e4, ?_, ?_, ?_, ?_⟩
        · show i + 1 ≤ k - min (s.size - s.index) k; omega
        · intro j hj
          have hj : j < s.data.length := hj
          show (if phys s.mmap s.size (s.index + j) = i then _ else s.mem _) = _
          rw [if_neg (by rw [hm]; show s.index + j ≠ _; omega)]
          exact e6 j hj
        · intro j hj hjl
          have hj : j < s.data.length := hj
          have hjl : j < min (s.size - s.index) k := hjl
          show (if s.index + s.size + j = i then _ else s.mem (s.index + s.size + j)) = s.data[j]
          rw [if_neg (by omega)]
          exact e7 j hj (by omega)
        · intro j hj hji
          have hj : min (s.size - s.index) k + j < s.data.length := hj
          show (if j = i then s.mem (s.size + i) else s.mem j) = s.data[min (s.size - s.index) k + j]
          simp only [hmin] at hj ⊢
          rcases Nat.lt_or_ge j i with hlt | hge
          · rw [if_neg (by omega)]; exact e8 j hj hlt
          · have : j = i := by omega
            subst this
            rw [if_pos rfl]
            have := e6 (s.size - s.index + j) (by assumption)
            simp only [Ring.cell, phys, hm, Bool.false_eq_true, ↓reduceIte] at this
            rw [← this]; congr 1; omega
    · next hi =>
      refine ⟨h1, h2, h3, h4, h5, h6, h7, ?_⟩
      simp only [WInv]
      refine ⟨e1, e2, e3, ?_⟩
      intro j hj u
      have hix := e4 (by omega)
      have c1 := e6 j hj
      simp only [Ring.cell, phys, hm, Bool.false_eq_true, ↓reduceIte] at c1
      show s.mem (slotAddr s.mmap s.size (s.pub + j) u) = s.data[j]
      rw [hm, slotAddr_lin]
      rcases Nat.lt_or_ge j (s.size - s.index) with hlt | hge
      · have e : (s.pub + j) % s.size = s.index + j := by
          rw [← Nat.mod_add_mod, ← hix, Nat.mod_eq_of_lt (by omega)]
        rw [e]
        cases u
        · simpa using c1
        · have := e7 j hj (by omega)
          rw [← this]; congr 1; simp; omega
      · have e : (s.pub + j) % s.size = j - (s.size - s.index) := by
          rw [← Nat.mod_add_mod, ← hix, Nat.mod_eq_sub_mod (by omega), Nat.mod_eq_of_lt (by omega)]; omega
        rw [e]
        have hmin : min (s.size - s.index) k = s.size - s.index := by omega
        simp only [hmin] at e8 hi
        cases u
        · have := e8 (j - (s.size - s.index)) (by omega) (by omega)
          simp only [Nat.add_sub_cancel' hge] at this
          simpa using this
        · rw [← c1]; congr 1; simp; omega
  · exact h0

theorem inv_publish {size : Nat} {mmap : Bool} {s : Ring α} (h : Inv size mmap s) :
    Inv size mmap (step s .publish) := by
  have h0 := h
  obtain ⟨h1, h2, h3, h4, h5, h6, h7, h8⟩ := h
  simp only [step]
  split
  · next k hw =>
    simp only [WInv, hw] at h8
    obtain ⟨e1, e2, e3, e4⟩ := h8
    refine ⟨h1, h2, ?_, ?_, ?_, ?_, ?_, ?_⟩
    · simp [h3, e3, h4]
    · rfl
    · intro i rd hi ha
      have := h5 i rd hi ha
      dsimp only; omega
    · intro i rd hi
      obtain ⟨a1, a2, a3, a4⟩ := h6 i rd hi
      refine ⟨a1, by dsimp only; omega, ?_, fun n hn => by have := a4 n hn; dsimp only; omega⟩
      rw [a3, List.drop_append_of_le_length (by omega), List.take_append_of_le_length (by simp; omega)]
    · intro i rd hi ha p hp hc
      dsimp only at hp ⊢
      rcases Nat.lt_or_ge p s.log.length with hlt | hge
      · rw [List.getElem_append_left hlt]
        exact h7 i rd hi ha p hlt hc
      · rw [List.getElem_append_right hge]
        have hp' : p - s.log.length < s.data.length := by simp at hp; omega
        have := e4 (p - s.log.length) hp'
        rw [show s.pub + (p - s.log.length) = p by omega] at this
        exact this
    · simp only [WInv]
  · exact h0

theorem winv_readers {s : Ring α} (rs : List (RState α)) (hw : WInv s)
    (hpres : ∀ (i : Nat) rd', rs[i]? = some rd' → rd'.attached →
      rd'.cursor = s.pub ∨ ∃ rd, s.readers[i]? = some rd ∧ rd.attached ∧ rd.cursor ≤ rd'.cursor ∧ rd'.cursor ≤ s.pub)
    (hkeep : ∀ (i : Nat) rd, s.readers[i]? = some rd → ∃ rd', rs[i]? = some rd' ∧ rd.cursor ≤ rd'.cursor) :
    WInv { s with readers := rs } := by
  unfold WInv at *
  dsimp only
  cases hc : s.wpc with
  | loading n todo acc b =>
    rw [hc] at hw
    dsimp only at hw ⊢
    obtain ⟨e1, e2, e3, e4, e5, e6⟩ := hw
    refine ⟨e1, e2, e3, e4, ?_, ?_⟩
    · intro i rd' hi ha
      rcases hpres i rd' hi ha with h | ⟨rd, h1, h2, h3, h4⟩
      · exact Or.inr (Or.inl h)
      · rcases e5 i rd h1 h2 with h | h | ⟨m, em, hm⟩
        · exact Or.inl h
        · exact Or.inr (Or.inl (by omega))
        · exact Or.inr (Or.inr ⟨m, em, by omega⟩)
    · intro i hi
      obtain ⟨rd, h1, h2⟩ := e6 i hi
      obtain ⟨rd', h3, h4⟩ := hkeep i rd h1
      exact ⟨rd', h3, by omega⟩
  | _ => rw [hc] at hw; exact hw

theorem getElem?_set_cases {β : Type} {l : List β} {r i : Nat} {x y : β} (h : (l.set r x)[i]? = some y) :
    (i = r ∧ y = x) ∨ (i ≠ r ∧ l[i]? = some y) := by
  rw [List.getElem?_set] at h
  split at h
  · next e =>
    split at h
    · cases h; exact Or.inl ⟨e.symm, rfl⟩
    · cases h
  · next e => exact Or.inr ⟨fun x => e x.symm, h⟩

theorem set_keep {l : List (RState α)} {r : Nat} {x rd : RState α} (hr : l[r]? = some rd) (hx : rd.cursor ≤ x.cursor)
    (i : Nat) (y : RState α) (hi : l[i]? = some y) : ∃ y', (l.set r x)[i]? = some y' ∧ y.cursor ≤ y'.cursor := by
  by_cases e : i = r
  · subst e
    rw [hr] at hi; cases hi
    have hlt : i < l.length := by
      rcases Nat.lt_or_ge i l.length with h | h
      · exact h
      · rw [List.getElem?_eq_none h] at hr; cases hr
    exact ⟨x, by simp [hlt], hx⟩
  · exact ⟨y, by rw [List.getElem?_set_ne (fun h => e h.symm)]; exact hi, Nat.le_refl _⟩

/-- what a reader sees in the window it holds. -/
theorem view_eq {size : Nat} {mmap : Bool} {s : Ring α} (hs : 0 < size) (h : Inv size mmap s) {i : Nat} {rd : RState α}
    (hi : s.readers[i]? = some rd) (ha : rd.attached) {j : Nat} (hj : rd.cursor + j < s.log.length) :
    s.cell (calcIndex s.size rd.cursor) j = s.log[rd.cursor + j] := by
  have hs' : 0 < s.size := h.sz ▸ hs
  have h5 := h.win i rd hi ha
  have hlen := h.len
  have hres : s.pub ≤ s.reserve := by
    have := h.w
    unfold WInv at this
    split at this <;> omega
  obtain ⟨u, hu⟩ := phys_cell (mmap := s.mmap) (c := rd.cursor) hs' (by omega : j < s.size)
  rw [calcIndex_eq]
  simp only [Ring.cell, hu]
  exact h.keep i rd hi ha (rd.cursor + j) hj (by omega) u

theorem inv_reader_update {size : Nat} {mmap : Bool} {s : Ring α} (h : Inv size mmap s) {r : Nat} {rd x : RState α}
    (hr : s.readers[r]? = some rd) (hatt : x.attached → rd.attached) (hcur : rd.cursor ≤ x.cursor)
    (hx : x.start ≤ x.cursor ∧ x.cursor ≤ s.pub ∧
      x.recv = (s.log.drop x.start).take (x.cursor - x.start) ∧ ∀ n, x.span = some n → x.cursor + n ≤ s.pub) :
    Inv size mmap { s with readers := s.readers.set r x } := by
  obtain ⟨h1, h2, h3, h4, h5, h6, h7, h8⟩ := h
  refine ⟨h1, h2, h3, h4, ?_, ?_, ?_, ?_⟩
  · intro i y hy ha
    rcases getElem?_set_cases hy with ⟨rfl, rfl⟩ | ⟨_, hy⟩
    · have := h5 i rd hr (hatt ha)
      dsimp only; omega
    · exact h5 i y hy ha
  · intro i y hy
    rcases getElem?_set_cases hy with ⟨rfl, rfl⟩ | ⟨_, hy⟩
    · exact hx
    · exact h6 i y hy
  · intro i y hy ha p hp hc
    rcases getElem?_set_cases hy with ⟨rfl, rfl⟩ | ⟨_, hy⟩
    · exact h7 i rd hr (hatt ha) p hp (by omega)
    · exact h7 i y hy ha p hp hc
  · refine winv_readers _ h8 ?_ (set_keep hr hcur)
    intro i y hy ha
    rcases getElem?_set_cases hy with ⟨rfl, rfl⟩ | ⟨_, hy⟩
    · exact Or.inr ⟨rd, hr, hatt ha, hcur, hx.2.1⟩
    · exact Or.inr ⟨y, hy, ha, Nat.le_refl _, (h6 i y hy).2.1⟩

theorem inv_step {size : Nat} {mmap : Bool} {s : Ring α} (hs : 0 < size) (hs64 : size < 2 ^ 64) (h : Inv size mmap s) (a : Act α) :
    Inv size mmap (step s a) := by
  cases a with
  | reserve n b => exact inv_reserve hs h n b
  | load => exact inv_load h
  | claim => exact inv_claim hs hs64 h
  | write j v => exact inv_write hs h j v
  | close k => exact inv_close h k
  | mirror => exact inv_mirror hs h
  | publish => exact inv_publish h
  | attach =>
    have hres : s.reserve ≤ s.pub + s.size := by
      have := h.w
      unfold WInv at this
      split at this <;> omega
    obtain ⟨h1, h2, h3, h4, h5, h6, h7, h8⟩ := h
    have key : ∀ (i : Nat) (y : RState α), (s.readers ++ [⟨s.pub, true, none, s.pub, []⟩])[i]? = some y →
        s.readers[i]? = some y ∨ y = ⟨s.pub, true, none, s.pub, []⟩ := by
      intro i y hy
      rw [List.getElem?_append] at hy
      split at hy
      · exact Or.inl hy
      · rw [List.getElem?_singleton] at hy
        split at hy
        · cases hy; exact Or.inr rfl
        · cases hy
    refine ⟨h1, h2, h3, h4, ?_, ?_, ?_, ?_⟩
    · intro i y hy ha
      rcases key i y hy with hy | rfl
      · exact h5 i y hy ha
      · exact hres
    · intro i y hy
      rcases key i y hy with hy | rfl
      · exact h6 i y hy
      · exact ⟨Nat.le_refl _, Nat.le_refl _, by simp, fun n e => by cases e⟩
    · intro i y hy ha p hp hc
      rcases key i y hy with hy | rfl
      · exact h7 i y hy ha p hp hc
      · exact absurd hc (by have hp : p < s.log.length := hp; dsimp only; omega)
    · refine winv_readers _ h8 ?_ ?_
      · intro i y hy ha
        rcases key i y hy with hy | rfl
        · exact Or.inr ⟨y, hy, ha, Nat.le_refl _, (h6 i y hy).2.1⟩
        · exact Or.inl rfl
      · intro i y hy
        refine ⟨y, ?_, Nat.le_refl _⟩
        have hlt : i < s.readers.length := by
          rcases Nat.lt_or_ge i s.readers.length with h | h
          · exact h
          · rw [List.getElem?_eq_none h] at hy; cases hy
        rw [List.getElem?_append_left hlt]; exact hy
  | detach r =>
    simp only [step]
    split
    · next rd hr =>
      obtain ⟨a1, a2, a3, a4⟩ := h.rdr r rd hr
      exact inv_reader_update h hr (by simp) (Nat.le_refl _) ⟨a1, a2, a3, fun n e => by cases e⟩
    · exact h
  | get r req =>
    simp only [step]
    split
    · next rd hr =>
      obtain ⟨a1, a2, a3, a4⟩ := h.rdr r rd hr
      split
      · split
        · exact inv_reader_update h hr id (Nat.le_refl _) ⟨a1, a2, a3, fun n e => by cases e; dsimp only; omega⟩
        · split
          · exact inv_reader_update h hr id (Nat.le_refl _) ⟨a1, a2, a3, fun n e => by cases e; dsimp only; omega⟩
          · exact h
      · exact h
    · exact h
  | release r k =>
    simp only [step]
    split
    · next rd hr =>
      obtain ⟨a1, a2, a3, a4⟩ := h.rdr r rd hr
      split
      · next hc =>
        simp only [Bool.and_eq_true, decide_eq_true_eq] at hc
        obtain ⟨⟨hat, _⟩, hk⟩ := hc
        have hlen := h.len
        refine inv_reader_update h hr (fun _ => hat) (by dsimp only; omega) ⟨by dsimp only; omega, by dsimp only; omega, ?_, fun n e => by cases e⟩
        dsimp only
        have hv : (List.range k).map (s.cell (calcIndex s.size rd.cursor)) = (s.log.drop rd.cursor).take k := by
          refine List.ext_getElem (by simp; omega) ?_
          intro j hj1 hj2
          simp at hj1
          simp only [List.getElem_map, List.getElem_range, List.getElem_take, List.getElem_drop]
          exact view_eq hs h hr hat (by omega)
        rw [hv, a3, show rd.cursor + k - rd.start = (rd.cursor - rd.start) + k by omega, List.take_add, List.drop_drop,
          show rd.start + (rd.cursor - rd.start) = rd.cursor by omega]
      · exact h
    · exact h

theorem inv_reach {size : Nat} {mmap : Bool} (hs : 0 < size) (hs64 : size < 2 ^ 64) {s : Ring α} (h : Reach size mmap s) :
    Inv size mmap s := by
  induction h with
  | init mem =>
    refine ⟨rfl, rfl, rfl, rfl, ?_, ?_, ?_, rfl⟩
    · intro i rd hi; simp [Ring.init] at hi
    · intro i rd hi; simp [Ring.init] at hi
    · intro i rd hi; simp [Ring.init] at hi
  | step a _ ih => exact inv_step hs hs64 ih a

end Verif.Ring
