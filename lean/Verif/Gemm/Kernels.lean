import Verif.Gemm.Rows
/-! Lemmas about the two kernels of the matrix product. -/
namespace Verif.Gemm

open Lean.Grind (CommRing)

variable {α σ : Type}

section
variable [CommRing α]

theorem sum_congr {n : Nat} {f g : Nat → α} (h : ∀ k < n, f k = g k) : Spec.sum n f = Spec.sum n g := by
  induction n with
  | zero => rfl
  | succ n ih => rw [Spec.sum, Spec.sum, ih fun k hk => h k (by omega), h n (by omega)]

theorem sum_mul {n : Nat} (a : α) (f : Nat → α) : Spec.sum n (fun k => a * f k) = a * Spec.sum n f := by
  induction n with
  | zero => simp only [Spec.sum]; grind
  | succ n ih => simp only [Spec.sum, ih]; grind

theorem row_lt {r i n : Nat} (h : r < i) : r * n + n ≤ i * n := by
  have := Nat.mul_le_mul_right n (show r + 1 ≤ i by omega)
  rw [Nat.add_mul, Nat.one_mul] at this
  exact this

end

section
variable [CommRing α] [DecidableEq α]

theorem scale_some (m n : Nat) (beta : α) (c : List α) (hc : c.length = m * n) :
    ∃ c', scale m n beta c = some c' ∧ c'.length = m * n ∧
      ∀ r < m, ∀ j < n, c'.getD (r * n + j) 0 = beta * c.getD (r * n + j) 0 := by
  unfold scale
  split
  · rename_i h
    subst h
    refine ⟨_, rfl, by simpa using hc, fun r hr j hj => ?_⟩
    have := row_lt (n := n) hr
    rw [List.getD_eq_getElem?_getD, List.getElem?_map, getElem?_of_lt (show r * n + j < c.length by omega)]
    show (0 : α) = _
    grind
  split
  · rename_i h
    subst h
    exact ⟨c, rfl, hc, fun r hr j hj => by grind⟩
  · obtain ⟨c', e, h1, h2⟩ := forTo_one (a := 0) (b := m)
      (body := fun i c => (load c (i * n) n).bind fun x => store c (i * n) (x.map fun y => beta * y))
      (fun i s => s.length = m * n ∧ ∀ r < m, ∀ j < n,
        s.getD (r * n + j) 0 = if r < i then beta * c.getD (r * n + j) 0 else c.getD (r * n + j) 0)
      (Nat.zero_le _) (fun i s _ hi ⟨hl, hv⟩ => by
        have hin := row_lt (n := n) hi
        obtain ⟨x, ex, hx, hxv⟩ := load_some (m := s) (i := i * n) (n := n) (by omega)
        have hlen : (x.map fun y => beta * y).length = n := by simpa using hx
        obtain ⟨s', e, l', g'⟩ := store_some (m := s) (i := i * n) (xs := x.map fun y => beta * y) (by omega)
        refine ⟨s', by simp [ex, e], by omega, fun r hr j hj => ?_⟩
        rw [g', hlen]
        by_cases h1 : r = i
        · subst h1
          rw [if_pos (by omega), if_pos (by omega), show r * n + j - r * n = j by omega,
            List.getD_eq_getElem?_getD, List.getElem?_map, getElem?_of_lt (show j < x.length by omega)]
          show beta * x.getD j 0 = _
          rw [hxv j hj, hv r hr j hj, if_neg (by omega)]
        · have : ¬ (i * n ≤ r * n + j ∧ r * n + j < i * n + n) := by
            rcases Nat.lt_or_gt_of_ne h1 with h | h
            · have := row_lt (n := n) h; omega
            · have := row_lt (n := n) h; omega
          rw [if_neg this, hv r hr j hj]
          by_cases h2 : r < i
          · rw [if_pos h2, if_pos (by omega)]
          · rw [if_neg h2, if_neg (by omega)])
      c ⟨hc, fun r hr j hj => by rw [if_neg (by omega)]⟩
    exact ⟨c', e, h1, fun r hr j hj => by rw [h2 r hr j hj, if_pos hr]⟩

/-- Element j of row q of B as the kernels read it: j elements behind the first one. -/
def rowEntry (B : View α) (q j : Nat) : α := B.mem.getD (B.addr q 0 + j) 0

/-- The first `d r` products have been added to row r. -/
def Prog (A B : View α) (alpha : α) (m n : Nat) (c1 : List α) (d : Nat → Nat) (c : List α) : Prop :=
  c.length = m * n ∧ ∀ r < m, ∀ j < n, c.getD (r * n + j) 0 = c1.getD (r * n + j) 0 +
    Spec.sum (d r) (fun q => alpha * A.mem.getD (A.addr r q) 0 * rowEntry B q j)

theorem Prog.congr {A B : View α} {alpha : α} {m n : Nat} {c1 c : List α} {d d' : Nat → Nat}
    (h : Prog A B alpha m n c1 d c) (hd : ∀ r < m, d r = d' r) : Prog A B alpha m n c1 d' c :=
  ⟨h.1, fun r hr j hj => by rw [h.2 r hr j hj, hd r hr]⟩

/-- What the two kernels ask of the memory of A and B. -/
structure Bounds (A B : View α) (m n k : Nat) : Prop where
  a : ∀ i < m, ∀ q < k, A.addr i q < A.mem.length
  b : ∀ q < k, B.addr q 0 + n ≤ B.mem.length

theorem Prog.step {A B : View α} {alpha : α} {m n k : Nat} {c1 c : List α} {d : Nat → Nat}
    (h : Prog A B alpha m n c1 d c) (hB : Bounds A B m n k) {i q : Nat} (hi : i < m) (hq : q < k) (hd : d i = q)
    (R : α → List α → Nat → List α → Nat → Option (List α))
    (hR : ∀ a b bo c co, bo + n ≤ b.length → co + n ≤ c.length → ∃ c', R a b bo c co = some c' ∧ Upd a b bo c co n c') :
    ∃ c', (do let a ← A.mem[A.addr i q]?
              R (alpha * a) B.mem (B.addr q 0) c (i * n)) = some c' ∧
      Prog A B alpha m n c1 (fun r => if r = i then q + 1 else d r) c' := by
  have hin := row_lt (n := n) hi
  obtain ⟨c', e, hl, hv⟩ := hR (alpha * A.mem.getD (A.addr i q) 0) B.mem (B.addr q 0) c (i * n) (hB.b q hq)
    (by have := h.1; omega)
  refine ⟨c', by rw [getElem?_of_lt (hB.a i hi q hq)]; exact e, by rw [hl, h.1], fun r hr j hj => ?_⟩
  rw [hv]
  by_cases h1 : r = i
  · subst h1
    rw [if_pos (by omega), h.2 r hr j hj, hd, show r * n + j - r * n = j by omega]
    simp only [if_true, Spec.sum, rowEntry]
    grind
  · have : ¬ (i * n ≤ r * n + j ∧ r * n + j < i * n + n) := by
      rcases Nat.lt_or_gt_of_ne h1 with h | h
      · have := row_lt (n := n) h; omega
      · have := row_lt (n := n) h; omega
    simp only [if_neg this, if_neg h1]
    exact h.2 r hr j hj

/-- What a kernel computes: rows of B are read as if they lay one element behind the other. -/
def Kernel (A B : View α) (alpha beta : α) (m n k : Nat) (c c' : List α) : Prop :=
  c'.length = m * n ∧ ∀ r < m, ∀ j < n, c'.getD (r * n + j) 0 =
    alpha * Spec.sum k (fun q => A.mem.getD (A.addr r q) 0 * rowEntry B q j) + beta * c.getD (r * n + j) 0

theorem kernel_of_prog {A B : View α} {alpha beta : α} {m n k : Nat} {c c1 c' : List α}
    (h1 : ∀ r < m, ∀ j < n, c1.getD (r * n + j) 0 = beta * c.getD (r * n + j) 0)
    (h : Prog A B alpha m n c1 (fun _ => k) c') : Kernel A B alpha beta m n k c c' := by
  refine ⟨h.1, fun r hr j hj => ?_⟩
  rw [h.2 r hr j hj, h1 r hr j hj, ← sum_mul]
  have : (fun q => alpha * A.mem.getD (A.addr r q) 0 * rowEntry B q j) =
      (fun q => alpha * (A.mem.getD (A.addr r q) 0 * rowEntry B q j)) := by
    funext q; grind
  rw [this]
  grind

theorem kernel_of_zero {A B : View α} {beta : α} {m n k : Nat} {c c1 : List α} (hl : c1.length = m * n)
    (h1 : ∀ r < m, ∀ j < n, c1.getD (r * n + j) 0 = beta * c.getD (r * n + j) 0) :
    Kernel A B 0 beta m n k c c1 := by
  refine ⟨hl, fun r hr j hj => ?_⟩
  rw [h1 r hr j hj]
  grind

theorem prog_zero (A B : View α) (alpha : α) {m n : Nat} {c : List α} (h : c.length = m * n) :
    Prog A B alpha m n c (fun _ => 0) c :=
  ⟨h, fun r hr j hj => by simp only [Spec.sum]; grind⟩

theorem smallGemm_kernel {A B : View α} {m n k : Nat} (alpha beta : α) {c : List α} (hB : Bounds A B m n k)
    (hc : c.length = m * n) :
    ∃ c', smallGemm A B m n k alpha beta c = some c' ∧ Kernel A B alpha beta m n k c c' := by
  obtain ⟨c1, e1, l1, g1⟩ := scale_some m n beta c hc
  by_cases ha : alpha = 0
  · subst ha
    exact ⟨c1, by simp [smallGemm, e1], kernel_of_zero l1 g1⟩
  obtain ⟨c', e, hp⟩ := forTo_one (a := 0) (b := m)
    (body := fun i c => forTo 0 k 1 (fun q c => do
      let a ← A.mem[A.addr i q]?
      rowPlain n (alpha * a) B.mem (B.addr q 0) c (i * n)) c)
    (fun i => Prog A B alpha m n c1 (fun r => if r < i then k else 0)) (Nat.zero_le _)
    (fun i s _ hi hP => by
      obtain ⟨s', e, hp⟩ := forTo_one (a := 0) (b := k)
        (body := fun q c => do
          let a ← A.mem[A.addr i q]?
          rowPlain n (alpha * a) B.mem (B.addr q 0) c (i * n))
        (fun q => Prog A B alpha m n c1 (fun r => if r < i then k else if r = i then q else 0)) (Nat.zero_le _)
        (fun q t _ hq hQ => by
          obtain ⟨t', e, hp⟩ := hQ.step hB hi hq (by simp) (rowPlain n) (fun a b bo c co h1 h2 => rowPlain_upd h1 h2)
          refine ⟨t', e, hp.congr fun r hr => ?_⟩
          by_cases h1 : r = i
          · subst h1; simp
          · simp [h1])
        s (hP.congr fun r hr => by
          by_cases h1 : r < i
          · simp [h1]
          · simp [h1])
      refine ⟨s', e, hp.congr fun r hr => ?_⟩
      by_cases h1 : r < i
      · rw [if_pos h1, if_pos (by omega)]
      · by_cases h2 : r = i
        · rw [if_neg h1, if_pos h2, if_pos (by omega)]
        · rw [if_neg h1, if_neg h2, if_neg (by omega)])
    c1 ((prog_zero A B alpha l1).congr fun r hr => by simp)
  refine ⟨c', by simp [smallGemm, e1, ha]; exact e, kernel_of_prog g1 (hp.congr fun r hr => by rw [if_pos hr])⟩

theorem cacheGemm_kernel {v : Nat} (hv : 0 < v) {A B : View α} {m n k : Nat} (alpha beta : α) {c : List α}
    (hB : Bounds A B m n k) (hc : c.length = m * n) :
    ∃ c', cacheGemm v A B m n k alpha beta c = some c' ∧ Kernel A B alpha beta m n k c c' := by
  obtain ⟨c1, e1, l1, g1⟩ := scale_some m n beta c hc
  by_cases ha : alpha = 0
  · subst ha
    exact ⟨c1, by simp [cacheGemm, e1], kernel_of_zero l1 g1⟩
  obtain ⟨kc, c', e, hp, hk⟩ := forTo_inv (a := 0) (b := k) (step := blockK)
    (body := fun kc c =>
      forTo 0 m blockM (fun ic c =>
        forTo ic (min (ic + blockM) m) 1 (fun i c =>
          forTo kc (min (kc + blockK) k) 1 (fun q c => do
            let a ← A.mem[A.addr i q]?
            rowUpdate v n (alpha * a) B.mem (B.addr q 0) c (i * n)) c) c) c)
    (fun kc => Prog A B alpha m n c1 (fun _ => min kc k)) (by decide)
    (fun kc s hkc hP => by
      obtain ⟨ic, s', e, hp, hm⟩ := forTo_inv (a := 0) (b := m) (step := blockM)
        (body := fun ic c =>
          forTo ic (min (ic + blockM) m) 1 (fun i c =>
            forTo kc (min (kc + blockK) k) 1 (fun q c => do
              let a ← A.mem[A.addr i q]?
              rowUpdate v n (alpha * a) B.mem (B.addr q 0) c (i * n)) c) c)
        (fun ic => Prog A B alpha m n c1 (fun r => if r < ic then min (kc + blockK) k else kc)) (by decide)
        (fun ic s hic hP => by
          obtain ⟨s', e, hp⟩ := forTo_one (a := ic) (b := min (ic + blockM) m)
            (body := fun i c =>
              forTo kc (min (kc + blockK) k) 1 (fun q c => do
                let a ← A.mem[A.addr i q]?
                rowUpdate v n (alpha * a) B.mem (B.addr q 0) c (i * n)) c)
            (fun i => Prog A B alpha m n c1 (fun r => if r < i then min (kc + blockK) k else kc)) (by omega)
            (fun i s _ hi hP => by
              obtain ⟨s', e, hp⟩ := forTo_one (a := kc) (b := min (kc + blockK) k)
                (body := fun q c => do
                  let a ← A.mem[A.addr i q]?
                  rowUpdate v n (alpha * a) B.mem (B.addr q 0) c (i * n))
                (fun q => Prog A B alpha m n c1
                  (fun r => if r < i then min (kc + blockK) k else if r = i then q else kc)) (by omega)
                (fun q t _ hq hQ => by
                  obtain ⟨t', e, hp⟩ := hQ.step hB (i := i) (by omega) (q := q) (by omega) (by simp) (rowUpdate v n)
                    (fun a b bo c co h1 h2 => rowUpdate_upd hv h1 h2)
                  refine ⟨t', e, hp.congr fun r hr => ?_⟩
                  by_cases h1 : r = i
                  · subst h1; simp
                  · simp [h1])
                s (hP.congr fun r hr => by
                  by_cases h1 : r < i
                  · simp [h1]
                  · simp [h1])
              refine ⟨s', e, hp.congr fun r hr => ?_⟩
              by_cases h1 : r < i
              · rw [if_pos h1, if_pos (by omega)]
              · by_cases h2 : r = i
                · rw [if_neg h1, if_pos h2, if_pos (by omega)]
                · rw [if_neg h1, if_neg h2, if_neg (by omega)])
            s hP
          refine ⟨s', e, hp.congr fun r hr => ?_⟩
          by_cases h1 : r < ic + blockM
          · rw [if_pos (by omega), if_pos h1]
          · rw [if_neg (by omega), if_neg h1])
        s (hP.congr fun r hr => by
          rw [if_neg (by omega)]; omega)
      refine ⟨s', e, hp.congr fun r hr => ?_⟩
      rw [if_pos (by omega)])
    c1 ((prog_zero A B alpha l1).congr fun r hr => by omega)
  refine ⟨c', by simp [cacheGemm, e1, ha]; exact e, kernel_of_prog g1 (hp.congr fun r hr => by omega)⟩

end

end Verif.Gemm
