import Verif.Basic.Model

namespace Verif.Basic

/-- what counting blocks write for successive samples, by the number of the sample -/
def outs {α β : Type} (g : BitVec 32 → α → β) : Nat → List α → List β
  | _, [] => []
  | k, x :: xs => g (BitVec.ofNat 32 (k + 1)) x :: outs g (k + 1) xs

theorem outs_length {α β : Type} (g : BitVec 32 → α → β) (k : Nat) (xs : List α) : (outs g k xs).length = xs.length := by
  induction xs generalizing k with
  | nil => rfl
  | cons x xs ih => simp [outs, ih]

theorem outs_append {α β : Type} (g : BitVec 32 → α → β) (k : Nat) (xs ys : List α) :
    outs g k (xs ++ ys) = outs g k xs ++ outs g (k + xs.length) ys := by
  induction xs generalizing k with
  | nil => simp [outs]
  | cons x xs ih => simp only [List.cons_append, outs, List.length_cons, ih]; rw [Nat.add_right_comm k 1, ← Nat.add_assoc]

theorem outs_const {α β : Type} (h : α → β) (k : Nat) (xs : List α) : outs (fun _ x => h x) k xs = xs.map h := by
  induction xs generalizing k with
  | nil => rfl
  | cons x xs ih => simp [outs, ih]

theorem outs_getElem {α β : Type} (g : BitVec 32 → α → β) (k : Nat) (xs : List α) (i : Nat) (h : i < (outs g k xs).length) :
    (outs g k xs)[i] = g (BitVec.ofNat 32 (k + i + 1)) (xs[i]'(by rw [outs_length] at h; exact h)) := by
  induction xs generalizing k i with
  | nil => simp [outs] at h
  | cons x xs ih =>
    cases i with
    | zero => simp [outs]
    | succ i => simp only [outs, List.getElem_cons_succ]; rw [ih]; congr 2; omega

/-- a step which counts -/
def ticking {α β : Type} (g : BitVec 32 → α → β) (c : Counter) (x : α) : One Counter β := ⟨c.tick.1, g c.tick.1.count x, c.tick.2⟩

theorem tick_count (N : BitVec 32) (k : Nat) : (Counter.tick ⟨N, BitVec.ofNat 32 k⟩).1 = ⟨N, BitVec.ofNat 32 (k + 1)⟩ := by
  simp [Counter.tick, BitVec.ofNat_add]

theorem tick_stop {N : BitVec 32} {k : Nat} (hN : 0 < N.toNat) (hk : k < N.toNat) :
    (Counter.tick ⟨N, BitVec.ofNat 32 k⟩).2 = decide (N.toNat = k + 1) := by
  have h := N.isLt
  have e : (BitVec.ofNat 32 k + 1).toNat = k + 1 := by
    rw [BitVec.toNat_add, BitVec.toNat_ofNat]
    simp only [BitVec.ofNat_eq_ofNat, BitVec.toNat_ofNat]
    omega
  simp only [Counter.tick, BitVec.lt_def, BitVec.le_def, e]
  by_cases he : N.toNat = k + 1
  · simp [he]
  · have : ¬N.toNat ≤ k + 1 := by omega
    simp [he, this]

theorem tick_free (k : BitVec 32) : (Counter.tick ⟨0, k⟩).2 = false := by
  simp [Counter.tick]

/-- a chunk with a limit -/
theorem runOne_limit {α β : Type} (g : BitVec 32 → α → β) {N : BitVec 32} (xs : List α) : ∀ {k : Nat}, k < N.toNat →
    runOne (ticking g) ⟨N, BitVec.ofNat 32 k⟩ xs =
      (⟨N, BitVec.ofNat 32 (k + (xs.take (N.toNat - k)).length)⟩, outs g k (xs.take (N.toNat - k)), decide (N.toNat ≤ k + xs.length)) := by
  induction xs with
  | nil => intro k hk; simp [runOne, outs, hk]
  | cons x xs ih =>
    intro k hk
    have hs : (Counter.tick ⟨N, BitVec.ofNat 32 k⟩).2 = decide (N.toNat = k + 1) := tick_stop (by omega) hk
    have hc := tick_count N k
    by_cases he : N.toNat = k + 1
    · have h1 : N.toNat - k = 1 := by omega
      have h2 : N.toNat ≤ k + (xs.length + 1) := by omega
      simp only [runOne, ticking, hs, hc]
      simp [h1, outs, h2, he]
    · have h1 : N.toNat - k = (N.toNat - (k + 1)) + 1 := by omega
      have hi := ih (k := k + 1) (by omega)
      have h3 : (N.toNat ≤ k + 1 + xs.length) = (N.toNat ≤ k + (xs.length + 1)) := by rw [Nat.add_assoc, Nat.add_comm 1]
      simp only [runOne]
      have ht : ticking g ⟨N, BitVec.ofNat 32 k⟩ x = ⟨⟨N, BitVec.ofNat 32 (k + 1)⟩, g (BitVec.ofNat 32 (k + 1)) x, false⟩ := by
        simp [ticking, hs, hc, he]
      rw [ht]
      simp only [Bool.false_eq_true, if_false, hi, h1, List.take_succ_cons, outs, List.length_cons, h3]
      congr 3
      omega

/-- a chunk without a limit -/
theorem runOne_free {α β : Type} (g : BitVec 32 → α → β) (xs : List α) : ∀ (k : Nat),
    runOne (ticking g) ⟨0, BitVec.ofNat 32 k⟩ xs = (⟨0, BitVec.ofNat 32 (k + xs.length)⟩, outs g k xs, false) := by
  induction xs with
  | nil => intro k; simp [runOne, outs]
  | cons x xs ih =>
    intro k
    have ht : ticking g ⟨0, BitVec.ofNat 32 k⟩ x = ⟨⟨0, BitVec.ofNat 32 (k + 1)⟩, g (BitVec.ofNat 32 (k + 1)) x, false⟩ := by
      simp only [ticking, tick_free, tick_count]
    simp only [runOne, ht, Bool.false_eq_true, if_false, ih, outs, List.length_cons]
    congr 3
    omega

theorem calls_stopped {σ α β : Type} (step : σ → α → One σ β) (stream : List α) (r : Run σ β) (h : r.stopped = true) (ns : List Nat) :
    calls step stream r ns = r := by
  induction ns with
  | nil => rfl
  | cons n ns ih => simp only [calls, List.foldl_cons] at ih ⊢; rw [show call step stream r n = r by simp [call, h]]; exact ih

theorem take_step {α : Type} (xs : List α) (k n : Nat) : xs.take k ++ (xs.drop k).take n = xs.take (k + n) := by
  rw [List.take_add]

/-- all calls of a block which stops after `N` samples -/
theorem calls_limit {α β : Type} (g : BitVec 32 → α → β) (stream : List α) {N : BitVec 32} (ns : List Nat) : ∀ {k : Nat}, k < N.toNat → k ≤ stream.length →
    let r := calls (ticking g) stream ⟨⟨N, BitVec.ofNat 32 k⟩, outs g 0 (stream.take k), k, false⟩ ns
    r.out = outs g 0 (stream.take (min N.toNat (k + ns.sum))) ∧ r.stopped = decide (N.toNat ≤ min (k + ns.sum) stream.length) ∧
    r.state = ⟨N, BitVec.ofNat 32 r.out.length⟩ ∧ (r.stopped = false → r.consumed = r.out.length) ∧ (r.stopped = true → r.consumed < r.out.length) := by
  induction ns with
  | nil =>
    intro k hk hl
    have h1 : min N.toNat k = k := by omega
    have h2 : ¬N.toNat ≤ min k stream.length := by omega
    simp [calls, h1, hk, outs_length, hl, Nat.min_eq_left hl]
  | cons n ns ih =>
    intro k hk hl
    have hc := runOne_limit g (N := N) ((stream.drop k).take n) hk
    have hlen : ((stream.drop k).take n).length = min n (stream.length - k) := by simp
    by_cases hstop : N.toNat ≤ k + min n (stream.length - k)
    · have hcall : call (ticking g) stream ⟨⟨N, BitVec.ofNat 32 k⟩, outs g 0 (stream.take k), k, false⟩ n =
          ⟨⟨N, BitVec.ofNat 32 N.toNat⟩, outs g 0 (stream.take N.toNat), k, true⟩ := by
        simp only [call, Bool.false_eq_true, if_false, hc, hlen, hstop, decide_true, if_true]
        have e1 : outs g 0 (stream.take k) ++ outs g k (((stream.drop k).take n).take (N.toNat - k)) = outs g 0 (stream.take N.toNat) := by
          have : stream.take N.toNat = stream.take k ++ ((stream.drop k).take n).take (N.toNat - k) := by
            rw [List.take_take, take_step]; congr 1; omega
          rw [this, outs_append]
          simp [Nat.min_eq_left hl]
        have e2 : k + (((stream.drop k).take n).take (N.toNat - k)).length = N.toNat := by simp; omega
        rw [e1, e2]
      have hall : calls (ticking g) stream ⟨⟨N, BitVec.ofNat 32 k⟩, outs g 0 (stream.take k), k, false⟩ (n :: ns) =
          ⟨⟨N, BitVec.ofNat 32 N.toNat⟩, outs g 0 (stream.take N.toNat), k, true⟩ := by
        have : calls (ticking g) stream ⟨⟨N, BitVec.ofNat 32 k⟩, outs g 0 (stream.take k), k, false⟩ (n :: ns) =
          calls (ticking g) stream (call (ticking g) stream ⟨⟨N, BitVec.ofNat 32 k⟩, outs g 0 (stream.take k), k, false⟩ n) ns := rfl
        rw [this, hcall, calls_stopped _ _ _ rfl]
      rw [hall]
      have h1 : min N.toNat (k + (n :: ns).sum) = N.toNat := by simp; omega
      have h2 : N.toNat ≤ min (k + (n :: ns).sum) stream.length := by simp; omega
      have h3 : (outs g 0 (stream.take N.toNat)).length = N.toNat := by rw [outs_length]; simp; omega
      refine ⟨by rw [h1], by simp only [h2, decide_true], by simp only [h3], fun h => (by cases h), fun _ => (by simp only [h3]; exact hk)⟩
    · have hk' : k + min n (stream.length - k) < N.toNat := by omega
      have hcall : call (ticking g) stream ⟨⟨N, BitVec.ofNat 32 k⟩, outs g 0 (stream.take k), k, false⟩ n =
          ⟨⟨N, BitVec.ofNat 32 (k + min n (stream.length - k))⟩, outs g 0 (stream.take (k + min n (stream.length - k))), k + min n (stream.length - k), false⟩ := by
        simp only [call, Bool.false_eq_true, if_false, hc, hlen, hstop, decide_false]
        have e0 : ((stream.drop k).take n).take (N.toNat - k) = (stream.drop k).take n := by
          apply List.take_of_length_le; rw [hlen]; omega
        have e1 : outs g 0 (stream.take k) ++ outs g k ((stream.drop k).take n) = outs g 0 (stream.take (k + min n (stream.length - k))) := by
          have : stream.take (k + min n (stream.length - k)) = stream.take k ++ (stream.drop k).take n := by
            rw [take_step]; by_cases h : n ≤ stream.length - k
            · rw [Nat.min_eq_left h]
            · rw [Nat.min_eq_right (by omega), List.take_of_length_le (by omega), List.take_of_length_le (by omega)]
          rw [this, outs_append]
          simp [Nat.min_eq_left hl]
        rw [e0, e1, outs_length, hlen]
      have hi := ih hk' (by omega)
      have : calls (ticking g) stream ⟨⟨N, BitVec.ofNat 32 k⟩, outs g 0 (stream.take k), k, false⟩ (n :: ns) =
          calls (ticking g) stream (call (ticking g) stream ⟨⟨N, BitVec.ofNat 32 k⟩, outs g 0 (stream.take k), k, false⟩ n) ns := rfl
      simp only [this, hcall]
      obtain ⟨a, b, c, d, e⟩ := hi
      refine ⟨?_, ?_, c, d, e⟩
      · rw [a]
        by_cases h : n ≤ stream.length - k
        · rw [Nat.min_eq_left h, List.sum_cons, Nat.add_assoc]
        · have h1 : stream.length ≤ min N.toNat (k + min n (stream.length - k) + ns.sum) := by omega
          have h2 : stream.length ≤ min N.toNat (k + (n :: ns).sum) := by simp; omega
          rw [List.take_of_length_le h1, List.take_of_length_le h2]
      · rw [b]
        congr 1
        simp only [List.sum_cons, eq_iff_iff]
        omega

/-- all calls of a block without a limit -/
theorem calls_free {α β : Type} (g : BitVec 32 → α → β) (stream : List α) (ns : List Nat) : ∀ {k : Nat}, k ≤ stream.length →
    calls (ticking g) stream ⟨⟨0, BitVec.ofNat 32 k⟩, outs g 0 (stream.take k), k, false⟩ ns =
      ⟨⟨0, BitVec.ofNat 32 (min (k + ns.sum) stream.length)⟩, outs g 0 (stream.take (k + ns.sum)), min (k + ns.sum) stream.length, false⟩ := by
  induction ns with
  | nil => intro k hl; simp [calls, Nat.min_eq_left hl]
  | cons n ns ih =>
    intro k hl
    have hc := runOne_free g ((stream.drop k).take n) k
    have hlen : ((stream.drop k).take n).length = min n (stream.length - k) := by simp
    have hcall : call (ticking g) stream ⟨⟨0, BitVec.ofNat 32 k⟩, outs g 0 (stream.take k), k, false⟩ n =
        ⟨⟨0, BitVec.ofNat 32 (k + min n (stream.length - k))⟩, outs g 0 (stream.take (k + min n (stream.length - k))), k + min n (stream.length - k), false⟩ := by
      simp only [call, Bool.false_eq_true, if_false, hc, hlen]
      have e1 : outs g 0 (stream.take k) ++ outs g k ((stream.drop k).take n) = outs g 0 (stream.take (k + min n (stream.length - k))) := by
        have : stream.take (k + min n (stream.length - k)) = stream.take k ++ (stream.drop k).take n := by
          rw [take_step]; by_cases h : n ≤ stream.length - k
          · rw [Nat.min_eq_left h]
          · rw [Nat.min_eq_right (by omega), List.take_of_length_le (by omega), List.take_of_length_le (by omega)]
        rw [this, outs_append]
        simp [Nat.min_eq_left hl]
      rw [e1, outs_length, hlen]
    have : calls (ticking g) stream ⟨⟨0, BitVec.ofNat 32 k⟩, outs g 0 (stream.take k), k, false⟩ (n :: ns) =
        calls (ticking g) stream (call (ticking g) stream ⟨⟨0, BitVec.ofNat 32 k⟩, outs g 0 (stream.take k), k, false⟩ n) ns := rfl
    rw [this, hcall, ih (by omega)]
    have e1 : min (k + min n (stream.length - k) + ns.sum) stream.length = min (k + (n :: ns).sum) stream.length := by simp; omega
    have e2 : stream.take (k + min n (stream.length - k) + ns.sum) = stream.take (k + (n :: ns).sum) := by
      by_cases h : n ≤ stream.length - k
      · rw [Nat.min_eq_left h, List.sum_cons, Nat.add_assoc]
      · rw [List.take_of_length_le (by omega), List.take_of_length_le (by simp; omega)]
    rw [e1, e2]

end Verif.Basic
