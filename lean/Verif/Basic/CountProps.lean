import Verif.Basic.Lemmas

/-!
# Blocks which stop after a number of samples
-/

namespace Verif.Basic

/-- a freshly started block with the limit `N` -/
def fresh {β : Type} (N : BitVec 32) : Run Counter β := ⟨⟨N, 0⟩, [], 0, false⟩

/-- **A head block passes exactly the first `N` samples**, however the stream is cut into chunks, and stops with the sample number
`N`, neither earlier nor later. -/
theorem head_exact {α : Type} (N : BitVec 32) (hN : 0 < N.toNat) (stream : List α) (ns : List Nat) :
    (calls headStep stream (fresh N) ns).out = stream.take (min N.toNat ns.sum) ∧
    (calls headStep stream (fresh N) ns).stopped = decide (N.toNat ≤ min ns.sum stream.length) := by
  have h := calls_limit (fun _ x => x) stream (N := N) ns (k := 0) hN (Nat.zero_le _)
  simp only [outs_const, List.map_id', List.take_zero, Nat.zero_add] at h
  exact ⟨h.1, h.2.1⟩

example : (calls headStep [10, 11, 12, 13, 14, 15, 16] (fresh 5) [2, 0, 2, 3]).out = [10, 11, 12, 13, 14] := by decide

/-- Without a limit (`0`) every sample offered is passed, and the block never stops. -/
theorem head_unlimited {α : Type} (stream : List α) (ns : List Nat) :
    (calls headStep stream (fresh 0) ns).out = stream.take ns.sum ∧ (calls headStep stream (fresh 0) ns).stopped = false ∧
    (calls headStep stream (fresh 0) ns).consumed = min ns.sum stream.length := by
  have h := calls_free (fun _ x => x) stream ns (k := 0) (Nat.zero_le _)
  simp only [outs_const, List.map_id', List.take_zero, Nat.zero_add] at h
  have e : calls headStep stream (fresh 0) ns = _ := h
  rw [e]
  exact ⟨rfl, rfl, rfl⟩

/-- **What it passed before stopping is consumed, what it passed in the call in which it stopped is not**: after stopping, samples
which have already been passed are still in the input. -/
theorem head_consumed {α : Type} (N : BitVec 32) (hN : 0 < N.toNat) (stream : List α) (ns : List Nat) :
    ((calls headStep stream (fresh N) ns).stopped = false → (calls headStep stream (fresh N) ns).consumed = (calls headStep stream (fresh N) ns).out.length) ∧
    ((calls headStep stream (fresh N) ns).stopped = true → (calls headStep stream (fresh N) ns).consumed < (calls headStep stream (fresh N) ns).out.length) := by
  have h := calls_limit (fun _ x => x) stream (N := N) ns (k := 0) hN (Nat.zero_le _)
  simp only [outs_const, List.map_id', List.take_zero] at h
  exact h.2.2.2

/-- three samples of five passed are consumed; resumed after a reset, the block passes the other two a second time. -/
theorem head_passes_twice : ∃ (stream : List Nat) (r : Run Counter Nat), r = calls headStep stream (fresh 5) [3, 3] ∧ r.consumed = 3 ∧
    r.out = [10, 11, 12, 13, 14] ∧
    (calls headStep stream { r with state := r.state.reset, stopped := false } [2]).out = [10, 11, 12, 13, 14, 13, 14] :=
  ⟨[10, 11, 12, 13, 14, 15], _, rfl, by decide, by decide, by decide⟩

/-- A block restarted without a reset still lets one sample through before it stops again. -/
theorem head_restart_without_reset {α : Type} (N : BitVec 32) (hN : 0 < N.toNat) (hmax : N.toNat < 2 ^ 32 - 1) (x : α) (xs : List α) (n : Nat) :
    (call headStep (x :: xs) ⟨⟨N, N⟩, [], 0, false⟩ (n + 1)).out = [x] ∧ (call headStep (x :: xs) ⟨⟨N, N⟩, [], 0, false⟩ (n + 1)).stopped = true := by
  have e : (N + 1).toNat = N.toNat + 1 := by
    rw [BitVec.toNat_add]; simp only [BitVec.ofNat_eq_ofNat, BitVec.toNat_ofNat]; omega
  have ht : (Counter.tick ⟨N, N⟩).2 = true := by
    simp only [Counter.tick, BitVec.lt_def, BitVec.le_def, e]; simp; omega
  simp [call, runOne, headStep, ht]

example : (0 : Nat) < (5 : BitVec 32).toNat ∧ (5 : BitVec 32).toNat < 2 ^ 32 - 1 := by decide

theorem source_limit {β : Type} (g : BitVec 32 → Unit → β) (N : BitVec 32) (hN : 0 < N.toNat) (ns : List Nat) :
    (source (ticking g) ⟨N, 0⟩ ns).out = outs g 0 (List.replicate (min N.toNat ns.sum) ()) ∧
    (source (ticking g) ⟨N, 0⟩ ns).stopped = decide (N.toNat ≤ ns.sum) := by
  have h := calls_limit g (List.replicate ns.sum ()) (N := N) ns (k := 0) hN (Nat.zero_le _)
  simp only [List.take_zero, Nat.zero_add, List.length_replicate, Nat.min_self, List.take_replicate, outs] at h
  refine ⟨?_, h.2.1⟩
  have := h.1
  simp only [source]
  rw [show (min N.toNat ns.sum) = min (min N.toNat ns.sum) ns.sum by omega]
  exact this

/-- **A constant source emits exactly `N` samples**, all of the given value, however many it is asked for at a time. -/
theorem constant_exact {α : Type} (value : α) (N : BitVec 32) (hN : 0 < N.toNat) (ns : List Nat) :
    (source (constantStep value) ⟨N, 0⟩ ns).out = List.replicate (min N.toNat ns.sum) value ∧
    (source (constantStep value) ⟨N, 0⟩ ns).stopped = decide (N.toNat ≤ ns.sum) := by
  have h := source_limit (fun _ _ => value) N hN ns
  rw [outs_const, List.map_replicate] at h
  exact h

/-- **A counting source emits `default + 1`, `default + 2`, …, `default + N`** and stops. -/
theorem counting_exact {w : Nat} (value : BitVec w) (N : BitVec 32) (hN : 0 < N.toNat) (ns : List Nat) :
    (source (countingStep value) ⟨N, 0⟩ ns).out = (List.range (min N.toNat ns.sum)).map (fun i => value + BitVec.ofNat w (i + 1)) ∧
    (source (countingStep value) ⟨N, 0⟩ ns).stopped = decide (N.toNat ≤ ns.sum) := by
  have h := source_limit (fun c _ => value + c.setWidth w) N hN ns
  refine ⟨?_, h.2⟩
  have e : (source (countingStep value) ⟨N, 0⟩ ns).out = _ := h.1
  rw [e]
  apply List.ext_getElem
  · simp [outs_length]
  · intro i h1 h2
    rw [outs_getElem]
    simp only [outs_length, List.length_replicate] at h1
    have hi : i + 1 < 2 ^ 32 := by have := N.isLt; omega
    simp only [List.getElem_map, List.getElem_range]
    congr 1
    apply BitVec.eq_of_toNat_eq
    simp only [BitVec.toNat_setWidth, BitVec.toNat_ofNat, Nat.zero_add]
    rw [Nat.mod_eq_of_lt hi]

example : (source (countingStep (100 : BitVec 16)) ⟨4, 0⟩ [3, 3]).out = [101, 102, 103, 104] := by decide

/-- The first sample is the default value plus one, not the default value itself. -/
theorem counting_starts_after_default : ∃ (value : BitVec 32) (out : List (BitVec 32)),
    (source (countingStep value) ⟨3, 0⟩ [5]).out = out ∧ out.head? ≠ some value :=
  ⟨100, _, rfl, by decide⟩

/-- **A counting sink consumes exactly `N` samples**: no call takes it beyond, and it stops in the call in which it reaches `N`. The
numbers offered must not take the 32 bit counter past its end. -/
theorem sink_exact_partial (N : BitVec 32) (hN : 0 < N.toNat) (ns : List Nat) (k : Nat) (hk : k ≤ N.toNat) (hfit : ∀ n ∈ ns, N.toNat + n < 2 ^ 32) :
    (sinkCalls ⟨N, BitVec.ofNat 32 k⟩ ns).2.1 = min (N.toNat - k) ns.sum ∧
    (ns ≠ [] → (sinkCalls ⟨N, BitVec.ofNat 32 k⟩ ns).2.2 = decide (N.toNat ≤ k + ns.sum)) ∧
    (sinkCalls ⟨N, BitVec.ofNat 32 k⟩ ns).1 = ⟨N, BitVec.ofNat 32 (min N.toNat (k + ns.sum))⟩ := by
  induction ns generalizing k with
  | nil => simp [sinkCalls, Nat.min_eq_right hk]
  | cons n ns ih =>
    have hb := hfit n (by simp)
    have hNlt := N.isLt
    have e1 : (BitVec.ofNat 32 k + BitVec.ofNat 32 n).toNat = k + n := by
      rw [← BitVec.ofNat_add, BitVec.toNat_ofNat]; omega
    have e2 : (N - BitVec.ofNat 32 k).toNat = N.toNat - k := by
      rw [BitVec.toNat_sub_of_le]
      · rw [BitVec.toNat_ofNat]; omega
      · rw [BitVec.le_def, BitVec.toNat_ofNat]; omega
    by_cases h : N.toNat ≤ k + n
    · have hs : sinkCall ⟨N, BitVec.ofNat 32 k⟩ n = (⟨N, N⟩, N.toNat - k, true) := by
        simp only [sinkCall, BitVec.lt_def, BitVec.le_def, e1, e2, h, decide_true, Bool.and_true]
        have : N.toNat - k ≤ n := by omega
        simp [hN, this]
      have e3 : BitVec.ofNat 32 N.toNat = N := by simp
      simp only [sinkCalls, hs, if_true, List.sum_cons]
      refine ⟨by omega, fun _ => (decide_eq_true (by omega)).symm, ?_⟩
      rw [Nat.min_eq_left (by omega), e3]
    · have hs : sinkCall ⟨N, BitVec.ofNat 32 k⟩ n = (⟨N, BitVec.ofNat 32 (k + n)⟩, n, false) := by
        simp only [sinkCall, BitVec.lt_def, BitVec.le_def, e1, h, decide_false, Bool.and_false, Bool.false_eq_true, if_false]
        rw [BitVec.ofNat_add]
      have hi := ih (k := k + n) (by omega) (fun m hm => hfit m (by simp [hm]))
      simp only [sinkCalls, hs, Bool.false_eq_true, if_false, List.sum_cons]
      obtain ⟨a, b, c⟩ := hi
      refine ⟨?_, fun _ => ?_, ?_⟩
      · clear hfit ih b c e1 e2
        rw [a]; omega
      · cases ns with
        | nil => simp only [sinkCalls, List.sum_nil, Nat.add_zero, h, decide_false]
        | cons m ms => rw [b (by simp)]; congr 1; simp only [Nat.add_assoc]
      · rw [c, Nat.add_assoc]

example : sinkCalls ⟨5, 0⟩ [2, 2, 7, 3] = (⟨5, 5⟩, 5, true) := by decide

/-- **Near the end of the counter's range the sink overshoots**: with a limit of the largest count, two chunks whose sum wraps are
both consumed completely, and the block goes on. -/
theorem sink_overshoots : (sinkCall ⟨BitVec.ofNat 32 (2 ^ 32 - 1), BitVec.ofNat 32 (2 ^ 32 - 2)⟩ 2).2 = (2, false) := by decide

/-- **Lowering the limit below what has been counted**: the sink stops, but discards a whole chunk although it has already
consumed more than the limit. -/
theorem sink_lowered_limit : (sinkCall ⟨3, 10⟩ 4).2 = (4, true) := by decide

end Verif.Basic
