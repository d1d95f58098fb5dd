import Verif.Basic.Model

/-!
# Waiting blocks
-/

namespace Verif.Basic

/-- **A delay block never loses, repeats or reorders a sample**: whatever the calls, what it passed is a prefix of its input. -/
theorem delay_prefix {α : Type} (evs : List (Nat × Nat × Nat)) (d : Delay) (stream : List α) : d.calls stream evs <+: stream := by
  induction evs generalizing d stream with
  | nil => exact List.nil_prefix
  | cons e evs ih =>
    obtain ⟨now, offered, room⟩ := e
    simp only [Delay.calls]
    by_cases h : (d.waiting && decide (now - d.start < d.delay)) = true
    · have hc : d.call now (stream.take offered) room = (d, []) := by simp [Delay.call, h]
      rw [hc]
      simpa using ih d stream
    · have hc : d.call now (stream.take offered) room = ({ d with waiting := false }, stream.take (min (min (min offered stream.length) room) offered)) := by
        simp only [Delay.call, h, if_false, List.take_take, List.length_take, Bool.false_eq_true]
      rw [hc]
      generalize min (min (min offered stream.length) room) offered = m
      have hi := ih { d with waiting := false } (stream.drop (stream.take m).length)
      obtain ⟨t, ht⟩ := hi
      refine ⟨t, ?_⟩
      simp only at ht ⊢
      rw [List.append_assoc, ht]
      have : stream.drop (stream.take m).length = stream.drop m := by
        by_cases hm : m ≤ stream.length
        · rw [List.length_take, Nat.min_eq_left hm]
        · rw [List.length_take, Nat.min_eq_right (by omega), List.drop_length, List.drop_of_length_le (by omega)]
      rw [this, List.take_append_drop]

/-- **Nothing is passed before the time is up**, -/
theorem delay_waits {α : Type} (delay t0 : Nat) (evs : List (Nat × Nat × Nat)) (h : ∀ e ∈ evs, e.1 < t0 + delay) (h0 : ∀ e ∈ evs, t0 ≤ e.1) (stream : List α) :
    (Delay.begin delay t0).calls stream evs = [] := by
  induction evs with
  | nil => rfl
  | cons e evs ih =>
    obtain ⟨now, offered, room⟩ := e
    have h1 := h _ (List.mem_cons_self ..)
    have h2 := h0 _ (List.mem_cons_self ..)
    simp only at h1 h2
    have hd : now - t0 < delay := by omega
    have hc : (Delay.begin delay t0).call now (stream.take offered) room = (Delay.begin delay t0, []) := by simp [Delay.call, Delay.begin, hd]
    simp only [Delay.calls, hc, List.nil_append, List.length_nil, List.drop_zero]
    exact ih (fun e he => h e (by simp [he])) (fun e he => h0 e (by simp [he]))

/-- **and everything there is room for from then on**: the first call after the time is up ends the waiting for good, and every
call passes as much as is offered and fits. -/
theorem delay_passes {α : Type} (d : Delay) (now : Nat) (inp : List α) (room : Nat) (h : d.waiting = false ∨ d.start + d.delay ≤ now) :
    (d.call now inp room).2 = inp.take room ∧ (d.call now inp room).1.waiting = false := by
  have hb : (d.waiting && decide (now - d.start < d.delay)) = false := by
    cases h with
    | inl h => simp [h]
    | inr h => simp; intro _; omega
  simp only [Delay.call, hb, Bool.false_eq_true, if_false, and_true]
  by_cases hr : room ≤ inp.length
  · rw [Nat.min_eq_right hr]
  · rw [Nat.min_eq_left (by omega), List.take_length, List.take_of_length_le (by omega)]

example : (Delay.begin 10 100).calls [1, 2, 3, 4, 5] [(105, 2, 9), (110, 2, 9), (111, 9, 2)] = [1, 2, 3, 4] := by decide

theorem slow_after {delay : Int} (h0 : 0 ≤ delay) (calls : List (Int × Int)) : ∀ (t : Int), (∀ c ∈ calls, c.1 ≤ c.2) →
    (∀ x ∈ slowTimes delay (some t) calls, t + delay < x) ∧ (slowTimes delay (some t) calls).Pairwise (fun a b => a + delay < b) := by
  induction calls with
  | nil => intro t _; exact ⟨nofun, List.Pairwise.nil⟩
  | cons c calls ih =>
    intro t hm
    obtain ⟨now, now'⟩ := c
    have h1 := hm _ (List.mem_cons_self ..)
    simp only at h1
    have hr : ∀ c ∈ calls, c.1 ≤ c.2 := fun c hc => hm c (by simp [hc])
    by_cases hd : delay < now - t
    · have hc : slowTimes delay (some t) ((now, now') :: calls) = now' :: slowTimes delay (some now') calls := by
        simp [slowTimes, slowCall, hd]
      rw [hc]
      obtain ⟨a, b⟩ := ih now' hr
      refine ⟨fun x hx => ?_, List.Pairwise.cons (fun x hx => a x hx) b⟩
      cases List.mem_cons.1 hx with
      | inl h => omega
      | inr h => have := a x h; omega
    · have hc : slowTimes delay (some t) ((now, now') :: calls) = slowTimes delay (some t) calls := by
        simp [slowTimes, slowCall, hd]
      rw [hc]
      exact ih t hr

/-- **Two samples of a slow source are always more than the delay apart**, provided that the clock does not go back within a call.
(It may go back between calls.) -/
theorem slow_spacing {delay : Int} (h0 : 0 ≤ delay) (calls : List (Int × Int)) (hm : ∀ c ∈ calls, c.1 ≤ c.2) :
    (slowTimes delay none calls).Pairwise (fun a b => a + delay < b) := by
  cases calls with
  | nil => exact List.Pairwise.nil
  | cons c calls =>
    obtain ⟨now, now'⟩ := c
    have hc : slowTimes delay none ((now, now') :: calls) = now' :: slowTimes delay (some now') calls := by simp [slowTimes, slowCall]
    rw [hc]
    obtain ⟨a, b⟩ := slow_after h0 calls now' (fun c hc => hm c (by simp [hc]))
    exact List.Pairwise.cons a b

/-- A sample is published by the first call, and by every call more than the delay after the last sample; -/
theorem slow_publishes (delay : Int) (last : Option Int) (now now' : Int) :
    (slowCall delay last now now').2 = true ↔ ∀ t, last = some t → t + delay < now := by
  cases last with
  | none => simp [slowCall]
  | some t =>
    by_cases h : delay < now - t
    · simp only [slowCall, h, if_true, true_iff, Option.some.injEq]; intro u hu; omega
    · simp only [slowCall, h, if_false, Bool.false_eq_true, Option.some.injEq, false_iff]; intro hh; have := hh t rfl; omega

/-- **so a clock set back stops the source** until the clock has caught up. -/
theorem slow_clock_set_back (delay t : Int) (calls : List (Int × Int)) (h : ∀ c ∈ calls, c.1 ≤ t + delay) : slowTimes delay (some t) calls = [] := by
  induction calls with
  | nil => rfl
  | cons c calls ih =>
    obtain ⟨now, now'⟩ := c
    have h1 := h _ (List.mem_cons_self ..)
    simp only at h1
    have hd : ¬delay < now - t := by omega
    simp only [slowTimes, slowCall, hd, if_false, Bool.false_eq_true]
    exact ih (fun c hc => h c (by simp [hc]))

example : slowTimes 100 none [(1000, 1001), (1050, 1050), (1102, 1103), (500, 500), (1300, 1300)] = [1001, 1103, 1300] := by decide

end Verif.Basic
