import Verif.FileIo.Queue
/-!
# C96: the final message arrives
-/
namespace Verif.FileIo.Queue
open Verif.Bytes (Byte)

/-- A program as workers have them: pieces, perhaps an error, and the final message at the end. -/
def Ends (program : List Msg) : Prop := ∃ (pieces : List (List Byte)) (err : Option Err), program = pieces.map .data ++ (err.map Msg.error).toList ++ [.final]

theorem afterCancel_data (pieces : List (List Byte)) (ms : List Msg) : afterCancel (pieces.map .data ++ ms) = afterCancel ms := by
  induction pieces with
  | nil => rfl
  | cons p ps ih => exact ih

/-- The invariant: what was taken, what waits in the queue, in the worker's hand and in its program: pieces, a first part of those of the program (all if it was not
cancelled), then the error if there is one and the final message; the queue is never longer than its slots. -/
structure Inv (slots : Nat) (pieces : List (List Byte)) (err : Option Err) (s : St) : Prop where
  same : s.slots = slots
  size : s.queue.length ≤ slots
  form : ∃ k, s.got ++ s.queue ++ s.holding.toList ++ s.todo = (pieces.take k).map .data ++ (err.map Msg.error).toList ++ [.final] ∧
    (s.cancelled = false → pieces.length ≤ k)

theorem Inv.start (slots : Nat) (pieces : List (List Byte)) (err : Option Err) :
    Inv slots pieces err (.init slots (pieces.map .data ++ (err.map Msg.error).toList ++ [.final])) :=
  ⟨rfl, Nat.zero_le _, pieces.length, by simp [St.init], fun _ => Nat.le_refl _⟩

/-- cutting a program after some pieces -/
theorem cut_form {pieces : List (List Byte)} {err : Option Err} {k : Nat} {front : List Msg} {b : List Byte} {ms : List Msg}
    (h : front ++ .data b :: ms = (pieces.take k).map .data ++ (err.map Msg.error).toList ++ [.final]) :
    ∃ j, front ++ afterCancel ms = (pieces.take j).map .data ++ (err.map Msg.error).toList ++ [.final] := by
  -- everything before the piece is a piece
  have key : ∀ (ps : List (List Byte)) (front : List Msg), front ++ .data b :: ms = ps.map .data ++ (err.map Msg.error).toList ++ [.final] →
      ∃ j, front = (ps.take j).map .data ∧ afterCancel ms = (err.map Msg.error).toList ++ [.final] := by
    intro ps
    induction ps with
    | nil =>
      intro front h
      exfalso
      have hm : Msg.data b ∈ (([] : List (List Byte)).map Msg.data ++ (err.map Msg.error).toList ++ [.final]) := by rw [← h]; simp
      cases err <;> simp at hm
    | cons p ps ih =>
      intro front h
      cases front with
      | nil =>
        rw [List.nil_append, List.map_cons, List.cons_append, List.cons_append, List.cons.injEq] at h
        refine ⟨0, rfl, ?_⟩
        rw [h.2, List.append_assoc, afterCancel_data]
        cases err <;> rfl
      | cons f fs =>
        rw [List.cons_append, List.map_cons, List.cons_append, List.cons_append, List.cons.injEq] at h
        obtain ⟨j, h1, h2⟩ := ih fs h.2
        exact ⟨j + 1, by rw [h1, h.1]; rfl, h2⟩
  obtain ⟨j, h1, h2⟩ := key _ _ h
  refine ⟨min j k, ?_⟩
  rw [h1, h2, List.take_take, List.append_assoc]

theorem Inv.work {slots : Nat} {pieces : List (List Byte)} {err : Option Err} {s t : St} (h : Inv slots pieces err s) (hs : Work s t) : Inv slots pieces err t := by
  obtain ⟨h1, h2, k, h3, h4⟩ := h
  cases hs with
  | begin a b c =>
    refine ⟨h1, h2, k, ?_, h4⟩
    rw [a, b] at h3
    rw [← h3]; simp
  | drop a b c =>
    rw [a, b] at h3
    obtain ⟨j, hj⟩ := cut_form h3
    refine ⟨h1, h2, j, ?_, fun x => by rw [c] at x; cases x⟩
    show s.got ++ s.queue ++ s.holding.toList ++ _ = _
    rw [a]; exact hj
  | last a b c =>
    refine ⟨h1, h2, k, ?_, h4⟩
    rw [a, b] at h3
    rw [← h3]; simp
  | publish a b =>
    refine ⟨h1, ?_, k, ?_, h4⟩
    · show (s.queue ++ [_]).length ≤ slots
      rw [List.length_append, List.length_singleton]; omega
    · rw [a] at h3
      rw [← h3]; simp

theorem Inv.take {slots : Nat} {pieces : List (List Byte)} {err : Option Err} {s t : St} (h : Inv slots pieces err s) (hs : Take s t) : Inv slots pieces err t := by
  obtain ⟨h1, h2, k, h3, h4⟩ := h
  cases hs with
  | take a =>
    refine ⟨h1, ?_, k, ?_, h4⟩
    · rw [a, List.length_cons] at h2
      exact Nat.le_of_succ_le h2
    · rw [a] at h3
      rw [← h3]; simp

theorem Reach.inv {slots : Nat} {pieces : List (List Byte)} {err : Option Err} {s : St}
    (h : Reach slots (pieces.map .data ++ (err.map Msg.error).toList ++ [.final]) s) : Inv slots pieces err s := by
  induction h with
  | init => exact .start _ _ _
  | step _ hs ih =>
    cases hs with
    | work hw => exact ih.work hw
    | take ht => exact ih.take ht
    | cancel => exact ⟨ih.same, ih.size, by obtain ⟨k, h, _⟩ := ih.form; exact ⟨k, h, fun x => by cases x⟩⟩

/-- **C96, what the reader takes.** In every state reached, what was taken is a first part of: pieces of the source, as many as were not dropped, the
error if there is one, and the final message; without cancellation no piece is dropped. The queue is never overrun. -/
theorem queue_order {slots : Nat} {pieces : List (List Byte)} {err : Option Err} {s : St}
    (h : Reach slots (pieces.map .data ++ (err.map Msg.error).toList ++ [.final]) s) :
    s.queue.length ≤ slots ∧ ∃ k, s.got ++ s.queue <+: (pieces.take k).map .data ++ (err.map Msg.error).toList ++ [.final] ∧
      (s.cancelled = false → pieces.length ≤ k) := by
  obtain ⟨_, h2, k, h3, h4⟩ := h.inv
  exact ⟨h2, k, ⟨s.holding.toList ++ s.todo, by rw [← h3]; simp⟩, h4⟩

/-- what the worker has not done: three steps for a message at most -/
def St.left (s : St) : Nat := 3 * s.todo.length + 2 * s.holding.toList.length + s.queue.length

theorem afterCancel_length (ms : List Msg) : (afterCancel ms).length ≤ ms.length := by
  induction ms with
  | nil => exact Nat.le_refl _
  | cons m ms ih =>
    cases m with
    | data b => exact Nat.le_succ_of_le ih
    | error e => exact Nat.succ_le_succ ih
    | final => exact Nat.le_refl _

theorem left_less {s t : St} (h : Work s t ∨ Take s t) : t.left < s.left := by
  unfold St.left
  rcases h with h | h
  · cases h with
    | begin a b c => rw [a, b]; simp; omega
    | @drop b' ms a b c =>
      have := afterCancel_length ms
      rw [a, b]; simp; omega
    | last a b c => rw [a, b]; simp; omega
    | publish a b => rw [a]; simp; omega
  · cases h with
    | take a => rw [a]; simp

/-- **C96.** If the reader goes on taking messages the worker is never stuck: as long as the final message was not taken, the worker or the reader can do a step, whatever
the number of slots, before and after a cancellation; -/
theorem queue_live {slots : Nat} {pieces : List (List Byte)} {err : Option Err} {s : St} (hslots : 0 < slots)
    (h : Reach slots (pieces.map .data ++ (err.map Msg.error).toList ++ [.final]) s) (hf : .final ∉ s.got) : ∃ t, Work s t ∨ Take s t := by
  obtain ⟨h1, h2, k, h3, h4⟩ := h.inv
  cases hq : s.queue with
  | cons m q => exact ⟨_, .inr (.take hq)⟩
  | nil =>
    cases hh : s.holding with
    | some m => exact ⟨_, .inl (.publish hh (by rw [hq, h1]; exact hslots))⟩
    | none =>
      cases ht : s.todo with
      | nil =>
        rw [hq, hh, ht] at h3
        exact absurd (by
          have : s.got = (pieces.take k).map .data ++ (err.map Msg.error).toList ++ [.final] := by rw [← h3]; simp
          rw [this]; simp) hf
      | cons m ms =>
        cases m with
        | data b =>
          cases hc : s.cancelled with
          | false => exact ⟨_, .inl (.begin hh ht hc)⟩
          | true => exact ⟨_, .inl (.drop hh ht hc)⟩
        | error e => exact ⟨_, .inl (.last hh ht nofun)⟩
        | final => exact ⟨_, .inl (.last hh ht nofun)⟩

/-- and no run of worker and reader is longer than three steps for each message of the program, so that each run that is not cut short ends with the final
message taken. -/
theorem queue_ends {n : Nat} {s t : St} (h : Runs n s t) : n + t.left ≤ s.left := by
  induction h with
  | refl => omega
  | step _ hs ih =>
    have := left_less hs
    omega

theorem runs_reach {slots : Nat} {program : List Msg} {n : Nat} {s t : St} (h0 : Reach slots program s) (h : Runs n s t) : Reach slots program t := by
  induction h with
  | refl => exact h0
  | step _ hs ih =>
    rcases hs with hs | hs
    · exact .step (ih h0) (.work hs)
    · exact .step (ih h0) (.take hs)

/-- **C96.** From every state reached, every run in which the reader goes on taking, and which cannot be continued, ends with the final message taken. -/
theorem queue_final {slots : Nat} {pieces : List (List Byte)} {err : Option Err} {s t : St} {n : Nat} (hslots : 0 < slots)
    (h : Reach slots (pieces.map .data ++ (err.map Msg.error).toList ++ [.final]) s) (hr : Runs n s t) (hstop : ∀ u, ¬ (Work t u ∨ Take t u)) : .final ∈ t.got := by
  refine Classical.byContradiction fun hf => ?_
  obtain ⟨u, hu⟩ := queue_live hslots (runs_reach h hr) hf
  exact hstop u hu

/-! ## a reader that is cancelled and dropped -/

theorem works_stuck {s t : St} {m : Msg} (hh : s.holding = some m) (hq : s.queue.length = s.slots) (h : Works s t) : t = s := by
  induction h with
  | refl => rfl
  | step _ hw ih =>
    subst ih
    cases hw with
    | begin a _ _ => rw [hh] at a; cases a
    | drop a _ _ => rw [hh] at a; cases a
    | last a _ _ => rw [hh] at a; cases a
    | publish a b => omega

/-- the worker fills the queue -/
theorem fill (slots : Nat) (pieces : List (List Byte)) (rest : List Msg) : ∀ n, n ≤ slots → n ≤ pieces.length →
    Reach slots (pieces.map .data ++ rest)
      { slots, queue := (pieces.take n).map .data, holding := none, todo := (pieces.drop n).map .data ++ rest, cancelled := false, got := [] } := by
  intro n
  induction n with
  | zero => intro _ _; exact .init
  | succ n ih =>
    intro h1 h2
    have hlt : n < pieces.length := h2
    have hd : pieces.drop n = pieces[n] :: pieces.drop (n + 1) := List.drop_eq_getElem_cons hlt
    have r1 := Reach.step (ih (by omega) (by omega)) (.work (.begin (b := pieces[n]) (ms := (pieces.drop (n + 1)).map .data ++ rest) rfl (by
      show (pieces.drop n).map Msg.data ++ rest = _
      rw [hd]; rfl) rfl))
    have r2 := Reach.step r1 (.work (.publish (m := .data pieces[n]) rfl (by
      show ((pieces.take n).map Msg.data).length < slots
      rw [List.length_map, List.length_take]; omega)))
    have e : (pieces.take (n + 1)).map Msg.data = (pieces.take n).map .data ++ [.data pieces[n]] := by
      rw [List.take_succ_eq_append_getElem hlt, List.map_append]; rfl
    rw [e]
    exact r2

/-- **C96 is false for a reader that is cancelled and not polled any more**, as the file source does with each of its readers (BasicFileIo.hpp:334-340). "A final message (either
success or error) will always be published" (FileIo.hpp:262): with more pieces than slots there is a state in which the reader is cancelled, and no step
of the worker leads anywhere; the thread of the worker is lost. -/
theorem cancel_no_final (slots : Nat) (pieces : List (List Byte)) (err : Option Err) (h : slots < pieces.length) :
    ∃ s, Reach slots (pieces.map .data ++ (err.map Msg.error).toList ++ [.final]) s ∧ s.cancelled = true ∧ s.got = [] ∧
      ∀ t, Works s t → .final ∉ t.queue ∧ .final ∉ t.got ∧ ∀ u, ¬ Work t u := by
  have r1 := fill slots pieces ((err.map Msg.error).toList ++ [.final]) slots (Nat.le_refl _) (by omega)
  rw [← List.append_assoc] at r1
  have r2 := Reach.step r1 (.work (.begin (b := pieces[slots]) (ms := (pieces.drop (slots + 1)).map .data ++ ((err.map Msg.error).toList ++ [.final])) rfl (by
      show (pieces.drop slots).map Msg.data ++ _ = _
      rw [List.drop_eq_getElem_cons h]; rfl) rfl))
  refine ⟨_, .step r2 .cancel, rfl, rfl, ?_⟩
  intro t ht
  have hlen : ((pieces.take slots).map Msg.data).length = slots := by rw [List.length_map, List.length_take]; omega
  have e := works_stuck (m := .data pieces[slots]) rfl hlen ht
  subst e
  refine ⟨?_, by simp [St.cancel], ?_⟩
  · show Msg.final ∉ (pieces.take slots).map Msg.data
    intro hm
    obtain ⟨_, _, hx⟩ := List.mem_map.1 hm
    cases hx
  intro u hu
  have : u = _ := works_stuck (m := .data pieces[slots]) rfl hlen (.step .refl hu)
  have hl := left_less (.inl hu)
  rw [this] at hl
  omega

/-- the case of the file source: 1024 slots, pieces of `length` samples -/
example : (1024 : Nat) < (List.replicate 1025 [0#8]).length := by rw [List.length_replicate]; decide

/-- If it is polled until the final message after the cancellation, nothing is lost: a run from there ends with the final message. -/
example {slots : Nat} {pieces : List (List Byte)} {s t : St} {n : Nat} (hslots : 0 < slots)
    (h : Reach slots (pieces.map .data ++ ((none : Option Err).map Msg.error).toList ++ [.final]) s) (hr : Runs n s.cancel t) (hstop : ∀ u, ¬ (Work t u ∨ Take t u)) : .final ∈ t.got :=
  queue_final hslots (.step h .cancel) hr hstop

end Verif.FileIo.Queue
