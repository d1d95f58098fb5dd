import Verif.FileIo.SrcProps
/-!
# C95: a file sink writes the samples it consumes
-/
namespace Verif.FileIo
open Verif.Bytes (Byte)

theorem writeLast_append (xs : List (List Byte)) (f : List Byte) (t : Bool) (data : List Byte) :
    writeLast (xs ++ [f]) t data = xs ++ [if t then data else f ++ data] := by
  simp [writeLast]

/-- the file that is written next, if the current one is full -/
def Snk.turn (c : SnkCfg) (s : Snk) : Snk := if c.maxBytes ≠ 0 ∧ c.maxBytes ≤ s.written then s.openNext c else s

/-- A call on whole samples, if the samples divide the largest size of a file: some of them are consumed, and just these are written. -/
theorem Snk.call_ok {c : SnkCfg} {s : Snk} {data : List Byte} (h0 : 0 < c.size) (hmax : c.size ∣ c.maxBytes) (hw : c.size ∣ s.written) (hd : c.size ∣ data.length)
    (hne : data ≠ []) :
    ∃ k, (s.call c data).1 = k ∧ 0 < k ∧ k * c.size ≤ data.length ∧ c.size ∣ (s.turn c).written ∧
      (s.call c data).2 = { files := writeLast (s.turn c).files ((s.turn c).written = 0 ∧ c.mode ≠ .append) (data.take (k * c.size)),
                            written := (s.turn c).written + k * c.size } ∧
      (c.maxBytes ≠ 0 → (s.turn c).written + k * c.size ≤ c.maxBytes) := by
  have hpos := List.length_pos_iff.2 hne
  have hturn : c.size ∣ (s.turn c).written ∧ (c.maxBytes ≠ 0 → (s.turn c).written < c.maxBytes) := by
    unfold Snk.turn
    split
    · rename_i h
      have : (s.openNext c).written = 0 := by unfold Snk.openNext; split <;> rfl
      rw [this]
      exact ⟨Nat.dvd_zero _, fun _ => by omega⟩
    · rename_i h
      exact ⟨hw, fun h1 => by omega⟩
  unfold Snk.call
  rw [if_neg hne]
  dsimp only
  rw [show (if c.maxBytes ≠ 0 ∧ c.maxBytes ≤ s.written then s.openNext c else s) = s.turn c from rfl]
  generalize hn : (if c.maxBytes ≠ 0 then min data.length (c.maxBytes - (s.turn c).written) else data.length) = n
  have hn1 : c.size ∣ n ∧ 0 < n ∧ n ≤ data.length ∧ (c.maxBytes ≠ 0 → (s.turn c).written + n ≤ c.maxBytes) := by
    rw [← hn]
    split
    · rename_i hm
      have := hturn.2 hm
      refine ⟨?_, by omega, by omega, fun _ => by omega⟩
      rcases Nat.le_total data.length (c.maxBytes - (s.turn c).written) with x | x
      · rw [Nat.min_eq_left x]; exact hd
      · rw [Nat.min_eq_right x]; exact Nat.dvd_sub hmax hturn.1
    · rename_i hm
      exact ⟨hd, hpos, Nat.le_refl _, fun x => absurd x hm⟩
  obtain ⟨⟨k, rfl⟩, h1, h2, h3⟩ := hn1
  have hk : c.size * k / c.size = k := by rw [Nat.mul_div_cancel_left k h0]
  rw [Nat.mul_comm c.size k] at *
  refine ⟨k, hk, ?_, h2, hturn.1, rfl, h3⟩
  rcases Nat.eq_zero_or_pos k with x | x
  · rw [x] at h1; omega
  · exact x

/-- What is on the disk after `done` was consumed. -/
def Written (c : SnkCfg) (old : List (List Byte)) (s : Snk) (done : List Byte) : Prop :=
  match c.mode with
  | .overwrite => s.files = [done] ∧ s.written = done.length
  | .append => s.files = [old.flatten ++ done]
  | .multi => ∃ pre last, s.files = old ++ (pre ++ [last]) ∧ (pre ++ [last]).flatten = done ∧ last.length = s.written ∧
      ∀ f ∈ pre ++ [last], c.size ∣ f.length ∧ (c.maxBytes ≠ 0 → f.length ≤ c.maxBytes)

theorem Snk.calls_ok {c : SnkCfg} {old : List (List Byte)} (h0 : 0 < c.size) (hmax : c.size ∣ c.maxBytes) (hover : c.mode = .overwrite → c.maxBytes = 0)
    (ns : List Nat) : ∀ (s : Snk) (done stream : List Byte), c.size ∣ s.written → Written c old s done → c.size ∣ stream.length →
      Written c old (s.calls c stream ns).2 (done ++ (s.calls c stream ns).1) ∧ (s.calls c stream ns).1 <+: stream ∧ c.size ∣ (s.calls c stream ns).1.length := by
  induction ns with
  | nil =>
    intro s done stream hw hW hd
    rw [show s.calls c stream [] = ([], s) from rfl]
    rw [List.append_nil]
    exact ⟨hW, List.nil_prefix, Nat.dvd_zero _⟩
  | cons n ns ih =>
    intro s done stream hw hW hd
    have e : s.calls c stream (n :: ns) = (stream.take ((s.call c (stream.take (n * c.size))).1 * c.size) ++
        ((s.call c (stream.take (n * c.size))).2.calls c (stream.drop ((s.call c (stream.take (n * c.size))).1 * c.size)) ns).1,
        ((s.call c (stream.take (n * c.size))).2.calls c (stream.drop ((s.call c (stream.take (n * c.size))).1 * c.size)) ns).2) := rfl
    rw [e]
    by_cases hne : stream.take (n * c.size) = []
    · have e2 : s.call c (stream.take (n * c.size)) = (0, s) := by
        unfold Snk.call
        rw [if_pos hne]
      rw [e2]
      simp only [Nat.zero_mul, List.take_zero, List.drop_zero, List.nil_append]
      exact ih s done stream hw hW hd
    · have hdl : c.size ∣ (stream.take (n * c.size)).length := by
        rw [List.length_take]
        rcases Nat.le_total (n * c.size) stream.length with x | x
        · rw [Nat.min_eq_left x]; exact Nat.dvd_mul_left _ _
        · rw [Nat.min_eq_right x]; exact hd
      obtain ⟨k, e1, hk, hle, hwt, e2, hm⟩ := Snk.call_ok (s := s) h0 hmax hw hdl hne
      rw [List.length_take] at hle
      have htt : (stream.take (n * c.size)).take (k * c.size) = stream.take (k * c.size) := by
        rw [List.take_take, Nat.min_eq_left (by omega)]
      rw [htt] at e2
      rw [e1, e2]
      have hpl : (stream.take (k * c.size)).length = k * c.size := by rw [List.length_take]; omega
      have hW' : Written c old (Snk.mk (writeLast (s.turn c).files ((s.turn c).written = 0 ∧ c.mode ≠ .append) (stream.take (k * c.size)))
            ((s.turn c).written + k * c.size)) (done ++ stream.take (k * c.size)) := by
        unfold Written at hW ⊢
        cases hmode : c.mode with
        | overwrite =>
          rw [hmode] at hW
          dsimp only at hW ⊢
          have ht : s.turn c = s := by
            unfold Snk.turn
            rw [if_neg (by rw [hover hmode]; omega)]
          rw [ht, hW.1, show [done] = [] ++ [done] from rfl, writeLast_append, List.nil_append]
          refine ⟨?_, ?_⟩
          · by_cases hz : s.written = 0
            · have : done = [] := List.length_eq_zero_iff.1 (by rw [← hW.2]; exact hz)
              rw [this]; simp
            · simp [hz]
          · rw [List.length_append, hW.2, hpl]
        | append =>
          rw [hmode] at hW
          dsimp only at hW ⊢
          have ht : (s.turn c).files = [old.flatten ++ done] := by
            unfold Snk.turn
            split
            · unfold Snk.openNext
              rw [hmode]
              dsimp only
              rw [hW, show [old.flatten ++ done] = [] ++ [old.flatten ++ done] from rfl, writeLast_append]
              simp
            · exact hW
          rw [ht, show [old.flatten ++ done] = [] ++ [old.flatten ++ done] from rfl, writeLast_append]
          simp
        | multi =>
          rw [hmode] at hW
          dsimp only at hW ⊢
          obtain ⟨pre, last, w1, w2, w3, w4⟩ := hW
          have ht : ∃ pre last, (s.turn c).files = old ++ (pre ++ [last]) ∧ (pre ++ [last]).flatten = done ∧ last.length = (s.turn c).written ∧
              ∀ f ∈ pre ++ [last], c.size ∣ f.length ∧ (c.maxBytes ≠ 0 → f.length ≤ c.maxBytes) := by
            unfold Snk.turn
            split
            · unfold Snk.openNext
              rw [hmode]
              dsimp only
              refine ⟨pre ++ [last], [], ?_, ?_, rfl, ?_⟩
              · rw [w1]; simp
              · rw [List.flatten_append, w2]; simp
              · intro f hf
                rcases List.mem_append.1 hf with hf | hf
                · exact w4 f hf
                · rw [List.mem_singleton.1 hf]
                  exact ⟨Nat.dvd_zero _, fun _ => Nat.zero_le _⟩
            · exact ⟨pre, last, w1, w2, w3, w4⟩
          obtain ⟨pre, last, w1, w2, w3, w4⟩ := ht
          refine ⟨pre, last ++ stream.take (k * c.size), ?_, ?_, ?_, ?_⟩
          · rw [w1, ← List.append_assoc, writeLast_append, List.append_assoc]
            congr 3
            by_cases hz : (s.turn c).written = 0
            · have : last = [] := List.length_eq_zero_iff.1 (by rw [w3]; exact hz)
              rw [this]; simp
            · simp [hz]
          · rw [List.flatten_append, List.flatten_singleton] at w2 ⊢
            rw [← List.append_assoc, w2]
          · rw [List.length_append, w3, hpl]
          · intro f hf
            rcases List.mem_append.1 hf with hf | hf
            · exact w4 f (List.mem_append_left _ hf)
            · rw [List.mem_singleton.1 hf, List.length_append, w3, hpl]
              exact ⟨Nat.dvd_add hwt (Nat.dvd_mul_left _ _), hm⟩
      obtain ⟨i1, i2, i3⟩ := ih _ _ (stream.drop (k * c.size)) (Nat.dvd_add hwt (Nat.dvd_mul_left _ _)) hW' (by
        rw [List.length_drop]; exact Nat.dvd_sub hd (Nat.dvd_mul_left _ _))
      rw [List.append_assoc] at i1
      refine ⟨i1, ?_, ?_⟩
      · generalize ((Snk.mk _ _).calls c (stream.drop (k * c.size)) ns).1 = x at i2 ⊢
        obtain ⟨z, hz⟩ := i2
        exact ⟨z, by rw [List.append_assoc, hz, List.take_append_drop]⟩
      · rw [List.length_append, hpl]
        exact Nat.dvd_add (Nat.dvd_mul_left _ _) i3

theorem Snk.start_ok (c : SnkCfg) (old : List (List Byte)) (hold : c.mode ≠ .multi → old.length ≤ 1) : Written c old (Snk.start c old) [] ∧ (Snk.start c old).written = 0 := by
  unfold Written Snk.start Snk.openNext
  cases hm : c.mode with
  | overwrite =>
    have := hold (by rw [hm]; nofun)
    match old, this with
    | [], _ => exact ⟨⟨rfl, rfl⟩, rfl⟩
    | [f], _ => exact ⟨⟨rfl, rfl⟩, rfl⟩
    | _ :: _ :: _, h => simp at h
  | append =>
    have := hold (by rw [hm]; nofun)
    match old, this with
    | [], _ => exact ⟨rfl, rfl⟩
    | [f], _ => exact ⟨by simp [writeLast], rfl⟩
    | _ :: _ :: _, h => simp at h
  | multi =>
    refine ⟨⟨[], [], rfl, rfl, rfl, ?_⟩, rfl⟩
    intro f hf
    rw [List.nil_append, List.mem_singleton] at hf
    rw [hf]
    exact ⟨Nat.dvd_zero _, fun _ => Nat.zero_le _⟩

/-- **C95, one file.** Without a bound on the size, a file that is overwritten holds what was consumed, and one that is appended to has it after what was there. -/
theorem sink_overwrite_partial (c : SnkCfg) (old : List (List Byte)) (stream : List Byte) (ns : List Nat) (h0 : 0 < c.size) (hm : c.mode = .overwrite)
    (hb : c.maxBytes = 0) (hold : old.length ≤ 1) (hs : c.size ∣ stream.length) :
    ((Snk.start c old).calls c stream ns).2.files = [((Snk.start c old).calls c stream ns).1] ∧ ((Snk.start c old).calls c stream ns).1 <+: stream := by
  obtain ⟨w, z⟩ := Snk.start_ok c old fun _ => hold
  obtain ⟨a, b, _⟩ := Snk.calls_ok h0 (by rw [hb]; exact Nat.dvd_zero _) (fun _ => hb) ns (Snk.start c old) [] stream (by rw [z]; exact Nat.dvd_zero _) w hs
  unfold Written at a
  rw [hm, List.nil_append] at a
  exact ⟨a.1, b⟩

theorem sink_append (c : SnkCfg) (old : List (List Byte)) (stream : List Byte) (ns : List Nat) (h0 : 0 < c.size) (hm : c.mode = .append)
    (hb : c.size ∣ c.maxBytes) (hold : old.length ≤ 1) (hs : c.size ∣ stream.length) :
    ((Snk.start c old).calls c stream ns).2.files = [old.flatten ++ ((Snk.start c old).calls c stream ns).1] ∧ ((Snk.start c old).calls c stream ns).1 <+: stream := by
  obtain ⟨w, z⟩ := Snk.start_ok c old fun _ => hold
  obtain ⟨a, b, _⟩ := Snk.calls_ok h0 hb (by rw [hm]; nofun) ns (Snk.start c old) [] stream (by rw [z]; exact Nat.dvd_zero _) w hs
  unfold Written at a
  rw [hm, List.nil_append] at a
  exact ⟨a, b⟩

/-- **C95, many files.** If the largest size of a file is a multiple of that of a sample, the new files hold what was consumed, in whole samples, and none
is larger than asked for. -/
theorem sink_multi_partial (c : SnkCfg) (old : List (List Byte)) (stream : List Byte) (ns : List Nat) (h0 : 0 < c.size) (hm : c.mode = .multi)
    (hb : c.size ∣ c.maxBytes) (hs : c.size ∣ stream.length) :
    ∃ new, ((Snk.start c old).calls c stream ns).2.files = old ++ new ∧ new.flatten = ((Snk.start c old).calls c stream ns).1 ∧
      ((Snk.start c old).calls c stream ns).1 <+: stream ∧ ∀ f ∈ new, c.size ∣ f.length ∧ (c.maxBytes ≠ 0 → f.length ≤ c.maxBytes) := by
  obtain ⟨w, z⟩ := Snk.start_ok c old fun x => absurd hm x
  obtain ⟨a, b, _⟩ := Snk.calls_ok h0 hb (by rw [hm]; nofun) ns (Snk.start c old) [] stream (by rw [z]; exact Nat.dvd_zero _) w hs
  unfold Written at a
  rw [hm, List.nil_append] at a
  obtain ⟨pre, last, a1, a2, _, a4⟩ := a
  exact ⟨pre ++ [last], a1, a2, b, a4⟩

/-- **C95.** Under the same condition each call with samples at hand consumes some. -/
theorem sink_progress_partial (c : SnkCfg) (s : Snk) (data : List Byte) (h0 : 0 < c.size) (hb : c.size ∣ c.maxBytes) (hw : c.size ∣ s.written)
    (hd : c.size ∣ data.length) (hne : data ≠ []) : 0 < (s.call c data).1 := by
  obtain ⟨k, e, h, _⟩ := Snk.call_ok h0 hb hw hd hne
  rw [e]; exact h

example : let c : SnkCfg := { size := 2, mode := .multi, maxBytes := 4 }
    (Snk.start c [[99#8]]).calls c [0#8, 1#8, 2#8, 3#8, 4#8, 5#8, 6#8, 7#8, 8#8, 9#8] [1, 3, 3, 0, 3] =
      ([0#8, 1#8, 2#8, 3#8, 4#8, 5#8, 6#8, 7#8, 8#8, 9#8], { files := [[99#8], [0#8, 1#8, 2#8, 3#8], [4#8, 5#8, 6#8, 7#8], [8#8, 9#8]], written := 2 }) := by
  decide +kernel

example : let c : SnkCfg := { size := 2, mode := .append }
    (Snk.start c [[99#8]]).calls c [0#8, 1#8, 2#8, 3#8] [1, 3] = ([0#8, 1#8, 2#8, 3#8], { files := [[99#8, 0#8, 1#8, 2#8, 3#8]], written := 4 }) := by
  decide +kernel

/-! ## where it fails -/

/-- **C95 is false if the largest size is no multiple of that of a sample.** The beginning of a sample is written at the end of a file, and the whole sample
again in the next one. -/
theorem sink_partial_sample :
    let c : SnkCfg := { size := 2, mode := .multi, maxBytes := 3 }
    (Snk.start c []).calls c [0#8, 1#8, 2#8, 3#8] [2, 2] = ([0#8, 1#8, 2#8, 3#8], { files := [[0#8, 1#8, 2#8], [2#8, 3#8]], written := 2 }) := by decide +kernel

/-- A bound below the size of a sample: nothing is ever consumed, and in mode `multi` each call after the first makes another file. -/
theorem sink_never (c : SnkCfg) (stream : List Byte) (hm : c.mode = .multi) (h1 : 0 < c.maxBytes) (h2 : c.maxBytes < c.size) (hs : c.size ≤ stream.length) (k : Nat) :
    ((Snk.start c []).calls c stream (List.replicate (k + 1) 1)).1 = [] ∧
      ((Snk.start c []).calls c stream (List.replicate (k + 1) 1)).2.files.length = k + 1 := by
  have hst : stream.take (1 * c.size) ≠ [] := by
    intro h
    have := congrArg List.length h
    rw [List.length_take, List.length_nil] at this
    omega
  have hlen : (stream.take (1 * c.size)).length = c.size := by rw [List.length_take]; omega
  have one : ∀ (s : Snk) pre last, s.files = pre ++ [last] → (s.written = 0 ∨ s.written = c.maxBytes) →
      (s.call c (stream.take (1 * c.size))).1 = 0 ∧ (s.call c (stream.take (1 * c.size))).2.written = c.maxBytes ∧
      ∃ pre' last', (s.call c (stream.take (1 * c.size))).2.files = pre' ++ [last'] ∧
        (pre' ++ [last']).length = s.files.length + (if s.written = 0 then 0 else 1) := by
    intro s pre last hf hw
    have ht : ∃ pre' last', (s.turn c).files = pre' ++ [last'] ∧ (s.turn c).written = 0 ∧
        (pre' ++ [last']).length = s.files.length + (if s.written = 0 then 0 else 1) := by
      unfold Snk.turn
      rcases hw with hw | hw
      · rw [if_neg (by omega)]
        exact ⟨pre, last, hf, hw, by rw [hf, hw]; rfl⟩
      · rw [if_pos (by omega)]
        unfold Snk.openNext
        rw [hm]
        refine ⟨s.files, [], rfl, rfl, ?_⟩
        rw [if_neg (by omega), List.length_append, List.length_singleton]
    obtain ⟨pre', last', t1, t2, t3⟩ := ht
    unfold Snk.call
    rw [if_neg hst]
    dsimp only
    rw [show (if c.maxBytes ≠ 0 ∧ c.maxBytes ≤ s.written then s.openNext c else s) = s.turn c from rfl, t2, hlen, if_pos (by omega),
      Nat.sub_zero, Nat.min_eq_right (by omega), t1, writeLast_append]
    refine ⟨Nat.div_eq_of_lt h2, by omega, pre', _, rfl, ?_⟩
    rw [← t3]; simp
  have many : ∀ (k : Nat) (s : Snk) pre last, s.files = pre ++ [last] → s.written = c.maxBytes →
      (s.calls c stream (List.replicate k 1)).1 = [] ∧ (s.calls c stream (List.replicate k 1)).2.files.length = s.files.length + k := by
    intro k
    induction k with
    | zero => intro s _ _ _ _; exact ⟨rfl, rfl⟩
    | succ k ih =>
      intro s pre last hf hw
      obtain ⟨o1, o2, pre', last', o3, o4⟩ := one s pre last hf (.inr hw)
      obtain ⟨i1, i2⟩ := ih _ _ _ o3 o2
      rw [List.replicate_succ]
      simp only [Snk.calls, o1, Nat.zero_mul, List.take_zero, List.drop_zero, List.nil_append]
      refine ⟨i1, i2.trans ?_⟩
      rw [o3, o4, if_neg (by omega)]
      omega
  have hstart : Snk.start c [] = { files := [[]], written := 0 } := by
    unfold Snk.start Snk.openNext
    rw [hm]; rfl
  obtain ⟨o1, o2, pre', last', o3, o4⟩ := one (Snk.start c []) [] [] (by rw [hstart]; rfl) (.inl (by rw [hstart]))
  obtain ⟨i1, i2⟩ := many k _ _ _ o3 o2
  rw [List.replicate_succ]
  simp only [Snk.calls, o1, Nat.zero_mul, List.take_zero, List.drop_zero, List.nil_append]
  refine ⟨i1, i2.trans ?_⟩
  rw [o3, o4, hstart]
  simp
  omega

example : let c : SnkCfg := { size := 4, mode := .multi, maxBytes := 2 }
    ((Snk.start c []).calls c [0#8, 1#8, 2#8, 3#8] [1, 1, 1]).2.files = [[0#8, 1#8], [0#8, 1#8], [0#8, 1#8]] := by decide +kernel

/-- A bound on the size of a file that is appended to has no effect: the file grows beyond it. -/
theorem sink_append_bound : let c : SnkCfg := { size := 1, mode := .append, maxBytes := 2 }
    (Snk.start c []).calls c [0#8, 1#8, 2#8, 3#8] [4, 4] = ([0#8, 1#8, 2#8, 3#8], { files := [[0#8, 1#8, 2#8, 3#8]], written := 2 }) := by decide +kernel

/-- A bound on the size of a file that is overwritten: of what was consumed, only the last piece is kept. -/
theorem sink_overwrite_bound : let c : SnkCfg := { size := 1, mode := .overwrite, maxBytes := 2 }
    (Snk.start c []).calls c [0#8, 1#8, 2#8, 3#8, 4#8] [5, 5, 5] = ([0#8, 1#8, 2#8, 3#8, 4#8], { files := [[4#8]], written := 1 }) := by decide +kernel

/-- `settingsChanged` of a running sink (BasicFileIo.hpp:90-95): any setting opens the file again. In mode `overwrite` all that was written is lost. -/
theorem sink_settings_lose (c : SnkCfg) (s : Snk) (done : List Byte) (h : s.files = [done]) (hm : c.mode = .overwrite) : (s.openNext c).files = [[]] := by
  unfold Snk.openNext
  rw [hm, h]
  rfl

/-! ## a sink, then a source -/

theorem part_whole (size : Nat) (h0 : 0 < size) (D : List Byte) (hD : size ∣ D.length) (c : SrcCfg) (h1 : c.size = size) (h2 : c.offset = 0) (h3 : c.length = 0) : part c D = D := by
  unfold part
  dsimp only
  rw [h2, h3, h1, Nat.zero_mul, List.drop_zero, if_pos rfl, Nat.div_mul_cancel hD, List.take_length]

/-- **C95, round trip.** Files written by a sink in mode `multi` and read in the order of their making by a source that is not repeated and comes
to an end: the source publishes what the sink consumed. -/
theorem round_trip_partial (k : SnkCfg) (stream : List Byte) (ns : List Nat) (c : SrcCfg) (rooms : List Nat) (h0 : 0 < k.size) (hm : k.mode = .multi)
    (hb : k.size ∣ k.maxBytes) (hs : k.size ∣ stream.length) (h1 : c.size = k.size) (h2 : c.offset = 0) (h3 : c.length = 0) :
    let disk := ((Snk.start k []).calls k stream ns).2.files.map fun D => (⟨false, some D⟩ : File)
    .done ∈ ((Src.start c disk).calls c disk rooms).1 →
      ((Src.start c disk).calls c disk rooms).2.out = ((Snk.start k []).calls k stream ns).1 := by
  intro disk hd
  obtain ⟨new, e1, e2, _, e4⟩ := sink_multi_partial k [] stream ns h0 hm hb hs
  rw [List.nil_append] at e1
  have hr : Readable c disk new := by
    have hdisk : disk = new.map fun D => (⟨false, some D⟩ : File) := by rw [← e1]
    refine ⟨by omega, by rw [hdisk, List.length_map], ?_, ?_⟩
    · intro i f hf D hD
      rw [hdisk, List.getElem?_map, hD] at hf
      cases hf
      exact .inl ⟨rfl, rfl⟩
    · intro f hf hg
      rw [hdisk] at hf
      obtain ⟨D, _, rfl⟩ := List.mem_map.1 hf
      cases hg
  obtain ⟨_, _, _, _, _, h⟩ := source_plays hr rooms
  rw [(h hd).2, ← e2]
  congr 1
  rw [List.map_congr_left (g := id) fun D hD => part_whole k.size h0 D (e4 D hD).1 c h1 h2 h3, List.map_id]

example : let k : SnkCfg := { size := 2, mode := .multi, maxBytes := 4 }
    let c : SrcCfg := { size := 2 }
    let disk := ((Snk.start k []).calls k [0#8, 1#8, 2#8, 3#8, 4#8, 5#8] [5, 5]).2.files.map fun D => (⟨false, some D⟩ : File)
    ((Src.start c disk).calls c disk [8, 8, 8, 8]).1 = [.ok, .ok, .ok, .done] ∧ ((Src.start c disk).calls c disk [8, 8, 8, 8]).2.out = [0#8, 1#8, 2#8, 3#8, 4#8, 5#8] := by
  decide +kernel

/-- The names of the files a sink makes within one tick of the clock differ in their counter only (BasicFileIo.hpp:165-168), and the source sorts them as
strings (BasicFileIo.hpp:34): the eleventh file comes before the third. -/
theorem names_out_of_order : ("2026-01-01T00:00:00.000_10_data.bin" : String) < "2026-01-01T00:00:00.000_2_data.bin" := by decide

end Verif.FileIo
