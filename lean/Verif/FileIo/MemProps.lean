import Verif.FileIo.Props
import Verif.Deflate.Props
/-!
# C92: reading bytes in memory

All messages are put into the queue before the call returns, so they must fit.
-/
namespace Verif.FileIo
open Verif.Bytes (Byte)
open Verif.Deflate (decompressSpan decompressedSize decompressedSize_of_span)

theorem plain_memory (c : Cfg) (bytes : List Byte) :
    ∃ t, (RS.new c false none).runMemory bytes = (.ok, t) ∧ Reads c none (bytes.drop (c.offset.getD 0)) t.published := by
  have h := new_held c false none
  unfold RS.runMemory
  rw [show (RS.new c false none).dec.isSome = false from rfl]
  simp only [Bool.false_eq_true, if_false]
  rw [show (RS.new c false none).cfg.offset = c.offset from normalize_offset c]
  split
  · rename_i hle
    rw [List.drop_eq_nil_of_le hle]
    exact ⟨_, rfl, (h.final true nofun).reads⟩
  · obtain ⟨t, e, ht, hd⟩ := plain_source (data := bytes.drop (c.offset.getD 0)) (fin := false) h rfl
    rw [e]
    obtain ⟨u, e2, hu, _⟩ := plain_source (data := []) (fin := true) ht hd
    dsimp only
    rw [e2]
    rw [List.append_nil, List.nil_append] at hu
    exact ⟨_, rfl, (hu.final true nofun).reads⟩

theorem gzip_memory (c : Cfg) (bytes D : List Byte) (W n : Nat) (hv : decompressSpan W bytes c.limit .gzip = .ok (n, D)) (hne : bytes ≠ [])
    (hmax : c.normalize.codecChunk ≤ vectorMax) :
    ∃ t, (RS.new c true none).runMemory bytes = (.ok, t) ∧ Reads c none (D.drop (c.offset.getD 0)) t.published := by
  have hv' : decompressSpan W bytes c.normalize.limit .gzip = .ok (n, D) := by rw [normalize_limit]; exact hv
  unfold RS.runMemory
  rw [show (RS.new c true none).dec.isSome = true from rfl]
  simp only [if_true]
  rw [if_neg (by intro h; exact hne (List.length_eq_zero_iff.1 (by omega))), List.drop_zero]
  have hg := new_g c none bytes
  rw [show G (c.offset.getD 0) none c.normalize bytes bytes = G (c.offset.getD 0) none c.normalize bytes (bytes ++ []) from by rw [List.append_nil]] at hg
  obtain ⟨u, e1, O, e2, hu, hi⟩ | ⟨t, ss, e, ht, _⟩ := gzip_source (fin := false) hg hmax nofun
  · exact absurd hv' fun h => (Refused.of (e := e1) hu hi).valid h
  · rw [e]
    dsimp only
    obtain ⟨u, e1, O, e2, hu, hi⟩ | ⟨u, ss', e2, hu, hd⟩ := gzip_source (data := []) (fut := []) (fin := true) ht hmax fun _ => ⟨rfl, rfl, hne⟩
    · exact absurd hv' fun h => (Refused.of (e := e1) hu hi).valid h
    · rw [e2]
      refine ⟨_, rfl, (Ended.valid (off := c.offset.getD 0) ⟨ss', hu.reach, hu.held.final true nofun, fun _ => hd rfl ?_⟩ hv').reads⟩
      rw [ht.held.none]
      nofun

/-- **C92.** What a reader of bytes in memory holds when the call returns are the bytes from the offset on, with the final message. -/
theorem memory_ready (c : Cfg) (d : Except Verif.Deflate.Fail Nat) (bytes : List Byte) (q : List Msg) (h : readMemory c false d bytes = .ready q) :
    Reads c none (bytes.drop (c.offset.getD 0)) q := by
  obtain ⟨t, e, ht⟩ := plain_memory c bytes
  unfold readMemory at h
  simp only [e, Bool.false_eq_true, if_false] at h
  split at h
  · cases h
  · split at h
    · cases h; exact ht
    · cases h

example : readMemory { chunkBytes := 2, slots := 3, offset := some 1 } false (.ok 0) [0#8, 1#8, 2#8, 3#8] = .ready [.data [1#8, 2#8], .data [3#8], .final] := by
  decide +kernel

/-- **C92, compressed bytes** -/
theorem memory_ready_gzip (c : Cfg) (bytes D : List Byte) (W n : Nat) (hv : decompressSpan W bytes c.limit .gzip = .ok (n, D))
    (hmax : c.normalize.codecChunk ≤ vectorMax) (q : List Msg) (hlim : c.limit < 2 ^ 64)
    (h : readMemory c true (decompressedSize W bytes .gzip c.limit) bytes = .ready q) :
    bytes = [] ∨ Reads c none (D.drop (c.offset.getD 0)) q := by
  by_cases hne : bytes = []
  · exact .inl hne
  obtain ⟨t, e, ht⟩ := gzip_memory c bytes D W n hv hne hmax
  have hsz := decompressedSize_of_span hv (Nat.le_refl _) hlim
  unfold readMemory at h
  simp only [e, hsz, if_true, if_neg hne] at h
  split at h
  · cases h
  · split at h
    · cases h; exact .inr ht
    · cases h

example : readMemory { chunkBytes := 7, slots := 3 } true (.ok 3) exGzip = .ready [.data [0x68#8, 0x69#8, 0x21#8], .final] := by decide +kernel

example : decompressedSize 4 exGzip .gzip 1024 = .ok 3 := by decide +kernel

/-- Bytes that the decoder refuses give an error and the final message. -/
theorem memory_error (c : Cfg) (e : Verif.Deflate.Fail) (bytes : List Byte) (hne : bytes ≠ []) (q : List Msg) (h : readMemory c true (.error e) bytes = .ready q) :
    q = [.error (.decode e), .final] := by
  unfold readMemory at h
  simp only [if_true, if_neg hne] at h
  split at h
  · cases h
  · cases h; rfl

example : readMemory {} true (.error (.err .truncatedInput)) (exGzip.take 40) = .ready [.error (.decode (.err .truncatedInput)), .final] := by decide +kernel

/-! ## the promise not to wait -/

/-- **C92 is false.** "If bufferMinSize cannot hold all produced data chunks plus the final message, readAsync returns an error instead of blocking"
(FileIo.hpp:1032): pieces of three bytes in units of two are pieces of two, which is not counted; -/
theorem memory_blocks_align : readMemory { chunkBytes := 3, align := 2, slots := 3 } false (.ok 0) [0#8, 1#8, 2#8, 3#8, 4#8, 5#8] = .blocked := by decide +kernel

/-- the end of a source that is no multiple of the unit is a piece of its own, which is not counted; -/
theorem memory_blocks_tail : readMemory { chunkBytes := 4, align := 2, slots := 2 } false (.ok 0) [0#8, 1#8, 2#8] = .blocked := by decide +kernel

/-- and the first piece of a compressed source is shorter if the offset ends in it, which is not counted. -/
theorem memory_blocks_gzip : readMemory { chunkBytes := 2, offset := some 1, slots := 2 } true (.ok 3) exGzip = .blocked := by decide +kernel

/-- pieces that are not empty are no more than the bytes -/
theorem Cut.count {unit : Nat} {largest : Option Nat} {ps : List (List Byte)} (h : Cut unit largest ps) : ps.length ≤ ps.flatten.length := by
  have := h.nonempty
  clear h
  induction ps with
  | nil => exact Nat.le_refl _
  | cons p ps ih =>
    have h1 := ih fun q hq => this q (List.mem_cons_of_mem _ hq)
    have h2 := List.length_pos_iff.2 (this p List.mem_cons_self)
    rw [List.flatten_cons, List.length_append, List.length_cons]
    omega

theorem Reads.count {c : Cfg} {bytes : List Byte} {ms : List Msg} (h : Reads c none bytes ms) : ms.length ≤ bytes.length + 1 := by
  obtain ⟨ps, rfl, hc, _, he, _⟩ := h
  have := hc.count
  rw [he rfl] at this
  simpa using this

theorem normalize_slots (c : Cfg) (h : 0 < c.slots) : c.normalize.slots = c.slots := by
  have : ¬ c.slots = 0 := by omega
  simp only [Cfg.normalize, this, if_false]
  repeat' split
  all_goals rfl

/-- **C92, what holds for every size of pieces.** With more slots than bytes the call returns. -/
theorem memory_returns_partial (c : Cfg) (d : Except Verif.Deflate.Fail Nat) (bytes : List Byte) (h : bytes.length < c.slots) :
    readMemory c false d bytes ≠ .blocked ∧ readMemory c false d bytes ≠ .threw := by
  obtain ⟨t, e, ht⟩ := plain_memory c bytes
  have hl := ht.count
  rw [List.length_drop] at hl
  unfold readMemory
  simp only [e, Bool.false_eq_true, if_false]
  rw [normalize_slots c (by omega)]
  split
  · exact ⟨nofun, nofun⟩
  · rw [if_pos (by omega)]
    exact ⟨nofun, nofun⟩

theorem memory_returns_gzip_partial (c : Cfg) (bytes D : List Byte) (W n : Nat) (hv : decompressSpan W bytes c.limit .gzip = .ok (n, D)) (hne : bytes ≠ [])
    (hmax : c.normalize.codecChunk ≤ vectorMax) (hlim : c.limit < 2 ^ 64) (h : D.length < c.slots) :
    readMemory c true (decompressedSize W bytes .gzip c.limit) bytes ≠ .blocked ∧ readMemory c true (decompressedSize W bytes .gzip c.limit) bytes ≠ .threw := by
  obtain ⟨t, e, ht⟩ := gzip_memory c bytes D W n hv hne hmax
  have hsz := decompressedSize_of_span hv (Nat.le_refl _) hlim
  have hl := ht.count
  rw [List.length_drop] at hl
  unfold readMemory
  simp only [e, hsz, if_true, if_neg hne]
  rw [normalize_slots c (by omega)]
  split
  · exact ⟨nofun, nofun⟩
  · rw [if_pos (by omega)]
    exact ⟨nofun, nofun⟩

example : ([0#8, 1#8, 2#8] : List Byte).length < ({ chunkBytes := 4, align := 2, slots := 4 } : Cfg).slots := by decide

/-- `n` in pieces of `m`, rounded up -/
def pieces (n m : Nat) : Nat := n / m + (if n % m ≠ 0 then 1 else 0)

theorem pieces_zero (m : Nat) : pieces 0 m = 0 := by simp [pieces]

theorem pieces_pos {n m : Nat} (h : 0 < n) : 1 ≤ pieces n m := by
  unfold pieces
  split
  · exact Nat.le_add_left _ _
  · rename_i h0
    have h0 : n % m = 0 := Classical.not_not.1 h0
    have := Nat.div_add_mod n m
    rw [h0] at this
    have : 0 < n / m := Nat.pos_of_ne_zero fun hz => by rw [hz] at this; omega
    exact Nat.le_trans this (Nat.le_add_right _ _)

theorem pieces_sub {n m : Nat} (hm : 0 < m) (h : m ≤ n) : pieces n m = pieces (n - m) m + 1 := by
  unfold pieces
  rw [Nat.mod_eq_sub_mod h, Nat.div_eq_sub_div hm h]
  omega

theorem loop_count {c : Cfg} (hu : c.chunkBytes = npos ∨ c.unit ∣ c.chunkBytes) (hle : c.unit ≤ c.chunkBytes) : ∀ (f : Nat) (s : RS) (data : List Byte),
    data.length < f → s.cfg = c → s.cancel = none → c.unit ∣ data.length →
    (RS.pushLoop f s data).2 = [] ∧ (RS.pushLoop f s data).1.pending = s.pending ∧
      (RS.pushLoop f s data).1.published.length ≤ s.published.length + pieces data.length c.chunkBytes
  | 0, _, _, h, _, _, _ => absurd h (Nat.not_lt_zero _)
  | f + 1, s, data, h, hc, hk, hd => by
    have hup := unit_pos c
    rw [RS.pushLoop, hc]
    split
    · rename_i hlt
      have : data.length = 0 := by
        rcases Nat.eq_zero_or_pos data.length with h0 | h0
        · exact h0
        · exact absurd (Nat.le_of_dvd h0 hd) (by omega)
      exact ⟨List.length_eq_zero_iff.1 this, rfl, Nat.le_add_right _ _⟩
    · rename_i hge
      have hpub : ∀ n, n ≠ 0 → s.publishData (data.take n) = s.publish (.data (data.take n)) := by
        intro n hn
        simp only [RS.publishData, RS.look, hk]
        rw [if_neg]
        intro h0
        rcases List.take_eq_nil_iff.1 h0 with h1 | h1
        · exact hn h1
        · rw [h1] at hge; simp at hge; omega
      have step : ∀ n, n ≠ 0 → n ≤ data.length → c.unit ∣ n → pieces (data.length - n) c.chunkBytes + 1 ≤ pieces data.length c.chunkBytes →
          (RS.pushLoop f (s.publishData (data.take n)) (data.drop n)).2 = [] ∧
          (RS.pushLoop f (s.publishData (data.take n)) (data.drop n)).1.pending = s.pending ∧
          (RS.pushLoop f (s.publishData (data.take n)) (data.drop n)).1.published.length ≤ s.published.length + pieces data.length c.chunkBytes := by
        intro n hn hle2 hdn hp
        obtain ⟨a, b, d⟩ := loop_count hu hle f (s.publishData (data.take n)) (data.drop n) (by rw [List.length_drop]; omega)
          (by rw [hpub n hn]; exact hc) (by rw [hpub n hn]; exact hk) (by rw [List.length_drop]; exact Nat.dvd_sub hd hdn)
        refine ⟨a, b.trans (by rw [hpub n hn]; rfl), Nat.le_trans d ?_⟩
        rw [hpub n hn, List.length_drop]
        show (s.published ++ [_]).length + _ ≤ _
        rw [List.length_append, List.length_singleton]
        omega
      have hpos : 0 < data.length := by omega
      have whole : ∀ n, n = data.length → pieces (data.length - n) c.chunkBytes + 1 ≤ pieces data.length c.chunkBytes := by
        rintro n rfl
        rw [Nat.sub_self, pieces_zero]
        exact pieces_pos hpos
      have hcut : c.cut data.length = data.length ∨ (c.cut data.length = c.chunkBytes ∧ c.chunkBytes ≤ data.length ∧ c.unit ∣ c.chunkBytes) := by
        unfold Cfg.cut
        rcases hu with hu | hu
        · simp only [if_pos hu, if_true]
          exact .inl (by rw [Nat.mod_eq_zero_of_dvd hd]; omega)
        · have : (if c.chunkBytes = npos then npos else max c.unit c.chunkBytes) = c.chunkBytes := by
            split
            · rename_i h0; exact h0.symm
            · omega
          rw [this]
          dsimp only
          split
          · exact .inl (by rw [Nat.mod_eq_zero_of_dvd hd]; omega)
          · rcases Nat.le_total c.chunkBytes data.length with h0 | h0
            · rw [Nat.min_eq_left h0, Nat.mod_eq_zero_of_dvd hu]
              exact .inr ⟨by omega, h0, hu⟩
            · rw [Nat.min_eq_right h0, Nat.mod_eq_zero_of_dvd hd]
              exact .inl (by omega)
      dsimp only
      rcases hcut with e | ⟨e, h1, h2⟩
      · rw [e, if_neg (by omega)]
        exact step _ (by omega) (Nat.le_refl _) hd (whole _ rfl)
      · rw [e, if_neg (by omega)]
        exact step _ (by omega) h1 h2 (by rw [pieces_sub (by omega) h1]; exact Nat.le_refl _)

/-- **C92, what holds whatever the number of bytes.** If the unit divides the size of the pieces and the number of bytes (as a unit of one byte
does), the call counts its messages correctly: it is refused, or it returns. -/
theorem memory_returns_aligned_partial (c : Cfg) (d : Except Verif.Deflate.Fail Nat) (bytes : List Byte)
    (hu : c.chunkBytes = npos ∨ max 1 c.align ∣ c.chunkBytes) (hpos : 0 < c.chunkBytes) (hal : max 1 c.align ≤ npos)
    (hd : max 1 c.align ∣ bytes.length - c.offset.getD 0) :
    readMemory c false d bytes ≠ .blocked ∧ readMemory c false d bytes ≠ .threw := by
  have hle : max 1 c.align ≤ c.chunkBytes := by
    rcases hu with hu | hu
    · omega
    · exact Nat.le_of_dvd hpos hu
  have hchunk : c.normalize.chunkBytes = c.chunkBytes := by
    rw [normalize_chunk]
    split <;> omega
  have key : ∃ t, (RS.new c false none).runMemory bytes = (.ok, t) ∧ t.published.length ≤ c.normalize.requiredSlots bytes.length false := by
    unfold RS.runMemory Cfg.requiredSlots
    rw [show (RS.new c false none).dec.isSome = false from rfl]
    simp only [Bool.false_eq_true, if_false]
    rw [show (RS.new c false none).cfg.offset = c.offset from normalize_offset c, normalize_offset, hchunk]
    split
    · exact ⟨_, rfl, Nat.le_refl _⟩
    · rename_i hlt
      have hdrop : bytes.drop (c.offset.getD 0) ≠ [] := by
        intro h0
        have := congrArg List.length h0
        rw [List.length_drop, List.length_nil] at this
        omega
      obtain ⟨a, b, e⟩ := loop_count (c := c.normalize) (by rw [hchunk, normalize_unit]; exact hu) (by rw [hchunk, normalize_unit]; exact hle)
        ((bytes.drop (c.offset.getD 0)).length + 1) (RS.new c false none) (bytes.drop (c.offset.getD 0)) (Nat.lt_succ_self _) rfl rfl
        (by rw [List.length_drop, normalize_unit]; exact hd)
      have e1 : (RS.new c false none).pushSource (bytes.drop (c.offset.getD 0)) false = (.ok, (RS.new c false none).pushRest (bytes.drop (c.offset.getD 0))) := by
        simp only [RS.pushSource, RS.look, show (RS.new c false none).cancel = none from rfl, show (RS.new c false none).dec = none from rfl, RS.pushData,
          show (RS.new c false none).pending = [] from rfl, if_neg hdrop, if_true]
      rw [e1]
      dsimp only
      unfold RS.pushRest
      obtain ⟨t, e2, ht, hdc⟩ := plain_source (data := bytes.drop (c.offset.getD 0)) (fin := false) (new_held c false none) rfl
      rw [e1, RS.pushRest] at e2
      generalize RS.pushLoop ((bytes.drop (c.offset.getD 0)).length + 1) (RS.new c false none) (bytes.drop (c.offset.getD 0)) = r at a b e e2
      obtain ⟨r1, r2⟩ := r
      dsimp only at a b e e2 ⊢
      subst a
      rw [List.append_nil] at e2 ⊢
      cases e2
      have hcan : r1.cancel = none := ht.none
      have hdec : r1.dec = none := hdc
      have b : r1.pending = [] := b
      refine ⟨r1.pushFinal true, ?_, ?_⟩
      · have hp : r1.pushSource [] true = (.ok, r1) := by
          simp only [RS.pushSource, RS.look, hcan]
          rw [hdec]
          rfl
        show (match r1.pushSource [] true with
          | (.ok, s) => (Pushed.ok, s.pushFinal true)
          | r => r) = _
        rw [hp]
      · simp only [RS.pushFinal, if_true, RS.publishPending, b]
        show (r1.published ++ [_]).length ≤ _
        rw [List.length_append, List.length_singleton]
        rw [List.length_drop, show (RS.new c false none).published = [] from rfl, List.length_nil, Nat.zero_add, hchunk] at e
        rw [show max 1 c.chunkBytes = c.chunkBytes from by omega]
        show _ ≤ pieces _ _ + 1
        omega
  obtain ⟨t, e, ht⟩ := key
  unfold readMemory
  simp only [e, Bool.false_eq_true, if_false]
  split
  · exact ⟨nofun, nofun⟩
  · rw [if_pos (by omega)]
    exact ⟨nofun, nofun⟩

example : readMemory { chunkBytes := 4, align := 2, slots := 4 } false (.ok 0) [0#8, 1#8, 2#8, 3#8, 4#8, 5#8, 6#8, 7#8, 8#8, 9#8] =
    .ready [.data [0#8, 1#8, 2#8, 3#8], .data [4#8, 5#8, 6#8, 7#8], .data [8#8, 9#8], .final] := by decide +kernel

/-- it is refused when there is no room -/
example : readMemory { chunkBytes := 4, align := 2, slots := 3 } false (.ok 0) [0#8, 1#8, 2#8, 3#8, 4#8, 5#8, 6#8, 7#8, 8#8, 9#8] = .refused := by decide +kernel

/-! ## taking messages out of the queue -/

/-- Polling with the given sizes, one after the other: what the callbacks are given and the messages left. -/
def polls : List Msg → List Nat → List Polled × List Msg
  | q, [] => ([], q)
  | q, m :: ms =>
    let (a, q) := poll q m
    let (l, q) := polls q ms
    (a.toList ++ l, q)

/-- The message a callback was given, if it was given one. -/
def Polled.msg : Polled → Option Msg
  | .data b => some (.data b)
  | .error e => some (.error e)
  | .tooLarge _ => none
  | .final => some .final

/-- **C93.** Whatever sizes are asked for, polling gives the messages of the queue in their order, each once; none is lost. -/
theorem polls_order (queue : List Msg) (sizes : List Nat) :
    (polls queue sizes).1.filterMap Polled.msg ++ (polls queue sizes).2 = queue := by
  induction sizes generalizing queue with
  | nil => rfl
  | cons m ms ih =>
    have h : ∀ (a : Option Polled) (q : List Msg), poll queue m = (a, q) → a.toList.filterMap Polled.msg ++ q = queue := by
      intro a q e
      unfold poll at e
      split at e
      · cases e; rfl
      · cases e; rfl
      · cases e; rfl
      · split at e <;> cases e <;> rfl
    rw [polls]
    generalize e : poll queue m = r
    obtain ⟨a, q⟩ := r
    dsimp only
    rw [List.filterMap_append, List.append_assoc, ih q]
    exact h a q e

/-- A message is given only to a callback with room for it, and a callback without room is told how much it needs. -/
theorem poll_size (queue : List Msg) (maxSize : Nat) :
    (∀ b q, poll queue maxSize = (some (.data b), q) → b.length ≤ maxSize) ∧
    (∀ n q, poll queue maxSize = (some (.tooLarge n), q) → maxSize < n ∧ q = queue ∧ ∃ b rest, queue = .data b :: rest ∧ b.length = n) := by
  unfold poll
  constructor
  · intro b q e
    repeat' split at e
    all_goals first | cases e; assumption | cases e
  · intro n q e
    repeat' split at e
    all_goals first | (cases e; rename_i h; exact ⟨by omega, rfl, _, _, rfl, rfl⟩) | cases e

/-- Asking for enough takes a message whenever there is one. -/
theorem poll_progress (m : Msg) (queue : List Msg) (maxSize : Nat) (h : ∀ b, m = .data b → b.length ≤ maxSize) : (poll (m :: queue) maxSize).2 = queue := by
  cases m with
  | data b => simp only [poll, if_pos (h b rfl)]
  | error e => rfl
  | final => rfl

example : polls [.data [1#8, 2#8], .data [3#8], .final] [1, 2, 5, 5, 5] = ([.tooLarge 2, .data [1#8, 2#8], .data [3#8], .final], []) := by decide +kernel

end Verif.FileIo
