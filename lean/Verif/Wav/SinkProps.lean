import Verif.Wav.Sink
import Verif.Wav.Props
import Verif.Wav.Convert
/-!
The sink of WAV files: what the files are, and that a source gets back what the sink was given.
-/
namespace Verif.Wav
open Verif.Bytes
open Verif.FileIo (Msg)

/-- The format that a sink should give its files. -/
def SinkCfg.fmt (c : SinkCfg) : Fmt := ⟨c.kind.tag, c.ch, c.rate, c.align, c.kind.bits⟩

/-- A WAV file with the given samples, each given by its bits. -/
def wavFile (c : SinkCfg) (p : List Nat) : List Byte := simpleHead c.fmt (36 + p.length * c.kind.size) (p.length * c.kind.size) ++ p.flatMap (le c.kind.size)

theorem le_mod (n v : Nat) : le n (v % 256 ^ n) = le n v := by
  apply leNat_inj (by simp)
  rw [leNat_le, leNat_le, Nat.mod_mod]

theorem overwrite_append (a b x d : List Byte) (h : b.length = x.length) : overwrite (a ++ b ++ d) a.length x = a ++ x ++ d := by
  unfold overwrite
  rw [← h, ← List.length_append, List.drop_left, List.append_assoc a b, List.take_left]

theorem patch_header (c : SinkCfg) (n : Nat) (D : List Byte) : c.patch n (c.header ++ D) = simpleHead c.fmt (36 + n * c.kind.size) (n * c.kind.size) ++ D := by
  have e1 : c.header ++ D = RIFF ++ le 4 0 ++ ((WAVE ++ (FMT ++ le 4 16 ++ (le 2 c.kind.tag ++ le 2 c.ch ++ le 4 c.rate ++ le 4 (c.rate * c.align) ++ le 2 c.align ++ le 2 c.kind.bits)) ++ DATA) ++ le 4 0 ++ D) := by
    simp [SinkCfg.header]
  unfold SinkCfg.patch
  dsimp only
  rw [e1]
  generalize hB : WAVE ++ (FMT ++ le 4 16 ++ (le 2 c.kind.tag ++ le 2 c.ch ++ le 4 c.rate ++ le 4 (c.rate * c.align) ++ le 2 c.align ++ le 2 c.kind.bits)) ++ DATA = B
  have hl : B.length = 32 := by rw [← hB]; simp [WAVE, FMT, DATA]
  have s1 : le 4 ((36 + n * c.kind.size % 2 ^ 32) % 2 ^ 32) = le 4 (36 + n * c.kind.size) := by
    rw [← le_mod 4 (36 + n * c.kind.size)]
    congr 1
    omega
  have s2 : le 4 (n * c.kind.size % 2 ^ 32) = le 4 (n * c.kind.size) := le_mod 4 _
  rw [s1, s2]
  have o1 := overwrite_append RIFF (le 4 0) (le 4 (36 + n * c.kind.size)) (B ++ le 4 0 ++ D) (by simp)
  rw [show RIFF.length = 4 from rfl] at o1
  rw [o1]
  have o2 := overwrite_append (RIFF ++ le 4 (36 + n * c.kind.size) ++ B) (le 4 0) (le 4 (n * c.kind.size)) D (by simp)
  rw [show (RIFF ++ le 4 (36 + n * c.kind.size) ++ B).length = 40 by simp [RIFF, hl]] at o2
  rw [show RIFF ++ le 4 (36 + n * c.kind.size) ++ (B ++ le 4 0 ++ D) = RIFF ++ le 4 (36 + n * c.kind.size) ++ B ++ le 4 0 ++ D by simp, o2]
  unfold simpleHead SinkCfg.fmt
  rw [← hB]
  simp

theorem size_pos (k : Kind) : 0 < k.size := by cases k <;> decide

/-- What holds between calls: `parts` are the samples of the files that are closed, `d` those of the open one. -/
structure SInv (c : SinkCfg) (parts : List (List Nat)) (d : List Nat) (s : Snk) : Prop where
  closed : s.closed = parts.map (wavFile c)
  bytes : s.bytes = (if s.header then c.header else []) ++ d.flatMap (le c.kind.size)
  fresh : s.header = false → d = []
  count : s.count = d.length
  total : s.total = (parts.flatten ++ d).length % 2 ^ 32
  sizes : ∀ p ∈ parts, c.maxBytes ≠ 0 ∧ p.length * c.kind.size = c.maxBytes
  small : c.maxBytes ≠ 0 → d.length * c.kind.size ≤ c.maxBytes

theorem begin_inv {c : SinkCfg} {parts : List (List Nat)} {d : List Nat} {s : Snk} (h : SInv c parts d s) : SInv c parts d (s.begin c) ∧ (s.begin c).header = true := by
  unfold Snk.begin
  cases hh : s.header with
  | true => exact ⟨h, hh⟩
  | false =>
    have hd := h.fresh hh
    have hb := h.bytes
    rw [hh, hd] at hb
    refine ⟨⟨h.closed, ?_, nofun, h.count, h.total, h.sizes, h.small⟩, rfl⟩
    show s.bytes ++ c.header = _
    rw [hb, hd]
    simp

theorem close_inv {c : SinkCfg} {parts : List (List Nat)} {d : List Nat} {s : Snk} (h : SInv c parts d s) (hh : s.header = true) :
    (s.close c).closed = (parts ++ [d]).map (wavFile c) ∧ (c.maxBytes ≠ 0 → c.maxBytes ≤ d.length * c.kind.size → SInv c (parts ++ [d]) [] (s.close c)) := by
  have hb := h.bytes
  rw [hh, if_pos rfl] at hb
  have e : (s.close c).closed = (parts ++ [d]).map (wavFile c) := by
    unfold Snk.close
    dsimp only
    rw [hh, if_pos rfl, hb, patch_header, h.closed, h.count]
    simp [wavFile]
  refine ⟨e, fun hm hle => ⟨e, rfl, fun _ => rfl, rfl, ?_, ?_, fun _ => by simp⟩⟩
  · have := h.total
    show s.total = _
    rw [this]
    simp
  · intro p hp
    rcases List.mem_append.1 hp with hp | hp
    · exact h.sizes p hp
    · rw [List.mem_singleton] at hp
      subst hp
      have := h.small hm
      exact ⟨hm, by omega⟩

theorem sink_call {c : SinkCfg} {parts : List (List Nat)} {d : List Nat} {s : Snk} (h : SInv c parts d s) (x : List Nat) :
    ∃ st n t parts' d', s.call c x = (st, n, t) ∧ SInv c parts' d' t ∧ t.header = true ∧ parts'.flatten ++ d' = parts.flatten ++ d ++ x.take n ∧ n ≤ x.length ∧ st ≠ .error ∧
      (c.maxBytes = 0 → n = x.length) ∧ (c.kind.size ∣ c.maxBytes → x ≠ [] → 0 < n) := by
  have hp := size_pos c.kind
  obtain ⟨h1, hh1⟩ := begin_inv (c := c) h
  -- after the change of files
  have key : ∃ t parts' d', (if c.maxBytes ≠ 0 ∧ c.maxBytes ≤ (s.begin c).count * c.kind.size then ((s.begin c).close c).begin c else s.begin c) = t ∧ SInv c parts' d' t ∧ t.header = true ∧
      parts'.flatten ++ d' = parts.flatten ++ d ∧ (c.maxBytes ≠ 0 → d'.length * c.kind.size < c.maxBytes) := by
    split
    · rename_i hr
      obtain ⟨h2, hh2⟩ := begin_inv ((close_inv h1 hh1).2 hr.1 (by rw [← h1.count]; exact hr.2))
      refine ⟨_, _, _, rfl, h2, hh2, by simp, fun hm => ?_⟩
      simp
      omega
    · rename_i hr
      refine ⟨_, _, _, rfl, h1, hh1, rfl, fun hm => ?_⟩
      rw [h1.count] at hr
      omega
  obtain ⟨t, parts', d', et, ht, hht, hfl, hsm⟩ := key
  unfold Snk.call
  dsimp only
  rw [et]
  by_cases hx : x = []
  · rw [if_pos hx]
    exact ⟨_, _, _, parts', d', rfl, ht, hht, by rw [hfl, hx]; simp, Nat.zero_le _, nofun, fun _ => by rw [hx]; rfl, fun _ h => absurd hx h⟩
  · rw [if_neg hx]
    have hxp := List.length_pos_iff.2 hx
    refine ⟨_, _, _, parts', d' ++ x.take (if c.maxBytes ≠ 0 then min x.length ((c.maxBytes - t.count * c.kind.size) / c.kind.size) else x.length), rfl, ⟨ht.closed, ?_, ?_, ?_, ?_, ht.sizes, ?_⟩, hht, ?_, ?_, nofun, ?_, ?_⟩
    · dsimp only
      rw [ht.bytes, List.flatMap_append, List.append_assoc]
      rfl
    · intro hf
      exact absurd hf (by dsimp only; rw [hht]; simp)
    · dsimp only
      rw [ht.count, List.length_append, List.length_take]
      split <;> omega
    · dsimp only
      rw [ht.total, ← List.append_assoc, List.length_append (as := parts'.flatten ++ d'), List.length_take]
      have hle : (if c.maxBytes ≠ 0 then min x.length ((c.maxBytes - t.count * c.kind.size) / c.kind.size) else x.length) ≤ x.length := by split <;> omega
      generalize (if c.maxBytes ≠ 0 then min x.length ((c.maxBytes - t.count * c.kind.size) / c.kind.size) else x.length) = m at hle
      rw [Nat.min_eq_left hle]
      omega
    · intro hm
      rw [if_pos hm, List.length_append, List.length_take, Nat.add_mul]
      have hs := hsm hm
      have hd := Nat.div_mul_le_self (c.maxBytes - t.count * c.kind.size) c.kind.size
      have hmul := Nat.mul_le_mul_right c.kind.size (show min (min x.length ((c.maxBytes - t.count * c.kind.size) / c.kind.size)) x.length ≤ (c.maxBytes - t.count * c.kind.size) / c.kind.size by omega)
      rw [ht.count] at hd hmul ⊢
      omega
    · rw [← List.append_assoc, hfl]
    · split <;> omega
    · intro hm
      rw [if_neg (by omega)]
    · intro hdv _
      by_cases hm : c.maxBytes = 0
      · rw [if_neg (by omega)]
        exact hxp
      · rw [if_pos hm]
        have hs := hsm hm
        rw [← ht.count] at hs
        obtain ⟨q, hq⟩ := hdv
        have : c.kind.size ≤ c.maxBytes - t.count * c.kind.size := by
          rw [hq, Nat.mul_comm t.count, ← Nat.mul_sub]
          rw [hq, Nat.mul_comm t.count] at hs
          have : t.count < q := Nat.lt_of_mul_lt_mul_left hs
          exact Nat.le_mul_of_pos_right _ (by omega)
        have := Nat.div_pos this hp
        omega

theorem sink_calls {c : SinkCfg} (xs : List (List Nat)) {parts : List (List Nat)} {d left : List Nat} {s : Snk} (h : SInv c parts d s) :
    ∃ parts' d', SInv c parts' d' (s.calls c left xs).2.2 ∧ (xs ≠ [] ∨ s.header = true → (s.calls c left xs).2.2.header = true) ∧
      parts'.flatten ++ d' ++ (s.calls c left xs).2.1 = parts.flatten ++ d ++ left ++ xs.flatten ∧ (∀ st ∈ (s.calls c left xs).1, st ≠ .error) ∧
      (c.maxBytes = 0 → xs ≠ [] ∨ left = [] → (s.calls c left xs).2.1 = []) := by
  induction xs generalizing parts d left s with
  | nil => exact ⟨parts, d, h, fun h => h.elim (absurd rfl) id, by simp [Snk.calls], nofun, fun _ h => h.elim (absurd rfl) id⟩
  | cons x xs ih =>
    obtain ⟨st, n, t, p1, d1, e, h1, hh, hfl, hn, hst, hz, hpos⟩ := sink_call h (left ++ x)
    obtain ⟨p2, d2, h2, hh2, hfl2, hst2, hz2⟩ := ih (left := (left ++ x).drop n) h1
    simp only [Snk.calls, e]
    refine ⟨p2, d2, h2, fun _ => hh2 (.inr hh), ?_, ?_, ?_⟩
    · rw [hfl2, hfl]
      simp only [List.append_assoc, List.flatten_cons]
      rw [← List.append_assoc (List.take n (left ++ x)), List.take_append_drop, List.append_assoc]
    · intro y hy
      rcases List.mem_cons.1 hy with rfl | hy
      · exact hst
      · exact hst2 y hy
    · intro hm _
      refine hz2 hm (.inr ?_)
      rw [hz hm, List.drop_length]

theorem sink_drains {c : SinkCfg} (hdv : c.kind.size ∣ c.maxBytes) (k : Nat) {parts : List (List Nat)} {d left : List Nat} {s : Snk} (h : SInv c parts d s) (hk : left.length ≤ k) :
    (s.calls c left (List.replicate k [])).2.1 = [] := by
  induction k generalizing parts d left s with
  | zero => exact List.length_eq_zero_iff.1 (Nat.le_zero.1 hk)
  | succ k ih =>
    obtain ⟨st, n, t, p1, d1, e, h1, _, _, hn, _, _, hpos⟩ := sink_call h (left ++ [])
    simp only [List.replicate_succ, Snk.calls, e]
    refine ih h1 ?_
    rw [List.append_nil] at hpos ⊢
    by_cases hl : left = []
    · rw [hl]; simp
    · have := hpos hdv hl
      rw [List.length_drop]
      omega

theorem start_sinv (c : SinkCfg) : SInv c [] [] Snk.start := ⟨rfl, rfl, fun _ => rfl, rfl, rfl, nofun, fun _ => by simp⟩

/-- **C99: what a sink writes.** Whatever pieces the samples come in, no call fails, and after `stop` there are WAV files with the right format, size and samples: put one after the other they
are the samples that were taken. All but the last have exactly as many bytes as are allowed, and the last not more. Without a bound there is one file, with all samples. -/
theorem sink_files (c : SinkCfg) (xs : List (List Nat)) (hne : xs ≠ []) :
    ∃ parts last left, sinkFiles c xs = (parts ++ [last]).map (wavFile c) ∧ (parts ++ [last]).flatten ++ left = xs.flatten ∧
      (∀ st ∈ (Snk.start.calls c [] xs).1, st ≠ .error) ∧ (c.maxBytes = 0 → parts = [] ∧ left = []) ∧
      (c.maxBytes ≠ 0 → (∀ p ∈ parts, p.length * c.kind.size = c.maxBytes) ∧ last.length * c.kind.size ≤ c.maxBytes) ∧
      (Snk.start.calls c [] xs).2.2.total = (parts ++ [last]).flatten.length % 2 ^ 32 ∧ (Snk.start.calls c [] xs).2.1 = left := by
  obtain ⟨parts, d, h, hh, hfl, hst, hz⟩ := sink_calls (left := []) xs (start_sinv c)
  refine ⟨parts, d, _, (close_inv h (hh (.inl hne))).1, ?_, hst, fun hm => ⟨?_, hz hm (.inr rfl)⟩, fun hm => ⟨fun p hp => (h.sizes p hp).2, h.small hm⟩, ?_, rfl⟩
  · rw [List.flatten_append, List.flatten_singleton, hfl]
    simp
  · cases parts with
    | nil => rfl
    | cons p ps => exact absurd hm (h.sizes p (.head _)).1
  · rw [List.flatten_append, List.flatten_singleton]
    exact h.total

/-- **C99: all samples are taken** if whole samples fit: as many calls as there are samples are enough after the last ones have come. -/
theorem sink_takes_all (c : SinkCfg) (hdv : c.kind.size ∣ c.maxBytes) (xs : List (List Nat)) (k : Nat) (hk : xs.flatten.length ≤ k) :
    (Snk.start.calls c [] (xs ++ List.replicate k [])).2.1 = [] := by
  have happ : ∀ (xs ys : List (List Nat)) (s : Snk) (left : List Nat), (s.calls c left (xs ++ ys)).2.1 = ((s.calls c left xs).2.2.calls c (s.calls c left xs).2.1 ys).2.1 := by
    intro xs
    induction xs with
    | nil => intro ys s left; rfl
    | cons x xs ih =>
      intro ys s left
      simp only [List.cons_append, Snk.calls]
      exact ih ys _ _
  rw [happ]
  obtain ⟨parts, d, h, _, hfl, _⟩ := sink_calls (left := []) xs (start_sinv c)
  refine sink_drains hdv k h ?_
  have := congrArg List.length hfl
  rw [List.length_append] at this
  simp only [List.flatten_nil, List.nil_append] at this
  omega

/-- Files of three samples. -/
example : let c : SinkCfg := { kind := .i16, maxBytes := 6 }
    sinkFiles c [[1, 2], [3, 4, 5, 6], [], [7], []] = [wavFile c [1, 2, 3], wavFile c [4, 5, 6], wavFile c [7]] := by decide +kernel

/-- **C99, negated: a bound that is not a number of whole samples.** When the next sample does not fit, but there is a byte left, the sink takes no more samples, opens no new file, and reports
success for ever. -/
theorem sink_stuck (c : SinkCfg) (s : Snk) (hh : s.header = true) (h1 : s.count * c.kind.size < c.maxBytes) (h2 : c.maxBytes < (s.count + 1) * c.kind.size) (xs : List (List Nat)) (left : List Nat)
    (hne : left ≠ []) : (s.calls c left xs).2.1 = left ++ xs.flatten ∧ (s.calls c left xs).2.2.bytes = s.bytes ∧ (s.calls c left xs).2.2.closed = s.closed ∧ ∀ st ∈ (s.calls c left xs).1, st = .ok := by
  induction xs generalizing s left with
  | nil => exact ⟨by simp [Snk.calls], rfl, rfl, nofun⟩
  | cons x xs ih =>
    obtain ⟨t, e, et⟩ : ∃ t, s.call c (left ++ x) = (.ok, 0, t) ∧ t.header = s.header ∧ t.count = s.count ∧ t.bytes = s.bytes ∧ t.closed = s.closed := by
      have hd : (c.maxBytes - s.count * c.kind.size) / c.kind.size = 0 := Nat.div_eq_of_lt (by rw [Nat.add_mul] at h2; omega)
      have hb : s.begin c = s := if_pos hh
      unfold Snk.call
      dsimp only
      rw [hb, if_neg (show ¬(c.maxBytes ≠ 0 ∧ c.maxBytes ≤ s.count * c.kind.size) by omega), if_neg (show ¬left ++ x = [] by simp [hne]), if_pos (show c.maxBytes ≠ 0 by omega), hd, Nat.min_eq_right (Nat.zero_le _)]
      exact ⟨_, rfl, rfl, rfl, by simp, rfl⟩
    obtain ⟨e1, e2, e3, e4⟩ := et
    obtain ⟨g1, g2, g3, g4⟩ := ih t (e1.trans hh) (by rw [e2]; exact h1) (by rw [e2]; exact h2) (left ++ x) (by simp [hne])
    simp only [Snk.calls, e, List.drop_zero]
    refine ⟨by rw [g1]; simp, g2.trans e3, g3.trans e4, fun st hst => ?_⟩
    rcases List.mem_cons.1 hst with rfl | hst
    · rfl
    · exact g4 st hst

/-- Seven bytes: the fourth of four samples is never taken. -/
example : let c : SinkCfg := { kind := .i16, maxBytes := 7 }
    let s := (Snk.start.calls c [] [[1, 2, 3, 4]]).2.2
    s.header = true ∧ s.count * c.kind.size < c.maxBytes ∧ c.maxBytes < (s.count + 1) * c.kind.size ∧ (Snk.start.calls c [] [[1, 2, 3, 4]]).2.1 = [4] := by decide +kernel

/-- A sink that is stopped before its first call leaves a file without a header, which no source takes. -/
theorem sink_no_call (c : SinkCfg) : sinkFiles c [] = [[]] := rfl

/-! ## what a source makes of it -/

theorem sink_header (c : SinkCfg) (h1 : max 1 c.channels * c.kind.size < 2 ^ 16) (h2 : 0 < c.rate) (h3 : c.rate < 2 ^ 32) (n total : Nat) (h4 : n * c.kind.size < 2 ^ 32) (h5 : max 1 c.channels ∣ n) :
    Header (simpleHead c.fmt total (n * c.kind.size)) c.fmt (n * c.kind.size) := by
  have hp := size_pos c.kind
  have hle : max 1 c.channels ≤ max 1 c.channels * c.kind.size := Nat.le_mul_of_pos_right _ hp
  have hch : c.ch = max 1 c.channels := Nat.mod_eq_of_lt (by omega)
  have hbs : c.kind.bits / 8 = c.kind.size := by cases c.kind <;> rfl
  have hal : c.align = c.ch * c.kind.size := by unfold SinkCfg.align; rw [hbs, hch, Nat.mod_eq_of_lt h1]
  refine simpleHead_header c.fmt total _ ?_ (by show 0 < c.ch; omega) h2 h3 (by show c.align = c.ch * (c.kind.bits / 8); rw [hbs, hal]) (by show c.align < _; rw [hal, hch]; exact h1) h4 ?_
  · unfold SinkCfg.fmt
    cases c.kind
    · exact .inl ⟨rfl, (by decide : (16 : Nat) ∈ [8, 16, 24, 32])⟩
    · exact .inr ⟨rfl, rfl⟩
  · show n * c.kind.size % c.align = 0
    rw [hal, hch]
    obtain ⟨q, rfl⟩ := h5
    rw [Nat.mul_right_comm, Nat.mul_mod_right]

/-- What a source of the same type puts out for a sample with the given bits. -/
def back : Kind → Nat → Out
  | .i16, x => .i16 (if x < 2 ^ 15 then x else (x : Int) - 2 ^ 16)
  | .f32, x => .f32 (if f32Nan x then x else if 2 ^ 149 < f32Num x then 0x3F800000 else if f32Num x < -2 ^ 149 then 0xBF800000 else x)

theorem samples_back (c : SinkCfg) (p : List Nat) (hp : ∀ x ∈ p, x < 256 ^ c.kind.size) : samples c.kind c.fmt (p.flatMap (le c.kind.size)) = p.map (back c.kind) := by
  have hw : c.fmt.width = c.kind.size := by show c.kind.bits / 8 = c.kind.size; cases c.kind <;> rfl
  induction p with
  | nil => exact samples_nil ..
  | cons x p ih =>
    rw [List.flatMap_cons, samples_append c.kind c.fmt 1 (by rw [le_length, hw, Nat.one_mul]) (by rw [hw]; exact size_pos _), samples_one c.kind c.fmt (by rw [le_length, hw]) (by rw [hw]; exact size_pos _),
      ih fun y hy => hp y (.tail _ hy), List.map_cons, List.singleton_append]
    congr 1
    have hx := hp x (.head _)
    unfold SinkCfg.fmt
    revert hx
    cases c.kind with
    | i16 =>
      intro hx
      unfold decode
      rw [if_pos ⟨rfl, rfl, rfl⟩, List.take_of_length_le (by simp [Kind.size])]
      rw [show Kind.i16.size = 2 from rfl] at hx ⊢
      rw [le_at 2 x hx]
      rfl
    | f32 =>
      intro hx
      exact convert_float rfl x hx

/-- **C100: what a sink has written, a source of the same type gets back.** A sink without rotation is given samples in any pieces, as many as make whole frames; a source of the file, with any
calls, puts out these samples (whole numbers as they were; `float` cut to the numbers from -1 to 1), and when it says that it is done, all of them. Missing: files of more than 2 ^ 20 bytes, see
`large_file_refused`. -/
theorem wav_round_trip_partial (c : SinkCfg) (h0 : c.maxBytes = 0) (h1 : max 1 c.channels * c.kind.size < 2 ^ 16) (h2 : 0 < c.rate) (h3 : c.rate < 2 ^ 32) (xs : List (List Nat)) (hne : xs ≠ [])
    (hx : ∀ x ∈ xs.flatten, x < 256 ^ c.kind.size) (h4 : 44 + xs.flatten.length * c.kind.size ≤ 2 ^ 20) (h5 : max 1 c.channels ∣ xs.flatten.length) (rooms : List (Nat × Bool)) :
    ∃ file, sinkFiles c xs = [file] ∧
      let files := [localFile { kind := c.kind } file]
      let r := (St.start files).calls { kind := c.kind } files rooms
      (∀ st ∈ r.1, st ≠ .error) ∧ r.2.out <+: xs.flatten.map (back c.kind) ∧ (∀ l, r.1 = l ++ [.done] → r.2.out = xs.flatten.map (back c.kind) ∧
        r.2.tags = if xs.flatten = [] then [] else [(0, c.rate, max 1 c.channels)]) ∧
      ((∀ q ∈ rooms, q.2 = true ∧ file.length < q.1) → file.length + 3 ≤ rooms.length → .done ∈ r.1) := by
  obtain ⟨parts, last, left, e1, e2, _, e3, _⟩ := sink_files c xs hne
  obtain ⟨rfl, rfl⟩ := e3 h0
  simp only [List.nil_append, List.flatten_singleton, List.append_nil, List.map_cons, List.map_nil] at e1 e2
  rw [← e2] at hx h4 h5 ⊢
  refine ⟨_, e1, ?_⟩
  intro files r
  have hl : (last.flatMap (le c.kind.size)).length = last.length * c.kind.size := by
    rw [List.length_flatMap]
    simp only [le_length, List.map_const', List.sum_replicate_nat]
  have hf : wavFile c last = simpleHead c.fmt (36 + last.length * c.kind.size) (last.length * c.kind.size) ++ last.flatMap (le c.kind.size) ++ [] := by rw [List.append_nil]; rfl
  have hlen : (wavFile c last).length = 44 + last.length * c.kind.size := by rw [hf, List.append_nil, List.length_append, simpleHead_length, hl]
  have hh : Header (simpleHead c.fmt (36 + last.length * c.kind.size) (last.length * c.kind.size)) c.fmt (last.flatMap (le c.kind.size)).length := by
    rw [hl]
    exact sink_header c h1 h2 h3 _ _ (by omega) h5
  obtain ⟨g1, g2⟩ := gives_default { kind := c.kind } rfl _ _ [] c.fmt hh (by rw [← hf, hlen]; exact h4)
  rw [← hf] at g1 g2
  have hall : ∀ i, i < [(c.fmt, last.flatMap (le c.kind.size))].length → Gives { kind := c.kind } (files.getD i []) ([(c.fmt, last.flatMap (le c.kind.size))].getD i (.none, [])).1 ([(c.fmt, last.flatMap (le c.kind.size))].getD i (.none, [])).2 := by
    intro i hi
    obtain rfl : i = 0 := by simp at hi; omega
    exact g2
  have hplayed : played { kind := c.kind } [(c.fmt, last.flatMap (le c.kind.size))] 1 = [(c.fmt, last.map (back c.kind))] := by
    rw [← samples_back c last hx]
    simp [played, part]
  have hch : c.ch = max 1 c.channels := Nat.mod_eq_of_lt (by
    have := Nat.le_mul_of_pos_right (max 1 c.channels) (size_pos c.kind)
    omega)
  obtain ⟨p1, _, ⟨h, o, rest, p2, p3, p4, p5⟩, p6⟩ := wav_plays_partial { kind := c.kind } files [(c.fmt, last.flatMap (le c.kind.size))] (by simp) rfl hall rooms
  refine ⟨p1, ?_, fun l hl' => ?_, fun hq hlen' => ?_⟩
  · have : h = 0 := by have := p5 rfl; simp at this; exact this
    subst this
    rw [hplayed] at p2
    simp only [List.flatMap_cons, List.flatMap_nil, List.append_nil, played, List.range_zero, List.map_nil, List.nil_append] at p2 p3
    rw [p3, p2]
    exact List.prefix_append _ _
  · obtain ⟨_, q1, q2⟩ := p6 l hl'
    rw [show [(c.fmt, last.flatMap (le c.kind.size))].length = 1 from rfl, hplayed] at q1 q2
    refine ⟨by rw [q1]; simp, ?_⟩
    rw [q2]
    simp only [marks, List.append_nil, List.map_eq_nil_iff]
    split
    · rfl
    · show [(0, c.rate, c.ch)] = _
      rw [hch]
  · refine wav_done_partial { kind := c.kind } files [(c.fmt, last.flatMap (le c.kind.size))] (by simp) rfl hall rfl rooms (fun q hq' => ⟨(hq q hq').1, fun m hm b hb => ?_⟩) ?_
    · rw [List.mem_singleton] at hm
      subst hm
      rw [g1] at hb
      simp at hb
      rw [hb]
      exact (hq q hq').2
    · show (List.map (fun q => cost q + 1) [localFile { kind := c.kind } (wavFile c last)]).sum ≤ _
      rw [g1]
      simp [cost]
      omega

/-- Two channels. -/
example : let c : SinkCfg := { kind := .i16, channels := 2, rate := 44100 }
    let files := (sinkFiles c [[1, 2, 65535], [4]]).map (localFile { kind := .i16 })
    let r := (St.start files).calls { kind := .i16 } files [(9, true), (9, true)]
    r.1 = [.done, .done] ∧ r.2.out = [.i16 1, .i16 2, .i16 (-1), .i16 4] ∧ r.2.tags = [(0, 44100, 2)] := by decide +kernel

/-- **C100, negated: frames.** With two channels a file that is full after three samples ends in the middle of a frame, and is refused. -/
theorem frame_cut_refused :
    let c : SinkCfg := { kind := .i16, channels := 2, maxBytes := 6 }
    sinkFiles c [[1, 2, 3, 4], [], [5, 6]] = [wavFile c [1, 2, 3], wavFile c [4, 5, 6]] ∧
    let files := [localFile { kind := .i16 } (wavFile c [1, 2, 3])]
    let r := (St.start files).calls { kind := .i16 } files [(9, true)]
    r.1 = [.error] ∧ r.2.error = some .dataSize ∧ r.2.out = [] := by decide +kernel

/-- **C100, negated: many channels.** The header holds the bytes of a frame in 16 bits: with 16384 channels of `float` it says 0, and the file is refused. -/
theorem channels_refused :
    let c : SinkCfg := { kind := .f32, channels := 16384 }
    let files := [localFile { kind := .f32 } (wavFile c [])]
    let r := (St.start files).calls { kind := .f32 } files [(9, true)]
    r.1 = [.error] ∧ r.2.error = some .fmtAlign := by decide +kernel

/-- **C100, negated: the order of files.** The names hold the number of the file as it is, and a source plays the files in the order of their names: the eleventh file of a second comes before the third. -/
theorem file_order : fileName "20260101T000000" 10 "x.wav" < fileName "20260101T000000" 2 "x.wav" := by decide +kernel

end Verif.Wav
