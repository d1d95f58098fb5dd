import Verif.Wav.Any
import Verif.FileIo.SrcProps
/-!
The source of WAV files: what it plays, that it comes to an end, and where it fails.
-/
namespace Verif.Wav
open Verif.Bytes
open Verif.FileIo (Msg poll Polled)

/-! ## headers -/

/-- **C97, headers.** A header is accepted exactly if it is one: the bytes up to the data are the name, chunks in any order with a valid format among them (the last one
counts), and the size of the data is a number of frames. -/
theorem header_iff (c : Cfg) (b : List Byte) (h : Head) :
    tryParse c b = .ok (some h) ↔ ∃ head f size rest, b = head ++ rest ∧ Header head f size ∧ h = dataChunk c f size rest := by
  constructor
  · exact tryParse_sound c
  · rintro ⟨head, f, size, rest, rfl, hh, rfl⟩
    exact tryParse_header c hh rest

/-- **C97, headers.** As long as a header is not complete, it is neither accepted nor refused. -/
theorem header_waits (c : Cfg) {head : List Byte} {f : Fmt} {size : Nat} (h : Header head f size) (n : Nat) (hn : n < head.length) : tryParse c (head.take n) = .ok none :=
  tryParse_prefix c h (q := head.drop n) (fun e => by have := congrArg List.length e; rw [List.length_drop, List.length_nil] at this; omega) (List.take_append_drop n head)

/-- **C97, headers.** Data before any format are refused as soon as the size of the data is known, whatever other chunks came before. -/
theorem data_first_refused (c : Cfg) {len : List Byte} (hl : len.length = 4) {xs : List Chunk} (hx : ∀ x ∈ xs, x.Ok ∧ x.id ≠ FMT) (size : Nat) (rest : List Byte) :
    tryParse c (RIFF ++ len ++ WAVE ++ (xs.flatMap Chunk.bytes ++ (DATA ++ le 4 size ++ rest))) = .error .dataBeforeFmt := by
  have hlast : Last none xs none := by
    induction xs with
    | nil => exact .nil _
    | cons x xs ih => exact .other (hx x (by simp)).1 (hx x (by simp)).2 (ih fun y hy => hx y (by simp [hy]))
  obtain ⟨e1, e2, e3, e4⟩ := wave_parts hl (xs.flatMap Chunk.bytes ++ (DATA ++ le 4 size ++ rest))
  unfold tryParse
  rw [if_neg e1, if_neg (by rw [e2, e3]; simp), e4]
  obtain ⟨m, h1, h2⟩ := chunks_last c hlast (RIFF ++ len ++ WAVE ++ (xs.flatMap Chunk.bytes ++ (DATA ++ le 4 size ++ rest))).length (DATA ++ le 4 size ++ rest) (by simp; omega)
  rw [h2]
  have : 1 ≤ m := by
    simp [RIFF] at h1
    omega
  obtain ⟨k, rfl⟩ : ∃ k, m = k + 1 := ⟨m - 1, by omega⟩
  rw [chunks, if_neg (by simp [DATA]), List.append_assoc]
  dsimp only
  exact if_pos (take_left (show DATA.length = 4 from rfl))

example : (⟨RIFF, [1#8, 2#8, 3#8], [0#8]⟩ : Chunk).Ok ∧ RIFF ≠ FMT := ⟨⟨rfl, (by decide : RIFF ≠ DATA), by decide, rfl⟩, by decide⟩

/-- **C97, headers.** The formats accepted are those supported, and a sample has at most four bytes: the array for the bytes of a sample is never too small. -/
theorem fmt_iff (b : List Byte) (f : Fmt) : parseFmt b = .ok f ↔ IsFmt b f := ⟨parseFmt_sound, parseFmt_ok⟩

theorem fmt_width {b : List Byte} {f : Fmt} (h : parseFmt b = .ok f) : 1 ≤ f.width ∧ f.width ≤ 4 := width_pos (parseFmt_sound h).1

/-- A header of 44 bytes, as most files have. -/
def simpleHead (f : Fmt) (total size : Nat) : List Byte :=
  RIFF ++ le 4 total ++ WAVE ++ (FMT ++ le 4 16 ++ (le 2 f.tag ++ le 2 f.channels ++ le 4 f.rate ++ le 4 (f.rate * f.align) ++ le 2 f.align ++ le 2 f.bits)) ++ DATA ++ le 4 size

theorem simpleHead_header (f : Fmt) (total size : Nat) (hs : Supported f) (h1 : 0 < f.channels) (h2 : 0 < f.rate) (h3 : f.rate < 2 ^ 32) (h4 : f.align = f.channels * (f.bits / 8))
    (h5 : f.align < 2 ^ 16) (h6 : size < 2 ^ 32) (h7 : size % f.align = 0) : Header (simpleHead f total size) f size := by
  refine ⟨le 4 total, [], ⟨FMT, le 2 f.tag ++ le 2 f.channels ++ le 4 f.rate ++ le 4 (f.rate * f.align) ++ le 2 f.align ++ le 2 f.bits, []⟩, [], ?_, by simp, h6, ?_, rfl, ?_, nofun, nofun, h7⟩
  · simp [simpleHead, Chunk.bytes]
  · intro y hy
    rw [List.nil_append, List.mem_singleton] at hy
    subst hy
    exact ⟨rfl, (by decide : FMT ≠ DATA), by simp, by simp⟩
  · have ht : f.tag < 2 ^ 16 ∧ f.tag ≠ 0xFFFE := by rcases hs with ⟨h, _⟩ | ⟨h, _⟩ <;> omega
    exact ⟨hs, h1, h2, h3, h4, h5, f.tag, le 4 (f.rate * f.align), [], ht.1, by simp, by simp, .inl ⟨rfl, ht.2⟩⟩

theorem simpleHead_length (f : Fmt) (total size : Nat) : (simpleHead f total size).length = 44 := by simp [simpleHead, RIFF, WAVE, FMT, DATA]

/-! ## what is played -/

theorem calls_inv {c : Cfg} {files : List (List Msg)} {L : List (Fmt × List Byte)} (ha : All c files L) (rooms : List (Nat × Bool)) {s : St} {h : Nat} {o : List Out}
    (hi : Inv c files L h o s) :
    ∃ h' o', Inv c files L h' o' (s.calls c files rooms).2 ∧ (∀ st ∈ (s.calls c files rooms).1, st ≠ .error) ∧
      (∀ l, (s.calls c files rooms).1 = l ++ [.done] → c.again = false ∧ h' + 1 = L.length ∧
        o' = samples c.kind (L.getD (h' % L.length) (.none, [])).1 (part c (L.getD (h' % L.length) (.none, [])).1 (L.getD (h' % L.length) (.none, [])).2)) := by
  induction rooms generalizing s h o with
  | nil => exact ⟨h, o, hi, nofun, fun l hl => by simp [St.calls] at hl⟩
  | cons r rs ih =>
    obtain ⟨r, a⟩ := r
    obtain ⟨st, t, h', o', e, hi', hne, hd, _⟩ := call_inv ha hi r a
    obtain ⟨h2, o2, hi2, hne2, hd2⟩ := ih hi'
    simp only [St.calls, e]
    refine ⟨h2, o2, hi2, ?_, ?_⟩
    · intro x hx
      rcases List.mem_cons.1 hx with rfl | hx
      · exact hne
      · exact hne2 x hx
    · intro l hl
      cases l with
      | nil =>
        rw [List.nil_append, List.cons.injEq] at hl
        have hrs : rs = [] := by
          cases rs with
          | nil => rfl
          | cons r rs => simp [St.calls] at hl
        subst hrs
        obtain ⟨z1, z2, z3⟩ := hd hl.1
        -- nothing happened after the call
        simp only [St.calls] at hi2
        have hb := hi'.bound z1
        have hb2 := hi2.bound z1
        have e1 := hi'.next
        have e2 := hi2.next
        rw [Nat.mod_eq_of_lt hb] at e1
        rw [Nat.mod_eq_of_lt hb2] at e2
        have hh : h2 = h' := by omega
        subst hh
        have e3 := hi'.out
        have e4 := hi2.out
        rw [e3] at e4
        have := List.append_cancel_left e4
        exact ⟨z1, z2, by rw [← this]; exact z3⟩
      | cons y l =>
        rw [List.cons_append, List.cons.injEq] at hl
        exact hd2 l hl.2

theorem start_inv {c : Cfg} {files : List (List Msg)} {L : List (Fmt × List Byte)} (ha : All c files L) :
    Inv c files L 0 [] (St.start files) ∧ (St.start files).cost = cost (files.getD 0 []) := by
  have hlp := List.length_pos_iff.2 ha.2.1
  have := open_inv (c := c) (files := files) (L := L) ha (h := 0)
    (s := { next := 0, queue := [], head := false, final := false, failed := false, fmt := .none, remaining := 0, skip := 0, buf := [], part := [], pending := true, error := none, out := [], tags := [] })
    (by simp) rfl rfl rfl (fun _ => hlp)
  rw [Nat.mod_eq_of_lt hlp] at this
  exact this

/-- **C97: a source plays its files.** Whatever the sizes of the pieces in which the files arrive, when they arrive and how much room there is in the output, the samples put out are
those of the data of the files, in order (from the offset, up to the length asked for), with a tag that has rate and channels at the first sample of each; no call
fails; and when a call says that it is done, all of them were put out. Missing: the offset has to arrive with the header (see `offset_lost`), and the header within 2 ^ 20
bytes (see `large_file_refused`). -/
theorem wav_plays_partial (c : Cfg) (files : List (List Msg)) (L : List (Fmt × List Byte)) (hne : L ≠ []) (hl : files.length = L.length)
    (hf : ∀ i, i < L.length → Gives c (files.getD i []) (L.getD i (.none, [])).1 (L.getD i (.none, [])).2) (rooms : List (Nat × Bool)) :
    let r := (St.start files).calls c files rooms
    (∀ st ∈ r.1, st ≠ .error) ∧ r.2.error = none ∧
    (∃ h o rest, (played c L (h + 1)).flatMap (·.2) = (played c L h).flatMap (·.2) ++ (o ++ rest) ∧ r.2.out = (played c L h).flatMap (·.2) ++ o ∧
      r.2.tags = marks 0 (played c L h ++ [((L.getD (h % L.length) (.none, [])).1, o)]) ∧ (c.again = false → h < L.length)) ∧
    (∀ l, r.1 = l ++ [.done] → c.again = false ∧ r.2.out = (played c L L.length).flatMap (·.2) ∧ r.2.tags = marks 0 (played c L L.length)) := by
  intro r
  have ha : All c files L := ⟨hl, hne, hf⟩
  obtain ⟨h, o, hi, hn, hd⟩ := calls_inv ha rooms (start_inv ha).1
  refine ⟨hn, hi.noError, ?_, ?_⟩
  · have hpre : ∃ rest, o ++ rest = samples c.kind (L.getD (h % L.length) (.none, [])).1 (part c (L.getD (h % L.length) (.none, [])).1 (L.getD (h % L.length) (.none, [])).2) := by
      rcases hi.phase with ⟨ho, _⟩ | ⟨hs, hd, X, ho, hpost⟩
      · exact ⟨_, by rw [ho, List.nil_append]⟩
      · have hw := (width_pos hs).1
        obtain ⟨_, _, _, _, ⟨r, hr⟩, _⟩ := post_complete hw hd hpost
        obtain ⟨n, hn⟩ := hpost.unit
        exact ⟨samples c.kind _ r, by rw [ho, ← samples_append c.kind _ n hn hw, hr]⟩
    obtain ⟨rest, hr⟩ := hpre
    refine ⟨h, o, rest, ?_, hi.out, hi.tags, hi.bound⟩
    rw [played_succ c L h rfl, List.flatMap_append, hr]
    simp
  · intro l hl'
    obtain ⟨h1, h2, h3⟩ := hd l hl'
    have h4 := played_succ c L h rfl
    rw [h2] at h4
    refine ⟨h1, ?_, ?_⟩
    · rw [hi.out, h4, List.flatMap_append, h3]
      simp
    · rw [hi.tags, h4, h3]

/-- Two channels of 16 bits in two pieces, cut in the middle of a sample, then a file of 8 bits. -/
def exFmt16 : Fmt := ⟨1, 2, 8000, 4, 16⟩
def exFmt8 : Fmt := ⟨1, 1, 4000, 1, 8⟩
def exFiles : List (List Msg) :=
  [[.data (simpleHead exFmt16 0 8 ++ [1#8, 0#8, 0xFF#8]), .data [0xFF#8, 2#8, 0#8, 3#8, 0#8, 7#8], .final], [.data (simpleHead exFmt8 0 2), .data [0#8, 0xFF#8], .final]]

example : let c : Cfg := { kind := .i16 }
    let r := (St.start exFiles).calls c exFiles [(8, true), (8, false), (8, true), (8, true), (8, true), (8, true)]
    r.1 = [.ok, .ok, .ok, .ok, .done, .done] ∧ r.2.out = [.i16 1, .i16 (-1), .i16 2, .i16 3, .i16 (-32768), .i16 32511] ∧ r.2.tags = [(0, 8000, 2), (4, 4000, 1)] := by
  decide +kernel

/-- The hypotheses of `wav_plays_partial` hold of these files. -/
example : ∀ i, i < 2 → Gives { kind := .i16, length := 3 } (exFiles.getD i [])
    ([(exFmt16, [1#8, 0#8, 0xFF#8, 0xFF#8, 2#8, 0#8, 3#8, 0#8]), (exFmt8, [0#8, 0xFF#8])].getD i (.none, [])).1
    ([(exFmt16, [1#8, 0#8, 0xFF#8, 0xFF#8, 2#8, 0#8, 3#8, 0#8]), (exFmt8, [0#8, 0xFF#8])].getD i (.none, [])).2 := by
  intro i hi
  obtain rfl | rfl : i = 0 ∨ i = 1 := by omega
  · refine ⟨[simpleHead exFmt16 0 8 ++ [1#8, 0#8, 0xFF#8], [0xFF#8, 2#8, 0#8, 3#8, 0#8, 7#8]], simpleHead exFmt16 0 8, [7#8], rfl, by decide +kernel,
      simpleHead_header _ _ _ (.inl ⟨rfl, by decide⟩) (by decide) (by decide) (by decide) rfl (by decide) (by decide) (by decide), by decide +kernel, by decide +kernel⟩
  · refine ⟨[simpleHead exFmt8 0 2, [0#8, 0xFF#8]], simpleHead exFmt8 0 2, [], rfl, by decide +kernel,
      simpleHead_header _ _ _ (.inl ⟨rfl, by decide⟩) (by decide) (by decide) (by decide) rfl (by decide) (by decide) (by decide), by decide +kernel, by decide +kernel⟩

/-- **C97: a source comes to an end.** If the next piece is there at each call, and the room is larger than the pieces, then a source that does not repeat its files is done after as many calls as there
are bytes and messages, and one more for each file. -/
theorem wav_done_partial (c : Cfg) (files : List (List Msg)) (L : List (Fmt × List Byte)) (hne : L ≠ []) (hl : files.length = L.length)
    (hf : ∀ i, i < L.length → Gives c (files.getD i []) (L.getD i (.none, [])).1 (L.getD i (.none, [])).2) (hag : c.again = false) (rooms : List (Nat × Bool))
    (harr : ∀ r ∈ rooms, r.2 = true ∧ ∀ q ∈ files, ∀ b, Msg.data b ∈ q → b.length < r.1) (hlen : (files.map fun q => cost q + 1).sum ≤ rooms.length) :
    .done ∈ ((St.start files).calls c files rooms).1 := by
  have ha : All c files L := ⟨hl, hne, hf⟩
  obtain ⟨hi, hc⟩ := start_inv ha
  have hlp := List.length_pos_iff.2 hne
  have main : ∀ (rooms : List (Nat × Bool)) (s : St) (h : Nat) (o : List Out), Inv c files L h o s →
      (∀ r ∈ rooms, r.2 = true ∧ ∀ q ∈ files, ∀ b, Msg.data b ∈ q → b.length < r.1) → s.cost + 1 + costFrom files (h + 1) ≤ rooms.length →
      .done ∈ (s.calls c files rooms).1 := by
    intro rooms
    induction rooms with
    | nil => intro s h o _ _ hle; simp at hle
    | cons r rs ih =>
      intro s h o hi harr hle
      obtain ⟨r, a⟩ := r
      obtain ⟨h1, h2⟩ := harr (r, a) (.head _)
      dsimp only at h1 h2
      have hroom : 0 < r := by
        have hm : files.getD 0 [] ∈ files := by
          rw [List.getD_eq_getElem?_getD, List.getElem?_eq_getElem (by omega)]
          exact List.getElem_mem _
        obtain ⟨pieces, head, tail, g1, g2, g3, _⟩ := hf 0 hlp
        cases pieces with
        | nil =>
          exfalso
          have := (header_fmt g3).2.2
          have := congrArg List.length g2
          simp at this
          omega
        | cons p ps =>
          have := h2 _ hm p (by rw [g1]; exact .head _)
          omega
      obtain ⟨st, t, h', o', e, hi', _, _, hp⟩ := call_inv ha hi r a
      simp only [St.calls, e]
      rcases hp h1 hroom h2 hag with rfl | hlt
      · exact .head _
      · refine .tail _ (ih t h' o' hi' (fun r hr => harr r (.tail _ hr)) ?_)
        rw [List.length_cons] at hle
        omega
  refine main rooms _ 0 [] hi harr ?_
  rw [hc]
  have := costFrom_succ files 0 (by omega)
  have h0 : costFrom files 0 = (files.map fun q => cost q + 1).sum := rfl
  omega

/-! ## any bytes at all -/

/-- **C97: whatever the bytes are.** A source of one file, read from its beginning, of which some pieces arrive and then possibly an error: nothing is put out unless
the bytes begin with a header, and then what is put out are the first samples of the data that the header announces (of the part asked for); if
a call says that it is done, all of that is there and was put out. -/
theorem wav_safe (c : Cfg) (pieces : List (List Byte)) (tl : List Msg) (ht : ∀ m ∈ tl, ∀ b, m ≠ .data b) (hag : c.again = false) (h0 : c.offset = 0) (rooms : List (Nat × Bool)) :
    let files := [pieces.map Msg.data ++ tl]
    let r := (St.start files).calls c files rooms
    (r.2.out = [] ∨ ∃ head f size rest, pieces.flatten = head ++ rest ∧ Header head f size ∧ r.2.out <+: samples c.kind f (part c f (rest.take size))) ∧
    (∀ l, r.1 = l ++ [.done] → ∃ head f size rest, pieces.flatten = head ++ rest ∧ Header head f size ∧ r.2.out = samples c.kind f (part c f (rest.take size)) ∧
      (size ≤ rest.length ∨ (c.length ≠ 0 ∧ c.length * f.width ≤ rest.length))) := by
  intro files r
  have hs : Any c pieces (St.start files) := ⟨rfl, .inr (.inl ⟨rfl, rfl, rfl, rfl, [], pieces, tl, rfl, rfl, rfl, ht, nofun⟩)⟩
  obtain ⟨h1, h2⟩ := any_calls (files := files) rfl hag h0 rooms hs
  refine ⟨?_, h2⟩
  rcases h1.2 with ⟨_, _, h⟩ | ⟨_, _, h, _⟩ | ⟨head, f, size, rest, X, g1, g2, g3, ⟨t, g4⟩, ⟨n, hn⟩, _⟩
  · exact .inl h
  · exact .inl h
  · refine .inr ⟨head, f, size, rest, g1, g2, ?_⟩
    have hw := (width_pos (header_fmt g2).1).1
    exact ⟨samples c.kind f t, by rw [g3, ← g4, samples_append c.kind f n hn hw]⟩
/-! ## local files -/

theorem reach_le (n B : Nat) (ps : List (List Byte)) (h : ∀ p ∈ ps, p.length ≤ B) : reach n ps ≤ n + B := by
  induction ps generalizing n with
  | nil => simp [reach]
  | cons p ps ih =>
    unfold reach
    have h1 := h p (.head _)
    have h2 := ih (n - p.length) fun q hq => h q (.tail _ hq)
    split <;> omega

theorem reach_flatten (n : Nat) (ps : List (List Byte)) : reach n ps ≤ ps.flatten.length := by
  induction ps generalizing n with
  | nil => simp [reach]
  | cons p ps ih =>
    unfold reach
    rw [List.flatten_cons, List.length_append]
    have := ih (n - p.length)
    split <;> omega

/-- The messages of the reader of a local file. -/
def localFile (c : Cfg) (file : List Byte) : List Msg := ((Verif.FileIo.RS.new c.reader false none).runFile (some file)).2.published

/-- **C97, local files.** A local file of at most 2 ^ 20 bytes, or one that is read in small pieces, is played from its beginning. -/
theorem gives_local (c : Cfg) (head data tail : List Byte) (f : Fmt) (h : Header head f data.length) (hoff : c.offset = 0)
    (hs : (head ++ data ++ tail).length ≤ 2 ^ 20 ∨ head.length + c.reader.chunkBytes ≤ 2 ^ 20) : Gives c (localFile c (head ++ data ++ tail)) f data := by
  obtain ⟨_, pieces, h1, h2, _, h3, _⟩ := Verif.FileIo.read_file c.reader none (head ++ data ++ tail)
  have h3 := h3 rfl
  rw [show c.reader.offset = none from rfl, Option.getD_none, List.drop_zero] at h3
  refine ⟨pieces, head, tail, h1, h3, h, ?_, fun _ => ?_⟩
  · rcases hs with hs | hs
    · have := reach_flatten head.length pieces
      rw [h3] at this
      omega
    · have hb : ∀ p ∈ pieces, p.length ≤ c.reader.chunkBytes := by
        intro p hp
        have := h2.small p hp
        unfold Verif.FileIo.bound at this
        rw [show c.reader.align = 1 from rfl, if_neg (by omega)] at this
        have := this _ rfl
        have h1 : 1 ≤ c.reader.chunkBytes := Nat.le_max_left _ _
        omega
      have := reach_le head.length _ pieces hb
      omega
  · rw [hoff, Nat.zero_mul, Nat.add_zero]
    have : ∀ (n : Nat) (ps : List (List Byte)), n ≤ ps.flatten.length → n ≤ reach n ps := by
      intro n ps
      induction ps generalizing n with
      | nil => simp [reach]
      | cons p ps ih =>
        intro hn
        rw [List.flatten_cons, List.length_append] at hn
        unfold reach
        have := ih (n - p.length) (by omega)
        split <;> omega
    refine this _ _ ?_
    rw [h3, List.length_append, List.length_append]
    omega

/-- The bytes of a piece of a reader with the default of `max_samples`. -/
theorem default_chunk (k : Kind) : Cfg.reader { kind := k } = { chunkBytes := 2 ^ 62 - 1, align := 1 } := by cases k <;> rfl

/-- With the default of `max_samples` a local file is one piece, and any offset is skipped. -/
theorem gives_default (c : Cfg) (hm : c.maxSamples = 2 ^ 64 - 1) (head data tail : List Byte) (f : Fmt) (h : Header head f data.length)
    (hs : (head ++ data ++ tail).length ≤ 2 ^ 20) : localFile c (head ++ data ++ tail) = [.data (head ++ data ++ tail), .final] ∧ Gives c (localFile c (head ++ data ++ tail)) f data := by
  have hr : c.reader = { chunkBytes := 2 ^ 62 - 1, align := 1 } := by rw [← default_chunk c.kind]; unfold Cfg.reader; rw [hm]
  have h8 := (header_fmt h).2.2
  have e : localFile c (head ++ data ++ tail) = [.data (head ++ data ++ tail), .final] := by
    unfold localFile
    rw [hr]
    refine Verif.FileIo.one_message { chunkBytes := 2 ^ 62 - 1, align := 1 } _ ?_ ?_ ?_ ?_ ?_
    · intro e
      have := congrArg List.length e
      simp at this
      rw [this.1] at h8
      simp at h8
    · rw [Option.getD_none, List.drop_zero]; dsimp only; omega
    · decide
    · right; decide
    · exact ⟨_, (Nat.one_mul _).symm⟩
  refine ⟨e, [head ++ data ++ tail], head, tail, e, by simp, h, ?_, fun ho => ?_⟩
  · have := reach_flatten head.length [head ++ data ++ tail]
    simp only [List.flatten_singleton] at this
    omega
  · unfold reach
    rw [if_pos (by simp)]
    simp only [List.length_append]
    omega

/-! ## where it fails -/

/-- **C97, negated: large files.** With the default of `max_samples` the whole of a local file is the first piece, and so any file of more than 2 ^ 20 bytes is refused, as one whose header is
too large, whatever its header. -/
theorem large_file_refused (c : Cfg) (hm : c.maxSamples = 2 ^ 64 - 1) (file : List Byte) (h1 : 2 ^ 20 < file.length) (h2 : file.length < 2 ^ 62) (room : Nat) (hr : 0 < room) :
    let r := (St.start [localFile c file]).call c [localFile c file] room true
    r.1 = .error ∧ r.2.error = some .headerTooLarge ∧ r.2.out = [] := by
  have hrd : c.reader = { chunkBytes := 2 ^ 62 - 1, align := 1 } := by rw [← default_chunk c.kind]; unfold Cfg.reader; rw [hm]
  have e : localFile c file = [.data file, .final] := by
    unfold localFile
    rw [hrd]
    refine Verif.FileIo.one_message { chunkBytes := 2 ^ 62 - 1, align := 1 } _ ?_ ?_ ?_ ?_ ?_
    · intro e
      have := congrArg List.length e
      simp at this
      rw [this] at h1
      simp at h1
    · rw [Option.getD_none, List.drop_zero]; dsimp only; omega
    · decide
    · right; decide
    · exact ⟨_, (Nat.one_mul _).symm⟩
  intro r
  have hbig : maxHeader < ([] ++ file).length := by
    rw [List.nil_append]
    exact h1
  have hle : file.length ≤ Verif.FileIo.npos := by unfold Verif.FileIo.npos; omega
  have hcall : r = St.fail { (St.start [localFile c file]) with queue := [.final] } .headerTooLarge := by
    show (St.start [localFile c file]).call c [localFile c file] room true = _
    rw [e]
    unfold St.call
    rw [if_neg (by omega), if_neg (by simp [St.start, St.openNext]), if_pos rfl]
    simp only [St.start, St.openNext, List.getElem?_cons_zero, poll, if_true, if_pos hle]
    unfold St.header
    dsimp only
    rw [if_pos hbig]
  rw [hcall]
  exact ⟨rfl, rfl, rfl⟩

/-- **C97, negated: the offset.** A file of five samples, 1 to 5, in pieces of 46 bytes, so that one sample comes with the header; with an offset of two the source plays 2, 3 and 4 instead of
3, 4 and 5, and says that it is done. -/
theorem offset_lost :
    let f : Fmt := ⟨1, 1, 8000, 2, 16⟩
    let file := simpleHead f 46 10 ++ [1#8, 0#8, 2#8, 0#8, 3#8, 0#8, 4#8, 0#8, 5#8, 0#8]
    let c : Cfg := { kind := .i16, offset := 2, maxSamples := 92 }
    let r := (St.start [localFile c file]).calls c [localFile c file] [(100, true), (100, true)]
    r.1 = [.ok, .done] ∧ r.2.out = [.i16 2, .i16 3, .i16 4] ∧ samples .i16 f (part c f (file.drop 44)) = [.i16 3, .i16 4, .i16 5] := by
  decide +kernel

/-- **C97, negated: no files.** A source without files, as when no file matches, never comes to an end. -/
theorem no_files_waits (c : Cfg) (rooms : List (Nat × Bool)) :
    let r := (St.start []).calls c [] rooms
    (∀ st ∈ r.1, st = .ok ∨ st = .insufficient) ∧ r.2.out = [] := by
  have hcall : ∀ room a, (St.start []).call c [] room a = (if room = 0 then .insufficient else .ok, St.start []) := by
    intro room a
    unfold St.call
    by_cases hr : room = 0
    · rw [if_pos hr, if_pos hr]
    · rw [if_neg hr, if_neg hr]
      cases a <;> rfl
  induction rooms with
  | nil => exact ⟨nofun, rfl⟩
  | cons r rs ih =>
    obtain ⟨r, a⟩ := r
    simp only [St.calls, hcall]
    refine ⟨fun st hst => ?_, ih.2⟩
    rcases List.mem_cons.1 hst with rfl | hst
    · split
      · exact .inr rfl
      · exact .inl rfl
    · exact ih.1 st hst

end Verif.Wav
