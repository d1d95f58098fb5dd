import Verif.Deflate.EncoderLemmas
/-! # What the streaming encoder holds between calls -/
namespace Verif.Deflate
open Verif.Bytes (Byte)

/-- a container around a deflate stream of `fed` -/
def Sealed (format : Format) (level : Level) (fed bytes : List Byte) : Prop :=
  ∃ body, bytes = headBytes format level ++ body ++ tailBytes 0 fed format ∧
    ∀ (X trailer : List Byte) (cap hb : Nat), X.length + fed.length ≤ cap →
      decodeDeflate (body ++ trailer) (⟨X, cap, hb⟩ : Span) = .ok (body.length, ⟨X ++ fed, cap, X.length⟩)

/-- a container that is not complete: the header, and blocks with the first bytes of `fed` -/
def Open (head : List Byte) (fed : List Byte) (w : Writer) : Prop :=
  w.Ok ∧ ∃ D, w.bits = head.flatMap byteBits ++ D ∧ BlocksAt (8 * head.length) D false fed 0

/-- the window and the sums of an encoder that was fed `fed` -/
structure Enc.Core (format : Format) (level : Level) (e : Enc) (fed : List Byte) : Prop where
  fmt : e.format = format
  lvl : e.level = level
  block1 : 1 ≤ e.blockBytes
  block2 : e.blockBytes ≤ kMaxStoredBlock
  room : e.tokenRoom = kWindowSize + e.blockBytes
  length : e.basePosition + e.window.length = fed.length
  window : e.window = fed.drop e.basePosition
  hist : e.historyBytes ≤ e.window.length
  hist2 : e.historyBytes ≤ kWindowSize
  block : e.window.length ≤ e.historyBytes + e.blockBytes
  index1 : e.basePosition ≤ e.indexedEnd
  index2 : e.indexedEnd ≤ e.basePosition + e.historyBytes
  crc : e.crcState = Crc.updateScalar Crc.ieee 0xffffffff#32 fed
  adler : e.adler = updateAdler (1, 0) fed
  size : e.inputSize = fed.length % 2 ^ 32

/-- the encoder was fed `fed` and has handed out `out` -/
structure Enc.Holds (format : Format) (level : Level) (e : Enc) (fed out : List Byte) : Prop extends e.Core format level fed where
  pos : e.pendingPos ≤ e.pending.length
  unstarted : e.started = false → fed = [] ∧ out = [] ∧ e.pending = [] ∧ e.finalQueued = false ∧ e.bits = 0 ∧ e.bitCount = 0 ∧ e.historyBytes = 0
  opened : e.finalQueued = false → Open (if e.started then headBytes format level else []) (fed.take (e.basePosition + e.historyBytes))
    ⟨out ++ e.pending.drop e.pendingPos, e.bits, e.bitCount⟩
  sealed : e.finalQueued = true → Sealed format level fed (out ++ e.pending.drop e.pendingPos)
  done : e.finished = true → e.finalQueued = true ∧ e.pending = []

variable {format : Format} {level : Level} {e e' : Enc} {fed out : List Byte}

theorem holds_fresh (format : Format) (level : Level) (blockBytes : Nat) : (Enc.fresh format level blockBytes).Holds format level [] [] := by
  have hk : kMaxStoredBlock = 65535 := rfl
  have hb : 1 ≤ (Enc.fresh format level blockBytes).blockBytes ∧ (Enc.fresh format level blockBytes).blockBytes ≤ kMaxStoredBlock := by
    simp only [Enc.fresh]; omega
  refine ⟨⟨rfl, rfl, hb.1, hb.2, rfl, rfl, rfl, Nat.le_refl _, Nat.zero_le _, Nat.zero_le _, Nat.le_refl _, Nat.le_refl _, rfl, ?_, rfl⟩, Nat.le_refl _,
    fun _ => ⟨rfl, rfl, rfl, rfl, rfl, rfl, rfl⟩, fun _ => ?_, nofun, nofun⟩
  · rw [updateAdler]; rfl
  · exact ⟨Writer.fresh_ok, [], rfl, BlocksAt.nil _⟩

/-- the first call queues the header -/
theorem Enc.Holds.start (h : e.Holds format level fed out) (hs : e.started = false) : ({ e.queueHeader with started := true } : Enc).Holds format level fed out := by
  obtain ⟨rfl, rfl, h3, h4, h5, h6, h7⟩ := h.unstarted hs
  rw [queueHeader_eq]
  have hp0 : e.pendingPos = 0 := by have := h.pos; rw [h3] at this; exact Nat.le_zero.1 this
  have hl := h.length
  have hw : e.window = [] := List.length_eq_zero_iff.1 (by rw [List.length_nil] at hl; omega)
  refine ⟨⟨h.fmt, h.lvl, h.block1, h.block2, h.room, h.length, h.window, h.hist, h.hist2, h.block, h.index1, h.index2, h.crc, h.adler, h.size⟩, ?_, nofun, fun _ => ?_,
    fun hq => ?_, fun hf => ?_⟩
  · rw [hp0]; exact Nat.zero_le _
  · simp only [h3, hp0, h5, h6, h.fmt, h.lvl, List.nil_append, List.drop_zero, if_true, List.take_nil]
    refine ⟨⟨show 0 < 2 ^ 0 by decide, show 0 < 8 by decide⟩, [], ?_, BlocksAt.nil _⟩
    simp [Writer.bits, bitsLE]
  · rw [h4] at hq; cases hq
  · have := (h.done hf).1
    rw [h4] at this; cases this

/-- handing out does not change what there is -/
theorem Enc.Holds.drain (h : e.Holds format level fed out) (hs : e.started = true) (room : Nat) :
    (e.drain room).2.Holds format level fed (out ++ (e.drain room).1) ∧ (e.drain room).1.length = min room (e.pending.length - e.pendingPos) ∧
      ((e.drain room).1.length < room → (e.drain room).2.pending = [] ∧ (e.drain room).2.pendingPos = 0) ∧
      (e.drain room).2.pending.length - (e.drain room).2.pendingPos + (e.drain room).1.length = e.pending.length - e.pendingPos := by
  have hp := h.pos
  have hd : (e.pending.drop e.pendingPos).length = e.pending.length - e.pendingPos := List.length_drop
  generalize hc : min room (e.pending.length - e.pendingPos) = count
  have hlen : ((e.pending.drop e.pendingPos).take count).length = count := by rw [List.length_take]; omega
  simp only [Enc.drain, hc]
  by_cases hall : e.pendingPos + count = e.pending.length
  · rw [if_pos hall]
    have htake : (e.pending.drop e.pendingPos).take count = e.pending.drop e.pendingPos := List.take_of_length_le (by omega)
    refine ⟨?_, hlen, fun _ => ⟨rfl, rfl⟩, ?_⟩
    · refine ⟨⟨h.fmt, h.lvl, h.block1, h.block2, h.room, h.length, h.window, h.hist, h.hist2, h.block, h.index1, h.index2, h.crc, h.adler, h.size⟩, Nat.le_refl _, ?_, ?_, ?_, ?_⟩
      · intro hn; rw [hs] at hn; cases hn
      · intro hq
        have := h.opened hq
        rw [← htake] at this
        simp only [List.drop_nil, List.append_nil]
        exact this
      · intro hq
        have := h.sealed hq
        rw [← htake] at this
        simp only [List.drop_nil, List.append_nil]
        exact this
      · exact fun hf => ⟨(h.done hf).1, rfl⟩
    · show 0 - 0 + _ = _
      rw [hlen]; omega
  · rw [if_neg hall]
    have hsplit : out ++ e.pending.drop e.pendingPos = out ++ (e.pending.drop e.pendingPos).take count ++ e.pending.drop (e.pendingPos + count) := by
      rw [List.append_assoc, ← List.drop_drop, List.take_append_drop]
    refine ⟨?_, hlen, fun hr => ?_, ?_⟩
    · refine ⟨⟨h.fmt, h.lvl, h.block1, h.block2, h.room, h.length, h.window, h.hist, h.hist2, h.block, h.index1, h.index2, h.crc, h.adler, h.size⟩, ?_, ?_, ?_, ?_, ?_⟩
      · show e.pendingPos + count ≤ e.pending.length; omega
      · intro hn; rw [hs] at hn; cases hn
      · intro hq
        have := h.opened hq
        rw [hsplit] at this
        exact this
      · intro hq
        have := h.sealed hq
        rw [hsplit] at this
        exact this
      · intro hf
        have := (h.done hf).2
        rw [this, List.length_nil] at hall hp hc
        omega
    · rw [hlen] at hr; omega
    · show e.pending.length - (e.pendingPos + count) + _ = _
      rw [hlen]; omega

/-- taking input -/
theorem Enc.Holds.take (h : e.Holds format level fed out) (hs : e.started = true) (hq : e.finalQueued = false) {chunk : List Byte}
    (hc : e.pendingBytes + chunk.length ≤ e.blockBytes) : (e.take chunk).Holds format level (fed ++ chunk) out := by
  have hl := h.length
  have hh := h.hist
  rw [Enc.pendingBytes] at hc
  refine ⟨⟨h.fmt, h.lvl, h.block1, h.block2, h.room, ?_, ?_, ?_, h.hist2, ?_, h.index1, h.index2, ?_, ?_, ?_⟩, h.pos, ?_, ?_, ?_, ?_⟩
  · show e.basePosition + (e.window ++ chunk).length = (fed ++ chunk).length
    rw [List.length_append, List.length_append]; omega
  · show e.window ++ chunk = (fed ++ chunk).drop e.basePosition
    rw [List.drop_append_of_le_length (by omega), ← h.window]
  · show e.historyBytes ≤ (e.window ++ chunk).length
    rw [List.length_append]; omega
  · show (e.window ++ chunk).length ≤ e.historyBytes + e.blockBytes
    rw [List.length_append]; omega
  · show Crc.updateScalar Crc.ieee e.crcState chunk = _
    rw [h.crc, crc_append]
  · show updateAdler e.adler chunk = _
    rw [h.adler, adler_append]
  · show (e.inputSize + chunk.length % 2 ^ 32) % 2 ^ 32 = _
    rw [h.size, List.length_append]; omega
  · intro hn; exact absurd (hs.symm.trans hn) (by decide)
  · intro _
    show Open _ ((fed ++ chunk).take (e.basePosition + e.historyBytes)) _
    rw [List.take_append_of_le_length (by omega)]
    exact h.opened hq
  · intro hn; exact absurd (hq.symm.trans hn) (by decide)
  · intro hf; exact absurd (hq.symm.trans (h.done hf).1) (by decide)

/-- the window after a block -/
theorem slide_spec (h : e.Core format level fed) (f : Enc) (h1 : f.format = e.format) (h2 : f.level = e.level) (h3 : f.blockBytes = e.blockBytes)
    (h4 : f.tokenRoom = e.tokenRoom) (h5 : f.basePosition = e.basePosition) (h6 : f.window = e.window) (h7 : f.crcState = e.crcState) (h8 : f.adler = e.adler)
    (h9 : f.inputSize = e.inputSize) (h10 : f.indexedEnd = e.basePosition + (if 2 ≤ e.window.length then e.window.length - 2 else 0)) :
    f.slideWindow.Core format level fed ∧ f.slideWindow.pendingBytes = 0 ∧ f.slideWindow.basePosition + f.slideWindow.historyBytes = fed.length ∧
      f.slideWindow.pending = f.pending ∧ f.slideWindow.pendingPos = f.pendingPos ∧ f.slideWindow.bits = f.bits ∧ f.slideWindow.bitCount = f.bitCount ∧
      f.slideWindow.started = f.started ∧ f.slideWindow.finalQueued = f.finalQueued ∧ f.slideWindow.finished = f.finished ∧
      f.slideWindow.blockBytes = f.blockBytes := by
  have hw : kWindowSize = 32768 := rfl
  have hl := h.length
  have hidx : e.basePosition ≤ f.indexedEnd ∧ f.indexedEnd ≤ e.basePosition + e.window.length ∧ e.basePosition + (e.window.length - kWindowSize) ≤ f.indexedEnd := by
    rw [h10]; split <;> omega
  rw [Enc.slideWindow, h6]
  by_cases hb : kWindowSize < e.window.length
  · rw [if_pos hb]
    have hdl : (e.window.drop (e.window.length - kWindowSize)).length = kWindowSize := by rw [List.length_drop]; omega
    refine ⟨⟨h1.trans h.fmt, h2.trans h.lvl, ?_, ?_, ?_, ?_, ?_, ?_, Nat.le_refl _, ?_, ?_, ?_, h7.trans h.crc, h8.trans h.adler, h9.trans h.size⟩, ?_, ?_,
      rfl, rfl, rfl, rfl, rfl, rfl, rfl, rfl⟩
    · show 1 ≤ f.blockBytes; rw [h3]; exact h.block1
    · show f.blockBytes ≤ _; rw [h3]; exact h.block2
    · show f.tokenRoom = _ + f.blockBytes; rw [h3, h4]; exact h.room
    · dsimp only; omega
    · dsimp only
      generalize e.window.length - kWindowSize = k
      rw [h.window, h5, List.drop_drop]
    · dsimp only; omega
    · dsimp only; rw [hdl]; exact Nat.le_add_right _ _
    · dsimp only; omega
    · dsimp only; omega
    · dsimp only [Enc.pendingBytes]; omega
    · dsimp only; omega
  · rw [if_neg hb]
    refine ⟨⟨h1.trans h.fmt, h2.trans h.lvl, ?_, ?_, ?_, ?_, ?_, ?_, ?_, ?_, ?_, ?_, h7.trans h.crc, h8.trans h.adler, h9.trans h.size⟩, ?_, ?_,
      rfl, rfl, rfl, rfl, rfl, rfl, rfl, rfl⟩
    · show 1 ≤ f.blockBytes; rw [h3]; exact h.block1
    · show f.blockBytes ≤ _; rw [h3]; exact h.block2
    · show f.tokenRoom = _ + f.blockBytes; rw [h3, h4]; exact h.room
    · show f.basePosition + e.window.length = fed.length; rw [h5]; exact hl
    · show e.window = fed.drop f.basePosition; rw [h5]; exact h.window
    · show e.window.length ≤ e.window.length; exact Nat.le_refl _
    · show e.window.length ≤ kWindowSize; omega
    · show e.window.length ≤ e.window.length + f.blockBytes; exact Nat.le_add_right _ _
    · show f.basePosition ≤ f.indexedEnd; omega
    · show f.indexedEnd ≤ f.basePosition + e.window.length; omega
    · show e.window.length - e.window.length = 0; exact Nat.sub_self _
    · show f.basePosition + e.window.length = fed.length; omega

/-- what a block adds to the stream -/
theorem Enc.Holds.queueBlock (h : e.Holds format level fed out) (hs : e.started = true) (hq : e.finalQueued = false) (hp : e.pending = [])
    (hp0 : e.pendingPos = 0) (final : Bool) :
    ∃ e', e.queueBlock final = .ok e' ∧ e'.Core format level fed ∧ e'.started = true ∧ e'.finalQueued = false ∧ e'.finished = e.finished ∧ e'.pendingPos = 0 ∧
      e'.pendingBytes = 0 ∧
      (final = false → Open (headBytes format level) (fed.take (e'.basePosition + e'.historyBytes)) ⟨out ++ e'.pending, e'.bits, e'.bitCount⟩) ∧
      (final = true → ∃ body, out ++ e'.pending = headBytes format level ++ body ∧
        ∀ (X trailer : List Byte) (cap hb : Nat), X.length + fed.length ≤ cap →
          decodeDeflate (body ++ trailer) (⟨X, cap, hb⟩ : Span) = .ok (body.length, ⟨X ++ fed, cap, X.length⟩)) := by
  have hk : kMaxStoredBlock = 65535 := rfl
  have hw : kWindowSize = 32768 := rfl
  have hh := h.hist
  have hb := h.block
  have hb2 := h.block2
  have hh2 := h.hist2
  have hr := h.room
  have hi1 := h.index1
  have hi2 := h.index2
  have hl := h.length
  rw [Enc.queueBlock, if_neg (by omega)]
  generalize hT : (⟨e.window, e.basePosition, e.tokenRoom, e.level⟩ : Window).tokenize e.chains (e.indexedEnd - e.basePosition) e.historyBytes = r
  have hcov : Covers e.window e.historyBytes r.1 := by
    have := tokenize_spec ⟨e.window, e.basePosition, e.tokenRoom, e.level⟩ e.chains (show e.indexedEnd - e.basePosition ≤ e.historyBytes by omega) hh
    rw [hT] at this
    exact this
  have hfed : fed.take e.basePosition ++ e.window = fed := by rw [h.window, List.take_append_drop]
  have htl : (fed.take e.basePosition).length = e.basePosition := by rw [List.length_take]; omega
  have hlen := covers_length _ _ _ hcov
  have hcov' : Covers fed (e.basePosition + e.historyBytes) r.1 := by
    have := hcov.shift (fed.take e.basePosition)
    rwa [hfed, htl] at this
  dsimp only
  rw [if_neg (by omega)]
  have hdrop : e.window.drop e.historyBytes = fed.drop (e.basePosition + e.historyBytes) := by rw [h.window, List.drop_drop]
  rw [hdrop]
  generalize hE : selectEncoding (fed.drop (e.basePosition + e.historyBytes)).length r.1 (makeDynamicCoding r.1) final = enc
  obtain ⟨hwok, D1, hbits, hD1⟩ := h.opened hq
  simp only [hs, if_true, hp, List.drop_nil, List.append_nil] at hwok hbits hD1
  obtain ⟨D, al, d1, d2, d3, d4⟩ := emitDeflate_spec (pos := e.basePosition + e.historyBytes) (by omega) hcov' (by omega) enc
    ((headBytes format level).flatMap byteBits ++ D1) final
  have hrun := Writer.run_bits hwok (ops := emitDeflate (fed.drop (e.basePosition + e.historyBytes)) r.1 (makeDynamicCoding r.1) enc final) (by rw [hbits]; exact d2)
  have hpre := Writer.run_prefix out (emitDeflate (fed.drop (e.basePosition + e.historyBytes)) r.1 (makeDynamicCoding r.1) enc final) ⟨[], e.bits, e.bitCount⟩
  rw [hp]
  simp only [List.append_nil] at hpre
  rw [hpre] at hrun
  generalize (⟨[], e.bits, e.bitCount⟩ : Writer).run (emitDeflate (fed.drop (e.basePosition + e.historyBytes)) r.1 (makeDynamicCoding r.1) enc final) = w at hrun hpre
  rw [hbits, d1] at hrun
  have hblk : BlocksAt (8 * (headBytes format level).length) (D1 ++ D) final fed 0 := by
    refine BlocksAt.append (p := e.basePosition + e.historyBytes) (by omega) hD1 (d3.blocks fun ha => ?_)
    have := d4 ha
    rw [List.length_append, flatMap_byteBits_length] at this
    omega
  refine ⟨_, rfl, ?_⟩
  generalize hf : (Enc.mk _ _ _ _ _ _ _ _ _ _ _ _ _ _ _ _ _ _ _) = f
  obtain ⟨a1, a2, a3, a4, a5, a6, a7, a8, a9, a10, a11⟩ := slide_spec h.toCore f (by rw [← hf]) (by rw [← hf]) (by rw [← hf]) (by rw [← hf]) (by rw [← hf]) (by rw [← hf])
    (by rw [← hf]) (by rw [← hf]) (by rw [← hf]) (by rw [← hf])
  have b1 : f.pending = w.out := by rw [← hf]
  have b2 : f.bits = w.acc := by rw [← hf]
  have b3 : f.bitCount = w.count := by rw [← hf]
  have b4 : f.started = e.started ∧ f.finalQueued = e.finalQueued ∧ f.finished = e.finished ∧ f.pendingPos = e.pendingPos := by
    rw [← hf]; exact ⟨rfl, rfl, rfl, rfl⟩
  refine ⟨a1, by rw [a8, b4.1, hs], by rw [a9, b4.2.1, hq], by rw [a10, b4.2.2.1], by rw [a5, b4.2.2.2, hp0], a2, fun hfin => ?_, fun hfin => ?_⟩
  · subst hfin
    rw [a3, List.take_length, a4, a6, a7, b1, b2, b3]
    refine ⟨hrun.2, D1 ++ D, ?_, hblk⟩
    rw [hrun.1, endPad, if_neg (by decide), List.append_nil, List.append_assoc]
  · subst hfin
    rw [a4, b1]
    have h8 : ((headBytes format level).flatMap byteBits ++ D1).length + D.length = 8 * (headBytes format level).length + (D1 ++ D).length := by
      rw [List.length_append, List.length_append, flatMap_byteBits_length]; omega
    generalize hP : endPad true (((headBytes format level).flatMap byteBits ++ D1).length + D.length) = pad at hrun
    have hpad : pad.length < 8 := by rw [← hP]; exact endPad_lt _ _
    have hal : (8 * (headBytes format level).length + (D1 ++ D).length + pad.length) % 8 = 0 := by
      rw [← hP, h8, endPad, if_pos rfl, padding, List.length_replicate]; omega
    obtain ⟨body, hbody⟩ := exists_bytes (((D1 ++ D) ++ pad).length / 8) ((D1 ++ D) ++ pad) (by rw [List.length_append]; omega)
    have hcount : w.count = 0 := by
      have := Writer.bits_length ⟨out ++ w.out, w.acc, w.count⟩
      rw [hrun.1, ← List.append_assoc, List.length_append, List.length_append] at this
      have hc := hrun.2.count
      dsimp only at this hc
      omega
    refine ⟨body, ?_, fun X trailer cap hb hc => ?_⟩
    · apply flatMap_byteBits_inj
      have := hrun.1
      simp only [Writer.bits, hcount, bitsLE, List.append_nil] at this
      rw [this, List.flatMap_append, hbody]
      simp only [List.append_assoc]
    · rw [hblk.decode hpad hal (trailer := trailer) (by rw [List.flatMap_append, hbody, List.append_assoc]) hc]
      simp

/-- a block that is not the last -/
theorem Enc.Holds.more (h : e.Holds format level fed out) (hs : e.started = true) (hq : e.finalQueued = false) (hp : e.pending = [])
    (hp0 : e.pendingPos = 0) :
    ∃ e', e.queueBlock false = .ok e' ∧ e'.Holds format level fed out ∧ e'.started = true ∧ e'.finalQueued = false ∧ e'.finished = e.finished ∧ e'.pendingBytes = 0 := by
  obtain ⟨e', h1, h2, h3, h4, h5, h6, h7, h8, _⟩ := h.queueBlock hs hq hp hp0 false
  refine ⟨e', h1, ⟨h2, by rw [h6]; exact Nat.zero_le _, fun hn => ?_, fun _ => ?_, fun hn => ?_, fun hn => ?_⟩, h3, h4, h5, h7⟩
  · rw [h3] at hn; cases hn
  · rw [h3, h6, if_pos rfl, List.drop_zero]; exact h8 rfl
  · rw [h4] at hn; cases hn
  · rw [h5] at hn
    have := (h.done hn).1
    rw [hq] at this; cases this

theorem trailer_eq (h : e.Core format level fed) : e.queueTrailer = { e with pending := e.pending ++ tailBytes 0 fed format } := by
  have hf := h.fmt
  rw [Enc.queueTrailer, hf]
  cases format with
  | rawDeflate =>
    cases e
    dsimp only at hf
    subst hf
    simp [tailBytes]
  | zlib => simp only [tailBytes, big32_eq, h.adler, adler32]
  | gzip =>
    simp only [tailBytes, little32_eq, h.size, le_mod, computeCrc32_of, h.crc]
    rfl

/-- the last block and the trailer -/
theorem Enc.Holds.last (h : e.Holds format level fed out) (hs : e.started = true) (hq : e.finalQueued = false) (hp : e.pending = [])
    (hp0 : e.pendingPos = 0) :
    ∃ e', e.queueFinal = .ok e' ∧ e'.Holds format level fed out ∧ e'.started = true ∧ e'.finalQueued = true ∧ e'.finished = e.finished := by
  obtain ⟨e', h1, h2, h3, h4, h5, h6, h7, _, h8⟩ := h.queueBlock hs hq hp hp0 true
  rw [Enc.queueFinal, h1]
  dsimp only
  rw [trailer_eq h2]
  refine ⟨_, rfl, ⟨⟨h2.fmt, h2.lvl, h2.block1, h2.block2, h2.room, h2.length, h2.window, h2.hist, h2.hist2, h2.block, h2.index1, h2.index2, h2.crc, h2.adler, h2.size⟩,
    by dsimp only; rw [h6]; exact Nat.zero_le _, fun hn => ?_, nofun, fun _ => ?_, fun hn => ?_⟩, h3, rfl, h5⟩
  · replace hn : e'.started = false := hn
    rw [h3] at hn; cases hn
  · obtain ⟨body, b1, b2⟩ := h8 rfl
    refine ⟨body, ?_, b2⟩
    dsimp only
    rw [h6, List.drop_zero, ← b1, List.append_assoc]
  · replace hn : e'.finished = true := hn
    rw [h5] at hn
    have := (h.done hn).1
    rw [hq] at this; cases this

/-! ## one call -/

/-- what is left to do, without the output already queued -/
def Enc.todo (e : Enc) (input : List Byte) : Nat :=
  2 * input.length + (if e.pendingBytes = e.blockBytes then 1 else 0) + (if e.finalQueued then 0 else 2)

/-- output queued and not handed out yet -/
def Enc.queued (e : Enc) : Nat := e.pending.length - e.pendingPos

/-- what the loop of `process` leaves: `fed` and `prev` are before the call -/
structure CallDone (format : Format) (level : Level) (finish : Bool) (room : Nat) (e : Enc) (fed prev input out : List Byte) (e' : Enc) (rest out' : List Byte) : Prop where
  used : ∃ used, input = used ++ rest ∧ e'.Holds format level (fed ++ used) (prev ++ out')
  started : e'.started = true
  fits : out'.length ≤ room
  short : out'.length < room → e'.finished = true ∨ (finish = false ∧ rest = [] ∧ e'.pending = [] ∧ e'.pendingPos = 0)
  done : e'.finished = true → out'.length < room
  sealing : e'.finalQueued = true → e.finalQueued = true ∨ (finish = true ∧ rest = [])
  progress : e'.todo rest < e.todo input ∨ (e'.todo rest = e.todo input ∧ e'.queued + out'.length = e.queued + out.length)

theorem go_ok (finish : Bool) (room : Nat) (prev : List Byte) : ∀ (n : Nat) (e : Enc) (fed input out : List Byte), e.Holds format level fed (prev ++ out) →
    e.started = true → e.finished = false → out.length ≤ room → e.todo input < n →
    ∃ e' rest out', Enc.go finish room n e input out = .ok (e', rest, out') ∧ CallDone format level finish room e fed prev input out e' rest out'
  | 0, _, _, _, _, _, _, _, _, hn => absurd hn (Nat.not_lt_zero _)
  | n + 1, e, fed, input, out, h, hs, hf, ho, hn => by
    rw [Enc.go]
    obtain ⟨d1, d2, d3, d4⟩ := h.drain hs (room - out.length)
    have k1 : (e.drain (room - out.length)).2.finalQueued = e.finalQueued ∧ (e.drain (room - out.length)).2.started = e.started ∧
        (e.drain (room - out.length)).2.finished = e.finished ∧ (e.drain (room - out.length)).2.pendingBytes = e.pendingBytes ∧
        (e.drain (room - out.length)).2.blockBytes = e.blockBytes := by
      simp only [Enc.drain]; split <;> exact ⟨rfl, rfl, rfl, rfl, rfl⟩
    generalize (e.drain (room - out.length)).1 = copied at d1 d2 d3 d4
    generalize (e.drain (room - out.length)).2 = f at d1 d2 d3 d4 k1
    obtain ⟨k1, k2, k3, k4, k5⟩ := k1
    rw [List.append_assoc] at d1
    have hlen : (out ++ copied).length = out.length + copied.length := List.length_append
    have hfit : (out ++ copied).length ≤ room := by omega
    have htodo : ∀ i, f.todo i = e.todo i := fun i => by rw [Enc.todo, Enc.todo, k1, k4, k5]
    have hqd : f.queued + (out ++ copied).length = e.queued + out.length := by rw [Enc.queued, Enc.queued]; omega
    dsimp only
    by_cases c1 : (out ++ copied).length = room
    · rw [if_pos c1]
      refine ⟨_, _, _, rfl, ⟨[], rfl, by rw [List.append_nil]; exact d1⟩, by rw [k2, hs], hfit, fun hlt => absurd c1 (by omega), fun hfin => ?_, fun hq => .inl (by rw [← k1, hq]),
        .inr ⟨htodo _, hqd⟩⟩
      rw [k3, hf] at hfin; cases hfin
    rw [if_neg c1]
    obtain ⟨e1, e2⟩ := d3 (by omega)
    by_cases c2 : f.finalQueued = true
    · rw [if_pos c2, if_pos e1]
      refine ⟨_, _, _, rfl, ⟨[], rfl, ?_⟩, by rw [k2, hs], hfit, fun _ => .inl rfl, fun _ => by omega, fun hq => .inl (by rw [← k1, c2]), .inr ⟨?_, ?_⟩⟩
      · rw [List.append_nil]
        exact ⟨⟨d1.fmt, d1.lvl, d1.block1, d1.block2, d1.room, d1.length, d1.window, d1.hist, d1.hist2, d1.block, d1.index1, d1.index2, d1.crc, d1.adler, d1.size⟩,
          d1.pos, d1.unstarted, d1.opened, d1.sealed, fun _ => ⟨c2, e1⟩⟩
      · exact htodo input
      · exact hqd
    rw [if_neg c2]
    have c2 : f.finalQueued = false := by simpa using c2
    have ec2 : e.finalQueued = false := by rw [← k1, c2]
    -- the rest of the loop after the encoder went on to `g`
    have step : ∀ (g : Enc) (used rest : List Byte), input = used ++ rest → g.Holds format level (fed ++ used) (prev ++ (out ++ copied)) → g.started = true →
        g.finished = f.finished → g.todo rest < e.todo input → (g.finalQueued = true → finish = true ∧ rest = []) →
        ∃ e' rest' out', Enc.go finish room n g rest (out ++ copied) = .ok (e', rest', out') ∧ CallDone format level finish room e fed prev input out e' rest' out' := by
      intro g used rest hin hg g1 g2 g3 g4
      obtain ⟨e', rest', out', p1, p2⟩ := go_ok finish room prev n g (fed ++ used) rest (out ++ copied) hg g1 (by rw [g2, k3, hf]) hfit (by omega)
      refine ⟨e', rest', out', p1, ?_, p2.started, p2.fits, p2.short, p2.done, fun hq => ?_, ?_⟩
      · obtain ⟨u, hu, hh⟩ := p2.used
        exact ⟨used ++ u, by rw [hin, hu, List.append_assoc], by rw [← List.append_assoc]; exact hh⟩
      · rcases p2.sealing hq with hq' | hq'
        · obtain ⟨a, b⟩ := g4 hq'
          subst b
          obtain ⟨u, hu, _⟩ := p2.used
          exact .inr ⟨a, (List.append_eq_nil_iff.1 hu.symm).2⟩
        · exact .inr hq'
      · rcases p2.progress with hp | hp
        · exact .inl (by omega)
        · exact .inl (by omega)
    have hnil : fed ++ [] = fed := List.append_nil _
    have htd : e.todo input = 2 * input.length + (if f.pendingBytes = f.blockBytes then 1 else 0) + 2 := by rw [← htodo, Enc.todo, c2]; rfl
    by_cases c3 : f.pendingBytes = f.blockBytes
    · rw [if_pos c3]
      rw [if_pos c3] at htd
      by_cases c4 : (finish && decide (input = [])) = true
      · rw [if_pos c4]
        rw [Bool.and_eq_true, decide_eq_true_eq] at c4
        obtain ⟨g, g1, g2, g3, g4, g5⟩ := d1.last (by rw [k2, hs]) c2 e1 e2
        rw [g1]
        refine step g [] input rfl (by rw [hnil]; exact g2) g3 g5 ?_ (fun _ => c4)
        rw [Enc.todo, g4, htd, if_pos rfl]
        split <;> omega
      · rw [if_neg c4]
        obtain ⟨g, g1, g2, g3, g4, g5, g6⟩ := d1.more (by rw [k2, hs]) c2 e1 e2
        rw [g1]
        refine step g [] input rfl (by rw [hnil]; exact g2) g3 g5 ?_ (fun hq => by rw [g4] at hq; cases hq)
        have := g2.block1
        rw [Enc.todo, g4, htd, g6, if_neg (by omega)]
        simp
    rw [if_neg c3]
    rw [if_neg c3] at htd
    by_cases c5 : input ≠ []
    · rw [if_pos c5]
      have hpos : 0 < input.length := List.length_pos_iff.2 c5
      have hb := d1.block
      have hpb : f.pendingBytes = f.window.length - f.historyBytes := rfl
      have hdl : (input.drop (min input.length (f.blockBytes - f.pendingBytes))).length = input.length - min input.length (f.blockBytes - f.pendingBytes) := List.length_drop
      have htl : (input.take (min input.length (f.blockBytes - f.pendingBytes))).length = min input.length (f.blockBytes - f.pendingBytes) := by
        rw [List.length_take]; omega
      refine step _ _ _ (List.take_append_drop _ _).symm (d1.take (by rw [k2, hs]) c2 (by omega)) (by rw [← hs, ← k2]; rfl) rfl ?_ (fun hq => ?_)
      · have hq : (f.take (input.take (min input.length (f.blockBytes - f.pendingBytes)))).finalQueued = false := c2
        rw [Enc.todo, hq, htd, hdl]
        split <;> simp <;> omega
      · exact absurd (c2.symm.trans hq) (by decide)
    rw [if_neg c5]
    have c5 : input = [] := by simpa using c5
    by_cases c6 : finish = true
    · rw [if_pos c6]
      obtain ⟨g, g1, g2, g3, g4, g5⟩ := d1.last (by rw [k2, hs]) c2 e1 e2
      rw [g1]
      refine step g [] input rfl (by rw [hnil]; exact g2) g3 g5 ?_ (fun _ => ⟨c6, c5⟩)
      rw [Enc.todo, g4, htd, if_pos rfl]
      split <;> omega
    · rw [if_neg c6]
      refine ⟨_, _, _, rfl, ⟨[], rfl, by rw [hnil]; exact d1⟩, by rw [k2, hs], hfit, fun _ => .inr ⟨by simpa using c6, c5, e1, e2⟩, fun hfin => ?_,
        fun hq => .inl (by rw [← k1, hq]), .inr ⟨htodo _, hqd⟩⟩
      rw [k3, hf] at hfin; cases hfin

end Verif.Deflate
