import Verif.Wire.Stream
import Verif.Crc.Props
namespace Verif.Wire
open Verif.Bytes

theorem slice_some {bs : List Byte} {o l : Nat} (h : o + l ≤ bs.length) :
    slice bs o l = some ((bs.drop o).take l) := by simp [slice, h]

/-- The envelope `writeFrame` produces. -/
def mkEnv (W flags seq : Nat) (payload : List Byte) : Envelope :=
  let env : Envelope := { frameSize := payload.length % 2 ^ 32, sequence := seq, crc := 0 }
  if hasCrc flags then { env with crc := frameCrc W (envelope env) payload } else env

/-- frames with sequence numbers counted from `s`. -/
def frames (W flags : Nat) : Nat → List (List Byte) → List Byte
  | _, [] => []
  | s, p :: ps => envelope (mkEnv W flags s p) ++ p ++ frames W flags ((s + 1) % 2 ^ 64) ps

@[simp] theorem envelope_length (e : Envelope) : (envelope e).length = 16 := by simp [envelope]

@[simp] theorem streamHeader_length (f : Nat) : (streamHeader f).length = 8 := by
  simp [streamHeader, magic]

theorem frameCrc_lt (W : Nat) (a b : List Byte) : frameCrc W a b < 2 ^ 32 := by
  unfold frameCrc; exact BitVec.isLt _

theorem frameCrc_eq (W : Nat) (a b : List Byte) :
    frameCrc W a b = (Crc.computeScalar .castagnoli (a ++ b)).toNat := by
  simp only [frameCrc, Crc.computeScalar]
  rw [Crc.updateSimd_eq _ (Crc.engine_good _), Crc.updateSimd_eq _ (Crc.engine_good _),
    Crc.updateScalar_eq _ (Crc.engine_good _), List.foldl_append]

theorem writeFrames_eq (W : Nat) (ps : List (List Byte)) (w : Writer) (out : List Byte)
    (hw : w.headerWritten = true) :
    (w.writeFrames W out ps).2 = out ++ frames W w.flags w.sequence ps := by
  induction ps generalizing w out with
  | nil => simp [Writer.writeFrames, frames]
  | cons p ps ih =>
    simp only [Writer.writeFrames, Writer.writeFrame, hw, if_true, frames]
    rw [ih _ _ (by simp [hw])]
    simp only [mkEnv, List.append_assoc]

theorem readEnvelope_at (e : Envelope) (rest : List Byte) (h1 : e.frameSize < 2 ^ 32) (h2 : e.sequence < 2 ^ 64)
    (h3 : e.crc < 2 ^ 32) : readEnvelope (envelope e ++ rest) = some (some e) := by
  have hl : ¬ ((envelope e ++ rest).length < envelopeBytes) := by
    simp [envelopeBytes]
  have a : slice (envelope e ++ rest) 0 4 = some (le 4 e.frameSize) := by
    rw [slice_some (by simp; omega)]
    simp [envelope, List.take_append]
  have b : slice (envelope e ++ rest) 4 8 = some (le 8 e.sequence) := by
    rw [slice_some (by simp; omega)]
    simp [envelope, List.take_append, List.drop_append, List.drop_eq_nil_of_le]
  have c : slice (envelope e ++ rest) crcOffset 4 = some (le 4 e.crc) := by
    rw [slice_some (by simp [crcOffset])]
    simp [envelope, crcOffset, List.take_append, List.drop_append, List.drop_eq_nil_of_le]
  simp only [readEnvelope, hl, if_false, a, b, c, leNat_le]
  cases e
  simp at h1 h2 h3
  simp [leNat_le, Nat.mod_eq_of_lt, h1, h2, h3]

/-- `next` on a buffer that holds, at the cursor, an envelope followed by at least `frameSize` bytes. -/
theorem next_at (W : Nat) (r : Reader) (e : Envelope) (p rest : List Byte) (hc : r.cursor ≤ r.bytes.length)
    (hb : r.bytes.drop r.cursor = envelope e ++ p ++ rest) (h1 : e.frameSize < 2 ^ 32) (h2 : e.sequence < 2 ^ 64)
    (h3 : e.crc < 2 ^ 32) (hp : p.length = e.frameSize) :
    r.next W = some (some ⟨e, p,
          if (hasCrc r.flags && frameCrc W (envelope { e with crc := 0 }) p != e.crc) = true then .badCrc
          else if (e.sequence != r.nextExpected) = true then .badSequence else .ok⟩,
        { r with cursor := r.cursor + 16 + p.length, nextExpected := (r.nextExpected + 1) % 2 ^ 64 }) := by
  have hlen : r.bytes.length = r.cursor + (16 + p.length + rest.length) := by
    have := congrArg List.length hb
    simp at this; omega
  have hlt : ¬ r.bytes.length ≤ r.cursor := by omega
  have hsz : ¬ e.frameSize > r.bytes.length - (r.cursor + envelopeBytes) := by simp [envelopeBytes]; omega
  have hpay : slice r.bytes (r.cursor + envelopeBytes) e.frameSize = some p := by
    rw [slice_some (by simp [envelopeBytes]; omega), ← List.drop_drop, hb]
    simp [envelopeBytes, ← hp, List.drop_append, List.drop_eq_nil_of_le]
  have henv : slice r.bytes r.cursor envelopeBytes = some (envelope e) := by
    rw [slice_some (by simp [envelopeBytes]; omega), hb]
    simp [envelopeBytes]
  have hz : (envelope e).take crcOffset ++ le 4 0 = envelope { e with crc := 0 } := by
    simp [envelope, crcOffset, List.take_append, List.take_of_length_le]
  simp only [Reader.next, hlt, if_false, hb, List.append_assoc]
  rw [readEnvelope_at e (p ++ rest) h1 h2 h3]
  simp only [Option.pure_def, Option.bind_eq_bind, Option.bind_some, hsz, if_false, hpay, henv, hz]
  simp [envelopeBytes, hp]

/-- the view of an intact frame. -/
def okView (W flags seq : Nat) (p : List Byte) : FrameView :=
  { envelope := mkEnv W flags seq p, payload := p, status := .ok }

theorem mkEnv_frameSize (W f s : Nat) (p : List Byte) : (mkEnv W f s p).frameSize = p.length % 2 ^ 32 := by
  unfold mkEnv; cases hasCrc f <;> rfl
theorem mkEnv_sequence (W f s : Nat) (p : List Byte) : (mkEnv W f s p).sequence = s := by
  unfold mkEnv; cases hasCrc f <;> rfl
theorem mkEnv_crc_lt (W f s : Nat) (p : List Byte) : (mkEnv W f s p).crc < 2 ^ 32 := by
  unfold mkEnv; cases hasCrc f
  · simp
  · exact frameCrc_lt _ _ _
theorem mkEnv_zero (W f s : Nat) (p : List Byte) :
    { mkEnv W f s p with crc := 0 } = ({ frameSize := p.length % 2 ^ 32, sequence := s, crc := 0 } : Envelope) := by
  unfold mkEnv; cases hasCrc f <;> rfl

theorem next_frame (W : Nat) (r : Reader) (s : Nat) (p rest : List Byte) (hc : r.cursor ≤ r.bytes.length)
    (hb : r.bytes.drop r.cursor = envelope (mkEnv W r.flags s p) ++ p ++ rest) (hp : p.length < 2 ^ 32)
    (hs : s < 2 ^ 64) (hn : r.nextExpected = s) :
    r.next W = some (some (okView W r.flags s p),
        { r with cursor := r.cursor + 16 + p.length, nextExpected := (s + 1) % 2 ^ 64 }) := by
  rw [next_at W r _ p rest hc hb (by rw [mkEnv_frameSize]; exact Nat.mod_lt _ (by decide))
    (by rw [mkEnv_sequence]; exact hs) (mkEnv_crc_lt W _ _ _) (by rw [mkEnv_frameSize, Nat.mod_eq_of_lt hp])]
  rw [mkEnv_zero, mkEnv_sequence, hn]
  have : (hasCrc r.flags && frameCrc W (envelope { frameSize := p.length % 2 ^ 32, sequence := s, crc := 0 }) p
      != (mkEnv W r.flags s p).crc) = false := by
    unfold mkEnv
    cases hasCrc r.flags <;> simp
  rw [this]
  simp [okView]

/-- views of a list of intact frames. -/
def okViews (W flags : Nat) : Nat → List (List Byte) → List (Option FrameView)
  | _, [] => []
  | s, p :: ps => some (okView W flags s p) :: okViews W flags ((s + 1) % 2 ^ 64) ps

theorem nexts_frames (W : Nat) (ps : List (List Byte)) (hps : ∀ p ∈ ps, p.length < 2 ^ 32) (n : Nat) :
    ∀ (r : Reader) (rest : List Byte), r.cursor ≤ r.bytes.length →
      r.bytes.drop r.cursor = frames W r.flags r.nextExpected ps ++ rest → r.nextExpected < 2 ^ 64 →
      r.nexts W (ps.length + n) =
        (({ r with cursor := r.cursor + (frames W r.flags r.nextExpected ps).length,
                   nextExpected := (r.nextExpected + ps.length) % 2 ^ 64 } : Reader).nexts W n).map
          (okViews W r.flags r.nextExpected ps ++ ·) := by
  induction ps with
  | nil =>
    intro r rest hc hb hn
    simp only [frames, okViews, List.length_nil, Nat.zero_add, Nat.add_zero, Nat.mod_eq_of_lt hn, List.nil_append]
    cases h : r.nexts W n <;> simp_all
  | cons p ps ih =>
    intro r rest hc hb hn
    have hp := hps p (by simp)
    simp only [frames, List.append_assoc] at hb
    rw [← List.append_assoc] at hb
    have hnext := next_frame W r r.nextExpected p _ hc hb hp hn rfl
    have hlen := congrArg List.length hb
    simp at hlen
    rw [show (p :: ps).length + n = (ps.length + n) + 1 by simp; omega]
    simp only [Reader.nexts, hnext, Option.bind_eq_bind, Option.bind_some]
    rw [ih (fun q hq => hps q (by simp [hq])) _ rest (by simp; omega)
      (by
        show r.bytes.drop (r.cursor + 16 + p.length) = _
        rw [Nat.add_assoc, ← List.drop_drop, hb]
        simp [List.drop_append, List.drop_eq_nil_of_le])
      (by exact Nat.mod_lt _ (by decide))]
    simp only [frames, okViews, List.length_append, envelope_length, List.length_cons]
    rw [show (r.nextExpected + (ps.length + 1)) % 2 ^ 64 = ((r.nextExpected + 1) % 2 ^ 64 + ps.length) % 2 ^ 64 by
        rw [Nat.mod_add_mod]; congr 1; omega]
    rw [show r.cursor + (16 + p.length + (frames W r.flags ((r.nextExpected + 1) % 2 ^ 64) ps).length)
        = r.cursor + 16 + p.length + (frames W r.flags ((r.nextExpected + 1) % 2 ^ 64) ps).length by omega]
    generalize Reader.nexts W n _ = x
    cases x <;> simp

theorem next_end (W : Nat) (r : Reader) (h : r.bytes.length ≤ r.cursor) : r.next W = some (none, r) := by
  simp [Reader.next, h]

theorem nexts_end (W : Nat) (n : Nat) (r : Reader) (h : r.bytes.length ≤ r.cursor) :
    r.nexts W n = some (List.replicate n none) := by
  induction n with
  | zero => rfl
  | succ n ih => simp [Reader.nexts, next_end W r h, ih, List.replicate_succ]

theorem readHeader_at (f : Nat) (hf : f < 2 ^ 16) (rest : List Byte) :
    readStreamHeader (streamHeader f ++ rest) = some (some f) := by
  have hl : ¬ ((streamHeader f ++ rest).length < headerBytes) := by simp [headerBytes]
  have a : slice (streamHeader f ++ rest) 0 4 = some magic := by
    rw [slice_some (by simp; omega)]
    simp [streamHeader, magic, List.take_append]
  have b : slice (streamHeader f ++ rest) 4 2 = some (le 2 versionV1) := by
    rw [slice_some (by simp; omega)]
    simp [streamHeader, magic, List.take_append, List.drop_append]
  have c : slice (streamHeader f ++ rest) 6 2 = some (le 2 f) := by
    rw [slice_some (by simp)]
    simp [streamHeader, magic, List.take_append, List.drop_append, List.drop_eq_nil_of_le]
  simp only [readStreamHeader, hl, if_false, a, b, c, leNat_le]
  have e1 : leNat (le 2 versionV1) = 1 := by decide
  have e2 : leNat (le 2 f) = f := by rw [leNat_le]; exact Nat.mod_eq_of_lt (by omega)
  simp [versionV1, e1, e2] at *

/-- `next` never leaves the buffer and makes progress. -/
theorem next_safe (W : Nat) (r : Reader) (hc : r.cursor ≤ r.bytes.length) :
    ∃ v r', r.next W = some (v, r') ∧ r'.bytes = r.bytes ∧ r'.flags = r.flags ∧ r'.cursor ≤ r'.bytes.length ∧
      (v = none → r' = r ∧ r.cursor = r.bytes.length) ∧ (v ≠ none → r.cursor < r'.cursor) := by
  by_cases hle : r.bytes.length ≤ r.cursor
  · exact ⟨none, r, next_end W r hle, rfl, rfl, hc, by simp; omega, by simp⟩
  · have hlen : (r.bytes.drop r.cursor).length = r.bytes.length - r.cursor := by simp
    by_cases he : (r.bytes.drop r.cursor).length < envelopeBytes
    · refine ⟨some { status := .truncated }, { r with cursor := r.bytes.length }, ?_, rfl, rfl, by simp, by simp,
        by simp; omega⟩
      simp only [Reader.next, hle, if_false, readEnvelope, he, if_true, Option.pure_def, Option.bind_eq_bind,
        Option.bind_some]
    · simp only [envelopeBytes] at he
      have s1 := slice_some (bs := r.bytes.drop r.cursor) (o := 0) (l := 4) (by omega)
      have s2 := slice_some (bs := r.bytes.drop r.cursor) (o := 4) (l := 8) (by omega)
      have s3 := slice_some (bs := r.bytes.drop r.cursor) (o := crcOffset) (l := 4) (by simp only [crcOffset]; omega)
      have s5 := slice_some (bs := r.bytes) (o := r.cursor) (l := envelopeBytes) (by simp only [envelopeBytes]; omega)
      simp only [Reader.next, hle, if_false, readEnvelope, envelopeBytes, he, s1, s2, s3, Option.pure_def,
        Option.bind_eq_bind, Option.bind_some]
      generalize leNat (List.take 4 (List.drop 0 (List.drop r.cursor r.bytes))) = fs
      by_cases hfs : fs > r.bytes.length - (r.cursor + 16)
      · simp only [hfs, if_true]
        exact ⟨_, _, rfl, rfl, rfl, by simp, by simp, by simp; omega⟩
      · have s4 := slice_some (bs := r.bytes) (o := r.cursor + 16) (l := fs) (by omega)
        simp only [envelopeBytes] at s5
        simp only [hfs, if_false, s4, s5, Option.bind_some]
        exact ⟨_, _, rfl, rfl, rfl, by simp only; omega, by simp, by simp; omega⟩

theorem frameCrc_indep (W W' : Nat) (a b : List Byte) : frameCrc W a b = frameCrc W' a b := by
  rw [frameCrc_eq, frameCrc_eq]

theorem mkEnv_indep (W W' f s : Nat) (p : List Byte) : mkEnv W f s p = mkEnv W' f s p := by
  simp only [mkEnv]; rw [frameCrc_indep W W']

theorem frames_indep (W W' f s : Nat) (ps : List (List Byte)) : frames W f s ps = frames W' f s ps := by
  induction ps generalizing s with
  | nil => rfl
  | cons p ps ih => simp only [frames]; rw [mkEnv_indep W W', ih]

theorem frames_append (W f s : Nat) (as bs : List (List Byte)) (hs : s < 2 ^ 64) :
    frames W f s (as ++ bs) = frames W f s as ++ frames W f ((s + as.length) % 2 ^ 64) bs := by
  induction as generalizing s with
  | nil => simp [frames, Nat.mod_eq_of_lt hs]
  | cons a as ih =>
    simp only [List.cons_append, frames, List.append_assoc, List.length_cons]
    rw [ih _ (Nat.mod_lt _ (by decide)), Nat.mod_add_mod, show s + 1 + as.length = s + (as.length + 1) by omega]

theorem frames_length (W f s : Nat) (ps : List (List Byte)) :
    (frames W f s ps).length = (ps.map (fun p => 16 + p.length)).sum := by
  induction ps generalizing s with
  | nil => rfl
  | cons p ps ih => simp [frames, ih]; omega

theorem okViews_map (W f s : Nat) (ps : List (List Byte)) :
    (okViews W f s ps).map (Option.map (fun v => (v.payload, v.status))) = ps.map (fun p => some (p, Status.ok)) := by
  induction ps generalizing s with
  | nil => rfl
  | cons p ps ih => simp [okViews, okView, ih]

theorem begin_at (f : Nat) (hf : f < 2 ^ 16) (rest : List Byte) :
    Reader.begin (streamHeader f ++ rest) =
      some (some { bytes := streamHeader f ++ rest, cursor := 8, flags := f, nextExpected := 0 }) := by
  simp only [Reader.begin, readHeader_at f hf rest]
  rfl

end Verif.Wire
