import Verif.Wire.StreamLemmas
/-!
# Property theorems C15, C16, C17: wire stream
-/
namespace Verif.Wire
open Verif.Bytes

/-- A stream file: header, then one frame per payload. -/
def streamOf (W flags : Nat) (ps : List (List Byte)) : List Byte :=
  let (w, out) := ({ flags := flags } : Writer).writeHeader []
  (w.writeFrames W out ps).2

/-- What a caller that only looks at payload and status sees. -/
def seen (l : List (Option FrameView)) : List (Option (List Byte × Status)) :=
  l.map (Option.map (fun v => (v.payload, v.status)))

theorem streamOf_eq (W flags : Nat) (ps : List (List Byte)) :
    streamOf W flags ps = streamHeader flags ++ frames W flags 0 ps := by
  simp only [streamOf, Writer.writeHeader]
  rw [writeFrames_eq _ _ _ _ rfl]; rfl

/-- writing without an explicit header emits it with the first frame. -/
theorem header_is_emitted_automatically (W flags : Nat) (p : List Byte) (ps : List (List Byte)) :
    (({ flags := flags } : Writer).writeFrames W [] (p :: ps)).2 = streamOf W flags (p :: ps) := rfl

/-- **C15.** Round trip: for every list of payloads shorter than 4 GiB, any flags (with or without CRC) and any SIMD widths of
writer and reader, reading yields exactly the payloads, all with status Ok, and then end-of-stream for ever. -/
theorem stream_roundtrip (W W' flags : Nat) (hf : flags < 2 ^ 16) (ps : List (List Byte))
    (hps : ∀ p ∈ ps, p.length < 2 ^ 32) (n : Nat) :
    ∃ r, Reader.begin (streamOf W flags ps) = some (some r) ∧ r.flags = flags ∧
      (r.nexts W' (ps.length + n)).map seen =
        some (ps.map (fun p => some (p, Status.ok)) ++ List.replicate n none) := by
  rw [streamOf_eq, frames_indep W W']
  refine ⟨_, begin_at flags hf _, rfl, ?_⟩
  rw [nexts_frames W' ps hps n _ [] (by simp) (by simp) (by simp)]
  rw [nexts_end _ _ _ (by simp)]
  simp [seen, okViews_map, -List.map_append]
  rw [List.map_append, okViews_map]; simp

example : ∀ p ∈ ([[1#8, 2#8], [], [3#8]] : List (List Byte)), p.length < 2 ^ 32 := by decide
example : (streamOf 16 1 [[1#8, 2#8], [], [3#8]]).length = 8 + 18 + 16 + 17 := by decide +kernel

/-- **C15, finding.** A payload of exactly 2^32 bytes is written with `frame_size = 0` and is read back, with status Ok, as an
empty frame (no CRC flag): the size is silently truncated. -/
theorem oversized_payload_is_silently_lost (W W' flags : Nat) (hf : flags < 2 ^ 16) (hcrc : hasCrc flags = false)
    (p : List Byte) (hp : p.length = 2 ^ 32) :
    ∃ r, Reader.begin (streamOf W flags [p]) = some (some r) ∧
      ∃ v r', r.next W' = some (some v, r') ∧ v.status = .ok ∧ v.payload = [] := by
  rw [streamOf_eq]
  refine ⟨_, begin_at flags hf _, ?_⟩
  have henv : mkEnv W flags 0 p = { frameSize := 0, sequence := 0, crc := 0 } := by simp [mkEnv, hcrc, hp]
  rw [next_at W' _ { frameSize := 0, sequence := 0, crc := 0 } [] p (by simp)
    (by simp [frames, henv, List.drop_append, List.drop_eq_nil_of_le]) (by simp) (by simp) (by simp) (by simp)]
  refine ⟨_, _, rfl, ?_, rfl⟩
  simp [hcrc]

example : (List.replicate (2 ^ 32) 7#8 : List Byte).length = 2 ^ 32 := List.length_replicate

/-- **C16.** Reading an arbitrary byte string never accesses memory outside it: opening it and any number of `next` calls are
always defined. -/
theorem reading_is_safe (W : Nat) (bs : List Byte) :
    Reader.begin bs = some none ∨
    ∃ r, Reader.begin bs = some (some r) ∧ r.bytes = bs ∧ r.cursor ≤ bs.length ∧ ∀ n, (r.nexts W n).isSome := by
  by_cases hl : bs.length < headerBytes
  · left; simp [Reader.begin, readStreamHeader, hl]
  · have s1 := slice_some (bs := bs) (o := 0) (l := 4) (by simp only [headerBytes] at hl; omega)
    have s2 := slice_some (bs := bs) (o := 4) (l := 2) (by simp only [headerBytes] at hl; omega)
    have s3 := slice_some (bs := bs) (o := 6) (l := 2) (by simp only [headerBytes] at hl; omega)
    simp only [Reader.begin, readStreamHeader, hl, if_false, s1, s2, s3, Option.pure_def, Option.bind_eq_bind,
      Option.bind_some]
    split
    · left; simp
    · split
      · left; simp
      · right
        refine ⟨_, rfl, rfl, by simpa using hl, ?_⟩
        intro n
        have gen : ∀ n (r : Reader), r.cursor ≤ r.bytes.length → (r.nexts W n).isSome := by
          intro n
          induction n with
          | zero => intro r _; simp [Reader.nexts]
          | succ n ih =>
            intro r hr
            obtain ⟨v, r', h1, _, _, h4, _⟩ := next_safe W r hr
            have := ih r' h4
            simp only [Reader.nexts, h1, Option.bind_eq_bind, Option.bind_some]
            cases h : r'.nexts W n with
            | none => simp [h] at this
            | some l => simp
        exact gen n _ (by simpa using hl)

/-- **C16.** Reading terminates: within as many calls as there are bytes (plus one) the reader reports end-of-stream. -/
theorem reading_terminates (W : Nat) (r : Reader) (hr : r.cursor ≤ r.bytes.length) :
    ∃ l, r.nexts W (r.bytes.length - r.cursor + 1) = some l ∧ l.getLast? = some none := by
  have gen : ∀ (n : Nat) (r : Reader), r.cursor ≤ r.bytes.length → r.bytes.length - r.cursor ≤ n →
      ∃ l, r.nexts W (n + 1) = some l ∧ l.getLast? = some none := by
    intro n
    induction n with
    | zero =>
      intro r hr h
      refine ⟨[none], ?_, rfl⟩
      simp [Reader.nexts, next_end W r (by omega)]
    | succ n ih =>
      intro r hr h
      obtain ⟨v, r', h1, h2, _, h4, h5, h6⟩ := next_safe W r hr
      have hprog : r'.bytes.length - r'.cursor ≤ n := by
        cases v with
        | none => have := h5 rfl; rw [this.1]; omega
        | some v => have := h6 (by simp); rw [h2] at *; omega
      obtain ⟨l, hl1, hl2⟩ := ih r' h4 hprog
      refine ⟨v :: l, ?_, ?_⟩
      · rw [Reader.nexts, h1]; simp only [Option.bind_eq_bind, Option.bind_some, hl1]; rfl
      · cases l with
        | nil => simp at hl2
        | cons a as => simpa [List.getLast?_cons] using hl2
  exact gen _ r hr (Nat.le_refl _)

example : (Reader.mk [1#8, 2#8, 3#8] 1 0 0).cursor ≤ (Reader.mk [1#8, 2#8, 3#8] 1 0 0).bytes.length := by decide

/-- **C16.** A frame reported with status Ok passed the checks: its bytes are in the buffer right after its envelope, its sequence
number is the expected one and, if the stream carries checksums, the stored CRC is the CRC-32C of the envelope
(with zeroed CRC field) followed by the payload. -/
theorem ok_frame_is_verified (W : Nat) (r r' : Reader) (v : FrameView)
    (h : r.next W = some (some v, r')) (hok : v.status = .ok) :
    v.payload = (r.bytes.drop (r.cursor + 16)).take v.envelope.frameSize ∧
    v.payload.length = v.envelope.frameSize ∧
    v.envelope.sequence = r.nextExpected ∧
    r'.cursor = r.cursor + 16 + v.payload.length ∧
    (hasCrc r.flags = true →
      v.envelope.crc = (Crc.crc32c ((r.bytes.drop r.cursor).take 12 ++ [0#8, 0#8, 0#8, 0#8] ++ v.payload)).toNat) := by
  by_cases hle : r.bytes.length ≤ r.cursor
  · simp [next_end W r hle] at h
  · by_cases he : (r.bytes.drop r.cursor).length < envelopeBytes
    · simp only [Reader.next, hle, if_false, readEnvelope, he, if_true, Option.pure_def, Option.bind_eq_bind,
        Option.bind_some] at h
      simp at h; rw [← h.1] at hok; simp at hok
    · simp only [envelopeBytes] at he
      have s1 := slice_some (bs := r.bytes.drop r.cursor) (o := 0) (l := 4) (by omega)
      have s2 := slice_some (bs := r.bytes.drop r.cursor) (o := 4) (l := 8) (by omega)
      have s3 := slice_some (bs := r.bytes.drop r.cursor) (o := crcOffset) (l := 4) (by simp only [crcOffset]; omega)
      have s5 := slice_some (bs := r.bytes) (o := r.cursor) (l := 16) (by
        have : (r.bytes.drop r.cursor).length = r.bytes.length - r.cursor := by simp
        omega)
      simp only [Reader.next, hle, if_false, readEnvelope, envelopeBytes, he, s1, s2, s3, Option.pure_def,
        Option.bind_eq_bind, Option.bind_some] at h
      generalize leNat (List.take 4 (List.drop 0 (List.drop r.cursor r.bytes))) = fs at h
      generalize leNat (List.take 8 (List.drop 4 (List.drop r.cursor r.bytes))) = sq at h
      generalize leNat (List.take 4 (List.drop crcOffset (List.drop r.cursor r.bytes))) = cr at h
      by_cases hfs : fs > r.bytes.length - (r.cursor + 16)
      · simp only [hfs, if_true] at h
        simp at h; rw [← h.1] at hok; simp at hok
      · have hlen : (r.bytes.drop r.cursor).length = r.bytes.length - r.cursor := by simp
        have s4 := slice_some (bs := r.bytes) (o := r.cursor + 16) (l := fs) (by omega)
        simp only [hfs, if_false, s4, s5, Option.bind_some, Option.some.injEq, Prod.mk.injEq] at h
        obtain ⟨h1, h2⟩ := h
        subst h1; subst h2
        simp only at hok ⊢
        have hpl : ((r.bytes.drop (r.cursor + 16)).take fs).length = fs := by simp; omega
        split at hok
        · cases hok
        · rename_i hcrc
          split at hok
          · cases hok
          · rename_i hseq
            refine ⟨trivial, hpl, by simpa using hseq, by rw [hpl], ?_⟩
            intro hc
            simp only [hc, Bool.true_and, bne_iff_ne, ne_eq, Decidable.not_not] at hcrc
            rw [← hcrc, frameCrc_eq, Crc.scalar_castagnoli]
            simp only [crcOffset, List.take_take, show min 12 16 = 12 by decide]
            rfl

/-- an intact frame meets the hypotheses. -/
example : ∃ v r', (Reader.mk (streamOf 16 1 [[1#8, 2#8]]) 8 1 0).next 16 = some (some v, r') ∧ v.status = .ok :=
  ⟨_, _, by rfl, by decide +kernel⟩

/-- **C17.** Truncation at any point: reading the first `k` bytes of a stream yields the frames that are complete, then
(unless the cut is at a frame boundary) one frame with status Truncated, then end of stream. `whole` are the complete frames
and `cut` the number of bytes of the next frame that survive. -/
theorem truncated_stream (W W' flags : Nat) (hf : flags < 2 ^ 16) (whole : List (List Byte)) (p : List Byte)
    (rest : List (List Byte)) (hps : ∀ q ∈ whole ++ p :: rest, q.length < 2 ^ 32) (cut : Nat)
    (hcut : cut < 16 + p.length) (n : Nat) :
    ∃ r, Reader.begin ((streamOf W flags (whole ++ p :: rest)).take
        (8 + (whole.map (fun q => 16 + q.length)).sum + cut)) = some (some r) ∧
      (r.nexts W' (whole.length + (1 + n))).map seen =
        some (whole.map (fun q => some (q, Status.ok)) ++
          (if cut = 0 then none else some ([], Status.truncated)) :: List.replicate n none) := by
  rw [streamOf_eq, frames_indep W W', frames_append _ _ _ _ _ (by decide)]
  simp only [frames, Nat.zero_add]
  rw [← List.append_assoc, ← frames_length W' flags 0 whole]
  generalize hX : streamHeader flags ++ frames W' flags 0 whole = X
  have hXl : 8 + (frames W' flags 0 whole).length = X.length := by rw [← hX]; simp
  rw [hXl, List.take_append, List.take_of_length_le (by omega : X.length ≤ X.length + cut),
    show X.length + cut - X.length = cut by omega, ← hX, List.append_assoc]
  generalize hT : List.take cut (envelope (mkEnv W' flags (whole.length % 2 ^ 64) p) ++ p ++
    frames W' flags ((whole.length % 2 ^ 64 + 1) % 2 ^ 64) rest) = T
  have hTl : T.length = cut := by rw [← hT]; simp; omega
  refine ⟨_, begin_at flags hf _, ?_⟩
  rw [nexts_frames W' whole (fun q hq => hps q (by simp [hq])) _ _ T (by simp) (by simp) (by simp)]
  simp only [Nat.zero_add]
  generalize hr : Reader.mk (streamHeader flags ++ (frames W' flags 0 whole ++ T))
      (8 + (frames W' flags 0 whole).length) flags (whole.length % 2 ^ 64) = r
  have hrb : r.bytes.length = r.cursor + cut := by rw [← hr]; simp [hTl]; omega
  have hrd : r.bytes.drop r.cursor = T := by
    rw [← hr]
    simp only [List.drop_append, streamHeader_length]
    rw [List.drop_eq_nil_of_le (by simp), List.drop_eq_nil_of_le (by omega)]; simp
  have hrest : (r.nexts W' (1 + n)).map seen =
      some ((if cut = 0 then none else some ([], Status.truncated)) :: List.replicate n none) := by
    rw [Nat.add_comm]
    by_cases h0 : cut = 0
    · rw [nexts_end _ _ _ (by omega)]; simp [h0, seen, List.replicate_succ]
    · simp only [h0, if_false]
      have hnext : ∃ v, r.next W' = some (some v, { r with cursor := r.bytes.length }) ∧ v.status = .truncated ∧ v.payload = [] := by
        by_cases he : (r.bytes.drop r.cursor).length < envelopeBytes
        · refine ⟨{ status := .truncated }, ?_, rfl, rfl⟩
          simp only [Reader.next, show ¬ r.bytes.length ≤ r.cursor by omega, if_false, readEnvelope, he, if_true,
            Option.pure_def, Option.bind_eq_bind, Option.bind_some]
        · rw [hrd] at he
          simp only [envelopeBytes, hTl] at he
          have hT2 : T = envelope (mkEnv W' flags (whole.length % 2 ^ 64) p) ++ T.drop 16 := by
            rw [← hT, List.append_assoc, List.take_append, List.take_of_length_le (by simp; omega)]
            simp [List.drop_append]
          have hp := hps p (by simp)
          have hre : readEnvelope (r.bytes.drop r.cursor) = some (some (mkEnv W' flags (whole.length % 2 ^ 64) p)) := by
            rw [hrd, hT2]
            exact readEnvelope_at _ _ (by rw [mkEnv_frameSize]; exact Nat.mod_lt _ (by decide))
              (by rw [mkEnv_sequence]; exact Nat.mod_lt _ (by decide)) (mkEnv_crc_lt _ _ _ _)
          refine ⟨{ envelope := mkEnv W' flags (whole.length % 2 ^ 64) p, status := .truncated }, ?_, rfl, rfl⟩
          have hbig : (mkEnv W' flags (whole.length % 2 ^ 64) p).frameSize > r.bytes.length - (r.cursor + envelopeBytes) := by
            rw [mkEnv_frameSize, Nat.mod_eq_of_lt hp]; simp only [envelopeBytes]; omega
          simp only [Reader.next, show ¬ r.bytes.length ≤ r.cursor by omega, if_false, hre,
            Option.pure_def, Option.bind_eq_bind, Option.bind_some, hbig, if_true]
      obtain ⟨v, hv, hs, hp⟩ := hnext
      simp only [Reader.nexts, hv, Option.bind_eq_bind, Option.bind_some]
      rw [nexts_end _ _ _ (by simp)]
      simp [seen, hs, hp]
  cases hx : r.nexts W' (1 + n) with
  | none => simp [hx] at hrest
  | some l =>
    rw [hx] at hrest
    simp only [Option.map_some, Option.some.injEq] at hrest ⊢
    rw [seen, List.map_append, okViews_map]
    rw [seen] at hrest
    rw [hrest]

example : ∀ q ∈ ([[1#8]] : List (List Byte)) ++ [2#8, 3#8] :: [], q.length < 2 ^ 32 := by decide

/-- **C17.** A stream cut inside its 8-byte header is not accepted. -/
theorem truncated_header (W flags : Nat) (ps : List (List Byte)) (k : Nat) (hk : k < 8) :
    Reader.begin ((streamOf W flags ps).take k) = some none := by
  have : ((streamOf W flags ps).take k).length < headerBytes := by simp [headerBytes]; omega
  simp only [Reader.begin, readStreamHeader, this, if_true]; rfl

/-- **C17.** Payload corruption: in a stream with checksums, altering up to four consecutive bytes (`u` into `v`) inside the payload
`a ++ u ++ b` of one frame makes exactly that frame report BadCrc; all other frames are still read intact. -/
theorem corrupted_payload_is_reported (W W' flags : Nat) (hf : flags < 2 ^ 16) (hcrc : hasCrc flags = true)
    (pre post : List (List Byte)) (a u v b : List Byte) (X Y : List Byte)
    (hps : ∀ q ∈ pre ++ (a ++ u ++ b) :: post, q.length < 2 ^ 32)
    (hstream : streamOf W flags (pre ++ (a ++ u ++ b) :: post) = X ++ u ++ Y)
    (hX : X.length = 8 + (pre.map (fun q => 16 + q.length)).sum + 16 + a.length)
    (hlen : v.length = u.length) (h4 : u.length ≤ 4) (hne : u ≠ v) (n : Nat) :
    ∃ r, Reader.begin (X ++ v ++ Y) = some (some r) ∧
      (r.nexts W' (pre.length + (1 + (post.length + n)))).map seen =
        some (pre.map (fun p => some (p, Status.ok)) ++ some (a ++ v ++ b, Status.badCrc) ::
          (post.map (fun p => some (p, Status.ok)) ++ List.replicate n none)) := by
  rw [streamOf_eq, frames_indep W W', frames_append _ _ _ _ _ (by decide)] at hstream
  simp only [frames, Nat.zero_add] at hstream
  generalize hk : pre.length % 2 ^ 64 = k at hstream
  have hk64 : k < 2 ^ 64 := by rw [← hk]; exact Nat.mod_lt _ (by decide)
  generalize hE : mkEnv W' flags k (a ++ u ++ b) = E at hstream
  generalize hZ : frames W' flags ((k + 1) % 2 ^ 64) post = Z at hstream
  -- identify X and Y
  have hXY : X = streamHeader flags ++ frames W' flags 0 pre ++ envelope E ++ a ∧ Y = b ++ Z := by
    have e : (streamHeader flags ++ frames W' flags 0 pre ++ envelope E ++ a) ++ (u ++ (b ++ Z)) = X ++ (u ++ Y) := by
      rw [← List.append_assoc X, ← hstream]; simp
    have := List.append_inj e (by simp [hX, frames_length]; omega)
    refine ⟨this.1.symm, ?_⟩
    exact (List.append_cancel_left this.2).symm
  obtain ⟨rfl, rfl⟩ := hXY
  have hbytes : streamHeader flags ++ frames W' flags 0 pre ++ envelope E ++ a ++ v ++ (b ++ Z) =
      streamHeader flags ++ (frames W' flags 0 pre ++ (envelope E ++ (a ++ v ++ b) ++ Z)) := by simp
  rw [hbytes]
  refine ⟨_, begin_at flags hf _, ?_⟩
  have hpre : ∀ q ∈ pre, q.length < 2 ^ 32 := fun q hq => hps q (by simp [hq])
  have hpost : ∀ q ∈ post, q.length < 2 ^ 32 := fun q hq => hps q (by simp [hq])
  have hmid := hps (a ++ u ++ b) (by simp)
  have hEf : E.frameSize = (a ++ v ++ b).length := by
    rw [← hE, mkEnv_frameSize, Nat.mod_eq_of_lt hmid]; simp [hlen]
  have hEs : E.sequence = k := by rw [← hE, mkEnv_sequence]
  have hEc : E.crc < 2 ^ 32 := by rw [← hE]; exact mkEnv_crc_lt _ _ _ _
  have hEsz : E.frameSize < 2 ^ 32 := by rw [← hE, mkEnv_frameSize]; exact Nat.mod_lt _ (by decide)
  have hbad : (frameCrc W' (envelope { E with crc := 0 }) (a ++ v ++ b) != E.crc) = true := by
    have h1 : E.crc = frameCrc W' (envelope { E with crc := 0 }) (a ++ u ++ b) := by
      rw [← hE, mkEnv_zero]; simp [mkEnv, hcrc]
    rw [h1, frameCrc_eq, frameCrc_eq]
    simp only [bne_iff_ne, ne_eq]
    intro h
    have h2 := BitVec.eq_of_toNat_eq h
    apply Crc.byte_burst_detected .castagnoli (envelope { E with crc := 0 } ++ a) v u b (by omega)
      (by show 8 * v.length ≤ 32; omega) (fun h => hne h.symm)
    simpa using h2
  rw [nexts_frames W' pre hpre _ _ (envelope E ++ (a ++ v ++ b) ++ Z) (by simp) (by simp) (by simp)]
  simp only [Nat.zero_add, hk]
  generalize hr : Reader.mk (streamHeader flags ++ (frames W' flags 0 pre ++ (envelope E ++ (a ++ v ++ b) ++ Z)))
      (8 + (frames W' flags 0 pre).length) flags k = r
  have hrd : r.bytes.drop r.cursor = envelope E ++ (a ++ v ++ b) ++ Z := by
    rw [← hr]
    simp only [List.drop_append, streamHeader_length]
    rw [List.drop_eq_nil_of_le (by simp), List.drop_eq_nil_of_le (by omega)]; simp
  have hrc : r.cursor ≤ r.bytes.length := by rw [← hr]; simp
  have hnext := next_at W' r E (a ++ v ++ b) Z hrc hrd hEsz (by rw [hEs]; exact hk64) hEc hEf.symm
  have hfl : r.flags = flags := by rw [← hr]
  have hne2 : r.nextExpected = k := by rw [← hr]
  rw [hfl, hcrc, hbad] at hnext
  simp only [Bool.and_self, if_true] at hnext
  rw [show 1 + (post.length + n) = (post.length + n) + 1 by omega]
  simp only [Reader.nexts, hnext, Option.bind_eq_bind, Option.bind_some, hne2]
  have hlr : r.bytes.length = r.cursor + (16 + (a ++ v ++ b).length + Z.length) := by
    have h0 : (r.bytes.drop r.cursor).length = r.bytes.length - r.cursor := List.length_drop
    rw [hrd] at h0
    simp only [List.length_append, envelope_length] at h0 ⊢
    omega
  have hdrop : r.bytes.drop (r.cursor + 16 + (a ++ v ++ b).length) = Z ++ [] := by
    rw [Nat.add_assoc, ← List.drop_drop, hrd, List.append_nil, List.drop_append, List.drop_append]
    simp [List.drop_eq_nil_of_le]
  rw [nexts_frames W' post hpost n _ [] (by simp only; omega)
    (by simp only [hfl]; rw [hZ]; exact hdrop) (by exact Nat.mod_lt _ (by decide))]
  simp only [hfl, hZ]
  rw [nexts_end _ _ _ (by simp only; omega)]
  simp only [Option.map_some, Option.pure_def, Option.bind_some, seen, List.map_append, List.map_cons, okViews_map]
  simp

/-- a stream of two frames with a corruptible window in the second. -/
example : hasCrc 1 = true ∧ streamOf 16 1 ([[9#8]] ++ ([1#8] ++ [2#8, 3#8] ++ [4#8]) :: []) =
    (streamOf 16 1 ([[9#8]] ++ ([1#8] ++ [2#8, 3#8] ++ [4#8]) :: [])).take 42 ++ [2#8, 3#8] ++ [4#8] := by
  decide +kernel

/-- **C17, finding.** The stream header itself is not protected: flipping one bit of its flags field turns checksum verification
off, after which arbitrary payload corruption is reported as Ok. Here the first payload byte is changed as well. -/
theorem header_flip_disables_crc :
    let corrupted := ((streamOf 16 1 [[1#8, 2#8]]).set 6 0#8).set 24 0xFF#8
    (do let r ← (← Reader.begin corrupted); let (v, _) ← r.next 16; let v ← v; pure (v.payload, v.status))
      = some ([0xFF#8, 2#8], Status.ok) := by
  decide +kernel

end Verif.Wire
