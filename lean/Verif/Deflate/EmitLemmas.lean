import Verif.Deflate.DynLemmas
/-! # Lemmas on whole blocks: emitting and decoding stored, fixed and dynamic blocks -/
namespace Verif.Deflate
open Verif.Bytes (Byte)

/-- the bits `D` hold blocks that extend an output from a position of `data` to its end; `last`: they end the
stream, `al`: what follows has to begin with a byte -/
def BlocksTo (D : List Bool) (last al : Bool) (data : List Byte) (pos : Nat) : Prop :=
  ∀ (X : List Byte) (cap hb total : Nat) (rest : List Bool) (r : Reader) (o : Span), X.length + data.length ≤ cap → hb ≤ X.length → r.Ok total →
    r.bits = D ++ rest → (al = true → rest.length % 8 = 0) → o.At X data cap hb pos →
    ∃ k r' o', k ≤ D.length ∧ (∀ m, blocksGo (k + m) r o = if last then .ok (r', o') else blocksGo m r' o') ∧ r'.bits = rest ∧ r'.Ok total ∧
      o'.At X data cap hb data.length

/-! ## stored blocks -/

theorem storedBytes_spec {X data : List Byte} {cap hb total : Nat} {rest : List Bool} (hc : X.length + data.length ≤ cap) :
    ∀ (n pos : Nat) (r : Reader) (o : Span), pos + n ≤ data.length → r.Ok total → r.bits = ((data.drop pos).take n).flatMap byteBits ++ rest →
      o.At X data cap hb pos →
      ∃ r' o', storedBytes n r o = .ok (r', o') ∧ r'.bits = rest ∧ r'.Ok total ∧ o'.At X data cap hb (pos + n)
  | 0, pos, r, o, _, hr, hb', ho => ⟨r, o, rfl, by simpa using hb', hr, ho⟩
  | n + 1, pos, r, o, hn, hr, hb', ho => by
    have hp : pos < data.length := by omega
    rw [List.drop_eq_getElem_cons hp, List.take_succ_cons, List.flatMap_cons, List.append_assoc] at hb'
    obtain ⟨r1, a1, a2, a3⟩ := Reader.readBits_bits hr (show (data[pos]).toNat < 2 ^ 8 from (data[pos]).isLt) hb'
    obtain ⟨o1, b1, b2⟩ := span_append ho hp hc (b := BitVec.ofNat 8 (data[pos]).toNat) (by
      rw [List.getElem?_eq_getElem hp, BitVec.ofNat_toNat, BitVec.setWidth_eq])
    obtain ⟨r', o', c1, c2, c3, c4⟩ := storedBytes_spec hc n (pos + 1) r1 o1 (by omega) a3 a2 b2
    refine ⟨r', o', ?_, c2, c3, by rw [show pos + (n + 1) = pos + 1 + n by omega]; exact c4⟩
    rw [storedBytes, a1]
    dsimp only
    rw [b1]
    exact c1

theorem alignByte_pad {r : Reader} {total : Nat} (h : r.Ok total) {pad rest : List Bool} (hb : r.bits = pad ++ rest) (hp : pad.length < 8)
    (hrest : rest.length % 8 = 0) : r.alignByte.bits = rest ∧ r.alignByte.Ok total ∧ r.alignByte.count = 0 ∧ r.alignByte.pos = r.pos := by
  have ⟨h1, h2, h3⟩ := Reader.alignByte_spec h
  refine ⟨?_, h2, h3⟩
  rw [h1, hb, List.length_append, show (pad.length + rest.length) % 8 = pad.length by omega, List.drop_left]

/-- the zeros up to the next byte -/
def padding (n : Nat) : List Bool := List.replicate ((8 - n % 8) % 8) false

theorem padding_lt (n : Nat) : (padding n).length < 8 := by rw [padding, List.length_replicate]; omega

/-- the bits of a stored chunk after `n` bits -/
def chunkBits (n : Nat) (chunk : List Byte) (last : Bool) : List Bool :=
  bitsLE 1 (if last then 1 else 0) ++ (bitsLE 2 0 ++ (padding (n + 3) ++ (bitsLE 16 chunk.length ++ (bitsLE 16 (65535 - chunk.length) ++ chunk.flatMap byteBits))))

theorem chunkBits_length (n : Nat) (chunk : List Byte) (last : Bool) : (n + (chunkBits n chunk last).length) % 8 = 0 ∧
    (n % 8 = 0 → (chunkBits n chunk last).length = 8 * (chunk.length + 5)) ∧ 1 ≤ (chunkBits n chunk last).length := by
  simp only [chunkBits, List.length_append, bitsLE_length, padding, List.length_replicate, flatMap_byteBits_length]
  omega

theorem storedChunk_bits (b : List Bool) (chunk : List Byte) (last : Bool) (h : chunk.length ≤ 65535) :
    opsBits b (storedChunk chunk last) = b ++ chunkBits b.length chunk last ∧ OpsOk b (storedChunk chunk last) := by
  have e1 : chunk.length % 65536 = chunk.length := Nat.mod_eq_of_lt (by omega)
  have e2 : (65535 - chunk.length) % 65536 = 65535 - chunk.length := Nat.mod_eq_of_lt (by omega)
  simp only [storedChunk, putLittle16, e1, e2, List.cons_append, List.nil_append, opsBits, List.foldl_cons, List.foldl_nil, execBits, OpsOk, Op.Ok,
    and_true, true_and]
  refine ⟨?_, ⟨by cases last <;> decide, by decide⟩, ⟨by decide, by decide⟩, ⟨by omega, by decide⟩, ⟨by omega, by decide⟩, ?_⟩
  · simp only [padBits, chunkBits, padding, List.append_assoc, List.length_append, bitsLE_length]
  · simp only [List.length_append, padBits_length, bitsLE_length]; omega

theorem decodeStored_spec {X data : List Byte} {cap hb total pos n : Nat} {rest pad : List Bool} (hc : X.length + data.length ≤ cap) (hn : pos + n ≤ data.length)
    (hn' : n ≤ 65535) {r : Reader} {o : Span} (hr : r.Ok total) (hpad : pad.length < 8) (hrest : rest.length % 8 = 0)
    (hb' : r.bits = pad ++ (bitsLE 16 n ++ (bitsLE 16 (65535 - n) ++ (((data.drop pos).take n).flatMap byteBits ++ rest)))) (ho : o.At X data cap hb pos) :
    ∃ r' o', decodeStored r o = .ok (r', o') ∧ r'.bits = rest ∧ r'.Ok total ∧ o'.At X data cap hb (pos + n) := by
  have ⟨p1, p2, _⟩ := alignByte_pad hr hb' hpad (by simp only [List.length_append, bitsLE_length, flatMap_byteBits_length]; omega)
  obtain ⟨r1, a1, a2, a3⟩ := Reader.readBits_bits p2 (show n < 2 ^ 16 by omega) p1
  obtain ⟨r2, b1, b2, b3⟩ := Reader.readBits_bits a3 (show 65535 - n < 2 ^ 16 by omega) a2
  obtain ⟨r', o', c1, c2, c3, c4⟩ := storedBytes_spec hc n pos r2 o hn b3 b2 ho
  refine ⟨r', o', ?_, c2, c3, c4⟩
  rw [decodeStored, a1]
  dsimp only
  rw [b1]
  dsimp only
  rw [if_neg (by simp)]
  exact c1

theorem decodeBlock_kind {σ : Type} [Output σ] {r : Reader} {total f kind : Nat} {s : List Bool} (hr : r.Ok total) (hf : f < 2) (hk : kind < 3)
    (hb : r.bits = bitsLE 1 f ++ (bitsLE 2 kind ++ s)) (o : σ) : ∃ r1, r1.bits = s ∧ r1.Ok total ∧
      ∀ r' o', (if kind = 0 then decodeStored r1 o else if kind = 1 then decodeFixed r1 o else decodeDynamicBlock r1 o) = .ok (r', o') →
        decodeBlock r o = .ok (decide (f ≠ 0), r', o') := by
  obtain ⟨r1, a1, a2, a3⟩ := Reader.readBits_bits hr (show f < 2 ^ 1 by omega) hb
  obtain ⟨r2, b1, b2, b3⟩ := Reader.readBits_bits a3 (show kind < 2 ^ 2 by omega) a2
  refine ⟨r2, b2, b3, fun r' o' h => ?_⟩
  rw [decodeBlock, a1]
  dsimp only
  rw [b1]
  dsimp only
  by_cases h0 : kind = 0
  · rw [if_pos h0] at h; rw [if_pos h0, h]
  · rw [if_neg h0] at h; rw [if_neg h0]
    by_cases h1 : kind = 1
    · rw [if_pos h1] at h; rw [if_pos h1, h]
    · rw [if_neg h1] at h; rw [if_neg h1, if_pos (show kind = 2 by omega), h]

theorem storedCount_step {n : Nat} (h : 65535 < n) : storedBlockCount n = storedBlockCount (n - 65535) + 1 := by
  simp only [storedBlockCount, kMaxStoredBlock]
  rw [if_neg (by omega), if_neg (by omega)]
  omega

theorem storedCount_one {n : Nat} (h : n ≤ 65535) : storedBlockCount n = 1 := by
  simp only [storedBlockCount, kMaxStoredBlock]
  by_cases h0 : n = 0
  · rw [if_pos h0]
  · rw [if_neg h0]; omega

theorem storedCount_le (n : Nat) : 1 ≤ storedBlockCount n ∧ n ≤ storedBlockCount n * 65535 := by
  simp only [storedBlockCount, kMaxStoredBlock]
  by_cases h0 : n = 0
  · rw [if_pos h0]; omega
  · rw [if_neg h0]; omega

theorem storedGo_spec (data : List Byte) (final : Bool) : ∀ (n pos : Nat) (b : List Bool), pos ≤ data.length → 1 ≤ n → data.length - pos ≤ n * 65535 →
    ∃ D, opsBits b (storedGo final n (data.drop pos)) = b ++ D ∧ OpsOk b (storedGo final n (data.drop pos)) ∧ (b.length + D.length) % 8 = 0 ∧
      (b.length % 8 = 0 → D.length = 8 * (data.length - pos + 5 * storedBlockCount (data.length - pos))) ∧ BlocksTo D final true data pos
  | 0, _, _, _, h, _ => by omega
  | n + 1, pos, b, hp, _, hle => by
    have hk : kMaxStoredBlock = 65535 := rfl
    have hlen : (data.drop pos).length = data.length - pos := List.length_drop
    have hsz : min (data.length - pos) 65535 ≤ 65535 := Nat.min_le_right _ _
    simp only [storedGo, hlen, hk]
    have hcl : ((data.drop pos).take (min (data.length - pos) 65535)).length = min (data.length - pos) 65535 := by
      rw [List.length_take, hlen]; omega
    -- the first chunk decodes
    have step : ∀ (last : Bool) (X : List Byte) (cap hb total : Nat) (rest : List Bool) (r : Reader) (o : Span), X.length + data.length ≤ cap →
        r.Ok total → r.bits = chunkBits b.length ((data.drop pos).take (min (data.length - pos) 65535)) last ++ rest → rest.length % 8 = 0 →
        o.At X data cap hb pos → ∃ r' o', decodeBlock r o = .ok (last, r', o') ∧ r'.bits = rest ∧ r'.Ok total ∧
          o'.At X data cap hb (pos + min (data.length - pos) 65535) := by
      intro last X cap hb total rest r o hc hr hbits hrest ho
      simp only [chunkBits, List.append_assoc, hcl] at hbits
      obtain ⟨r1, a1, a2, a3⟩ := decodeBlock_kind hr (f := if last then 1 else 0) (by cases last <;> decide) (by decide) hbits o
      obtain ⟨r', o', b1, b2, b3, b4⟩ := decodeStored_spec hc (by omega) hsz a2 (padding_lt _) hrest a1 ho
      refine ⟨r', o', ?_, b2, b3, b4⟩
      rw [a3 r' o' (by rw [if_pos rfl]; exact b1)]
      cases last <;> rfl
    by_cases hmore : min (data.length - pos) 65535 < data.length - pos
    · rw [if_pos hmore]
      have hm : min (data.length - pos) 65535 = 65535 := by omega
      have hf : (final && decide (min (data.length - pos) 65535 = data.length - pos)) = false := by
        rw [decide_eq_false (by omega), Bool.and_false]
      rw [hf]
      rw [hm] at step hcl ⊢
      have ⟨c1, c2⟩ := storedChunk_bits b ((data.drop pos).take 65535) false (by omega)
      have ⟨l1, l2, l3⟩ := chunkBits_length b.length ((data.drop pos).take 65535) false
      rw [hcl] at l2
      obtain ⟨D, d1, d2, d3, d4, d5⟩ := storedGo_spec data final n (pos + 65535) (b ++ chunkBits b.length ((data.drop pos).take 65535) false)
        (by omega) (by omega) (by omega)
      rw [List.drop_drop]
      refine ⟨chunkBits b.length ((data.drop pos).take 65535) false ++ D, ?_, ?_, ?_, ?_, ?_⟩
      · rw [opsBits_append, c1, d1, List.append_assoc]
      · rw [opsOk_append, c1]; exact ⟨c2, d2⟩
      · rw [List.length_append] at d3 ⊢; omega
      · intro h8
        have := l2 h8
        have := d4 (by rw [List.length_append]; exact l1)
        have hs := storedCount_step (n := data.length - pos) (by omega)
        rw [show data.length - (pos + 65535) = data.length - pos - 65535 by omega] at this
        rw [List.length_append]; omega
      · intro X cap hb total rest r o hc hh hr hbits hrest' ho
        have hrest := hrest' rfl
        rw [List.append_assoc] at hbits
        have hDl : (D ++ rest).length % 8 = 0 := by
          rw [List.length_append] at d3 ⊢; omega
        obtain ⟨r1, o1, s1, s2, s3, s4⟩ := step false X cap hb total (D ++ rest) r o hc hr hbits hDl ho
        obtain ⟨k, r', o', e1, e2, e3⟩ := d5 X cap hb total rest r1 o1 hc hh s3 s2 hrest' s4
        refine ⟨k + 1, r', o', by rw [List.length_append]; omega, fun m => ?_, e3⟩
        rw [show k + 1 + m = k + m + 1 by omega, blocksGo, s1]
        exact e2 m
    · rw [if_neg hmore, List.append_nil]
      have hm : min (data.length - pos) 65535 = data.length - pos := by omega
      have hf : (final && decide (min (data.length - pos) 65535 = data.length - pos)) = final := by
        rw [decide_eq_true hm, Bool.and_true]
      rw [hf]
      rw [hm] at step hcl ⊢
      have ⟨c1, c2⟩ := storedChunk_bits b ((data.drop pos).take (data.length - pos)) final (by omega)
      have ⟨l1, l2, l3⟩ := chunkBits_length b.length ((data.drop pos).take (data.length - pos)) final
      rw [hcl] at l2
      refine ⟨_, c1, c2, l1, fun h8 => ?_, ?_⟩
      · rw [l2 h8, storedCount_one (by omega)]
      · intro X cap hb total rest r o hc hh hr hbits hrest' ho
        have hrest := hrest' rfl
        obtain ⟨r1, o1, s1, s2, s3, s4⟩ := step final X cap hb total rest r o hc hr hbits hrest ho
        refine ⟨1, r1, o1, l3, fun m => ?_, s2, s3, by rw [show pos + (data.length - pos) = data.length by omega] at s4; exact s4⟩
        rw [Nat.add_comm, blocksGo, s1]

/-! ## fixed blocks -/

theorem fixedLiteral_code : ∀ s, s < 288 → bitsLE (fixedLiteralCode s).2 (fixedLiteralCode s).1 = codeBits fixedLiteralLengths s ∧
    (fixedLiteralCode s).1 < 2 ^ (fixedLiteralCode s).2 ∧ (fixedLiteralCode s).2 ≤ 32 ∧ fixedLiteralLengths.getD s 0 ≠ 0 := by decide +kernel

theorem fixedDistance_code : ∀ s, s < 32 → bitsLE (fixedDistanceCode s).2 (fixedDistanceCode s).1 = codeBits fixedDistanceLengths s ∧
    (fixedDistanceCode s).1 < 2 ^ (fixedDistanceCode s).2 ∧ (fixedDistanceCode s).2 ≤ 32 ∧ fixedDistanceLengths.getD s 0 ≠ 0 := by decide +kernel

theorem fixedLiteral_length : fixedLiteralLengths.length = 288 := by decide +kernel

theorem fixedLiteral_complete : Complete fixedLiteralLengths 15 :=
  ⟨by decide +kernel, by decide +kernel, by decide +kernel⟩

theorem fixedDistance_complete : Complete fixedDistanceLengths 15 :=
  ⟨by decide +kernel, by decide +kernel, by decide +kernel⟩

theorem token_ops {lit dist : Nat → List Bool} {ops : Token → List Op} {ts : List Token} {stop : Op}
    (h : ∀ t ∈ ts, (ops t).flatMap Op.flat = tokenBits lit dist t ∧ ∀ op ∈ ops t, op.IsBits) (hs : stop.flat = lit 256) (hs' : stop.IsBits) (b : List Bool) :
    opsBits b (ts.flatMap ops ++ [stop]) = b ++ (ts.flatMap (tokenBits lit dist) ++ lit 256) ∧ OpsOk b (ts.flatMap ops ++ [stop]) := by
  have ⟨h1, h2⟩ := bits_ops (ts.flatMap ops ++ [stop]) b (fun op hop => by
    rcases List.mem_append.1 hop with hop | hop
    · obtain ⟨t, ht, hop⟩ := List.mem_flatMap.1 hop
      exact (h t ht).2 op hop
    · rw [List.mem_singleton.1 hop]; exact hs')
  refine ⟨?_, h2⟩
  rw [h1, List.flatMap_append, List.flatMap_singleton, hs]
  congr 2
  clear h1 h2
  induction ts with
  | nil => rfl
  | cons t ts ih =>
    rw [List.flatMap_cons, List.flatMap_append, List.flatMap_cons, (h t (by simp)).1, ih (fun u hu => h u (by simp [hu]))]

theorem tokenFixed_ops {t : Token} (ht : t.Ok) : (emitTokenFixed t).flatMap Op.flat = tokenBits (codeBits fixedLiteralLengths) (codeBits fixedDistanceLengths) t ∧
    ∀ op ∈ emitTokenFixed t, op.IsBits := by
  simp only [emitTokenFixed, tokenBits]
  by_cases h0 : t.distance = 0
  · rw [if_pos h0, if_pos h0]
    have hv := ht.literal h0
    have ⟨a, b, c, _⟩ := fixedLiteral_code t.value (by omega)
    refine ⟨by rw [List.flatMap_singleton]; exact a, fun op hop => ?_⟩
    rw [List.mem_singleton.1 hop]; exact ⟨b, c⟩
  · rw [if_neg h0, if_neg h0]
    have ⟨l1, l2, l3⟩ := ht.length h0
    have ⟨e1, e2, e3, e4, e5, e6⟩ := encodeLength_spec l1 l2
    have ⟨f1, f2, f3, f4, f5⟩ := encodeDistance_spec (show 1 ≤ t.distance by omega) l3
    have ⟨a, b, c, _⟩ := fixedLiteral_code (encodeLength t.value).symbol (by omega)
    have ⟨a', b', c', _⟩ := fixedDistance_code (encodeDistance t.distance).symbol (by omega)
    refine ⟨?_, fun op hop => ?_⟩
    · simp only [List.flatMap_cons, List.flatMap_nil, List.append_nil, Op.flat, a, a', List.append_assoc]
    · simp only [List.mem_cons, List.not_mem_nil, or_false] at hop
      rcases hop with rfl | rfl | rfl | rfl
      · exact ⟨b, c⟩
      · exact ⟨e5, by omega⟩
      · exact ⟨b', c'⟩
      · exact ⟨f4, by omega⟩

/-- the bits of a fixed block before the padding -/
def fixedBits (ts : List Token) (final : Bool) : List Bool :=
  bitsLE 1 (if final then 1 else 0) ++ (bitsLE 2 1 ++ (ts.flatMap (tokenBits (codeBits fixedLiteralLengths) (codeBits fixedDistanceLengths)) ++
    codeBits fixedLiteralLengths 256))

/-- the padding after a block -/
def endPad (final : Bool) (n : Nat) : List Bool := if final then padding n else []

theorem final_align (b : List Bool) (final : Bool) : opsBits b (if final then [Op.align] else []) = b ++ endPad final b.length ∧
    OpsOk b (if final then [Op.align] else []) := by
  cases final
  · simp [opsBits, endPad, OpsOk]
  · simp [opsBits, endPad, OpsOk, execBits, padBits, padding, Op.Ok]

theorem emitFixed_bits {ts : List Token} (hok : ∀ t ∈ ts, t.Ok) (b : List Bool) (final : Bool) :
    opsBits b (emitFixed ts final) = b ++ (fixedBits ts final ++ endPad final (b.length + (fixedBits ts final).length)) ∧ OpsOk b (emitFixed ts final) := by
  have ⟨a, c, d, _⟩ := fixedLiteral_code 256 (by decide)
  have hd : OpsOk b [.bits (if final then 1 else 0) 1, .bits 1 2] ∧ opsBits b [.bits (if final then 1 else 0) 1, .bits 1 2] =
      b ++ (bitsLE 1 (if final then 1 else 0) ++ bitsLE 2 1) := by
    refine ⟨⟨⟨by cases final <;> decide, by decide⟩, ⟨by decide, by decide⟩, trivial⟩, ?_⟩
    simp only [opsBits, List.foldl_cons, List.foldl_nil, execBits, List.append_assoc]
  have ⟨t1, t2⟩ := token_ops (ops := emitTokenFixed) (ts := ts) (stop := .bits (fixedLiteralCode 256).1 (fixedLiteralCode 256).2)
    (fun t ht => tokenFixed_ops (hok t ht)) a ⟨c, d⟩ (b ++ (bitsLE 1 (if final then 1 else 0) ++ bitsLE 2 1))
  have e : b ++ (bitsLE 1 (if final then 1 else 0) ++ bitsLE 2 1) ++ (ts.flatMap (tokenBits (codeBits fixedLiteralLengths) (codeBits fixedDistanceLengths)) ++
    codeBits fixedLiteralLengths 256) = b ++ fixedBits ts final := by simp only [fixedBits, List.append_assoc]
  rw [e] at t1
  have ⟨f1, f2⟩ := final_align (b ++ fixedBits ts final) final
  constructor
  · simp only [emitFixed, emitTokensFixed]
    rw [opsBits_append, opsBits_append, hd.2, t1, f1, List.length_append, List.append_assoc]
  · simp only [emitFixed, emitTokensFixed]
    rw [opsOk_append, opsOk_append, opsBits_append, hd.2, t1]
    exact ⟨⟨hd.1, t2⟩, f2⟩

theorem fixed_blocks {ts : List Token} {data : List Byte} {pos : Nat} (hcov : Covers data pos ts) (final : Bool) :
    BlocksTo (fixedBits ts final) final false data pos := by
  intro X cap hb total rest r o hc hh hr hbits _ ho
  simp only [fixedBits, List.append_assoc] at hbits
  obtain ⟨r1, a1, a2, a3⟩ := decodeBlock_kind hr (f := if final then 1 else 0) (by cases final <;> decide) (by decide) hbits o
  obtain ⟨ld, l1, l2⟩ := decoder_full fixedLiteral_complete (n := 288) (Nat.le_of_eq fixedLiteral_length) false true
  obtain ⟨dd, d1, d2⟩ := decoder_full fixedDistance_complete (n := 32) (by simp [fixedDistanceLengths]) false true
  have hok := covers_ok data ts pos hcov
  have hu : ∀ t ∈ ts, TokenUses (fun s => fixedLiteralLengths.getD s 0 ≠ 0) (fun s => fixedDistanceLengths.getD s 0 ≠ 0) t := by
    intro t ht
    refine ⟨fun h0 => ?_, fun h0 => ?_⟩
    · have hv := (hok t ht).literal h0
      exact (fixedLiteral_code t.value (by omega)).2.2.2
    · have ⟨l1, l2, l3⟩ := (hok t ht).length h0
      have e := encodeLength_spec l1 l2
      have f := encodeDistance_spec (show 1 ≤ t.distance by omega) l3
      exact ⟨(fixedLiteral_code _ (by omega)).2.2.2, (fixedDistance_code _ (by omega)).2.2.2⟩
  obtain ⟨r', o', b1, b2, b3, b4⟩ := decodeCompressedBlock_spec l2 d2 (fixedLiteral_code 256 (by decide)).2.2.2 hc hh hcov hu a2 a1 ho
  refine ⟨1, r', o', by simp [fixedBits], fun m => ?_, b2, b3, b4⟩
  have hblk : decodeBlock r o = .ok (final, r', o') := by
    rw [a3 r' o' (by
      rw [if_neg (by decide), if_pos rfl]
      unfold decodeFixed
      rw [l1]
      dsimp only
      rw [d1]
      exact b1)]
    cases final <;> rfl
  rw [Nat.add_comm, blocksGo, hblk]

/-! ## dynamic blocks -/

theorem tokenDynamic_isBits {c : Coding} {ts : List Token} {lits dists cl : List Nat} (h : CodingOk c ts lits dists cl) {t : Token} (ht : t.Ok) :
    ∀ op ∈ emitTokenDynamic c t, op.IsBits := by
  simp only [emitTokenDynamic, h.literals, h.distances]
  by_cases h0 : t.distance = 0
  · rw [if_pos h0]
    intro op hop
    rw [List.mem_singleton.1 hop]; exact writeCode_isBits h.litC (by decide) _
  · rw [if_neg h0]
    have ⟨l1, l2, l3⟩ := ht.length h0
    have ⟨e1, e2, e3, e4, e5, e6⟩ := encodeLength_spec l1 l2
    have ⟨f1, f2, f3, f4, f5⟩ := encodeDistance_spec (show 1 ≤ t.distance by omega) l3
    intro op hop
    simp only [List.mem_cons, List.not_mem_nil, or_false] at hop
    rcases hop with rfl | rfl | rfl | rfl
    · exact writeCode_isBits h.litC (by decide) _
    · exact ⟨e5, by omega⟩
    · exact writeCode_isBits h.distC (by decide) _
    · exact ⟨f4, by omega⟩

theorem tokenDynamic_ops {c : Coding} {ts : List Token} {lits dists cl : List Nat} (h : CodingOk c ts lits dists cl) (hlen : ts.length < 2 ^ 32) {t : Token}
    (hm : t ∈ ts) : (emitTokenDynamic c t).flatMap Op.flat = tokenBits (codeBits lits) (codeBits dists) t := by
  have hu := h.litUsed hlen t hm
  have hd := h.distUsed hlen t hm
  simp only [emitTokenDynamic, tokenBits, h.literals, h.distances]
  simp only [Token.lit] at hu
  by_cases h0 : t.distance = 0
  · rw [if_pos h0] at hu
    rw [if_pos h0, if_pos h0, List.flatMap_singleton]
    exact (writeCode_flat h.litC (by decide) hu).1
  · rw [if_neg h0] at hu
    rw [if_neg h0, if_neg h0]
    simp only [List.flatMap_cons, List.flatMap_nil, List.append_nil, (writeCode_flat h.litC (by decide) hu).1,
      (writeCode_flat h.distC (by decide) (hd h0)).1, List.append_assoc]
    rfl

theorem flatMap_map_flat (is : List Nat) (g : Nat → Op) (v : Nat → List Bool) (h : ∀ i ∈ is, (g i).flat = v i) : (is.map g).flatMap Op.flat = is.flatMap v := by
  induction is with
  | nil => rfl
  | cons i is ih => rw [List.map_cons, List.flatMap_cons, List.flatMap_cons, h i (by simp), ih (fun j hj => h j (by simp [hj]))]

theorem flatMap_flatMap_flat {α : Type} (is : List α) (g : α → List Op) (v : α → List Bool) (h : ∀ i ∈ is, (g i).flatMap Op.flat = v i) :
    (is.flatMap g).flatMap Op.flat = is.flatMap v := by
  induction is with
  | nil => rfl
  | cons i is ih => rw [List.flatMap_cons, List.flatMap_append, List.flatMap_cons, h i (by simp), ih (fun j hj => h j (by simp [hj]))]

theorem dynamicHeader_bits {c : Coding} {ts : List Token} {lits dists cl : List Nat} (h : CodingOk c ts lits dists cl) (b : List Bool) :
    opsBits b (dynamicHeader c) = b ++ headerBits c cl ∧ OpsOk b (dynamicHeader c) := by
  have hlc := h.litCount
  have hdc := h.distCount
  have hcc := h.clCount
  have hcv : ∀ i, cl.getD i 0 < 2 ^ 3 := fun i => by
    rw [List.getD_eq_getElem?_getD]
    cases hg : cl[i]? with
    | none => decide
    | some w => have := h.clC.bounded w (List.mem_iff_getElem?.2 ⟨i, hg⟩); show w < 8; omega
  have hlo := (lensOk_length c.encoded [] h.encoded).2
  have hw : ∀ t ∈ c.encoded, (writeCode c.codeLengths t.symbol).flat = codeBits cl t.symbol ∧ (writeCode c.codeLengths t.symbol).IsBits := fun t ht => by
    rw [h.codeLengths]; exact writeCode_flat h.clC (by decide) (h.clUsed t ht)
  have hlen : c.codeLengths.lengths = cl := by rw [h.codeLengths]; rfl
  have ⟨h1, h2⟩ := bits_ops (dynamicHeader c) b (fun op hop => by
    simp only [dynamicHeader, List.mem_append, List.mem_cons, List.not_mem_nil, or_false, List.mem_map, List.mem_flatMap, hlen] at hop
    rcases hop with ((rfl | rfl | rfl) | ⟨i, _, rfl⟩) | ⟨t, ht, rfl | rfl⟩
    · exact ⟨by omega, by decide⟩
    · exact ⟨by omega, by decide⟩
    · exact ⟨by omega, by decide⟩
    · exact ⟨hcv i, by decide⟩
    · exact (hw t ht).2
    · exact ⟨(hlo t ht).2.1, by have := (hlo t ht).2.2; omega⟩)
  refine ⟨?_, h2⟩
  rw [h1]
  congr 1
  simp only [dynamicHeader, List.flatMap_append, headerBits, hlen]
  rw [flatMap_map_flat _ _ (fun i => bitsLE 3 (cl.getD i 0)) (fun i _ => rfl),
    flatMap_flatMap_flat _ _ (fun t => codeBits cl t.symbol ++ bitsLE t.extraBits t.extraValue) (fun t ht => by
      rw [List.flatMap_cons, List.flatMap_singleton, (hw t ht).1]; rfl)]
  simp only [List.flatMap_cons, List.flatMap_nil, Op.flat, List.append_nil, List.append_assoc]

/-- the bits of a dynamic block before the padding -/
def dynamicBits (c : Coding) (lits dists cl : List Nat) (ts : List Token) (final : Bool) : List Bool :=
  bitsLE 1 (if final then 1 else 0) ++ (bitsLE 2 2 ++ (headerBits c cl ++ (ts.flatMap (tokenBits (codeBits lits) (codeBits dists)) ++ codeBits lits 256)))

/-- the writes of a dynamic block keep to the contract of the writer -/
theorem emitDynamic_ok {c : Coding} {ts : List Token} {lits dists cl : List Nat} (h : CodingOk c ts lits dists cl) (hok : ∀ t ∈ ts, t.Ok) (b : List Bool)
    (final : Bool) : OpsOk b (emitDynamic c ts final) := by
  simp only [emitDynamic, emitTokensDynamic]
  rw [opsOk_append, opsOk_append, opsOk_append]
  refine ⟨⟨⟨⟨⟨by cases final <;> decide, by decide⟩, ⟨by decide, by decide⟩, trivial⟩, (dynamicHeader_bits h _).2⟩, ?_⟩, (final_align _ final).2⟩
  refine (bits_ops _ _ (fun op hop => ?_)).2
  rcases List.mem_append.1 hop with hop | hop
  · obtain ⟨t, ht, hop⟩ := List.mem_flatMap.1 hop
    exact tokenDynamic_isBits h (hok t ht) op hop
  · rw [List.mem_singleton.1 hop, h.literals]; exact writeCode_isBits h.litC (by decide) _

theorem emitDynamic_bits {c : Coding} {ts : List Token} {lits dists cl : List Nat} (h : CodingOk c ts lits dists cl) (hok : ∀ t ∈ ts, t.Ok)
    (hlen : ts.length < 2 ^ 32) (b : List Bool) (final : Bool) : opsBits b (emitDynamic c ts final) = b ++ (dynamicBits c lits dists cl ts final ++
      endPad final (b.length + (dynamicBits c lits dists cl ts final).length)) := by
  have hd : OpsOk b [.bits (if final then 1 else 0) 1, .bits 2 2] ∧ opsBits b [.bits (if final then 1 else 0) 1, .bits 2 2] =
      b ++ (bitsLE 1 (if final then 1 else 0) ++ bitsLE 2 2) := by
    refine ⟨⟨⟨by cases final <;> decide, by decide⟩, ⟨by decide, by decide⟩, trivial⟩, ?_⟩
    simp only [opsBits, List.foldl_cons, List.foldl_nil, execBits, List.append_assoc]
  have ⟨g1, g2⟩ := dynamicHeader_bits h (b ++ (bitsLE 1 (if final then 1 else 0) ++ bitsLE 2 2))
  have hw := writeCode_flat h.litC (by decide) h.stopUsed
  rw [← h.literals] at hw
  have ⟨t1, t2⟩ := token_ops (ops := emitTokenDynamic c) (ts := ts) (stop := writeCode c.literals 256)
    (fun t ht => ⟨tokenDynamic_ops h hlen ht, tokenDynamic_isBits h (hok t ht)⟩) hw.1 hw.2 (b ++ (bitsLE 1 (if final then 1 else 0) ++ bitsLE 2 2) ++ headerBits c cl)
  have e : b ++ (bitsLE 1 (if final then 1 else 0) ++ bitsLE 2 2) ++ headerBits c cl ++ (ts.flatMap (tokenBits (codeBits lits) (codeBits dists)) ++
    codeBits lits 256) = b ++ dynamicBits c lits dists cl ts final := by simp only [dynamicBits, List.append_assoc]
  rw [e] at t1
  have ⟨f1, f2⟩ := final_align (b ++ dynamicBits c lits dists cl ts final) final
  simp only [emitDynamic, emitTokensDynamic]
  rw [opsBits_append, opsBits_append _ _ (_ ++ [_]), opsBits_append _ _ (dynamicHeader c), hd.2, g1, t1, f1, List.length_append, List.append_assoc]

theorem dynamic_blocks {c : Coding} {ts : List Token} {lits dists cl : List Nat} (h : CodingOk c ts lits dists cl) {data : List Byte} {pos : Nat}
    (hcov : Covers data pos ts) (hlen : ts.length < 2 ^ 32) (final : Bool) : BlocksTo (dynamicBits c lits dists cl ts final) final false data pos := by
  intro X cap hb total rest r o hc hh hr hbits _ ho
  simp only [dynamicBits, List.append_assoc] at hbits
  obtain ⟨r1, a1, a2, a3⟩ := decodeBlock_kind hr (f := if final then 1 else 0) (by cases final <;> decide) (by decide) hbits o
  obtain ⟨ld, dd, r2, d1, d2, d3, d4, d5⟩ := readDynamic_spec h a2 a1
  have hu : ∀ t ∈ ts, TokenUses (fun s => lits.getD s 0 ≠ 0) (fun s => dists.getD s 0 ≠ 0) t := by
    intro t ht
    have hl := h.litUsed hlen t ht
    simp only [Token.lit] at hl
    refine ⟨fun h0 => ?_, fun h0 => ?_⟩
    · rw [if_pos h0] at hl; exact hl
    · rw [if_neg h0] at hl; exact ⟨hl, h.distUsed hlen t ht h0⟩
  obtain ⟨r', o', b1, b2, b3, b4⟩ := decodeCompressedBlock_spec d4 d5 h.stopUsed hc hh hcov hu d3 d2 ho
  refine ⟨1, r', o', by simp [dynamicBits], fun m => ?_, b2, b3, b4⟩
  have hblk : decodeBlock r o = .ok (final, r', o') := by
    rw [a3 r' o' (by
      rw [if_neg (by decide), if_neg (by decide), decodeDynamicBlock, d1]
      exact b1)]
    cases final <;> rfl
  rw [Nat.add_comm, blocksGo, hblk]

/-! ## one block of any kind -/

/-- what `emitDeflate` appends is a run of blocks, followed by padding if they end the stream -/
theorem emitDeflate_spec {data : List Byte} {pos : Nat} {ts : List Token} (hp : pos ≤ data.length) (hcov : Covers data pos ts) (hlen : ts.length < 2 ^ 32)
    (e : Encoding) (b : List Bool) (final : Bool) :
    ∃ D al, opsBits b (emitDeflate (data.drop pos) ts (makeDynamicCoding ts) e final) = b ++ (D ++ endPad final (b.length + D.length)) ∧
      OpsOk b (emitDeflate (data.drop pos) ts (makeDynamicCoding ts) e final) ∧ BlocksTo D final al data pos ∧
      (al = true → (b.length + D.length) % 8 = 0) := by
  have hok := covers_ok data ts pos hcov
  cases e with
  | stored =>
    have hs := storedCount_le (data.length - pos)
    have hl : (data.drop pos).length = data.length - pos := List.length_drop
    obtain ⟨D, d1, d2, d3, d4, d5⟩ := storedGo_spec data final (storedBlockCount (data.length - pos)) pos b hp hs.1 hs.2
    refine ⟨D, true, ?_, ?_, d5, fun _ => d3⟩
    · have : endPad final (b.length + D.length) = [] := by
        cases final
        · rfl
        · simp [endPad, padding, d3]
      rw [this, List.append_nil]
      simp only [emitDeflate, emitStored, hl]; exact d1
    · simp only [emitDeflate, emitStored, hl]; exact d2
  | fixed =>
    have ⟨a, c⟩ := emitFixed_bits hok b final
    exact ⟨_, false, a, c, fixed_blocks hcov final, nofun⟩
  | dynamic =>
    obtain ⟨lits, dists, cl, h⟩ := makeDynamicCoding_spec hok
    exact ⟨_, false, emitDynamic_bits h hok hlen b final, emitDynamic_ok h hok b final, dynamic_blocks h hcov hlen final, nofun⟩

end Verif.Deflate
