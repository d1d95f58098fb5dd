import Verif.Deflate.EmitLemmas
import Verif.Deflate.AdlerProps
import Verif.Crc.Props
/-! # Lemmas on containers: sizes of what is written, and decoding it again -/
namespace Verif.Deflate
open Verif.Bytes (Byte)

/-! ## bytes and bits -/

theorem exists_bytes : ∀ (n : Nat) (bits : List Bool), bits.length = 8 * n → ∃ bs : List Byte, bs.flatMap byteBits = bits
  | 0, bits, h => ⟨[], (List.length_eq_zero_iff.1 h).symm⟩
  | n + 1, bits, h => by
    obtain ⟨bs, hbs⟩ := exists_bytes n (bits.drop 8) (by rw [List.length_drop]; omega)
    refine ⟨BitVec.ofNat 8 (ofBits (bits.take 8)) :: bs, ?_⟩
    have hl : (bits.take 8).length = 8 := by rw [List.length_take]; omega
    have := bitsLE_ofBits (bits.take 8)
    rw [hl] at this
    rw [List.flatMap_cons, byteBits_ofNat, hbs, this, List.take_append_drop]

theorem le_bits (n v : Nat) : (Bytes.le n v).flatMap byteBits = bitsLE (8 * n) v := by
  induction n generalizing v with
  | zero => rfl
  | succ n ih =>
    rw [Bytes.le, List.flatMap_cons, byteBits_ofNat, ih, show 8 * (n + 1) = 8 + 8 * n by omega, bitsLE_add]

/-- the bytes of the writer are its bits when they fill whole bytes -/
theorem run_out {ops : List Op} (h : OpsOk [] ops) (h8 : (opsBits [] ops).length % 8 = 0) :
    (Writer.fresh.run ops).out.flatMap byteBits = opsBits [] ops := by
  have ⟨h1, h2⟩ := Writer.run_bits Writer.fresh_ok h
  have hl := (Writer.fresh.run ops).bits_length
  rw [h1, show Writer.fresh.bits = [] from rfl] at hl
  have hc := h2.count
  have h0 : (Writer.fresh.run ops).count = 0 := by omega
  rw [← show (Writer.fresh.run ops).bits = opsBits [] ops from h1]
  simp only [Writer.bits, h0, bitsLE, List.append_nil]

theorem opsOk_length {ops : List Op} (h : OpsOk [] ops) : 8 * (Writer.fresh.run ops).out.length ≤ (opsBits [] ops).length := by
  have ⟨h1, _⟩ := Writer.run_bits Writer.fresh_ok h
  have hl := (Writer.fresh.run ops).bits_length
  rw [h1, show Writer.fresh.bits = [] from rfl] at hl
  omega

/-! ## sizes -/

theorem countOps_shift (ops : List Op) : ∀ (n k : Nat), n % 8 = 0 → countOps (n + k) ops = n + countOps k ops := by
  induction ops with
  | nil => intro n k _; rfl
  | cons op ops ih =>
    intro n k h
    have e : countOp (n + k) op = n + countOp k op := by
      cases op <;> simp only [countOp] <;> omega
    show countOps (countOp (n + k) op) ops = n + countOps (countOp k op) ops
    rw [e]; exact ih n _ h

theorem opsBits_length (b : List Bool) (h : b.length % 8 = 0) (ops : List Op) : (opsBits b ops).length = b.length + countOps 0 ops := by
  rw [← countOps_eq, show b.length = b.length + 0 from rfl, countOps_shift ops _ 0 h]; rfl

theorem count_aligned (ops : List Op) : countOps 0 (ops ++ [.align]) % 8 = 0 := by
  rw [countOps, List.foldl_append]
  show ((_ + 7) / 8 * 8) % 8 = 0
  omega

theorem countStored (data : List Byte) (final : Bool) : countOps 0 (emitStored data final) = 8 * (data.length + 5 * storedBlockCount data.length) := by
  have hs := storedCount_le data.length
  obtain ⟨D, d1, d2, d3, d4, _⟩ := storedGo_spec data final (storedBlockCount data.length) 0 [] (by omega) hs.1 hs.2
  have := d4 rfl
  rw [List.drop_zero] at d1
  rw [show (0 : Nat) = ([] : List Bool).length from rfl, countOps_eq]
  simp only [emitStored, d1, List.nil_append, this]
  rfl

/-- the size chosen is never above that of stored blocks -/
theorem countSelected (data : List Byte) (ts : List Token) (c : Coding) :
    countOps 0 (emitDeflate data ts c (selectEncoding data.length ts c true) true) ≤ 8 * (data.length + 5 * storedBlockCount data.length) ∧
    countOps 0 (emitDeflate data ts c (selectEncoding data.length ts c true) true) % 8 = 0 := by
  have h1 := count_aligned ([.bits 1 1, .bits 1 2] ++ emitTokensFixed ts)
  have h2 := count_aligned ([.bits 1 1, .bits 2 2] ++ dynamicHeader c ++ emitTokensDynamic c ts)
  have e1 : emitFixed ts true = [.bits 1 1, .bits 1 2] ++ emitTokensFixed ts ++ [.align] := rfl
  have e2 : emitDynamic c ts true = [.bits 1 1, .bits 2 2] ++ dynamicHeader c ++ emitTokensDynamic c ts ++ [.align] := rfl
  rw [← e1] at h1
  rw [← e2] at h2
  simp only [selectEncoding]
  by_cases hs : data.length + 5 * storedBlockCount data.length < min (countOps 0 (emitFixed ts true) / 8) (countOps 0 (emitDynamic c ts true) / 8)
  · rw [if_pos hs]
    simp only [emitDeflate, countStored]; omega
  · rw [if_neg hs]
    by_cases hd : countOps 0 (emitDynamic c ts true) / 8 < countOps 0 (emitFixed ts true) / 8
    · rw [if_pos hd]
      simp only [emitDeflate]; omega
    · rw [if_neg hd]
      simp only [emitDeflate]; omega

/-! ## what is written -/

theorem ok_emitDeflate {data : List Byte} {ts : List Token} (hcov : Covers data 0 ts) (e : Encoding) (b : List Bool) :
    OpsOk b (emitDeflate data ts (makeDynamicCoding ts) e true) := by
  have hok := covers_ok data ts 0 hcov
  cases e with
  | stored =>
    have hs := storedCount_le data.length
    obtain ⟨D, _, d2, _⟩ := storedGo_spec data true (storedBlockCount data.length) 0 b (by omega) hs.1 hs.2
    rw [List.drop_zero] at d2
    exact d2
  | fixed => exact (emitFixed_bits hok b true).2
  | dynamic =>
    obtain ⟨lits, dists, cl, h⟩ := makeDynamicCoding_spec hok
    exact emitDynamic_ok h hok b true

/-- the operations before and after the deflate stream -/
def headOps (format : Format) (level : Level) : List Op :=
  match format with
  | .zlib => [.bits (zlibHeader level >>> 8) 8, .bits (zlibHeader level &&& 0xff) 8]
  | .gzip => (gzipHeader level).map (fun b => .bits b 8)
  | .rawDeflate => []

def tailOps (W : Nat) (data : List Byte) (format : Format) : List Op :=
  match format with
  | .zlib => putBig32 (adler32 data)
  | .gzip => putLittle32 (computeCrc32 W data) ++ putLittle32 data.length
  | .rawDeflate => []

/-- the bytes they write -/
def headBytes (format : Format) (level : Level) : List Byte :=
  match format with
  | .zlib => [BitVec.ofNat 8 (zlibHeader level >>> 8), BitVec.ofNat 8 (zlibHeader level &&& 0xff)]
  | .gzip => (gzipHeader level).map (BitVec.ofNat 8)
  | .rawDeflate => []

def tailBytes (W : Nat) (data : List Byte) (format : Format) : List Byte :=
  match format with
  | .zlib => (Bytes.le 4 (adler32 data)).reverse
  | .gzip => Bytes.le 4 (computeCrc32 W data) ++ Bytes.le 4 data.length
  | .rawDeflate => []

theorem emitWrapped_eq (W : Nat) (data : List Byte) (ts : List Token) (c : Coding) (e : Encoding) (format : Format) (level : Level) :
    emitWrapped W data ts c e format level = headOps format level ++ emitDeflate data ts c e true ++ tailOps W data format := by
  cases format
  · simp only [emitWrapped, headOps, tailOps, List.nil_append, List.append_nil]
  · rfl
  · simp only [emitWrapped, headOps, tailOps, List.append_assoc]

instance (op : Op) : Decidable op.IsBits := by cases op <;> simp only [Op.IsBits] <;> infer_instance

theorem headOps_bits (format : Format) (level : Level) : opsBits [] (headOps format level) = (headBytes format level).flatMap byteBits ∧
    OpsOk [] (headOps format level) := by
  refine ⟨by cases format <;> cases level <;> decide, (bits_ops _ _ ?_).2⟩
  cases format <;> cases level <;> decide

theorem big_bits (v : Nat) : (Bytes.le 4 v).reverse.flatMap byteBits = (putBig32 v).flatMap Op.flat := by
  have e : ∀ k, byteBits (BitVec.ofNat 8 (v / k)) = bitsLE 8 ((v / k) &&& 0xff) := fun k => by
    rw [byteBits_ofNat, show (0xff : Nat) = 2 ^ 8 - 1 from rfl, Nat.and_two_pow_sub_one_eq_mod, bitsLE_mod]
  have e' := e 1
  simp only [Nat.div_one] at e'
  simp only [Bytes.le, List.reverse_cons, List.reverse_nil, List.nil_append, List.cons_append, List.flatMap_cons, List.flatMap_nil, putBig32,
    List.map_cons, List.map_nil, Op.flat, Nat.div_div_eq_div_mul, Nat.shiftRight_eq_div_pow, Nat.reduceMul, Nat.reduceSub, Nat.reducePow, Nat.div_one, e, e']

theorem tailOps_bits (W : Nat) (data : List Byte) (format : Format) (b : List Bool) :
    opsBits b (tailOps W data format) = b ++ (tailBytes W data format).flatMap byteBits ∧ OpsOk b (tailOps W data format) := by
  cases format with
  | rawDeflate => simp [tailOps, tailBytes, opsBits, OpsOk]
  | zlib =>
    have ⟨h1, h2⟩ := bits_ops (putBig32 (adler32 data)) b (fun op hop => by
      simp only [putBig32, List.mem_map] at hop
      obtain ⟨s, _, rfl⟩ := hop
      exact ⟨by rw [show (0xff : Nat) = 2 ^ 8 - 1 from rfl, Nat.and_two_pow_sub_one_eq_mod]; exact Nat.mod_lt _ (by decide), by decide⟩)
    exact ⟨by rw [← big_bits] at h1; exact h1, h2⟩
  | gzip =>
    have ⟨h1, h2⟩ := bits_ops (putLittle32 (computeCrc32 W data) ++ putLittle32 data.length) b (fun op hop => by
      simp only [putLittle32, List.mem_append, List.mem_cons, List.not_mem_nil, or_false] at hop
      rcases hop with rfl | rfl <;> exact ⟨Nat.mod_lt _ (by decide), by decide⟩)
    refine ⟨?_, h2⟩
    simp only [tailOps, tailBytes]
    rw [h1, List.flatMap_append, List.flatMap_append, le_bits, le_bits]
    simp only [putLittle32, List.flatMap_cons, List.flatMap_nil, Op.flat, List.append_nil, bitsLE_mod]

theorem compressOps_ok (W : Nat) (data : List Byte) (format : Format) (level : Level) : OpsOk [] (compressOps W data format level) := by
  simp only [compressOps]
  rw [emitWrapped_eq, opsOk_append, opsOk_append]
  exact ⟨⟨(headOps_bits format level).2, ok_emitDeflate (oneShotTokens_spec data level) _ _⟩, (tailOps_bits W data format _).2⟩

theorem headBytes_length (format : Format) (level : Level) : (headBytes format level).length = match format with | .rawDeflate => 0 | .zlib => 2 | .gzip => 10 := by
  cases format <;> cases level <;> rfl

theorem tailBytes_length (W : Nat) (data : List Byte) (format : Format) :
    (tailBytes W data format).length = match format with | .rawDeflate => 0 | .zlib => 4 | .gzip => 8 := by
  cases format <;> simp [tailBytes]

/-- the bits of the whole -/
theorem compressOps_bits (W : Nat) (data : List Byte) (format : Format) (level : Level) :
    ∃ e, compressOps W data format level = headOps format level ++ emitDeflate data (oneShotTokens data level) (makeDynamicCoding (oneShotTokens data level)) e true ++
        tailOps W data format ∧
      (opsBits ((headBytes format level).flatMap byteBits) (emitDeflate data (oneShotTokens data level) (makeDynamicCoding (oneShotTokens data level)) e true)).length % 8 = 0 ∧
      (opsBits [] (compressOps W data format level)).length ≤ 8 * compressBound data.length format ∧
      (opsBits [] (compressOps W data format level)).length % 8 = 0 := by
  refine ⟨selectEncoding data.length (oneShotTokens data level) (makeDynamicCoding (oneShotTokens data level)) true, ?_, ?_⟩
  · simp only [compressOps]; rw [emitWrapped_eq]
  · have h := countSelected data (oneShotTokens data level) (makeDynamicCoding (oneShotTokens data level))
    have hh := headBytes_length format level
    have ht := tailBytes_length W data format
    have h8 : ((headBytes format level).flatMap byteBits).length % 8 = 0 := by rw [flatMap_byteBits_length]; omega
    have hl := opsBits_length _ h8 (emitDeflate data (oneShotTokens data level) (makeDynamicCoding (oneShotTokens data level))
      (selectEncoding data.length (oneShotTokens data level) (makeDynamicCoding (oneShotTokens data level)) true) true)
    have hall : opsBits [] (compressOps W data format level) = opsBits ((headBytes format level).flatMap byteBits) (emitDeflate data (oneShotTokens data level)
        (makeDynamicCoding (oneShotTokens data level)) (selectEncoding data.length (oneShotTokens data level) (makeDynamicCoding (oneShotTokens data level)) true) true) ++
        (tailBytes W data format).flatMap byteBits := by
      simp only [compressOps]
      rw [emitWrapped_eq, opsBits_append, opsBits_append, (headOps_bits format level).1, (tailOps_bits W data format _).1]
    rw [hall, List.length_append, flatMap_byteBits_length, hl]
    rw [flatMap_byteBits_length] at h8 ⊢
    refine ⟨by omega, ?_, by omega⟩
    cases format <;> simp only [compressBound] <;> dsimp only at hh ht <;> omega

/-! ## decoding it again -/

theorem decodeDeflate_blocks {D pad : List Bool} {al : Bool} {data : List Byte} (hD : BlocksTo D true al data 0) (hal : al = true → pad = [])
    (hpad : pad.length < 8) {input trailer : List Byte} (hin : input.flatMap byteBits = D ++ (pad ++ trailer.flatMap byteBits)) {X : List Byte} {cap hb : Nat}
    (hc : X.length + data.length ≤ cap) : decodeDeflate input (⟨X, cap, hb⟩ : Span) = .ok (input.length - trailer.length, ⟨X ++ data, cap, X.length⟩) := by
  have htl : (trailer.flatMap byteBits).length % 8 = 0 := by rw [flatMap_byteBits_length]; omega
  obtain ⟨k, r', o', h1, h2, h3, h4, h5⟩ := hD X cap X.length input.length (pad ++ trailer.flatMap byteBits) (Reader.new input) ⟨X, cap, X.length⟩ hc
    (Nat.le_refl _) (Reader.new_ok input) (by rw [Reader.new_bits]; exact hin) (fun h => by rw [hal h]; exact htl)
    ⟨by simp, rfl, rfl⟩
  have ho : o' = ⟨X ++ data, cap, X.length⟩ := by
    cases o'
    have e1 := h5.data
    have e2 := h5.capacity
    have e3 := h5.history
    simp only [List.take_length] at e1 e2 e3
    rw [e1, e2, e3]
  have hl : (Reader.new input).left + 1 = k + ((Reader.new input).left + 1 - k) := by
    have : (Reader.new input).left = (D ++ (pad ++ trailer.flatMap byteBits)).length := by rw [← hin, ← Reader.new_bits, Reader.bits_length]
    rw [List.length_append] at this
    omega
  have ⟨a1, a2, a3, _⟩ := alignByte_pad h4 h3 hpad htl
  have hp := Reader.pos_eq a2 a3
  rw [a1, flatMap_byteBits_length] at hp
  have hs : Output.resetHistory (⟨X, cap, hb⟩ : Span) = ⟨X, cap, X.length⟩ := rfl
  rw [decodeDeflate, hs, hl, h2]
  simp only [if_true, ho]
  rw [show r'.alignByte.pos = input.length - trailer.length by omega]

theorem endPad_lt (final : Bool) (n : Nat) : (endPad final n).length < 8 := by
  cases final
  · simp [endPad]
  · exact padding_lt n

/-- the bytes written: a header, a deflate stream and a trailer -/
theorem compress_bytes (W : Nat) (data : List Byte) (format : Format) (level : Level) (hlen : data.length < 2 ^ 32) :
    ∃ body, compress W data format level = .ok (headBytes format level ++ body ++ tailBytes W data format) ∧
      ∀ (X trailer : List Byte) (cap hb : Nat), X.length + data.length ≤ cap →
        decodeDeflate (body ++ trailer) (⟨X, cap, hb⟩ : Span) = .ok (body.length, ⟨X ++ data, cap, X.length⟩) := by
  obtain ⟨e, h1, h2, h3, h4⟩ := compressOps_bits W data format level
  have hok := compressOps_ok W data format level
  have hrun := run_out hok h4
  have hcov := oneShotTokens_spec data level
  have htl : (oneShotTokens data level).length < 2 ^ 32 := by
    have := covers_length data _ 0 hcov
    omega
  have hall : opsBits [] (compressOps W data format level) = opsBits ((headBytes format level).flatMap byteBits) (emitDeflate data (oneShotTokens data level)
      (makeDynamicCoding (oneShotTokens data level)) e true) ++ (tailBytes W data format).flatMap byteBits := by
    rw [h1, opsBits_append, opsBits_append, (headOps_bits format level).1, (tailOps_bits W data format _).1]
  obtain ⟨D, al, d1, _, d3, d4⟩ := emitDeflate_spec (Nat.zero_le _) hcov htl e ((headBytes format level).flatMap byteBits) true
  rw [List.drop_zero] at d1
  rw [d1] at hall h2
  have h8 : ((headBytes format level).flatMap byteBits).length % 8 = 0 := by rw [flatMap_byteBits_length]; omega
  generalize hP : endPad true (((headBytes format level).flatMap byteBits).length + D.length) = pad at hall h2
  have hpad : pad.length < 8 := by rw [← hP]; exact endPad_lt _ _
  have hal : al = true → pad = [] := fun h => by
    have := d4 h
    rw [← hP, endPad, if_pos rfl, padding, this]; rfl
  obtain ⟨body, hbody⟩ := exists_bytes ((D ++ pad).length / 8) (D ++ pad) (by rw [List.length_append] at h2; omega)
  refine ⟨body, ?_, fun X trailer cap hb hc => ?_⟩
  · have hout : (Writer.fresh.run (compressOps W data format level)).out = headBytes format level ++ body ++ tailBytes W data format := by
      apply flatMap_byteBits_inj
      rw [hrun, hall, List.flatMap_append, List.flatMap_append, hbody]
    have hsz := opsOk_length hok
    simp only [compress]
    rw [if_neg (by omega), hout]
  · rw [decodeDeflate_blocks d3 hal hpad (trailer := trailer) (by rw [List.flatMap_append, hbody, List.append_assoc]) hc]
    simp

theorem slice_append (p q s : List Byte) : Bytes.slice (p ++ q ++ s) p.length q.length = some q := by
  rw [Bytes.slice, if_pos (by simp), List.append_assoc, List.drop_left, List.take_left]

theorem computeCrc32_eq (W W' : Nat) (data : List Byte) : computeCrc32 W data = computeCrc32 W' data := by
  rw [computeCrc32, computeCrc32, Crc.simd_ieee, Crc.simd_ieee]

theorem adler32_lt (data : List Byte) : adler32 data < 2 ^ 32 := by
  rw [adler32_eq_definition, Spec.adler]
  have h1 : Spec.s1 data < 65521 := Nat.mod_lt _ (by decide)
  have h2 : Spec.s2 data < 65521 := Nat.mod_lt _ (by decide)
  omega

theorem zlib_ok (level : Level) : (BitVec.ofNat 8 (zlibHeader level >>> 8)).toNat &&& 0x0f = 8 ∧ (BitVec.ofNat 8 (zlibHeader level >>> 8)).toNat >>> 4 ≤ 7 ∧
    (((BitVec.ofNat 8 (zlibHeader level >>> 8)).toNat <<< 8) + (BitVec.ofNat 8 (zlibHeader level &&& 0xff)).toNat) % 31 = 0 ∧
    (BitVec.ofNat 8 (zlibHeader level &&& 0xff)).toNat &&& 0x20 = 0 := by cases level <;> decide

theorem decodeZlib_spec {W : Nat} {data body : List Byte} {level : Level} {cap : Nat}
    (h : ∀ trailer : List Byte, decodeDeflate (body ++ trailer) (⟨[], cap, 0⟩ : Span) = .ok (body.length, ⟨data, cap, 0⟩)) :
    decodeZlib (headBytes .zlib level ++ body ++ tailBytes W data .zlib) (⟨[], cap, 0⟩ : Span) = .ok (data.length, ⟨data, cap, 0⟩) := by
  have ⟨z1, z2, z3, z4⟩ := zlib_ok level
  have htl : (tailBytes W data .zlib).length = 4 := tailBytes_length W data .zlib
  have hsl := slice_append (headBytes .zlib level ++ body) (tailBytes W data .zlib) []
  have hhl : (headBytes .zlib level ++ body).length = 2 + body.length := by rw [List.length_append]; rfl
  rw [List.append_nil, htl, hhl] at hsl
  have hlen : (headBytes .zlib level ++ body ++ tailBytes W data .zlib).length = 2 + body.length + 4 := by rw [List.length_append, hhl, htl]
  have hread : readBig32 (headBytes .zlib level ++ body ++ tailBytes W data .zlib) (2 + body.length) = .ok (adler32 data) := by
    rw [readBig32, hsl]
    dsimp only [tailBytes]
    rw [List.reverse_reverse, Bytes.leNat_le, Nat.mod_eq_of_lt (adler32_lt data)]
  have hin : headBytes .zlib level ++ body ++ tailBytes W data .zlib =
    BitVec.ofNat 8 (zlibHeader level >>> 8) :: BitVec.ofNat 8 (zlibHeader level &&& 0xff) :: (body ++ tailBytes W data .zlib) := rfl
  generalize hI : headBytes .zlib level ++ body ++ tailBytes W data .zlib = input at hlen hread hin
  subst hin
  simp only [decodeZlib]
  rw [if_neg (by rw [z1, z3]; omega), if_neg (by rw [z4]; simp), h]
  dsimp only
  rw [if_neg (by omega), if_neg (by omega), hread]
  dsimp only
  simp only [Output.range, Output.size, List.length_nil, List.drop_zero, Option.any_some, decide_not, decide_true, Bool.not_true]
  rfl

theorem decodeGzip_spec {W W' : Nat} {data body : List Byte} {level : Level} {cap : Nat}
    (h : ∀ trailer : List Byte, decodeDeflate (body ++ trailer) (⟨[], cap, 0⟩ : Span) = .ok (body.length, ⟨data, cap, 0⟩)) :
    decodeGzip W' (headBytes .gzip level ++ body ++ tailBytes W data .gzip) (⟨[], cap, 0⟩ : Span) = .ok (data.length, ⟨data, cap, 0⟩) := by
  have htl : (tailBytes W data .gzip).length = 8 := tailBytes_length W data .gzip
  have hhl : (headBytes .gzip level ++ body).length = 10 + body.length := by rw [List.length_append, headBytes_length]
  have hlen : (headBytes .gzip level ++ body ++ tailBytes W data .gzip).length = 10 + body.length + 8 := by rw [List.length_append, hhl, htl]
  have hs1 := slice_append (headBytes .gzip level ++ body) (Bytes.le 4 (computeCrc32 W data)) (Bytes.le 4 data.length)
  have hs2 := slice_append (headBytes .gzip level ++ body ++ Bytes.le 4 (computeCrc32 W data)) (Bytes.le 4 data.length) []
  rw [List.append_assoc, hhl, Bytes.le_length] at hs1
  rw [List.append_nil, List.append_assoc, Bytes.le_length 4 data.length, List.length_append (as := headBytes .gzip level ++ body), hhl, Bytes.le_length] at hs2
  have hr1 : readLittle 4 (headBytes .gzip level ++ body ++ tailBytes W data .gzip) (10 + body.length) = .ok (computeCrc32 W data) := by
    simp only [readLittle, tailBytes, hs1]
    rw [Bytes.leNat_le, Nat.mod_eq_of_lt]
    exact (Crc.compute .ieee W data).isLt
  have hr2 : readLittle 4 (headBytes .gzip level ++ body ++ tailBytes W data .gzip) (10 + body.length + 4) = .ok (data.length % 2 ^ 32) := by
    simp only [readLittle, tailBytes, hs2]
    rw [Bytes.leNat_le]
  have hdrop : (headBytes .gzip level ++ body ++ tailBytes W data .gzip).drop 10 = body ++ tailBytes W data .gzip := by
    rw [List.append_assoc, ← show (headBytes .gzip level).length = 10 from headBytes_length .gzip level, List.drop_left]
  have hg : ∀ i, i < 10 → (headBytes .gzip level ++ body ++ tailBytes W data .gzip)[i]? = (headBytes .gzip level)[i]? := fun i hi => by
    rw [List.append_assoc, List.getElem?_append_left (by rw [headBytes_length]; exact hi)]
  generalize headBytes .gzip level ++ body ++ tailBytes W data .gzip = input at *
  have hhead : gzipMemberHeader W' input 0 = .ok 10 := by
    unfold gzipMemberHeader
    have g0 : input[0]? = some 0x1f#8 := by rw [hg 0 (by decide)]; cases level <;> rfl
    have g1 : input[0 + 1]? = some 0x8b#8 := by rw [hg 1 (by decide)]; cases level <;> rfl
    have g2 : input[0 + 2]? = some 0x08#8 := by rw [hg 2 (by decide)]; cases level <;> rfl
    have g3 : (input.getD (0 + 3) 0) = 0#8 := by rw [List.getD_eq_getElem?_getD, hg 3 (by decide)]; cases level <;> rfl
    rw [if_neg (by omega), if_neg (by rw [g0, g1]; simp), if_neg (by omega), if_neg (by rw [g2]; simp), g3]
    rfl
  have hmem : gzipMember W' input 0 (⟨[], cap, 0⟩ : Span) = .ok (input.length, ⟨data, cap, 0⟩) := by
    unfold gzipMember
    rw [hhead]
    dsimp only
    rw [hdrop, h]
    dsimp only
    rw [if_neg (by omega), hr1]
    dsimp only
    rw [if_neg (by
      simp only [Output.range, Output.size, List.length_nil, List.drop_zero, Option.any_some, computeCrc32_eq W' W]
      simp), hr2]
    dsimp only
    rw [if_neg (by simp [Output.size]), hlen]
  have hne : input ≠ [] := by intro e; rw [e] at hlen; simp at hlen
  rw [decodeGzip, if_neg hne, hlen, gzipGo, if_pos (by omega), hmem, ← hlen]
  dsimp only
  rw [hlen]
  rw [show 10 + body.length + 8 = (10 + body.length + 7) + 1 by omega, gzipGo, if_neg (by omega)]
  rfl

end Verif.Deflate
