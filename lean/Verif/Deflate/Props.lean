import Verif.Deflate.RoundLemmas
import Verif.Deflate.SimLemmas
/-!
# C19–C22: compression

`compress W`, `decompressSpan W`, `decompressedSize W` and `decompress W` are the functions of the API; `W` is the width of a SIMD
register of the machine (it only matters for how the CRC is computed, so the writer's may differ from the reader's).
-/
namespace Verif.Deflate
open Verif.Bytes (Byte)

instance {α : Type} [DecidableEq α] : DecidableEq (Res α)
  | .ok a, .ok b => if h : a = b then isTrue (by rw [h]) else isFalse (fun e => h (by injection e))
  | .error a, .error b => if h : a = b then isTrue (by rw [h]) else isFalse (fun e => h (by injection e))
  | .ok _, .error _ => isFalse nofun
  | .error _, .ok _ => isFalse nofun

/-! ## C19: round trip -/

/-- **C19 (partial: inputs below 4 GiB).** Every byte string, compressed with any format and level, is restored by decompressing into any
buffer that is large enough: the result is its length, and the buffer holds its bytes. -/
theorem compress_decompress_partial (Wc Wd : Nat) (data : List Byte) (format : Format) (level : Level) (hlen : data.length < 2 ^ 32) :
    ∃ z, compress Wc data format level = .ok z ∧
      ∀ capacity, data.length ≤ capacity → decompressSpan Wd z capacity format = .ok (data.length, data) := by
  obtain ⟨body, h1, h2⟩ := compress_bytes Wc data format level hlen
  refine ⟨_, h1, fun cap hcap => ?_⟩
  have h3 : ∀ trailer : List Byte, decodeDeflate (body ++ trailer) (⟨[], cap, 0⟩ : Span) = .ok (body.length, ⟨data, cap, 0⟩) := fun t =>
    h2 [] t cap 0 (by rw [List.length_nil]; omega)
  unfold decompressSpan
  cases format with
  | rawDeflate =>
    have h4 : decodeRaw (headBytes .rawDeflate level ++ body ++ tailBytes Wc data .rawDeflate) (⟨[], cap, 0⟩ : Span) = .ok (data.length, ⟨data, cap, 0⟩) := by
      unfold decodeRaw
      have e : headBytes .rawDeflate level ++ body ++ tailBytes Wc data .rawDeflate = body := by simp [headBytes, tailBytes]
      have h5 := h3 []
      rw [List.append_nil] at h5
      rw [e, h5]
      simp only [ne_eq, not_true_eq_false, if_false]
      rfl
    dsimp only [decompressInto]
    rw [h4]
  | zlib =>
    dsimp only [decompressInto]
    rw [decodeZlib_spec h3]
  | gzip =>
    dsimp only [decompressInto]
    rw [decodeGzip_spec h3]

example : ∃ z, compress 8 (List.replicate 300 0x61#8) .gzip .best = .ok z ∧
    ∀ capacity, (List.replicate 300 0x61#8).length ≤ capacity → decompressSpan 4 z capacity .gzip = .ok ((List.replicate 300 0x61#8).length, List.replicate 300 0x61#8) :=
  compress_decompress_partial 8 4 (List.replicate 300 0x61#8) .gzip .best (by rw [List.length_replicate]; decide)

example : decompressSpan 8 [0x4b, 0x4c, 0x4a, 0x46, 0x46, 0x00] 15 .rawDeflate = .ok (15, [97, 98, 99, 97, 98, 99, 97, 98, 99, 97, 98, 99, 97, 98, 99]) := by
  decide +kernel

/-- A success of decompressing into a buffer carries over to the size query. -/
theorem decompressedSize_of_span {W : Nat} {input data : List Byte} {format : Format} {capacity n : Nat}
    (h : decompressSpan W input capacity format = .ok (n, data)) {max : Nat} (hc : capacity ≤ max) (hm : max < 2 ^ 64) :
    decompressedSize W input format max = .ok n := by
  unfold decompressSpan at h
  cases e : decompressInto W input (⟨[], capacity, 0⟩ : Span) format with
  | error _ => rw [e] at h; cases h
  | ok p =>
    rw [e] at h
    injection h with h
    injection h with h1 h2
    have hR : Agree ⟨[], capacity, 0⟩ ⟨0, 0, max⟩ ∧ capacity ≤ max := ⟨⟨rfl, rfl, Nat.le_refl _, Nat.zero_le _, Nat.zero_le _, hm⟩, hc⟩
    rcases (decompressInto_follows span_counting W input format hR p.1 p.2 (by rw [e])).2 trivial with ⟨c', k, _⟩ | ⟨hf, _⟩
    · unfold decompressedSize
      rw [k, ← h1]
    · exact absurd hf id

/-- **C19 (partial: inputs below 4 GiB), allocating form.** Compressing and decompressing with the allocating functions restores the byte
string, for every limit of the output size that admits it. -/
theorem compress_decompress_alloc_partial (Wc Wd : Nat) (data : List Byte) (format : Format) (level : Level) (hlen : data.length < 2 ^ 32) :
    ∃ z, compress Wc data format level = .ok z ∧
      ∀ max, data.length ≤ max → max < 2 ^ 64 → decompressedSize Wd z format max = .ok data.length ∧ decompress Wd z format max = .ok data := by
  obtain ⟨z, h1, h2⟩ := compress_decompress_partial Wc Wd data format level hlen
  refine ⟨z, h1, fun max hm hm' => ?_⟩
  have h3 := h2 data.length (Nat.le_refl _)
  have h4 := decompressedSize_of_span h3 hm hm'
  refine ⟨h4, ?_⟩
  unfold decompress
  rw [h4]
  dsimp only
  rw [h3]
  simp only [ne_eq, not_true_eq_false, if_false]

example : decompress 8 [0x01, 0x02, 0x00, 0xfd, 0xff, 0x61, 0x62] .rawDeflate 100 = .ok [0x61, 0x62] := by decide +kernel

/-- The default limit of the allocating function is part of the API — Compression.hpp: an input of more than 256 MiB is compressed without
complaint, and the result is refused. -/
theorem decompress_limit (W : Nat) (input : List Byte) (format : Format) (max : Nat) {data : List Byte}
    (h : decompress W input format max = .ok data) : data.length ≤ max := by
  unfold decompress at h
  cases e1 : decompressedSize W input format max with
  | error _ => rw [e1] at h; cases h
  | ok n =>
    rw [e1] at h
    dsimp only at h
    have hn : n ≤ max := by
      unfold decompressedSize at e1
      cases e3 : decompressInto W input (⟨0, 0, max⟩ : Counting) format with
      | error _ => rw [e3] at e1; cases e1
      | ok q =>
        rw [e3] at e1
        injection e1 with e1
        have hs := (decompressInto_safe counting_safe W input (⟨0, 0, max⟩ : Counting) format).ok_of e3
        have h1 := hs.2.fits (Nat.zero_le _)
        rw [hs.2.limit] at h1
        rw [← e1, hs.1]
        exact h1
    cases e2 : decompressSpan W input n format with
    | error _ => rw [e2] at h; cases h
    | ok p =>
      rw [e2] at h
      dsimp only at h
      by_cases hne : p.1 ≠ n
      · rw [if_pos hne] at h; cases h
      · rw [if_neg hne] at h
        injection h with h
        unfold decompressSpan at e2
        cases e4 : decompressInto W input (⟨[], n, 0⟩ : Span) format with
        | error _ => rw [e4] at e2; cases e2
        | ok q =>
          rw [e4] at e2
          injection e2 with e2
          have hs := (decompressInto_safe span_safe W input (⟨[], n, 0⟩ : Span) format).ok_of e4
          have h1 := hs.2.fits (Nat.zero_le _)
          rw [hs.2.capacity] at h1
          rw [← h, ← e2]
          exact Nat.le_trans h1 hn

example : decompress 8 [0x01, 0x02, 0x00, 0xfd, 0xff, 0x61, 0x62] .rawDeflate 1 = .error (.err .sizeLimitExceeded) := by decide +kernel

/-! ## C20: bound -/

/-- **C20.** Compressing never fails for lack of space, and the result is never longer than `compressBound`. -/
theorem compress_within_bound (W : Nat) (data : List Byte) (format : Format) (level : Level) :
    ∃ z, compress W data format level = .ok z ∧ z.length ≤ compressBound data.length format := by
  obtain ⟨e, _, _, h, _⟩ := compressOps_bits W data format level
  have h1 := opsOk_length (compressOps_ok W data format level)
  have h2 : (Writer.fresh.run (compressOps W data format level)).out.length ≤ compressBound data.length format := by omega
  refine ⟨_, ?_, h2⟩
  simp only [compress]
  rw [if_neg (by omega)]

/-- the bound in closed form: the data, five bytes for every started 65535 bytes (at least one), and the frame -/
theorem compressBound_eq (n : Nat) : compressBound n .rawDeflate = n + 5 * max 1 ((n + 65534) / 65535) ∧
    compressBound n .zlib = n + 5 * max 1 ((n + 65534) / 65535) + 6 ∧ compressBound n .gzip = n + 5 * max 1 ((n + 65534) / 65535) + 18 := by
  have h : storedBlockCount n = max 1 ((n + 65534) / 65535) := by
    have hk : kMaxStoredBlock = 65535 := rfl
    unfold storedBlockCount
    rw [hk]
    split <;> omega
  simp only [compressBound, h, and_self]

example : compressBound 65536 .gzip = 65564 := by decide

/-! ## C21: arbitrary input -/

/-- **C21.** Decompressing any byte string into a buffer of any capacity ends with an error of the API or with a success that wrote what it
says, at most the capacity. In particular it neither runs forever, nor accesses an array outside of its bounds, nor copies from before the
start of its output: those are the outcomes `fuel` and `ub` of the model. -/
theorem decompressSpan_safe (W : Nat) (input : List Byte) (capacity : Nat) (format : Format) :
    (∃ data, decompressSpan W input capacity format = .ok (data.length, data) ∧ data.length ≤ capacity) ∨
      ∃ e, decompressSpan W input capacity format = .error (.err e) := by
  have h := decompressInto_safe span_safe W input (⟨[], capacity, 0⟩ : Span) format
  unfold decompressSpan
  generalize decompressInto W input (⟨[], capacity, 0⟩ : Span) format = x at h
  cases h with
  | err e => exact .inr ⟨e, rfl⟩
  | @ok p h =>
    have h1 := h.2.fits (Nat.zero_le _)
    rw [h.2.capacity] at h1
    exact .inl ⟨p.2.data, by dsimp only; rw [h.1]; rfl, h1⟩

/-! a match before any output, a buffer one byte too small, and an empty input -/
example : decompressSpan 8 [0x03, 0x02, 0x00] 10 .rawDeflate = .error (.err .invalidBackReference) ∧
    decompressSpan 8 [0x01, 0x02, 0x00, 0xfd, 0xff, 0x61, 0x62] 1 .rawDeflate = .error (.err .outputTooSmall) ∧
    decompressSpan 8 [] 14 .gzip = .error (.err .truncatedInput) := by decide +kernel

/-- **C21.** The same for the size query and the allocating function, with the limit instead of the capacity. -/
theorem decompressedSize_safe (W : Nat) (input : List Byte) (format : Format) (max : Nat) :
    (∃ n, decompressedSize W input format max = .ok n ∧ n ≤ max) ∨ ∃ e, decompressedSize W input format max = .error (.err e) := by
  have h := decompressInto_safe counting_safe W input (⟨0, 0, max⟩ : Counting) format
  unfold decompressedSize
  generalize decompressInto W input (⟨0, 0, max⟩ : Counting) format = x at h
  cases h with
  | err e => exact .inr ⟨e, rfl⟩
  | @ok p h =>
    have h1 := h.2.fits (Nat.zero_le _)
    rw [h.2.limit] at h1
    exact .inl ⟨p.1, rfl, by rw [h.1]; exact h1⟩

theorem decompress_safe (W : Nat) (input : List Byte) (format : Format) (max : Nat) :
    (∃ data, decompress W input format max = .ok data ∧ data.length ≤ max) ∨ ∃ e, decompress W input format max = .error (.err e) := by
  cases h : decompress W input format max with
  | ok data => exact .inl ⟨data, rfl, decompress_limit W input format max h⟩
  | error x =>
    refine .inr ?_
    unfold decompress at h
    rcases decompressedSize_safe W input format max with ⟨n, e1, _⟩ | ⟨e, e1⟩
    · rw [e1] at h
      dsimp only at h
      rcases decompressSpan_safe W input n format with ⟨data, e2, _⟩ | ⟨e, e2⟩
      · rw [e2] at h
        dsimp only at h
        by_cases hne : data.length ≠ n
        · rw [if_pos hne] at h
          injection h with h
          exact ⟨_, by rw [← h]⟩
        · rw [if_neg hne] at h; cases h
      · rw [e2] at h
        injection h with h
        exact ⟨e, by rw [← h]⟩
    · rw [e1] at h
      injection h with h
      exact ⟨e, by rw [← h]⟩

/-! ## C22: size query, checksum and output agree -/

/-- **C22.** When decompressing into a buffer succeeds, the size query of the same input succeeds with the same size. -/
theorem decompressedSize_agrees {W : Nat} {input data : List Byte} {format : Format} {capacity n : Nat} (hcap : capacity < 2 ^ 64)
    (h : decompressSpan W input capacity format = .ok (n, data)) :
    decompressedSize W input format (2 ^ 64 - 1) = .ok n ∧ n = data.length := by
  refine ⟨decompressedSize_of_span h (by omega) (by omega), ?_⟩
  rcases decompressSpan_safe W input capacity format with ⟨data', e, _⟩ | ⟨e, e'⟩
  · rw [e] at h
    injection h with h
    injection h with h1 h2
    rw [← h1, h2]
  · rw [e'] at h; cases h

example : decompressedSize 8 [0x01, 0x02, 0x00, 0xfd, 0xff, 0x61, 0x62] .rawDeflate (2 ^ 64 - 1) = .ok 2 :=
  (decompressedSize_agrees (capacity := 15) (data := [0x61, 0x62]) (by decide) (by decide +kernel)).1

/-- **C22, the other direction.** When the size query succeeds, decompressing into a buffer of that size or larger yields that many bytes,
unless a checksum is wrong: the size query does not compute the checksums of the contents. -/
theorem decompressSpan_of_size {W : Nat} {input : List Byte} {format : Format} {max n : Nat} (h : decompressedSize W input format max = .ok n)
    {capacity : Nat} (hc : n ≤ capacity) :
    (∃ data, decompressSpan W input capacity format = .ok (n, data) ∧ data.length = n) ∨
      decompressSpan W input capacity format = .error (.err .checksumMismatch) := by
  unfold decompressedSize at h
  cases e : decompressInto W input (⟨0, 0, max⟩ : Counting) format with
  | error _ => rw [e] at h; cases h
  | ok p =>
    rw [e] at h
    injection h with h
    have hs := (decompressInto_safe counting_safe W input (⟨0, 0, max⟩ : Counting) format).ok_of e
    have hcount : p.2.count = n := by rw [← h, hs.1]; rfl
    unfold decompressSpan
    rcases (decompressInto_follows (counting_span capacity) W input format (c := ⟨[], capacity, 0⟩) ⟨rfl, rfl, Nat.le_refl _, rfl⟩ p.1 p.2 (by rw [e])).2
      (by omega) with ⟨c', k1, k2⟩ | ⟨_, k⟩
    · rw [k1]
      exact .inl ⟨c'.data, by rw [h], by rw [k2.1, hcount]⟩
    · rw [k]; exact .inr rfl

/-- **C22, finding.** The size query is documented to return "the exact decoded size after validating the stream"; it accepts a zlib stream
with a wrong checksum, which decompressing refuses. -/
theorem decompressedSize_skips_checksum : ∃ input, decompressedSize 8 input .zlib (2 ^ 64 - 1) = .ok 1 ∧
    decompressSpan 8 input 1 .zlib = .error (.err .checksumMismatch) :=
  ⟨[0x78, 0x01, 0x01, 0x01, 0x00, 0xfe, 0xff, 0x61, 0x00, 0x62, 0x00, 0x63], by decide +kernel, by decide +kernel⟩

theorem readLittle_le {n pos v : Nat} {input : List Byte} (h : readLittle n input pos = .ok v) :
    pos + n ≤ input.length ∧ (input.drop pos).take n = Bytes.le n v := by
  unfold readLittle at h
  cases e : Bytes.slice input pos n with
  | none => rw [e] at h; cases h
  | some bs =>
    rw [e] at h
    injection h with h
    unfold Bytes.slice at e
    by_cases hl : pos + n ≤ input.length
    · rw [if_pos hl] at e
      injection e with e
      refine ⟨hl, ?_⟩
      have := Bytes.le_leNat bs
      rw [← h, e]
      rw [← e, List.length_take, List.length_drop, Nat.min_eq_left (by omega)] at this
      rw [← e, this]
    · rw [if_neg hl] at e; cases e

/-- **C22, zlib.** Bytes accepted from a zlib container have the recorded Adler-32: the last four bytes, big-endian, are the checksum of RFC 1950
of the output. -/
theorem zlib_checksum {W : Nat} {input data : List Byte} {capacity n : Nat} (h : decompressSpan W input capacity .zlib = .ok (n, data)) :
    ∃ body, input = body ++ (Bytes.le 4 (Spec.adler data)).reverse := by
  unfold decompressSpan at h
  cases e : decompressInto W input (⟨[], capacity, 0⟩ : Span) .zlib with
  | error _ => rw [e] at h; cases h
  | ok p =>
    rw [e] at h
    injection h with h
    injection h with h1 h2
    rw [← adler32_eq_definition]
    match input with
    | [] => cases e
    | [_] => cases e
    | cmf :: flg :: rest =>
      simp only [decompressInto, decodeZlib] at e
      generalize hI : cmf :: flg :: rest = input at e ⊢
      by_cases h0 : cmf.toNat &&& 0x0f ≠ 8 ∨ 7 < cmf.toNat >>> 4 ∨ ((cmf.toNat <<< 8) + flg.toNat) % 31 ≠ 0
      · rw [if_pos h0] at e; cases e
      · rw [if_neg h0] at e
        by_cases h1 : flg.toNat &&& 0x20 ≠ 0
        · rw [if_pos h1] at e
          by_cases h2 : input.length < 6
          · rw [if_pos h2] at e; cases e
          · rw [if_neg h2] at e; cases e
        · rw [if_neg h1] at e
          cases h3 : decodeDeflate rest (⟨[], capacity, 0⟩ : Span) with
          | error _ => rw [h3] at e; cases e
          | ok q =>
            rw [h3] at e
            dsimp only at e
            by_cases h4 : input.length < 2 + q.1 + 4
            · rw [if_pos h4] at e; cases e
            · rw [if_neg h4] at e
              by_cases h5 : input.length ≠ 2 + q.1 + 4
              · rw [if_pos h5] at e; cases e
              · rw [if_neg h5] at e
                cases h6 : readBig32 input (2 + q.1) with
                | error _ => rw [h6] at e; cases e
                | ok sum =>
                  rw [h6] at e
                  dsimp only at e
                  by_cases h7 : (Output.range q.2 (Output.size (⟨[], capacity, 0⟩ : Span))).any (fun bs => decide (adler32 bs ≠ sum)) = true
                  · rw [if_pos h7] at e; cases e
                  · rw [if_neg h7] at e
                    injection e with e
                    have hd : q.2.data = data := by rw [← h2, ← e]
                    have hsum : adler32 data = sum := by
                      apply Classical.byContradiction
                      intro hne
                      apply h7
                      show decide (adler32 (q.2.data.drop 0) ≠ sum) = true
                      rw [List.drop_zero, hd]
                      exact decide_eq_true hne
                    unfold readBig32 at h6
                    unfold Bytes.slice at h6
                    rw [if_pos (by omega)] at h6
                    injection h6 with h6
                    refine ⟨input.take (2 + q.1), ?_⟩
                    have h8 := Bytes.le_leNat ((input.drop (2 + q.1)).take 4).reverse
                    rw [List.length_reverse, List.length_take, List.length_drop, Nat.min_eq_left (by omega)] at h8
                    rw [hsum, ← h6, h8, List.reverse_reverse, List.take_of_length_le (l := input.drop (2 + q.1)) (by rw [List.length_drop]; omega), List.take_append_drop]

example : decompressSpan 8 [0x78, 0x01, 0x01, 0x01, 0x00, 0xfe, 0xff, 0x61, 0x00, 0x62, 0x00, 0x62] 4 .zlib = .ok (1, [0x61]) := by decide +kernel

theorem gzipGo_members {W : Nat} {input : List Byte} : ∀ (n pos : Nat) (o : Span) (a : Nat) (o' : Span), gzipGo W input n pos o = .ok (a, o') →
    ∃ members : List (List Byte × List Byte),
      input.drop pos = members.flatMap (fun m => m.1 ++ Bytes.le 4 (Crc.crc32 m.2).toNat ++ Bytes.le 4 (m.2.length % 2 ^ 32)) ∧
      o'.data = o.data ++ members.flatMap (·.2) ∧ (pos < input.length → members ≠ [])
  | 0, _, _, _, _, e => by rw [gzipGo] at e; cases e
  | n + 1, pos, o, a, o', e => by
    rw [gzipGo] at e
    by_cases hlt : pos < input.length
    · rw [if_pos hlt] at e
      cases h1 : gzipMember W input pos o with
      | error _ => rw [h1] at e; cases e
      | ok p =>
        rw [h1] at e
        dsimp only at e
        obtain ⟨ms, a1, a2, _⟩ := gzipGo_members n p.1 p.2 a o' e
        have hsafe := (gzipMember_safe span_safe W input pos o).ok_of h1
        unfold gzipMember at h1
        cases h2 : gzipMemberHeader W input pos with
        | error _ => rw [h2] at h1; cases h1
        | ok hp =>
          have hhd := (gzipMemberHeader_safe W input pos).ok_of h2
          rw [h2] at h1
          dsimp only at h1
          cases h3 : decodeDeflate (input.drop hp) o with
          | error _ => rw [h3] at h1; cases h1
          | ok q =>
            have hg := ((decodeDeflate_safe span_safe (input.drop hp) o).ok_of h3).2.kept
            rw [h3] at h1
            dsimp only at h1
            by_cases h4 : input.length - (hp + q.1) < 8
            · rw [if_pos h4] at h1; cases h1
            · rw [if_neg h4] at h1
              cases h5 : readLittle 4 input (hp + q.1) with
              | error _ => rw [h5] at h1; cases h1
              | ok crc =>
                rw [h5] at h1
                dsimp only at h1
                by_cases h6 : (Output.range q.2 (Output.size o)).any (fun bs => decide (computeCrc32 W bs ≠ crc)) = true
                · rw [if_pos h6] at h1; cases h1
                · rw [if_neg h6] at h1
                  cases h7 : readLittle 4 input (hp + q.1 + 4) with
                  | error _ => rw [h7] at h1; cases h1
                  | ok size =>
                    rw [h7] at h1
                    dsimp only at h1
                    by_cases h8 : (Output.size q.2 - Output.size o) % 2 ^ 32 ≠ size
                    · rw [if_pos h8] at h1; cases h1
                    · rw [if_neg h8] at h1
                      injection h1 with h1
                      subst h1
                      dsimp only at a1 a2
                      obtain ⟨bs, hbs⟩ := hg
                      have hcrc : computeCrc32 W bs = crc := by
                        apply Classical.byContradiction
                        intro hne
                        apply h6
                        show decide (computeCrc32 W (q.2.data.drop o.data.length) ≠ crc) = true
                        rw [← hbs, List.drop_left]
                        exact decide_eq_true hne
                      rw [computeCrc32, Crc.simd_ieee] at hcrc
                      replace hcrc : (Crc.crc32 bs).toNat = crc := hcrc
                      have hsz : bs.length % 2 ^ 32 = size := by
                        apply Classical.byContradiction
                        intro hne
                        apply h8
                        show (q.2.data.length - o.data.length) % 2 ^ 32 ≠ size
                        rw [← hbs, List.length_append, Nat.add_sub_cancel_left]
                        exact hne
                      refine ⟨((input.drop pos).take (hp + q.1 - pos), bs) :: ms, ?_, ?_, fun _ => by simp⟩
                      · have c1 := (readLittle_le h5).2
                        have c2 := (readLittle_le h7).2
                        rw [List.flatMap_cons, ← a1]
                        dsimp only
                        rw [hcrc, hsz, ← c1, ← c2]
                        have e1 : input.drop pos = (input.drop pos).take (hp + q.1 - pos) ++ input.drop (hp + q.1) := by
                          conv => lhs; rw [← List.take_append_drop (hp + q.1 - pos) (input.drop pos)]
                          rw [List.drop_drop, show pos + (hp + q.1 - pos) = hp + q.1 by omega]
                        have e2 : ∀ k, input.drop k = (input.drop k).take 4 ++ input.drop (k + 4) := fun k => by
                          conv => lhs; rw [← List.take_append_drop 4 (input.drop k)]
                          rw [List.drop_drop]
                        conv => lhs; rw [e1, e2 (hp + q.1), e2 (hp + q.1 + 4)]
                        simp only [List.append_assoc]
                      · rw [a2, ← hbs, List.flatMap_cons, List.append_assoc]
    · rw [if_neg hlt] at e
      injection e with e
      injection e with e1 e2
      subst e2
      refine ⟨[], ?_, by simp, fun h => absurd h hlt⟩
      rw [List.drop_of_length_le (by omega), List.flatMap_nil]

/-- **C22, gzip.** An input accepted as gzip consists of at least one member; each ends with the CRC-32 and the length (modulo 2^32) of its part
of the output, in little-endian order, and the parts in their order are the output. -/
theorem gzip_checksum {W : Nat} {input data : List Byte} {capacity n : Nat} (h : decompressSpan W input capacity .gzip = .ok (n, data)) :
    ∃ members : List (List Byte × List Byte), members ≠ [] ∧ data = members.flatMap (·.2) ∧
      input = members.flatMap (fun m => m.1 ++ Bytes.le 4 (Crc.crc32 m.2).toNat ++ Bytes.le 4 (m.2.length % 2 ^ 32)) := by
  unfold decompressSpan at h
  cases e : decompressInto W input (⟨[], capacity, 0⟩ : Span) .gzip with
  | error _ => rw [e] at h; cases h
  | ok p =>
    rw [e] at h
    injection h with h
    injection h with h1 h2
    dsimp only [decompressInto] at e
    rw [decodeGzip] at e
    by_cases h0 : input = []
    · rw [if_pos h0] at e; cases e
    · rw [if_neg h0] at e
      obtain ⟨ms, a1, a2, a3⟩ := gzipGo_members _ _ _ _ _ e
      refine ⟨ms, a3 (List.length_pos_iff.2 h0), ?_, by rw [← a1, List.drop_zero]⟩
      rw [← h2, a2, List.nil_append]

/-! two members with the outputs "a" and "b" -/
example : decompressSpan 8
    ([0x1f, 0x8b, 0x08, 0, 0, 0, 0, 0, 0, 0xff, 0x01, 0x01, 0x00, 0xfe, 0xff, 0x61, 0x43, 0xbe, 0xb7, 0xe8, 1, 0, 0, 0] ++
      [0x1f, 0x8b, 0x08, 0, 0, 0, 0, 0, 0, 0xff, 0x01, 0x01, 0x00, 0xfe, 0xff, 0x62, 0xf9, 0xef, 0xbe, 0x71, 1, 0, 0, 0]) 4 .gzip =
    .ok (2, [0x61, 0x62]) := by decide +kernel

end Verif.Deflate
