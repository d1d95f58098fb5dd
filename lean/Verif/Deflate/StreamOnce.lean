import Verif.Deflate.StreamTurn
import Verif.Crc.Props
/-! # The one-shot decoder, read byte by byte

What the one-shot decoder accepts is rewritten as a predicate on the bytes still to come, so that it can be followed step by step. -/
namespace Verif.Deflate
open Verif.Bytes (Byte)

/-- `n` more bytes are collected behind `acc`, then `k` -/
def takeThen : Nat → (List Byte → List Byte → Prop) → List Byte → List Byte → Prop
  | 0, k, acc, B => k acc B
  | _ + 1, _, _, [] => False
  | n + 1, k, acc, b :: B => takeThen n k (acc ++ [b]) B

/-- the bytes up to a zero are collected behind `acc`, then `k` -/
def strThen (k : List Byte → List Byte → Prop) : List Byte → List Byte → Prop
  | _, [] => False
  | acc, b :: B => if b = 0 then k (acc ++ [b]) B else strThen k (acc ++ [b]) B

theorem takeThen_iff {k : List Byte → List Byte → Prop} : ∀ (n : Nat) (acc B : List Byte), takeThen n k acc B ↔ n ≤ B.length ∧ k (acc ++ B.take n) (B.drop n)
  | 0, acc, B => by simp [takeThen]
  | n + 1, acc, [] => by simp [takeThen]
  | n + 1, acc, b :: B => by rw [takeThen, takeThen_iff n]; simp

theorem strThen_iff {k : List Byte → List Byte → Prop} : ∀ (B acc : List Byte), strThen k acc B ↔
    ∃ i, B.findIdx? (fun b => decide (b = 0)) = some i ∧ k (acc ++ B.take (i + 1)) (B.drop (i + 1))
  | [], acc => by simp [strThen]
  | b :: B, acc => by
    rw [strThen, List.findIdx?_cons]
    by_cases hb : b = 0
    · rw [if_pos hb, if_pos (by simpa using hb)]
      simp
    · rw [if_neg hb, if_neg (by simpa using hb), strThen_iff B]
      constructor
      · rintro ⟨i, h1, h2⟩
        exact ⟨i + 1, by rw [h1]; rfl, by simpa using h2⟩
      · rintro ⟨i, h1, h2⟩
        cases e : B.findIdx? (fun b => decide (b = 0)) with
        | none => rw [e] at h1; cases h1
        | some j =>
          rw [e] at h1
          obtain rfl := Option.some.inj h1
          exact ⟨j, rfl, by simpa using h2⟩

/-! ## the deflate stream -/

theorem new_eq_full (B : List Byte) : (Reader.new B).full [] B.length = Reader.new B := by
  simp [Reader.full, Reader.new]

/-- where the one-shot decoder comes to its end, and what it leaves -/
theorem deflate_run {B : List Byte} {o : Span} {F : Reader × Span} (hle : o.data.length ≤ o.capacity) (hb : o.historyBegin = o.data.length)
    (h : Blocks (Reader.new B) o F) : F.1.rest = B.drop F.1.pos ∧ F.1.pos ≤ B.length ∧ F.2.historyBegin = o.historyBegin ∧ F.2.capacity = o.capacity ∧
      F.2.data.length ≤ F.2.capacity ∧ o.data <+: F.2.data := by
  obtain ⟨so, h1, h2, h3⟩ := OutRel.exists o hle hb (o.capacity + 1)
  have hw : (Reader.new B).Within B := ⟨by simp [Reader.new], by simp [Reader.new], by simp [Reader.new], by simp [Reader.new]⟩
  have hg := inflateGo_ok (finish := true) (fut := []) (chunk := B) (T := B.length) (fun _ => rfl) _ .fresh (Reader.new B) so o .fresh hw h1
    (by simp [Reader.new]) (iMeasure_lt (s := .fresh))
  generalize inflateGo true (inflateFuel (Reader.new B) so) .fresh (Reader.new B) so = y at hg
  have hF : Resumes .fresh ((Reader.new B).full [] B.length) o F := by
    rw [new_eq_full]
    exact (resumes_header rfl rfl).2 h
  obtain ⟨hg1, hg⟩ := hg
  cases hg with
  | advanced => exact absurd rfl (hg1 _ _ _)
  | fail k => exact absurd hF (k F)
  | @stop p s' r' so' o' k1 k2 k3 k4 k5 =>
    have hout : so'.out.length < so'.room := by
      have h5 := congrArg List.length k1.out.data
      rw [List.length_append] at h5
      have h6 := k1.out.le
      have h7 := k1.hb.2
      rw [k1.room, h3]; omega
    cases p with
    | needInput => exact absurd (k3 rfl).1 (by decide)
    | needOutput =>
      have := k4 rfl
      simp only [StreamOut.full, decide_eq_true_eq] at this
      omega
    | finished =>
      obtain ⟨hm, hp⟩ := k5 rfl
      have h4 := (k2 F).1 hF
      rw [resumes_of_zero hp, byMode, hm] at h4
      subst h4
      have hc := k1.moves.within
      have hpos : (r'.full [] B.length).pos = r'.pos := by
        simp only [Reader.full, hc.rest, List.length_drop, List.length_nil]
        have := hc.pos
        omega
      refine ⟨?_, by rw [hpos]; exact hc.pos, k1.hb.1, k1.hb.2, k1.out.le, by rw [k1.out.data]; exact List.prefix_append _ _⟩
      rw [hpos, ← hc.rest]
      simp [Reader.full]

theorem decodeDeflate_iff {B : List Byte} {o o' : Span} {c : Nat} : decodeDeflate B o = .ok (c, o') ↔
    ∃ R, Blocks (Reader.new B) { o with historyBegin := o.data.length } (R, o') ∧ c = R.pos := by
  have hm := mono_safe (f := fun n => blocksGo n (Reader.new B) (Output.resetHistory o)) (fun n x h hx => blocksGo_mono n _ _ x h hx)
    (blocksGo_safe span_safe ((Reader.new B).left + 1) (Reader.new B) (Output.resetHistory o) (by omega) (Reader.new_ok B))
  unfold decodeDeflate Blocks
  constructor
  · intro h
    cases e : blocksGo ((Reader.new B).left + 1) (Reader.new B) (Output.resetHistory o) with
    | error x => rw [e] at h; cases h
    | ok p =>
      rw [e] at h
      obtain ⟨rfl, rfl⟩ := Prod.mk.inj (Except.ok.inj h)
      exact ⟨p.1.alignByte, ⟨_, p.1, p.2, e, rfl⟩, rfl⟩
  · rintro ⟨R, ⟨n, R1, o1, h1, h2⟩, rfl⟩
    obtain ⟨rfl, rfl⟩ := Prod.mk.inj h2
    rw [(hm _).2 ⟨n, h1⟩]

theorem deflate_ex {B : List Byte} {o : Span} {P : Nat × Span → Prop} : (∃ q, decodeDeflate B o = .ok q ∧ P q) ↔
    ∃ F : Reader × Span, Blocks (Reader.new B) { o with historyBegin := o.data.length } F ∧ P (F.1.pos, F.2) := by
  constructor
  · rintro ⟨⟨c, o'⟩, h, hP⟩
    obtain ⟨R, h1, rfl⟩ := decodeDeflate_iff.1 h
    exact ⟨(R, o'), h1, hP⟩
  · rintro ⟨⟨R, o'⟩, h, hP⟩
    exact ⟨(R.pos, o'), decodeDeflate_iff.2 ⟨R, h, rfl⟩, hP⟩

/-! ## raw streams -/

theorem raw_iff {S D : List Byte} {cap : Nat} : (∃ q, decodeRaw S (⟨[], cap, 0⟩ : Span) = .ok q ∧ D = q.2.data) ↔
    ∃ F, Blocks (Reader.new S) ⟨[], cap, 0⟩ F ∧ F.1.rest = [] ∧ D = F.2.data := by
  have h0 := deflate_ex (B := S) (o := ⟨[], cap, 0⟩) (P := fun q => q.1 = S.length ∧ D = q.2.data)
  have h1 : (∃ q, decodeRaw S (⟨[], cap, 0⟩ : Span) = .ok q ∧ D = q.2.data) ↔
      ∃ q, decodeDeflate S (⟨[], cap, 0⟩ : Span) = .ok q ∧ q.1 = S.length ∧ D = q.2.data := by
    unfold decodeRaw
    cases e : decodeDeflate S (⟨[], cap, 0⟩ : Span) with
    | error x => exact ⟨fun ⟨_, h, _⟩ => (by cases h), fun ⟨_, h, _⟩ => (by cases h)⟩
    | ok q =>
      obtain ⟨c, o'⟩ := q
      rw [ex_ok]
      dsimp only
      by_cases hc : c ≠ S.length
      · rw [if_pos hc]
        exact ⟨fun ⟨_, h, _⟩ => (by cases h), fun h => absurd h.1 hc⟩
      · rw [if_neg hc, ex_ok]
        exact ⟨fun h => ⟨by omega, h⟩, fun h => h.2⟩
  rw [h1, h0]
  constructor
  · rintro ⟨F, h, h2, h3⟩
    have := deflate_run (o := ⟨[], cap, 0⟩) (by simp) rfl h
    dsimp only at h2
    exact ⟨F, h, by rw [this.1, h2, List.drop_length], h3⟩
  · rintro ⟨F, h, h2, h3⟩
    have := deflate_run (o := ⟨[], cap, 0⟩) (by simp) rfl h
    refine ⟨F, h, ?_, h3⟩
    rw [this.1, List.drop_eq_nil_iff] at h2
    exact Nat.le_antisymm this.2.1 h2

/-! ## zlib streams -/

/-- the trailer, of which `t` was read -/
def ZTrail (D t B : List Byte) (o : Span) : Prop :=
  takeThen (4 - t.length) (fun t B => B = [] ∧ adler32 o.data = Bytes.leNat t.reverse ∧ D = o.data) t B

/-- a bad header -/
def zbad (cmf flg : Byte) : Prop := cmf.toNat &&& 0x0f ≠ 8 ∨ 7 < cmf.toNat >>> 4 ∨ ((cmf.toNat <<< 8) + flg.toNat) % 31 ≠ 0

/-- the deflate stream -/
def ZBody (D B : List Byte) (o : Span) : Prop := ∃ F, Blocks (Reader.new B) o F ∧ ZTrail D [] F.1.rest F.2

/-- the header, of which `h` was read -/
def ZHead (D h B : List Byte) (o : Span) : Prop :=
  takeThen (2 - h.length) (fun h B => ∃ cmf flg, h = [cmf, flg] ∧ ¬ zbad cmf flg ∧ ¬ flg.toNat &&& 0x20 ≠ 0 ∧ ZBody D B o) h B

theorem readBig32_ok {S : List Byte} {p : Nat} (h : p + 4 ≤ S.length) : readBig32 S p = .ok (Bytes.leNat ((S.drop p).take 4).reverse) := by
  rw [readBig32, Bytes.slice, if_pos h]

theorem readLittle_ok {S : List Byte} {p n : Nat} (h : p + n ≤ S.length) : readLittle n S p = .ok (Bytes.leNat ((S.drop p).take n)) := by
  rw [readLittle, Bytes.slice, if_pos h]

theorem zlib_iff {S D : List Byte} {cap : Nat} : (∃ q, decodeZlib S (⟨[], cap, 0⟩ : Span) = .ok q ∧ D = q.2.data) ↔ ZHead D [] S ⟨[], cap, 0⟩ := by
  match S with
  | [] => exact ⟨fun ⟨_, h, _⟩ => (by cases h), fun h => h.elim⟩
  | [_] => exact ⟨fun ⟨_, h, _⟩ => (by cases h), fun h => h.elim⟩
  | cmf :: flg :: B =>
    have hz : ZHead D [] (cmf :: flg :: B) ⟨[], cap, 0⟩ ↔ ¬ zbad cmf flg ∧ ¬ flg.toNat &&& 0x20 ≠ 0 ∧ ZBody D B ⟨[], cap, 0⟩ := by
      show (∃ cmf' flg', [cmf, flg] = [cmf', flg'] ∧ ¬ zbad cmf' flg' ∧ ¬ flg'.toNat &&& 0x20 ≠ 0 ∧ ZBody D B ⟨[], cap, 0⟩) ↔ _
      constructor
      · rintro ⟨a, b, h, h2⟩
        simp only [List.cons.injEq, and_true] at h
        obtain ⟨rfl, rfl⟩ := h
        exact h2
      · intro h; exact ⟨cmf, flg, rfl, h⟩
    rw [hz]
    unfold decodeZlib
    dsimp only
    by_cases hb : zbad cmf flg
    · unfold zbad at hb
      rw [if_pos hb]
      exact ⟨fun ⟨_, h, _⟩ => (by cases h), fun h => absurd hb h.1⟩
    · unfold zbad at hb
      rw [if_neg hb]
      by_cases h20 : flg.toNat &&& 0x20 ≠ 0
      · rw [if_pos h20]
        refine ⟨fun ⟨_, h, _⟩ => ?_, fun h => absurd h20 h.2.1⟩
        split at h <;> cases h
      · rw [if_neg h20]
        have h0 := deflate_ex (B := B) (o := ⟨[], cap, 0⟩) (P := fun q => B.length = q.1 + 4 ∧ adler32 q.2.data = Bytes.leNat ((B.drop q.1).take 4).reverse ∧ D = q.2.data)
        have h1 : ZBody D B ⟨[], cap, 0⟩ ↔ ∃ q, decodeDeflate B (⟨[], cap, 0⟩ : Span) = .ok q ∧
            B.length = q.1 + 4 ∧ adler32 q.2.data = Bytes.leNat ((B.drop q.1).take 4).reverse ∧ D = q.2.data := by
          rw [h0]
          unfold ZBody
          constructor
          · rintro ⟨F, h, h2⟩
            have hr := deflate_run (o := ⟨[], cap, 0⟩) (by simp) rfl h
            refine ⟨F, h, ?_⟩
            rw [ZTrail, takeThen_iff, hr.1] at h2
            simp only [List.length_nil, Nat.sub_zero, List.nil_append, List.drop_drop, List.drop_eq_nil_iff, List.length_drop] at h2
            exact ⟨by omega, h2.2.2⟩
          · rintro ⟨F, h, h2, h3⟩
            have hr := deflate_run (o := ⟨[], cap, 0⟩) (by simp) rfl h
            refine ⟨F, h, ?_⟩
            rw [ZTrail, takeThen_iff, hr.1]
            simp only [List.length_nil, Nat.sub_zero, List.nil_append, List.drop_drop, List.drop_eq_nil_iff, List.length_drop]
            exact ⟨by omega, by omega, h3⟩
        rw [h1]
        cases e : decodeDeflate B (⟨[], cap, 0⟩ : Span) with
        | error x => exact ⟨fun ⟨_, h, _⟩ => (by cases h), fun ⟨_, _, _, h, _⟩ => (by cases h)⟩
        | ok q =>
          obtain ⟨c, o'⟩ := q
          rw [ex_ok]
          dsimp only
          simp only [List.length_cons]
          by_cases hl1 : B.length + 1 + 1 < 2 + c + 4
          · rw [if_pos hl1]
            exact ⟨fun ⟨_, h, _⟩ => (by cases h), fun h => by omega⟩
          · rw [if_neg hl1]
            by_cases hl2 : B.length + 1 + 1 ≠ 2 + c + 4
            · rw [if_pos hl2]
              exact ⟨fun ⟨_, h, _⟩ => (by cases h), fun h => by omega⟩
            · rw [if_neg hl2, readBig32_ok (by simp only [List.length_cons]; omega)]
              dsimp only
              rw [show (cmf :: flg :: B).drop (2 + c) = B.drop c by rw [Nat.add_comm]; rfl]
              change (∃ q, (if decide (adler32 (o'.data.drop 0) ≠ Bytes.leNat ((B.drop c).take 4).reverse) = true then _ else _) = _ ∧ _) ↔ _
              rw [List.drop_zero]
              by_cases ha : adler32 o'.data ≠ Bytes.leNat ((B.drop c).take 4).reverse
              · rw [if_pos (decide_eq_true ha)]
                exact ⟨fun ⟨_, h, _⟩ => (by cases h), fun h => absurd h.2.2.2.1 ha⟩
              · rw [if_neg (by simpa using ha), ex_ok]
                exact ⟨fun h => ⟨hb, h20, by omega, Classical.not_not.1 ha, h⟩, fun h => h.2.2.2.2⟩

/-! ## gzip streams -/

/-- CRC-32 as the streaming decoder computes it -/
def crcValue (c : BitVec 32) : Nat := (c ^^^ 0xffffffff#32).toNat
def crcOf (data : List Byte) : Nat := crcValue (Crc.updateScalar Crc.ieee 0xffffffff#32 data)

theorem computeCrc32_of (W : Nat) (data : List Byte) : computeCrc32 W data = crcOf data := by
  rw [computeCrc32, Crc.simd_eq_scalar]; rfl

variable (flags : Nat) (K : List Byte → Prop)

/-- the checksum of the header `pre`, of which `q` was read, then `K` -/
def GCrc (pre q B : List Byte) : Prop := takeThen (2 - q.length) (fun q B => Bytes.leNat q = crcOf pre &&& 0xffff ∧ K B) q B
def GAfterComment (pre B : List Byte) : Prop := if flags &&& 0x02 ≠ 0 then GCrc K pre [] B else K B
def GComment (pre B : List Byte) : Prop := strThen (GAfterComment flags K) pre B
def GAfterName (pre B : List Byte) : Prop := if flags &&& 0x10 ≠ 0 then GComment flags K pre B else GAfterComment flags K pre B
def GName (pre B : List Byte) : Prop := strThen (GAfterName flags K) pre B
def GAfterExtra (pre B : List Byte) : Prop := if flags &&& 0x08 ≠ 0 then GName flags K pre B else GAfterName flags K pre B
/-- `n` bytes of the extra field are to come -/
def GExtra (n : Nat) (pre B : List Byte) : Prop := takeThen n (GAfterExtra flags K) pre B
/-- the length of the extra field, of which `t` was read -/
def GExtraLen (pre t B : List Byte) : Prop := takeThen (2 - t.length) (fun t B => GExtra flags K (Bytes.leNat t) (pre ++ t) B) t B
def GOpt (pre B : List Byte) : Prop := if flags &&& 0x04 ≠ 0 then GExtraLen flags K pre [] B else GAfterExtra flags K pre B

/-- what the fixed part of a member has to look like -/
def goodHead (h : List Byte) : Prop := h[0]? = some 0x1f#8 ∧ h[1]? = some 0x8b#8 ∧ h[2]? = some 0x08#8 ∧ (h.getD 3 0).toNat &&& 0xe0 = 0

/-- the fixed part of a member, of which `h` was read -/
def GHead (h B : List Byte) : Prop := takeThen (10 - h.length) (fun h B => goodHead h ∧ GOpt (h.getD 3 0).toNat K h B) h B

variable {flags K}

section stages
variable {W : Nat} {S : List Byte} {start pos : Nat}

theorem take_drop_more {j : Nat} (h : start ≤ pos) : (S.drop start).take (pos - start) ++ (S.drop pos).take j = (S.drop start).take (pos + j - start) := by
  have e : S.drop pos = (S.drop start).drop (pos - start) := by rw [List.drop_drop]; congr 1; omega
  rw [e, ← List.take_add]
  congr 1; omega

theorem headerCrc_iff (hs : start ≤ pos) : (∃ p, (if flags &&& 0x02 ≠ 0 then skipHeaderCrc W S start pos else (.ok pos : Res Nat)) = .ok p ∧ K (S.drop p)) ↔
    GAfterComment flags K ((S.drop start).take (pos - start)) (S.drop pos) := by
  unfold GAfterComment
  by_cases hf : flags &&& 0x02 ≠ 0
  · rw [if_pos hf, if_pos hf, GCrc, takeThen_iff, skipHeaderCrc]
    simp only [List.length_nil, Nat.sub_zero, List.nil_append, List.length_drop, List.drop_drop]
    by_cases hl : S.length - pos < 2
    · rw [if_pos hl]
      exact ⟨fun ⟨_, h, _⟩ => (by cases h), fun h => by omega⟩
    · rw [if_neg hl, readLittle_ok (by omega)]
      dsimp only
      rw [computeCrc32_of]
      by_cases hc : Bytes.leNat ((S.drop pos).take 2) ≠ crcOf ((S.drop start).take (pos - start)) &&& 0xffff
      · rw [if_pos hc]
        exact ⟨fun ⟨_, h, _⟩ => (by cases h), fun h => absurd h.2.1 hc⟩
      · rw [if_neg hc, ex_ok]
        exact ⟨fun h => ⟨by omega, Classical.not_not.1 hc, h⟩, fun h => h.2.2⟩
  · rw [if_neg hf, if_neg hf, ex_ok]

theorem skipString_ex {P : Nat → Prop} {k : List Byte → List Byte → Prop} (hs : start ≤ pos)
    (hk : ∀ p, pos ≤ p → (P p ↔ k ((S.drop start).take (p - start)) (S.drop p))) :
    (∃ p, skipString S pos = .ok p ∧ P p) ↔ strThen k ((S.drop start).take (pos - start)) (S.drop pos) := by
  rw [strThen_iff, skipString]
  cases e : (S.drop pos).findIdx? (fun b => decide (b = 0)) with
  | none => exact ⟨fun ⟨_, h, _⟩ => (by cases h), fun ⟨_, h, _⟩ => (by cases h)⟩
  | some i =>
    dsimp only
    rw [ex_ok, hk _ (by omega)]
    simp only [take_drop_more hs, List.drop_drop, ← Nat.add_assoc]
    constructor
    · intro h; exact ⟨i, rfl, h⟩
    · rintro ⟨j, h, h2⟩
      obtain rfl := Option.some.inj h
      exact h2

theorem ex_bind {f : Res Nat} {g : Nat → Res Nat} {P : Nat → Prop} {y : Res Nat} (hy : y = match f with | .error e => .error e | .ok p => g p) :
    (∃ p, y = .ok p ∧ P p) ↔ ∃ p1, f = .ok p1 ∧ ∃ p, g p1 = .ok p ∧ P p := by
  subst hy
  cases f with
  | error x => exact ⟨fun ⟨_, h, _⟩ => (by cases h), fun ⟨_, h, _⟩ => (by cases h)⟩
  | ok p1 => rw [ex_ok]

theorem comment_iff (hs : start ≤ pos) : (∃ p3, (if flags &&& 0x10 ≠ 0 then skipString S pos else (.ok pos : Res Nat)) = .ok p3 ∧
      ∃ p, (if flags &&& 0x02 ≠ 0 then skipHeaderCrc W S start p3 else (.ok p3 : Res Nat)) = .ok p ∧ K (S.drop p)) ↔
    GAfterName flags K ((S.drop start).take (pos - start)) (S.drop pos) := by
  unfold GAfterName
  by_cases hf : flags &&& 0x10 ≠ 0
  · rw [if_pos hf, if_pos hf]
    exact skipString_ex hs fun p hp => headerCrc_iff (by omega)
  · rw [if_neg hf, if_neg hf, ex_ok, headerCrc_iff hs]

theorem name_iff (hs : start ≤ pos) : (∃ p2, (if flags &&& 0x08 ≠ 0 then skipString S pos else (.ok pos : Res Nat)) = .ok p2 ∧
      ∃ p3, (if flags &&& 0x10 ≠ 0 then skipString S p2 else (.ok p2 : Res Nat)) = .ok p3 ∧
      ∃ p, (if flags &&& 0x02 ≠ 0 then skipHeaderCrc W S start p3 else (.ok p3 : Res Nat)) = .ok p ∧ K (S.drop p)) ↔
    GAfterExtra flags K ((S.drop start).take (pos - start)) (S.drop pos) := by
  unfold GAfterExtra
  by_cases hf : flags &&& 0x08 ≠ 0
  · rw [if_pos hf, if_pos hf]
    exact skipString_ex hs fun p hp => comment_iff (by omega)
  · rw [if_neg hf, if_neg hf, ex_ok, comment_iff hs]

theorem extra_iff (hs : start ≤ pos) : (∃ p1, (if flags &&& 0x04 ≠ 0 then skipExtra S pos else (.ok pos : Res Nat)) = .ok p1 ∧
      ∃ p2, (if flags &&& 0x08 ≠ 0 then skipString S p1 else (.ok p1 : Res Nat)) = .ok p2 ∧
      ∃ p3, (if flags &&& 0x10 ≠ 0 then skipString S p2 else (.ok p2 : Res Nat)) = .ok p3 ∧
      ∃ p, (if flags &&& 0x02 ≠ 0 then skipHeaderCrc W S start p3 else (.ok p3 : Res Nat)) = .ok p ∧ K (S.drop p)) ↔
    GOpt flags K ((S.drop start).take (pos - start)) (S.drop pos) := by
  unfold GOpt
  by_cases hf : flags &&& 0x04 ≠ 0
  · rw [if_pos hf, if_pos hf, GExtraLen, takeThen_iff, GExtra, takeThen_iff, skipExtra]
    simp only [List.length_nil, Nat.sub_zero, List.nil_append, List.length_drop, List.drop_drop]
    by_cases hl : S.length - pos < 2
    · rw [if_pos hl]
      exact ⟨fun ⟨_, h, _⟩ => (by cases h), fun h => by omega⟩
    · rw [if_neg hl, readLittle_ok (by omega)]
      dsimp only
      generalize Bytes.leNat ((S.drop pos).take 2) = n
      by_cases hn : S.length - (pos + 2) < n
      · rw [if_pos hn]
        exact ⟨fun ⟨_, h, _⟩ => (by cases h), fun h => by omega⟩
      · rw [if_neg hn, ex_ok, name_iff (by omega), take_drop_more hs, take_drop_more (by omega)]
        exact ⟨fun h => ⟨by omega, by omega, h⟩, fun h => h.2.2⟩
  · rw [if_neg hf, if_neg hf, ex_ok, name_iff hs]

theorem gzipHeader_iff : (∃ p, gzipMemberHeader W S start = .ok p ∧ K (S.drop p)) ↔ GHead K [] (S.drop start) := by
  rw [GHead, takeThen_iff]
  simp only [List.length_nil, Nat.sub_zero, List.nil_append, List.length_drop, List.drop_drop]
  have hidx : ∀ i, i < 10 → ((S.drop start).take 10)[i]? = S[start + i]? := fun i hi => by
    rw [List.getElem?_take_of_lt hi, List.getElem?_drop]
  unfold gzipMemberHeader
  by_cases h1 : S.length - start < 2
  · rw [if_pos h1]
    refine ⟨fun ⟨_, h, _⟩ => ?_, fun h => by omega⟩
    split at h <;> cases h
  · rw [if_neg h1]
    unfold goodHead
    have h0 := hidx 0 (by omega)
    rw [Nat.add_zero] at h0
    rw [h0, hidx 1 (by omega), hidx 2 (by omega)]
    by_cases h2 : S[start]? ≠ some 0x1f#8 ∨ S[start + 1]? ≠ some 0x8b#8
    · rw [if_pos h2]
      refine ⟨fun ⟨_, h, _⟩ => ?_, fun ⟨_, ⟨ha, hb, _⟩, _⟩ => ?_⟩
      · split at h <;> cases h
      · rcases h2 with h2 | h2
        · exact absurd ha h2
        · exact absurd hb h2
    · rw [if_neg h2]
      by_cases h3 : S.length - start < 10
      · rw [if_pos h3]
        exact ⟨fun ⟨_, h, _⟩ => (by cases h), fun h => by omega⟩
      · rw [if_neg h3]
        by_cases h4 : S[start + 2]? ≠ some 0x08#8
        · rw [if_pos h4]
          exact ⟨fun ⟨_, h, _⟩ => (by cases h), fun h => absurd h.2.1.2.2.1 h4⟩
        · rw [if_neg h4]
          have hfl : ((S.drop start).take 10).getD 3 0 = S.getD (start + 3) 0 := by
            rw [List.getD_eq_getElem?_getD, List.getD_eq_getElem?_getD, hidx 3 (by omega)]
          rw [hfl]
          dsimp only
          generalize (S.getD (start + 3) 0).toNat = fl
          by_cases h5 : fl &&& 0xe0 ≠ 0
          · rw [if_pos h5]
            exact ⟨fun ⟨_, h, _⟩ => (by cases h), fun h => absurd h.2.1.2.2.2 h5⟩
          · rw [if_neg h5]
            have hx := extra_iff (W := W) (S := S) (flags := fl) (K := K) (start := start) (pos := start + 10) (by omega)
            rw [show start + 10 - start = 10 by omega] at hx
            simp only [not_or, Classical.not_not] at h2
            have hand : (10 ≤ S.length - start ∧ (S[start]? = some 0x1f#8 ∧ S[start + 1]? = some 0x8b#8 ∧ S[start + 2]? = some 0x08#8 ∧ fl &&& 0xe0 = 0) ∧
                GOpt fl K ((S.drop start).take 10) (S.drop (start + 10))) ↔ GOpt fl K ((S.drop start).take 10) (S.drop (start + 10)) :=
              ⟨fun h => h.2.2, fun h => ⟨by omega, ⟨h2.1, h2.2, Classical.not_not.1 h4, Classical.not_not.1 h5⟩, h⟩⟩
            rw [hand, ← hx]
            generalize (if fl &&& 0x04 ≠ 0 then skipExtra S (start + 10) else (.ok (start + 10) : Res Nat)) = f1
            cases f1 with
            | error x => exact ⟨fun ⟨_, h, _⟩ => (by cases h), fun ⟨_, h, _⟩ => (by cases h)⟩
            | ok p1 =>
              dsimp only
              simp only [Except.ok.injEq, exists_eq_left']
              generalize (if fl &&& 0x08 ≠ 0 then skipString S p1 else (.ok p1 : Res Nat)) = f2
              cases f2 with
              | error x => exact ⟨fun ⟨_, h, _⟩ => (by cases h), fun ⟨_, h, _⟩ => (by cases h)⟩
              | ok p2 =>
                dsimp only
                simp only [Except.ok.injEq, exists_eq_left']
                generalize (if fl &&& 0x10 ≠ 0 then skipString S p2 else (.ok p2 : Res Nat)) = f3
                cases f3 with
                | error x => exact ⟨fun ⟨_, h, _⟩ => (by cases h), fun ⟨_, h, _⟩ => (by cases h)⟩
                | ok p3 =>
                  simp only [Except.ok.injEq, exists_eq_left']

end stages

/-! ### members -/

/-- the members in `B`, the last part of `S` -/
def Members (W : Nat) (S D B : List Byte) (o : Span) : Prop := ∃ n q, gzipGo W S n (S.length - B.length) o = .ok q ∧ D = q.2.data

/-- the trailer of a member, of which `t` was read -/
def GTrail (W : Nat) (S D t B : List Byte) (o : Span) : Prop :=
  takeThen (8 - t.length) (fun t B => crcOf (o.data.drop o.historyBegin) = Bytes.leNat (t.take 4) ∧
    (o.data.length - o.historyBegin) % 2 ^ 32 = Bytes.leNat (t.drop 4) ∧ Members W S D B o) t B

/-- the deflate stream of a member -/
def GBody (W : Nat) (S D : List Byte) (o : Span) (B : List Byte) : Prop :=
  ∃ F, Blocks (Reader.new B) { o with historyBegin := o.data.length } F ∧ GTrail W S D [] F.1.rest F.2

theorem member_iff {W : Nat} {S D : List Byte} {start : Nat} {o : Span} (hle : o.data.length ≤ o.capacity) :
    (∃ q, gzipMember W S start o = .ok q ∧ Members W S D (S.drop q.1) q.2) ↔ GHead (GBody W S D o) [] (S.drop start) := by
  rw [← gzipHeader_iff (W := W)]
  unfold gzipMember
  have hsafe := gzipMemberHeader_safe W S start
  cases e : gzipMemberHeader W S start with
  | error x => exact ⟨fun ⟨_, h, _⟩ => (by cases h), fun ⟨_, h, _⟩ => (by cases h)⟩
  | ok p =>
    have hp := (hsafe.ok_of e).2
    rw [ex_ok]
    dsimp only
    have h0 := deflate_ex (B := S.drop p) (o := o) (P := fun q => ¬ S.length - (p + q.1) < 8 ∧
      crcOf (q.2.data.drop o.data.length) = Bytes.leNat ((S.drop (p + q.1)).take 4) ∧
      (q.2.data.length - o.data.length) % 2 ^ 32 = Bytes.leNat ((S.drop (p + q.1 + 4)).take 4) ∧ Members W S D (S.drop (p + q.1 + 8)) q.2)
    have h1 : GBody W S D o (S.drop p) ↔ ∃ q, decodeDeflate (S.drop p) o = .ok q ∧ ¬ S.length - (p + q.1) < 8 ∧
      crcOf (q.2.data.drop o.data.length) = Bytes.leNat ((S.drop (p + q.1)).take 4) ∧
      (q.2.data.length - o.data.length) % 2 ^ 32 = Bytes.leNat ((S.drop (p + q.1 + 4)).take 4) ∧ Members W S D (S.drop (p + q.1 + 8)) q.2 := by
      rw [h0]
      unfold GBody
      have key : ∀ F : Reader × Span, Blocks (Reader.new (S.drop p)) { o with historyBegin := o.data.length } F →
          (GTrail W S D [] F.1.rest F.2 ↔ ¬ S.length - (p + F.1.pos) < 8 ∧
            crcOf (F.2.data.drop o.data.length) = Bytes.leNat ((S.drop (p + F.1.pos)).take 4) ∧
            (F.2.data.length - o.data.length) % 2 ^ 32 = Bytes.leNat ((S.drop (p + F.1.pos + 4)).take 4) ∧ Members W S D (S.drop (p + F.1.pos + 8)) F.2) := by
        intro F hF
        have hr := deflate_run (o := { o with historyBegin := o.data.length }) hle rfl hF
        rw [GTrail, takeThen_iff, hr.1, hr.2.2.1]
        simp only [List.length_nil, Nat.sub_zero, List.nil_append, List.length_drop, List.drop_drop]
        rw [List.take_take, show min 4 8 = 4 from rfl]
        have hd : ((S.drop (p + F.1.pos)).take 8).drop 4 = (S.drop (p + F.1.pos + 4)).take 4 := by
          rw [List.drop_take, List.drop_drop]
        rw [hd]
        constructor
        · rintro ⟨a, b⟩; exact ⟨by omega, b⟩
        · rintro ⟨a, b⟩; exact ⟨by omega, b⟩
      exact ⟨fun ⟨F, h1, h2⟩ => ⟨F, h1, (key F h1).1 h2⟩, fun ⟨F, h1, h2⟩ => ⟨F, h1, (key F h1).2 h2⟩⟩
    rw [h1]
    cases e2 : decodeDeflate (S.drop p) o with
    | error x => exact ⟨fun ⟨_, h, _⟩ => (by cases h), fun ⟨_, h, _⟩ => (by cases h)⟩
    | ok q =>
      obtain ⟨c, o'⟩ := q
      rw [ex_ok]
      dsimp only
      by_cases h8 : S.length - (p + c) < 8
      · rw [if_pos h8]
        exact ⟨fun ⟨_, h, _⟩ => (by cases h), fun h => absurd h8 h.1⟩
      · rw [if_neg h8, readLittle_ok (by omega)]
        dsimp only
        change (∃ q, (if decide (computeCrc32 W (o'.data.drop o.data.length) ≠ Bytes.leNat ((S.drop (p + c)).take 4)) = true then _ else _) = _ ∧ _) ↔ _
        rw [computeCrc32_of]
        by_cases hc : crcOf (o'.data.drop o.data.length) ≠ Bytes.leNat ((S.drop (p + c)).take 4)
        · rw [if_pos (decide_eq_true hc)]
          exact ⟨fun ⟨_, h, _⟩ => (by cases h), fun h => absurd h.2.1 hc⟩
        · rw [if_neg (by simpa using hc), readLittle_ok (by omega)]
          dsimp only
          change (∃ q, (if (o'.data.length - o.data.length) % 2 ^ 32 ≠ _ then _ else _) = _ ∧ _) ↔ _
          by_cases hz : (o'.data.length - o.data.length) % 2 ^ 32 ≠ Bytes.leNat ((S.drop (p + c + 4)).take 4)
          · rw [if_pos hz]
            exact ⟨fun ⟨_, h, _⟩ => (by cases h), fun h => absurd h.2.2.1 hz⟩
          · rw [if_neg hz, ex_ok]
            exact ⟨fun h => ⟨h8, Classical.not_not.1 hc, Classical.not_not.1 hz, h⟩, fun h => h.2.2.2⟩

theorem suffix_drop {B S : List Byte} (h : B <:+ S) : S.drop (S.length - B.length) = B ∧ B.length ≤ S.length := by
  obtain ⟨p, rfl⟩ := h
  refine ⟨?_, by simp⟩
  rw [List.length_append, Nat.add_sub_cancel, List.drop_left]

theorem members_iff {W : Nat} {S D B : List Byte} {o : Span} (hB : B <:+ S) (hle : o.data.length ≤ o.capacity) :
    Members W S D B o ↔ if B = [] then D = o.data else GHead (GBody W S D o) [] B := by
  obtain ⟨hd, hl⟩ := suffix_drop hB
  have hm := member_iff (W := W) (S := S) (D := D) (start := S.length - B.length) hle
  rw [hd] at hm
  rw [← hm]
  by_cases hn : B = []
  · rw [if_pos hn]
    subst hn
    constructor
    · rintro ⟨n, q, h, rfl⟩
      cases n with
      | zero => cases h
      | succ n =>
        rw [gzipGo, if_neg (by simp)] at h
        rw [← Except.ok.inj h]
    · intro h
      exact ⟨1, (o.data.length, o), by rw [gzipGo, if_neg (by simp)]; rfl, h⟩
  · rw [if_neg hn]
    have hpos : S.length - B.length < S.length := by
      have := List.length_pos_iff.2 hn
      omega
    constructor
    · rintro ⟨n, q, h, rfl⟩
      cases n with
      | zero => cases h
      | succ n =>
        rw [gzipGo, if_pos hpos] at h
        have hsafe := gzipMember_safe span_safe W S (S.length - B.length) o
        cases e : gzipMember W S (S.length - B.length) o with
        | error x => rw [e] at h; cases h
        | ok t =>
          rw [e] at h
          have ht := (hsafe.ok_of e).2.1
          refine ⟨t, rfl, n, q, ?_, rfl⟩
          rw [List.length_drop, show S.length - (S.length - t.1) = t.1 by omega]
          exact h
    · rintro ⟨t, e, n, q, h, rfl⟩
      have hsafe := gzipMember_safe span_safe W S (S.length - B.length) o
      have ht := (hsafe.ok_of e).2.1
      rw [List.length_drop, show S.length - (S.length - t.1) = t.1 by omega] at h
      exact ⟨n + 1, q, by rw [gzipGo, if_pos hpos, e]; exact h, rfl⟩

theorem gzip_iff {W : Nat} {S D : List Byte} {cap : Nat} : (∃ q, decodeGzip W S (⟨[], cap, 0⟩ : Span) = .ok q ∧ D = q.2.data) ↔
    GHead (GBody W S D ⟨[], cap, 0⟩) [] S := by
  unfold decodeGzip
  by_cases hS : S = []
  · rw [if_pos hS]
    subst hS
    exact ⟨fun ⟨_, h, _⟩ => (by cases h), fun h => h.elim⟩
  · rw [if_neg hS]
    have hm := members_iff (W := W) (D := D) (o := ⟨[], cap, 0⟩) (List.suffix_refl S) (by simp)
    rw [if_neg hS] at hm
    rw [← hm, Members, Nat.sub_self]
    have hmono : ∀ (n pos : Nat) (o : Span) x, gzipGo W S n pos o = x → x ≠ .error .fuel → gzipGo W S (n + 1) pos o = x := by
      intro n
      induction n with
      | zero => intro pos o x h hx; exact absurd h.symm hx
      | succ n ih =>
        intro pos o x h hx
        rw [gzipGo] at h ⊢
        by_cases hp : pos < S.length
        · rw [if_pos hp] at h ⊢
          cases e : gzipMember W S pos o with
          | error y => rw [e] at h; exact h
          | ok t => rw [e] at h; exact ih _ _ _ h hx
        · rw [if_neg hp] at h ⊢; exact h
    have hms := mono_safe (f := fun n => gzipGo W S n 0 (⟨[], cap, 0⟩ : Span)) (fun n x => hmono n 0 _ x)
      (gzipGo_safe span_safe W S (S.length + 1) 0 ⟨[], cap, 0⟩ (by omega) (by omega))
    constructor
    · rintro ⟨q, h, h2⟩
      exact ⟨_, q, h, h2⟩
    · rintro ⟨n, q, h, h2⟩
      exact ⟨q, (hms q).2 ⟨n, h⟩, h2⟩

end Verif.Deflate
