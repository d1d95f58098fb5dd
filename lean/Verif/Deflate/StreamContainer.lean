import Verif.Deflate.StreamOnce
/-! # Streaming decoder: every turn of the container loop keeps the rest of the work -/
namespace Verif.Deflate
open Verif.Bytes (Byte)

/-- what of a valid stream `S` with output `D` is left to do -/
def DResumes (W : Nat) (S fut : List Byte) (d : Dec) (o : Span) (T : Nat) (pre D : List Byte) : Prop :=
  match d.state with
  | .rawDeflate => ∃ F, Resumes d.inflate (d.reader.full fut T) o F ∧ F.1.rest = [] ∧ D = F.2.data
  | .zlibHeader => ZHead D d.zlibHeader (d.reader.rest ++ fut) o
  | .zlibDictionary => False
  | .zlibDeflate => ∃ F, Resumes d.inflate (d.reader.full fut T) o F ∧ ZTrail D [] F.1.rest F.2
  | .zlibTrailer => ZTrail D d.trailer (d.reader.rest ++ fut) o
  | .gzipHeader => GHead (GBody W S D o) d.gzipHeader (d.reader.rest ++ fut)
  | .gzipExtraLength => GExtraLen d.flags (GBody W S D o) d.gzipHeader d.trailer (d.reader.rest ++ fut)
  | .gzipExtra => GExtra d.flags (GBody W S D o) d.extraRemaining pre (d.reader.rest ++ fut)
  | .gzipName => GName d.flags (GBody W S D o) pre (d.reader.rest ++ fut)
  | .gzipComment => GComment d.flags (GBody W S D o) pre (d.reader.rest ++ fut)
  | .gzipHeaderCrc => GCrc (GBody W S D o) pre d.trailer (d.reader.rest ++ fut)
  | .gzipDeflate => ∃ F, Resumes d.inflate (d.reader.full fut T) o F ∧ GTrail W S D [] F.1.rest F.2
  | .gzipTrailer => GTrail W S D d.trailer (d.reader.rest ++ fut) o
  | .gzipBetweenMembers => Members W S D (d.reader.rest ++ fut) o
  | .done => d.reader.rest ++ fut = [] ∧ D = o.data

def crcFrom (bs : List Byte) : BitVec 32 := Crc.updateScalar Crc.ieee 0xffffffff#32 bs

theorem crcFrom_append (p : List Byte) (b : Byte) : Crc.updateScalar Crc.ieee (crcFrom p) [b] = crcFrom (p ++ [b]) := crc_append _ p [b]

/-- what holds in a state -/
def StateInv (fut : List Byte) (d : Dec) (o : Span) (T : Nat) (pre : List Byte) : Prop :=
  match d.state with
  | .rawDeflate => InflateOk d.inflate d.reader.count ∧ d.reader.rest.length + fut.length ≤ T
  | .zlibHeader => d.reader.count = 0 ∧ d.zlibHeader.length ≤ 2 ∧ o.data = [] ∧ o.historyBegin = 0
  | .zlibDictionary => d.reader.count = 0
  | .zlibDeflate => InflateOk d.inflate d.reader.count ∧ d.reader.rest.length + fut.length ≤ T
  | .zlibTrailer => d.reader.count = 0
  | .gzipHeader => d.reader.count = 0 ∧ d.headerCrc = crcFrom d.gzipHeader ∧ d.trailer = [] ∧
      (0 < d.gzipHeader.length → d.gzipHeader[0]? = some 0x1f#8) ∧ (1 < d.gzipHeader.length → d.gzipHeader[1]? = some 0x8b#8)
  | .gzipExtraLength => d.reader.count = 0 ∧ d.headerCrc = crcFrom (d.gzipHeader ++ d.trailer)
  | .gzipExtra => d.reader.count = 0 ∧ d.headerCrc = crcFrom pre
  | .gzipName => d.reader.count = 0 ∧ d.headerCrc = crcFrom pre
  | .gzipComment => d.reader.count = 0 ∧ d.headerCrc = crcFrom pre
  | .gzipHeaderCrc => d.reader.count = 0 ∧ d.headerCrc = crcFrom pre
  | .gzipDeflate => InflateOk d.inflate d.reader.count ∧ d.reader.rest.length + fut.length ≤ T
  | .gzipTrailer => d.reader.count = 0
  | .gzipBetweenMembers => d.reader.count = 0
  | .done => d.reader.count = 0

structure DInv (S fut chunk prev : List Byte) (d : Dec) (o : Span) (T : Nat) (pre : List Byte) : Prop where
  within : d.reader.Within chunk
  out : OutRel d.out o prev
  suffix : d.reader.rest ++ fut <:+ S
  state : StateInv fut d o T pre

def dRank (d : Dec) : Nat :=
  match d.state with
  | .done => 0
  | .rawDeflate => 1
  | .zlibDictionary => 1
  | .zlibTrailer => 2
  | .zlibDeflate => 3
  | .zlibHeader => 4
  | .gzipTrailer => 7 + 2 * min d.trailer.length 8
  | .gzipDeflate => 8
  | .gzipHeaderCrc => 9
  | .gzipComment => 10
  | .gzipName => 11
  | .gzipExtra => 12
  | .gzipExtraLength => 13
  | .gzipHeader => 14
  | .gzipBetweenMembers => 15

def dMeasure (d : Dec) : Nat := 2 * d.reader.left + dRank d

inductive DOk (W : Nat) (S fut chunk prev : List Byte) (finish : Bool) (d : Dec) (o : Span) (T : Nat) (pre : List Byte) : DStep → Prop
  | advanced {d' o' T' pre'} : DInv S fut chunk prev d' o' T' pre' → d'.out.room = d.out.room → dMeasure d' < dMeasure d →
      (∀ D, DResumes W S fut d o T pre D ↔ DResumes W S fut d' o' T' pre' D) → DOk W S fut chunk prev finish d o T pre (.advanced d')
  | stop {p d' o' T' pre'} : DInv S fut chunk prev d' o' T' pre' → d'.out.room = d.out.room →
      (∀ D, DResumes W S fut d o T pre D ↔ DResumes W S fut d' o' T' pre' D) →
      (p = .needInput → finish = false ∧ d'.reader.left < 48 ∧ d'.state ≠ .done) → (p = .needOutput → d'.out.full = true ∧ d'.state ≠ .done ∧ ∀ D, DResumes W S fut d' o' T' pre' D → o'.data.length < D.length) →
      (p = .finished → d'.state = .done ∧ d'.reader.rest = []) → DOk W S fut chunk prev finish d o T pre (.stop p d')
  | fail {x d'} : (∀ D, ¬ DResumes W S fut d o T pre D) → DOk W S fut chunk prev finish d o T pre (.fail (.err x) d')

variable {W : Nat} {S fut chunk prev pre : List Byte} {finish : Bool} {d : Dec} {o : Span} {T : Nat}

theorem takeThen_byte {m : Nat} {k : List Byte → List Byte → Prop} {t B : List Byte} {b : Byte} (h : t.length < m) :
    takeThen (m - t.length) k t (b :: B) ↔ takeThen (m - (t ++ [b]).length) k (t ++ [b]) B := by
  obtain ⟨n, hn⟩ : ∃ n, m - t.length = n + 1 := ⟨m - t.length - 1, by omega⟩
  rw [hn, takeThen, List.length_append, List.length_singleton, show m - (t.length + 1) = n by omega]

theorem takeThen_nil {m : Nat} {k : List Byte → List Byte → Prop} {t : List Byte} (h : t.length < m) : ¬ takeThen (m - t.length) k t [] := by
  obtain ⟨n, hn⟩ : ∃ n, m - t.length = n + 1 := ⟨m - t.length - 1, by omega⟩
  rw [hn, takeThen]; exact id

theorem takeThen_done {m : Nat} {k : List Byte → List Byte → Prop} {t B : List Byte} (h : ¬ t.length < m) : takeThen (m - t.length) k t B ↔ k t B := by
  rw [show m - t.length = 0 by omega, takeThen]

/-- one byte of an aligned reader -/
theorem tryBits_byte {r : Reader} (hw : r.Within chunk) (hc : r.count = 0) :
    (r.rest = [] ∧ r.tryBits 8 = none) ∨ ∃ v r', r.tryBits 8 = some (v, r') ∧ r.rest = BitVec.ofNat 8 v :: r'.rest ∧ r'.count = 0 := by
  have hacc : r.acc = 0 := by have := hw.acc; rw [hc] at this; omega
  rw [Reader.tryBits, Reader.fill, hc, hacc]
  cases hr : r.rest with
  | nil => exact .inl ⟨rfl, rfl⟩
  | cons b rest =>
    refine .inr ⟨b.toNat &&& (2 ^ 8 - 1), ⟨rest, r.pos + 1, b.toNat >>> 8, 0⟩, ?_, ?_, rfl⟩
    · rw [fillGo, if_pos (by omega), Nat.zero_or, Nat.shiftLeft_zero]
      cases rest with
      | nil => rfl
      | cons b' rest => rfl
    · congr 1
      rw [Nat.and_two_pow_sub_one_eq_mod]
      exact BitVec.eq_of_toNat_eq (by have := b.isLt; simp; omega)

theorem byteStep_ok {k : Byte → Dec → DStep} (hI : DInv S fut chunk prev d o T pre) (hc : d.reader.count = 0) (hs : d.state ≠ .done)
    (hf : finish = true → fut = []) (hnil : d.reader.rest ++ fut = [] → ∀ D, ¬ DResumes W S fut d o T pre D)
    (hk : ∀ b r', d.reader.rest = b :: r'.rest → r'.Within chunk → r'.count = 0 → r'.left + 8 = d.reader.left → r'.rest ++ fut <:+ S →
      DOk W S fut chunk prev finish d o T pre (k b { d with reader := r' })) :
    DOk W S fut chunk prev finish d o T pre (d.byteStep finish k) := by
  unfold Dec.byteStep
  rcases tryBits_byte hI.within hc with ⟨h1, h2⟩ | ⟨v, r', h1, h2, h3⟩
  · rw [h2]
    dsimp only
    cases finish with
    | true =>
      rw [if_pos rfl]
      exact .fail (hnil (by rw [h1, hf rfl]; rfl))
    | false =>
      rw [if_neg (by decide)]
      exact .stop hI rfl (fun _ => Iff.rfl) (fun _ => ⟨rfl, by rw [Reader.left, h1, hc]; simp, hs⟩) nofun nofun
  · rw [h1]
    dsimp only
    obtain ⟨g1, g2, g3, g4⟩ := Reader.tryBits_some (fut := []) (T := d.reader.rest.length) hI.within (by simp) h1
    refine hk _ r' h2 g2.within h3 g3 ?_
    have := hI.suffix
    rw [h2] at this
    exact (List.suffix_cons _ _).trans this

/-! ## the inflating states -/

theorem ztrail_grows {D t B : List Byte} (h : ZTrail D t B o) : o.data.length ≤ D.length := by
  rw [ZTrail, takeThen_iff] at h
  rw [h.2.2.2]; exact Nat.le_refl _

theorem gzipGo_grows : ∀ (n pos : Nat) (o : Span) (q : Nat × Span), gzipGo W S n pos o = .ok q → o.data.length ≤ q.2.data.length
  | 0, _, _, _, h => by cases h
  | n + 1, pos, o, q, h => by
    rw [gzipGo] at h
    by_cases hlt : pos < S.length
    · rw [if_pos hlt] at h
      have h1 := gzipMember_safe span_safe W S pos o
      cases e1 : gzipMember W S pos o with
      | error x => rw [e1] at h; cases h
      | ok p =>
        rw [e1] at h
        exact Nat.le_trans (h1.ok_of e1).2.2.kept.length_le (gzipGo_grows n _ _ q h)
    · rw [if_neg hlt] at h
      rw [← Except.ok.inj h]; exact Nat.le_refl _

theorem gtrail_grows {D t B : List Byte} (h : GTrail W S D t B o) : o.data.length ≤ D.length := by
  rw [GTrail, takeThen_iff] at h
  obtain ⟨_, _, _, n, q, h1, rfl⟩ := h
  exact gzipGo_grows _ _ _ _ h1

theorem inflateWith_ok {next : Dec → Dec} {P : Reader × Span → List Byte → Prop} (hI : DInv S fut chunk prev d o T pre)
    (hi : InflateOk d.inflate d.reader.count) (hT : d.reader.rest.length + fut.length ≤ T) (hs : d.state ≠ .done)
    (hf : finish = true → fut = []) (hlen : ∀ F D, P F D → F.2.data.length ≤ D.length)
    (hres : ∀ s r so o, ∀ D, DResumes W S fut { d with inflate := s, reader := r, out := so } o T pre D ↔
      ∃ F, Resumes s (r.full fut T) o F ∧ P F D)
    (hinv : ∀ s r so o, InflateOk s r.count → r.rest.length + fut.length ≤ T → StateInv fut { d with inflate := s, reader := r, out := so } o T pre)
    (hnext : ∀ s r so o, r.count = 0 → r.left ≤ d.reader.left →
      StateInv fut (next { d with inflate := s, reader := r, out := so }) o T pre ∧
      (next { d with inflate := s, reader := r, out := so }).reader = r ∧ (next { d with inflate := s, reader := r, out := so }).out = so ∧
      dRank (next { d with inflate := s, reader := r, out := so }) < dRank d ∧
      ∀ D, P (r.full fut T, o) D ↔ DResumes W S fut (next { d with inflate := s, reader := r, out := so }) o T pre D) :
    DOk W S fut chunk prev finish d o T pre (d.inflateWith finish next) := by
  have hres0 := hres d.inflate d.reader d.out o
  change ∀ D, DResumes W S fut d o T pre D ↔ _ at hres0
  unfold Dec.inflateWith
  obtain ⟨hg1, hg⟩ := inflateGo_ok (T := T) hf _ d.inflate d.reader d.out o hi hI.within hI.out hT iMeasure_lt
  generalize inflateGo finish (inflateFuel d.reader d.out) d.inflate d.reader d.out = y at hg hg1 ⊢
  cases hg with
  | advanced => exact absurd rfl (hg1 _ _ _)
  | fail h =>
    refine .fail fun D => ?_
    rw [hres0]
    rintro ⟨F, h1, _⟩
    exact h F h1
  | @stop p s' r' so' o' k1 k2 k3 k4 k5 =>
    have hle := k1.moves.le
    have hsuf : r'.rest ++ fut <:+ S := by
      refine List.IsSuffix.trans ?_ hI.suffix
      rw [k1.moves.within.rest, hI.within.rest]
      have hp := hI.within.pos
      have hp' := k1.moves.within.pos
      rw [k1.moves.within.rest, hI.within.rest, List.length_drop, List.length_drop] at hle
      have e : chunk.drop r'.pos = (chunk.drop d.reader.pos).drop (r'.pos - d.reader.pos) := by
        rw [List.drop_drop]; congr 1; omega
      rw [e]
      generalize chunk.drop d.reader.pos = c
      obtain ⟨q, hq⟩ := List.drop_suffix (r'.pos - d.reader.pos) c
      exact ⟨q, by rw [← List.append_assoc, hq]⟩
    have hiff : ∀ D, DResumes W S fut d o T pre D ↔ ∃ F, Resumes s' (r'.full fut T) o' F ∧ P F D := fun D => by
      rw [hres0]
      exact ⟨fun ⟨F, h1, h2⟩ => ⟨F, (k2 F).1 h1, h2⟩, fun ⟨F, h1, h2⟩ => ⟨F, (k2 F).2 h1, h2⟩⟩
    have hinv' : DInv S fut chunk prev { d with inflate := s', reader := r', out := so' } o' T pre :=
      ⟨k1.moves.within, k1.out, hsuf, hinv _ _ _ _ k1.ok (by omega)⟩
    cases p with
    | needInput =>
      exact .stop hinv' k1.room (fun D => (hiff D).trans (hres _ _ _ _ D).symm) (fun _ => ⟨(k3 rfl).1, (k3 rfl).2, hs⟩) nofun nofun
    | needOutput =>
      refine .stop hinv' k1.room (fun D => (hiff D).trans (hres _ _ _ _ D).symm) nofun (fun _ => ⟨(k4 rfl).1, hs, fun D hD => ?_⟩) nofun
      obtain ⟨F, h1, h2⟩ := (hres _ _ _ _ D).1 hD
      exact Nat.lt_of_lt_of_le ((k4 rfl).2 F h1) (hlen F D h2)
    | finished =>
      obtain ⟨hm, hp⟩ := k5 rfl
      obtain ⟨n1, n2, n3, n4, n5⟩ := hnext s' r' so' o' (k1.ok.aligned (.inr (.inr hm))) k1.left
      refine .advanced (o' := o') (T' := T) (pre' := pre) ⟨by rw [n2]; exact k1.moves.within, by rw [n3]; exact k1.out, by rw [n2]; exact hsuf, n1⟩ ?_ ?_ ?_
      · rw [n3]; exact k1.room
      · have := k1.left
        rw [dMeasure, dMeasure, n2]; omega
      · intro D
        rw [hiff, ← n5]
        constructor
        · rintro ⟨F, h1, h2⟩
          rw [resumes_of_zero hp, byMode, hm] at h1
          rw [← show F = _ from h1]; exact h2
        · intro h
          refine ⟨_, ?_, h⟩
          rw [resumes_of_zero hp, byMode, hm]

/-- a new deflate stream -/
theorem begin_deflate {r : Reader} (hw : r.Within chunk) (hc : r.count = 0) {F : Reader × Span} :
    Resumes .fresh (r.full fut (r.rest.length + fut.length)) o F ↔ Blocks (Reader.new (r.rest ++ fut)) o F := by
  rw [resumes_header rfl rfl]
  have : r.full fut (r.rest.length + fut.length) = Reader.new (r.rest ++ fut) := by
    have hacc : r.acc = 0 := by have := hw.acc; rw [hc] at this; omega
    rw [Reader.full, Reader.new, Nat.sub_self, hc, hacc]
  rw [this]

theorem rawStep_ok (hI : DInv S fut chunk prev d o T pre) (hst : d.state = .rawDeflate) (hf : finish = true → fut = []) :
    DOk W S fut chunk prev finish d o T pre (d.inflateWith finish (fun d => { d with state := .done })) := by
  have h := hI.state
  simp only [StateInv, hst] at h
  refine inflateWith_ok (P := fun F D => F.1.rest = [] ∧ D = F.2.data) hI h.1 h.2 (by rw [hst]; nofun) hf (fun F D h => by rw [h.2]; exact Nat.le_refl _) ?_ ?_ ?_
  · intro s r so o D
    simp only [DResumes, hst]
  · intro s r so o h1 h2
    simp only [StateInv, hst]
    exact ⟨h1, h2⟩
  · intro s r so o hc hl
    refine ⟨hc, rfl, rfl, ?_, fun D => Iff.rfl⟩
    simp only [dRank, hst]; omega

theorem zlibDeflateStep_ok (hI : DInv S fut chunk prev d o T pre) (hst : d.state = .zlibDeflate) (hf : finish = true → fut = []) :
    DOk W S fut chunk prev finish d o T pre (d.inflateWith finish (fun d => { d with state := .zlibTrailer, trailer := [] })) := by
  have h := hI.state
  simp only [StateInv, hst] at h
  refine inflateWith_ok (P := fun F D => ZTrail D [] F.1.rest F.2) hI h.1 h.2 (by rw [hst]; nofun) hf (fun F D => ztrail_grows) ?_ ?_ ?_
  · intro s r so o D
    simp only [DResumes, hst]
  · intro s r so o h1 h2
    simp only [StateInv, hst]
    exact ⟨h1, h2⟩
  · intro s r so o hc hl
    refine ⟨hc, rfl, rfl, ?_, fun D => Iff.rfl⟩
    simp only [dRank, hst]; omega

theorem gzipDeflateStep_ok (hI : DInv S fut chunk prev d o T pre) (hst : d.state = .gzipDeflate) (hf : finish = true → fut = []) :
    DOk W S fut chunk prev finish d o T pre (d.inflateWith finish (fun d => { d with state := .gzipTrailer, trailer := [] })) := by
  have h := hI.state
  simp only [StateInv, hst] at h
  refine inflateWith_ok (P := fun F D => GTrail W S D [] F.1.rest F.2) hI h.1 h.2 (by rw [hst]; nofun) hf (fun F D => gtrail_grows) ?_ ?_ ?_
  · intro s r so o D
    simp only [DResumes, hst]
  · intro s r so o h1 h2
    simp only [StateInv, hst]
    exact ⟨h1, h2⟩
  · intro s r so o hc hl
    refine ⟨hc, rfl, rfl, ?_, fun D => Iff.rfl⟩
    simp only [dRank, hst, List.length_nil]; omega

/-! ## zlib -/

theorem zlibHeaderStep_ok (hI : DInv S fut chunk prev d o T pre) (hst : d.state = .zlibHeader) (hf : finish = true → fut = []) :
    DOk W S fut chunk prev finish d o T pre (d.zlibHeaderStep finish) := by
  have h := hI.state
  simp only [StateInv, hst] at h
  have hres : ∀ D, DResumes W S fut d o T pre D ↔ ZHead D d.zlibHeader (d.reader.rest ++ fut) o := fun D => by simp only [DResumes, hst]
  have hbyte : d.zlibHeader.length < 2 → DOk W S fut chunk prev finish d o T pre
      (d.byteStep finish (fun b d => .advanced { d with zlibHeader := d.zlibHeader ++ [b] })) := by
    intro hl
    refine byteStep_ok hI h.1 (by rw [hst]; nofun) hf (fun hn D => ?_) (fun b r' hr hw hc hleft hsuf => ?_)
    · rw [hres, hn]; exact takeThen_nil hl
    · refine .advanced (o' := o) (T' := T) (pre' := pre) ⟨hw, hI.out, hsuf, ?_⟩ rfl ?_ ?_
      · simp only [StateInv, hst, List.length_append, List.length_singleton]
        exact ⟨hc, by omega, h.2.2⟩
      · simp only [dMeasure, dRank, hst]; omega
      · intro D
        rw [hres, hr]
        simp only [DResumes, hst, List.cons_append]
        exact takeThen_byte hl
  unfold Dec.zlibHeaderStep
  split
  · rename_i cmf flg hzh
    rw [hzh] at hres
    have hres2 : ∀ D, DResumes W S fut d o T pre D ↔ ¬ zbad cmf flg ∧ ¬ flg.toNat &&& 0x20 ≠ 0 ∧ ZBody D (d.reader.rest ++ fut) o := fun D => by
      rw [hres]
      constructor
      · rintro ⟨a, b, h, h2⟩
        simp only [List.cons.injEq, and_true] at h
        obtain ⟨rfl, rfl⟩ := h
        exact h2
      · intro h; exact ⟨cmf, flg, rfl, h⟩
    by_cases hb : zbad cmf flg
    · have hb' := hb
      unfold zbad at hb'
      rw [if_pos hb']
      exact .fail fun D hD => ((hres2 D).1 hD).1 hb
    · have hb' := hb
      unfold zbad at hb'
      rw [if_neg hb']
      by_cases h20 : flg.toNat &&& 0x20 ≠ 0
      · rw [if_pos h20]
        refine .advanced (o' := o) (T' := T) (pre' := pre) ⟨hI.within, hI.out, hI.suffix, ?_⟩ rfl ?_ ?_
        · exact h.1
        · simp only [dMeasure, dRank, hst]; omega
        · intro D
          rw [hres2]
          exact ⟨fun h => absurd h20 h.2.1, fun h => False.elim h⟩
      · rw [if_neg h20]
        refine .advanced (o' := o) (T' := d.reader.rest.length + fut.length) (pre' := pre) ⟨hI.within, hI.out.resetHistory h.2.2.1, hI.suffix, ?_⟩ rfl ?_ ?_
        · refine ⟨?_, Nat.le_refl _⟩
          rw [show d.reader.count = 0 from h.1]
          exact .fresh
        · simp only [dMeasure, dRank, hst]; omega
        · intro D
          rw [hres2]
          show _ ↔ ∃ F, Resumes .fresh (d.reader.full fut (d.reader.rest.length + fut.length)) o F ∧ ZTrail D [] F.1.rest F.2
          simp only [begin_deflate hI.within h.1]
          exact ⟨fun h => h.2.2, fun h => ⟨hb, h20, h⟩⟩
  · rename_i hne
    refine hbyte ?_
    match hz : d.zlibHeader, h.2.1 with
    | [], _ => simp
    | [_], _ => simp
    | [a, b], _ => exact absurd hz (hne a b)

theorem dictionaryStep_ok (hI : DInv S fut chunk prev d o T pre) (hst : d.state = .zlibDictionary) (hf : finish = true → fut = []) :
    DOk W S fut chunk prev finish d o T pre (d.dictionaryStep finish) := by
  have h := hI.state
  simp only [StateInv, hst] at h
  have hres : ∀ D, DResumes W S fut d o T pre D ↔ False := fun D => by simp only [DResumes, hst]
  unfold Dec.dictionaryStep
  by_cases hl : d.trailer.length < 4
  · rw [if_pos hl]
    refine byteStep_ok hI h (by rw [hst]; nofun) hf (fun hn D => by rw [hres]; exact id) (fun b r' hr hw hc hleft hsuf => ?_)
    refine .advanced (o' := o) (T' := T) (pre' := pre) ⟨hw, hI.out, hsuf, ?_⟩ rfl ?_ ?_
    · simp only [StateInv, hst]; exact hc
    · simp only [dMeasure, dRank, hst]; omega
    · intro D
      rw [hres]
      simp only [DResumes, hst]
  · rw [if_neg hl]
    exact .fail fun D => by rw [hres]; exact id

theorem zlibTrailerStep_ok (hI : DInv S fut chunk prev d o T pre) (hst : d.state = .zlibTrailer) (hf : finish = true → fut = []) :
    DOk W S fut chunk prev finish d o T pre (d.zlibTrailerStep finish) := by
  have h := hI.state
  simp only [StateInv, hst] at h
  have hres : ∀ D, DResumes W S fut d o T pre D ↔ ZTrail D d.trailer (d.reader.rest ++ fut) o := fun D => by simp only [DResumes, hst]
  unfold Dec.zlibTrailerStep
  by_cases hl : d.trailer.length < 4
  · rw [if_pos hl]
    refine byteStep_ok hI h (by rw [hst]; nofun) hf (fun hn D => ?_) (fun b r' hr hw hc hleft hsuf => ?_)
    · rw [hres, hn]; exact takeThen_nil hl
    · refine .advanced (o' := o) (T' := T) (pre' := pre) ⟨hw, hI.out, hsuf, ?_⟩ rfl ?_ ?_
      · simp only [StateInv, hst]; exact hc
      · simp only [dMeasure, dRank, hst]; omega
      · intro D
        rw [hres, hr]
        simp only [DResumes, hst, List.cons_append]
        exact takeThen_byte hl
  · rw [if_neg hl]
    obtain ⟨f1, f2, f3, f4, f5⟩ := hI.out.flush
    have hres2 : ∀ D, DResumes W S fut d o T pre D ↔ d.reader.rest ++ fut = [] ∧ adler32 o.data = Bytes.leNat d.trailer.reverse ∧ D = o.data := fun D => by
      rw [hres]; exact takeThen_done hl
    have ha : adlerWord d.out.flush.adler = adler32 o.data := by rw [f2.adler]; rfl
    dsimp only
    rw [ha]
    by_cases hx : adler32 o.data ≠ Bytes.leNat d.trailer.reverse
    · rw [if_pos hx]
      exact .fail fun D hD => hx ((hres2 D).1 hD).2.1
    · rw [if_neg hx]
      refine .advanced (o' := o) (T' := T) (pre' := pre) ⟨hI.within, f1, hI.suffix, h⟩ f3 ?_ ?_
      · simp only [dMeasure, dRank, hst]; omega
      · intro D
        rw [hres2]
        exact ⟨fun h => ⟨h.1, h.2.2⟩, fun h => ⟨h.1, Classical.not_not.1 hx, h.2⟩⟩

theorem doneStep_ok (hI : DInv S fut chunk prev d o T pre) (hst : d.state = .done) :
    DOk W S fut chunk prev finish d o T pre (if d.reader.rest ≠ [] then .fail (.err .trailingData) d else .stop .finished d) := by
  have hres : ∀ D, DResumes W S fut d o T pre D ↔ d.reader.rest ++ fut = [] ∧ D = o.data := fun D => by simp only [DResumes, hst]
  by_cases hr : d.reader.rest ≠ []
  · rw [if_pos hr]
    exact .fail fun D hD => hr (List.append_eq_nil_iff.1 ((hres D).1 hD).1).1
  · rw [if_neg hr]
    exact .stop hI rfl (fun _ => Iff.rfl) nofun nofun (fun _ => ⟨hst, Classical.not_not.1 hr⟩)

end Verif.Deflate
