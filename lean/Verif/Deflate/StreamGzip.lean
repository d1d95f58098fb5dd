import Verif.Deflate.StreamContainer
/-! # Streaming decoder: gzip states, and whole calls -/
namespace Verif.Deflate
open Verif.Bytes (Byte)

variable {W : Nat} {S fut chunk prev pre : List Byte} {finish : Bool} {d : Dec} {o : Span} {T : Nat}

theorem beginGzipDeflate_ok (hw : d.reader.Within chunk) (ho : OutRel d.out o prev) (hsuf : d.reader.rest ++ fut <:+ S) (hc : d.reader.count = 0) :
    DInv S fut chunk prev d.beginGzipDeflate { o with historyBegin := o.data.length } (d.reader.rest.length + fut.length) pre ∧
    d.beginGzipDeflate.out.room = d.out.room ∧ d.beginGzipDeflate.reader = d.reader ∧ dRank d.beginGzipDeflate = 8 ∧
    ∀ D, GBody W S D o (d.reader.rest ++ fut) ↔
      DResumes W S fut d.beginGzipDeflate { o with historyBegin := o.data.length } (d.reader.rest.length + fut.length) pre D := by
  obtain ⟨h1, h2, _⟩ := ho.resetGzipMember
  refine ⟨⟨hw, h1, hsuf, ?_, Nat.le_refl _⟩, h2, rfl, rfl, fun D => ?_⟩
  · show InflateOk .fresh d.reader.count
    rw [hc]; exact .fresh
  · show _ ↔ ∃ F, Resumes .fresh (d.reader.full fut (d.reader.rest.length + fut.length)) { o with historyBegin := o.data.length } F ∧ GTrail W S D [] F.1.rest F.2
    simp only [begin_deflate hw hc]
    exact Iff.rfl

/-- what follows the field number `k` -/
def optAt (flags : Nat) (K : List Byte → Prop) (pre B : List Byte) : Nat → Prop
  | 0 => GOpt flags K pre B
  | 1 => GAfterExtra flags K pre B
  | 2 => GAfterName flags K pre B
  | _ => GAfterComment flags K pre B

theorem nextOptional_ok (k : Nat) (hk : k ≤ 3) (hw : d.reader.Within chunk) (ho : OutRel d.out o prev) (hsuf : d.reader.rest ++ fut <:+ S)
    (hc : d.reader.count = 0) (hcrc : d.headerCrc = crcFrom pre) (h0 : k = 0 → pre = d.gzipHeader ∧ d.trailer = []) :
    ∃ o' T', DInv S fut chunk prev (d.nextOptional k) o' T' pre ∧ (d.nextOptional k).out.room = d.out.room ∧ (d.nextOptional k).reader = d.reader ∧
      dRank (d.nextOptional k) ≤ (if k = 0 then 13 else 12 - k) ∧
      ∀ D, optAt d.flags (GBody W S D o) pre (d.reader.rest ++ fut) k ↔ DResumes W S fut (d.nextOptional k) o' T' pre D := by
  unfold Dec.nextOptional
  by_cases c0 : k ≤ 0 ∧ d.flags &&& 0x04 ≠ 0
  · rw [if_pos c0]
    obtain ⟨c0, hfl⟩ := c0
    have : k = 0 := by omega
    subst this
    obtain ⟨hpre, htr⟩ := h0 rfl
    refine ⟨o, 0, ⟨hw, ho, hsuf, hc, ?_⟩, rfl, rfl, Nat.le_refl _, fun D => ?_⟩
    · show d.headerCrc = crcFrom (d.gzipHeader ++ d.trailer)
      rw [htr, List.append_nil, ← hpre]; exact hcrc
    · show GOpt _ _ _ _ ↔ GExtraLen d.flags (GBody W S D o) d.gzipHeader d.trailer (d.reader.rest ++ fut)
      rw [GOpt, if_pos hfl, htr, hpre]
  · rw [if_neg c0]
    have e0 : ∀ D, k ≤ 0 → (optAt d.flags (GBody W S D o) pre (d.reader.rest ++ fut) k ↔ GAfterExtra d.flags (GBody W S D o) pre (d.reader.rest ++ fut)) := fun D hk0 => by
      have : k = 0 := by omega
      subst this
      rw [optAt, GOpt, if_neg (fun hx => c0 ⟨hk0, hx⟩)]
    have e0' : ∀ D, k ≤ 1 → (optAt d.flags (GBody W S D o) pre (d.reader.rest ++ fut) k ↔ GAfterExtra d.flags (GBody W S D o) pre (d.reader.rest ++ fut)) := fun D hk1 => by
      by_cases hk0 : k ≤ 0
      · exact e0 D hk0
      · have : k = 1 := by omega
        subst this
        exact Iff.rfl
    by_cases c1 : k ≤ 1 ∧ d.flags &&& 0x08 ≠ 0
    · rw [if_pos c1]
      refine ⟨o, 0, ⟨hw, ho, hsuf, hc, hcrc⟩, rfl, rfl, ?_, fun D => ?_⟩
      · show 11 ≤ _
        split <;> omega
      · rw [e0' D c1.1, GAfterExtra, if_pos c1.2]
        exact Iff.rfl
    · rw [if_neg c1]
      have e1 : ∀ D, k ≤ 2 → (optAt d.flags (GBody W S D o) pre (d.reader.rest ++ fut) k ↔ GAfterName d.flags (GBody W S D o) pre (d.reader.rest ++ fut)) := fun D hk2 => by
        by_cases hk1 : k ≤ 1
        · rw [e0' D hk1, GAfterExtra, if_neg (fun hx => c1 ⟨hk1, hx⟩)]
        · have : k = 2 := by omega
          subst this
          exact Iff.rfl
      by_cases c2 : k ≤ 2 ∧ d.flags &&& 0x10 ≠ 0
      · rw [if_pos c2]
        refine ⟨o, 0, ⟨hw, ho, hsuf, hc, hcrc⟩, rfl, rfl, ?_, fun D => ?_⟩
        · show 10 ≤ _
          split <;> omega
        · rw [e1 D c2.1, GAfterName, if_pos c2.2]
          exact Iff.rfl
      · rw [if_neg c2]
        have e2 : ∀ D, optAt d.flags (GBody W S D o) pre (d.reader.rest ++ fut) k ↔ GAfterComment d.flags (GBody W S D o) pre (d.reader.rest ++ fut) := fun D => by
          by_cases hk2 : k ≤ 2
          · rw [e1 D hk2, GAfterName, if_neg (fun hx => c2 ⟨hk2, hx⟩)]
          · have : k = 3 := by omega
            subst this
            exact Iff.rfl
        by_cases c3 : k ≤ 3 ∧ d.flags &&& 0x02 ≠ 0
        · rw [if_pos c3]
          refine ⟨o, 0, ⟨hw, ho, hsuf, hc, hcrc⟩, rfl, rfl, ?_, fun D => ?_⟩
          · show 9 ≤ _
            split <;> omega
          · rw [e2 D, GAfterComment, if_pos c3.2]
            exact Iff.rfl
        · rw [if_neg c3]
          obtain ⟨b1, b2, b3, b4, b5⟩ := beginGzipDeflate_ok (W := W) (pre := pre) hw ho hsuf hc
          refine ⟨_, _, b1, b2, b3, ?_, fun D => ?_⟩
          · rw [b4]; split <;> omega
          · rw [e2 D, GAfterComment, if_neg (fun hx => c3 ⟨hk, hx⟩)]
            exact b5 D

theorem gzipHeaderStep_ok (hI : DInv S fut chunk prev d o T pre) (hst : d.state = .gzipHeader) (hf : finish = true → fut = []) :
    DOk W S fut chunk prev finish d o T pre (d.gzipHeaderStep finish) := by
  have h := hI.state
  simp only [StateInv, hst] at h
  obtain ⟨hc, hcrc, htr, h0, h1⟩ := h
  have hres : ∀ D, DResumes W S fut d o T pre D ↔ GHead (GBody W S D o) d.gzipHeader (d.reader.rest ++ fut) := fun D => by simp only [DResumes, hst]
  unfold Dec.gzipHeaderStep
  by_cases hl : d.gzipHeader.length < 10
  · rw [if_pos hl]
    unfold Dec.headerByteStep
    refine byteStep_ok hI hc (by rw [hst]; nofun) hf (fun hn D => ?_) (fun b r' hr hw hc' hleft hsuf => ?_)
    · rw [hres, hn]; exact takeThen_nil hl
    · dsimp only
      have hres2 : ∀ D, DResumes W S fut d o T pre D ↔ GHead (GBody W S D o) (d.gzipHeader ++ [b]) (r'.rest ++ fut) := fun D => by
        rw [hres, hr]; exact takeThen_byte hl
      have hgood : ∀ D, GHead (GBody W S D o) (d.gzipHeader ++ [b]) (r'.rest ++ fut) → (d.gzipHeader.length = 0 → b = 0x1f#8) ∧ (d.gzipHeader.length = 1 → b = 0x8b#8) := by
        intro D hD
        rw [GHead, takeThen_iff] at hD
        obtain ⟨_, ⟨g0, g1, _⟩, _⟩ := hD
        constructor
        · intro hz
          have : d.gzipHeader = [] := List.length_eq_zero_iff.1 hz
          rw [this] at g0
          simpa using g0
        · intro hz
          obtain ⟨a, ha⟩ := List.length_eq_one_iff.1 hz
          rw [ha] at g1
          simpa using g1
      by_cases x0 : d.gzipHeader.length = 0 ∧ b ≠ 0x1f#8
      · rw [if_pos x0]
        exact .fail fun D hD => x0.2 ((hgood D ((hres2 D).1 hD)).1 x0.1)
      · rw [if_neg x0]
        by_cases x1 : d.gzipHeader.length = 1 ∧ b ≠ 0x8b#8
        · rw [if_pos x1]
          exact .fail fun D hD => x1.2 ((hgood D ((hres2 D).1 hD)).2 x1.1)
        · rw [if_neg x1]
          refine .advanced (o' := o) (T' := T) (pre' := pre) ⟨hw, hI.out, hsuf, ?_⟩ rfl ?_ ?_
          · simp only [StateInv, hst, List.length_append, List.length_singleton]
            refine ⟨hc', ?_, htr, fun _ => ?_, fun hlt => ?_⟩
            · rw [hcrc]; exact crcFrom_append _ _
            · by_cases hz : d.gzipHeader.length = 0
              · have hb : b = 0x1f#8 := Classical.byContradiction fun hx => x0 ⟨hz, hx⟩
                rw [List.length_eq_zero_iff.1 hz, hb]; rfl
              · rw [List.getElem?_append_left (by omega)]; exact h0 (by omega)
            · by_cases hz : d.gzipHeader.length = 1
              · have hb : b = 0x8b#8 := Classical.byContradiction fun hx => x1 ⟨hz, hx⟩
                obtain ⟨a, ha⟩ := List.length_eq_one_iff.1 hz
                rw [ha, hb]; rfl
              · rw [List.getElem?_append_left (by omega)]; exact h1 (by omega)
          · simp only [dMeasure, dRank, hst]; omega
          · intro D
            rw [hres2]
            simp only [DResumes, hst]
  · rw [if_neg hl]
    have hres2 : ∀ D, DResumes W S fut d o T pre D ↔ goodHead d.gzipHeader ∧
        GOpt (d.gzipHeader.getD 3 0).toNat (GBody W S D o) d.gzipHeader (d.reader.rest ++ fut) := fun D => by
      rw [hres]; exact takeThen_done hl
    by_cases h2 : d.gzipHeader[2]? ≠ some 0x08#8
    · rw [if_pos h2]
      exact .fail fun D hD => h2 ((hres2 D).1 hD).1.2.2.1
    · rw [if_neg h2]
      dsimp only
      generalize hfl : (d.gzipHeader.getD 3 0).toNat = fl at hres2 ⊢
      by_cases h3 : fl &&& 0xe0 ≠ 0
      · rw [if_pos h3]
        refine .fail fun D hD => h3 ?_
        rw [← hfl]
        exact ((hres2 D).1 hD).1.2.2.2
      · rw [if_neg h3]
        obtain ⟨o', T', b1, b2, b3, b4, b5⟩ := nextOptional_ok (W := W) (d := { d with flags := fl }) (pre := d.gzipHeader) 0 (by omega) hI.within hI.out hI.suffix hc
          hcrc (fun _ => ⟨rfl, htr⟩)
        refine .advanced b1 b2 ?_ ?_
        · rw [dMeasure, dMeasure, b3]
          rw [if_pos rfl] at b4
          simp only [dRank, hst] at b4 ⊢
          omega
        · intro D
          rw [hres2, ← b5 D]
          refine ⟨fun h => h.2, fun h => ⟨⟨h0 (by omega), h1 (by omega), Classical.not_not.1 h2, ?_⟩, h⟩⟩
          rw [hfl]
          exact Classical.not_not.1 h3

theorem extraLengthStep_ok (hI : DInv S fut chunk prev d o T pre) (hst : d.state = .gzipExtraLength) (hf : finish = true → fut = []) :
    DOk W S fut chunk prev finish d o T pre (d.extraLengthStep finish) := by
  have h := hI.state
  simp only [StateInv, hst] at h
  obtain ⟨hc, hcrc⟩ := h
  have hres : ∀ D, DResumes W S fut d o T pre D ↔ GExtraLen d.flags (GBody W S D o) d.gzipHeader d.trailer (d.reader.rest ++ fut) := fun D => by
    simp only [DResumes, hst]
  unfold Dec.extraLengthStep
  by_cases hl : d.trailer.length < 2
  · rw [if_pos hl]
    unfold Dec.headerByteStep
    refine byteStep_ok hI hc (by rw [hst]; nofun) hf (fun hn D => ?_) (fun b r' hr hw hc' hleft hsuf => ?_)
    · rw [hres, hn]; exact takeThen_nil hl
    · dsimp only
      refine .advanced (o' := o) (T' := T) (pre' := pre) ⟨hw, hI.out, hsuf, ?_⟩ rfl ?_ ?_
      · simp only [StateInv, hst]
        refine ⟨hc', ?_⟩
        rw [hcrc, crcFrom_append, List.append_assoc]
      · simp only [dMeasure, dRank, hst]; omega
      · intro D
        rw [hres, hr]
        simp only [DResumes, hst, List.cons_append]
        exact takeThen_byte hl
  · rw [if_neg hl]
    refine .advanced (o' := o) (T' := T) (pre' := d.gzipHeader ++ d.trailer) ⟨hI.within, hI.out, hI.suffix, hc, hcrc⟩ rfl ?_ ?_
    · simp only [dMeasure, dRank, hst]; omega
    · intro D
      rw [hres]
      exact takeThen_done hl

theorem extraStep_ok (hI : DInv S fut chunk prev d o T pre) (hst : d.state = .gzipExtra) (hf : finish = true → fut = []) :
    DOk W S fut chunk prev finish d o T pre (d.extraStep finish) := by
  have h := hI.state
  simp only [StateInv, hst] at h
  obtain ⟨hc, hcrc⟩ := h
  have hres : ∀ D, DResumes W S fut d o T pre D ↔ GExtra d.flags (GBody W S D o) d.extraRemaining pre (d.reader.rest ++ fut) := fun D => by
    simp only [DResumes, hst]
  unfold Dec.extraStep
  by_cases hl : d.extraRemaining ≠ 0
  · rw [if_pos hl]
    obtain ⟨n, hn⟩ : ∃ n, d.extraRemaining = n + 1 := ⟨d.extraRemaining - 1, by omega⟩
    unfold Dec.headerByteStep
    rw [hn] at hres
    refine byteStep_ok hI hc (by rw [hst]; nofun) hf (fun hn D => ?_) (fun b r' hr hw hc' hleft hsuf => ?_)
    · rw [hres, hn]; exact id
    · dsimp only
      refine .advanced (o' := o) (T' := T) (pre' := pre ++ [b]) ⟨hw, hI.out, hsuf, ?_⟩ rfl ?_ ?_
      · simp only [StateInv, hst]
        refine ⟨hc', ?_⟩
        rw [hcrc, crcFrom_append]
      · simp only [dMeasure, dRank, hst]; omega
      · intro D
        rw [hres, hr]
        simp only [DResumes, hst, List.cons_append, hn, Nat.add_sub_cancel]
        exact Iff.rfl
  · rw [if_neg hl]
    have hz : d.extraRemaining = 0 := by omega
    obtain ⟨o', T', b1, b2, b3, b4, b5⟩ := nextOptional_ok (W := W) (d := d) (pre := pre) 1 (by omega) hI.within hI.out hI.suffix hc hcrc nofun
    refine .advanced b1 b2 ?_ ?_
    · rw [dMeasure, dMeasure, b3]
      rw [if_neg (by omega)] at b4
      simp only [show dRank d = 12 by simp only [dRank, hst]]
      omega
    · intro D
      rw [hres, ← b5 D, hz]
      exact Iff.rfl

theorem stringStep_ok (next : Nat) (hn : next ≤ 3) (hn0 : 1 < next) {k : List Byte → (List Byte → List Byte → Prop)} (hI : DInv S fut chunk prev d o T pre)
    (hc : d.reader.count = 0) (hcrc : d.headerCrc = crcFrom pre) (hs : d.state ≠ .done) (hf : finish = true → fut = []) (hrank : 12 - next < dRank d)
    (hk : ∀ D p B, k D p B ↔ optAt d.flags (GBody W S D o) p B next)
    (hres : ∀ r' crc p, ∀ D, DResumes W S fut { d with reader := r', headerCrc := crc } o T p D ↔ strThen (k D) p (r'.rest ++ fut))
    (hinv : ∀ r' crc p, r'.count = 0 → crc = crcFrom p → StateInv fut { d with reader := r', headerCrc := crc } o T p)
    (hsame : ∀ r' crc, dRank { d with reader := r', headerCrc := crc } = dRank d) :
    DOk W S fut chunk prev finish d o T pre (d.stringStep finish next) := by
  have hres0 : ∀ D, DResumes W S fut d o T pre D ↔ _ := hres d.reader d.headerCrc pre
  unfold Dec.stringStep Dec.headerByteStep
  refine byteStep_ok hI hc hs hf (fun hn D => ?_) (fun b r' hr hw hc' hleft hsuf => ?_)
  · rw [hres0, hn]; exact id
  · dsimp only
    have hres2 : ∀ D, DResumes W S fut d o T pre D ↔ if b = 0 then k D (pre ++ [b]) (r'.rest ++ fut) else strThen (k D) (pre ++ [b]) (r'.rest ++ fut) := fun D => by
      rw [hres0, hr, List.cons_append, strThen]
    have hcrc' : Crc.updateScalar Crc.ieee d.headerCrc [b] = crcFrom (pre ++ [b]) := by rw [hcrc]; exact crcFrom_append _ _
    rw [hcrc']
    by_cases hb : b = 0
    · rw [if_pos hb]
      simp only [if_pos hb] at hres2
      obtain ⟨o', T', b1, b2, b3, b4, b5⟩ := nextOptional_ok (W := W) (d := { d with reader := r', headerCrc := crcFrom (pre ++ [b]) }) (pre := pre ++ [b]) next hn
        hw hI.out hsuf hc' rfl (fun h => by omega)
      refine .advanced b1 b2 ?_ ?_
      · rw [dMeasure, dMeasure, b3]
        rw [if_neg (by omega)] at b4
        dsimp only
        omega
      · intro D
        rw [hres2, ← b5 D]
        exact hk _ _ _
    · rw [if_neg hb]
      simp only [if_neg hb] at hres2
      refine .advanced (o' := o) (T' := T) (pre' := pre ++ [b]) ⟨hw, hI.out, hsuf, hinv _ _ _ hc' rfl⟩ rfl ?_ ?_
      · rw [dMeasure, dMeasure, hsame]
        dsimp only
        omega
      · intro D
        rw [hres2, hres]

theorem headerCrcStep_ok (hI : DInv S fut chunk prev d o T pre) (hst : d.state = .gzipHeaderCrc) (hf : finish = true → fut = []) :
    DOk W S fut chunk prev finish d o T pre (d.headerCrcStep finish) := by
  have h := hI.state
  simp only [StateInv, hst] at h
  obtain ⟨hc, hcrc⟩ := h
  have hres : ∀ D, DResumes W S fut d o T pre D ↔ GCrc (GBody W S D o) pre d.trailer (d.reader.rest ++ fut) := fun D => by simp only [DResumes, hst]
  unfold Dec.headerCrcStep
  by_cases hl : d.trailer.length < 2
  · rw [if_pos hl]
    refine byteStep_ok hI hc (by rw [hst]; nofun) hf (fun hn D => ?_) (fun b r' hr hw hc' hleft hsuf => ?_)
    · rw [hres, hn]; exact takeThen_nil hl
    · dsimp only
      refine .advanced (o' := o) (T' := T) (pre' := pre) ⟨hw, hI.out, hsuf, ?_⟩ rfl ?_ ?_
      · simp only [StateInv, hst]
        exact ⟨hc', hcrc⟩
      · simp only [dMeasure, dRank, hst]; omega
      · intro D
        rw [hres, hr]
        simp only [DResumes, hst, List.cons_append]
        exact takeThen_byte hl
  · rw [if_neg hl]
    have hres2 : ∀ D, DResumes W S fut d o T pre D ↔ Bytes.leNat d.trailer = crcOf pre &&& 0xffff ∧ GBody W S D o (d.reader.rest ++ fut) := fun D => by
      rw [hres]; exact takeThen_done hl
    have hx : (d.headerCrc ^^^ 0xffffffff#32).toNat = crcOf pre := by rw [hcrc]; rfl
    rw [hx]
    by_cases hy : Bytes.leNat d.trailer ≠ crcOf pre &&& 0xffff
    · rw [if_pos hy]
      exact .fail fun D hD => hy ((hres2 D).1 hD).1
    · rw [if_neg hy]
      obtain ⟨b1, b2, b3, b4, b5⟩ := beginGzipDeflate_ok (W := W) (pre := pre) hI.within hI.out hI.suffix hc
      refine .advanced b1 b2 ?_ ?_
      · rw [dMeasure, dMeasure, b3, b4]
        simp only [dRank, hst]; omega
      · intro D
        rw [hres2, ← b5 D]
        exact ⟨fun h => h.2, fun h => ⟨Classical.not_not.1 hy, h⟩⟩

theorem gzipTrailerStep_ok (hI : DInv S fut chunk prev d o T pre) (hst : d.state = .gzipTrailer) (hf : finish = true → fut = []) :
    DOk W S fut chunk prev finish d o T pre (d.gzipTrailerStep finish) := by
  have h := hI.state
  simp only [StateInv, hst] at h
  have hres : ∀ D, DResumes W S fut d o T pre D ↔ GTrail W S D d.trailer (d.reader.rest ++ fut) o := fun D => by simp only [DResumes, hst]
  unfold Dec.gzipTrailerStep
  by_cases hl : d.trailer.length < 8
  · rw [if_pos hl]
    refine byteStep_ok hI h (by rw [hst]; nofun) hf (fun hn D => ?_) (fun b r' hr hw hc hleft hsuf => ?_)
    · rw [hres, hn]; exact takeThen_nil hl
    · refine .advanced (o' := o) (T' := T) (pre' := pre) ⟨hw, hI.out, hsuf, ?_⟩ rfl ?_ ?_
      · simp only [StateInv, hst]; exact hc
      · simp only [dMeasure, dRank, hst, List.length_append, List.length_singleton]; omega
      · intro D
        rw [hres, hr]
        simp only [DResumes, hst, List.cons_append]
        exact takeThen_byte hl
  · rw [if_neg hl]
    obtain ⟨f1, f2, f3, f4, f5⟩ := hI.out.flush
    have hres2 : ∀ D, DResumes W S fut d o T pre D ↔ crcOf (o.data.drop o.historyBegin) = Bytes.leNat (d.trailer.take 4) ∧
        (o.data.length - o.historyBegin) % 2 ^ 32 = Bytes.leNat (d.trailer.drop 4) ∧ Members W S D (d.reader.rest ++ fut) o := fun D => by
      rw [hres]; exact takeThen_done hl
    have ha : (d.out.flush.crcState ^^^ 0xffffffff#32).toNat = crcOf (o.data.drop o.historyBegin) := by rw [f2.crc]; rfl
    dsimp only
    rw [ha, f2.size]
    by_cases hx : crcOf (o.data.drop o.historyBegin) ≠ Bytes.leNat (d.trailer.take 4)
    · rw [if_pos hx]
      exact .fail fun D hD => hx ((hres2 D).1 hD).1
    · rw [if_neg hx]
      by_cases hy : (o.data.length - o.historyBegin) % 2 ^ 32 ≠ Bytes.leNat (d.trailer.drop 4)
      · rw [if_pos hy]
        exact .fail fun D hD => hy ((hres2 D).1 hD).2.1
      · rw [if_neg hy]
        refine .advanced (o' := o) (T' := T) (pre' := pre) ⟨hI.within, f1, hI.suffix, h⟩ f3 ?_ ?_
        · simp only [dMeasure, dRank, hst]; omega
        · intro D
          rw [hres2]
          exact ⟨fun h => h.2.2, fun h => ⟨Classical.not_not.1 hx, Classical.not_not.1 hy, h⟩⟩

theorem betweenStep_ok (hI : DInv S fut chunk prev d o T pre) (hst : d.state = .gzipBetweenMembers) (hf : finish = true → fut = []) :
    DOk W S fut chunk prev finish d o T pre
      (if d.reader.rest = [] then if finish then .advanced { d with state := .done } else .stop .needInput d else .advanced d.beginGzipHeader) := by
  have h := hI.state
  simp only [StateInv, hst] at h
  have hres : ∀ D, DResumes W S fut d o T pre D ↔ if d.reader.rest ++ fut = [] then D = o.data else GHead (GBody W S D o) [] (d.reader.rest ++ fut) := fun D => by
    simp only [DResumes, hst]
    exact members_iff hI.suffix hI.out.le
  by_cases hr : d.reader.rest = []
  · rw [if_pos hr]
    cases finish with
    | true =>
      rw [if_pos rfl]
      have hB : d.reader.rest ++ fut = [] := by rw [hr, hf rfl]; rfl
      refine .advanced (o' := o) (T' := T) (pre' := pre) ⟨hI.within, hI.out, hI.suffix, h⟩ rfl ?_ ?_
      · simp only [dMeasure, dRank, hst]; omega
      · intro D
        rw [hres, if_pos hB]
        exact ⟨fun h => ⟨hB, h⟩, fun h => h.2⟩
    | false =>
      rw [if_neg (by decide)]
      exact .stop hI rfl (fun _ => Iff.rfl) (fun _ => ⟨rfl, by rw [Reader.left, hr, h]; simp, by rw [hst]; nofun⟩) nofun nofun
  · rw [if_neg hr]
    have hB : d.reader.rest ++ fut ≠ [] := fun hx => hr (List.append_eq_nil_iff.1 hx).1
    refine .advanced (o' := o) (T' := T) (pre' := pre) ⟨hI.within, hI.out, hI.suffix, h, rfl, rfl, nofun, nofun⟩ rfl ?_ ?_
    · simp only [dMeasure, dRank, hst, Dec.beginGzipHeader]; omega
    · intro D
      rw [hres, if_neg hB]
      exact Iff.rfl

theorem step_ok (hI : DInv S fut chunk prev d o T pre) (hf : finish = true → fut = []) :
    DOk W S fut chunk prev finish d o T pre (d.step finish) := by
  unfold Dec.step
  cases hst : d.state with
  | done => exact doneStep_ok hI hst
  | rawDeflate => exact rawStep_ok hI hst hf
  | zlibHeader => exact zlibHeaderStep_ok hI hst hf
  | zlibDictionary => exact dictionaryStep_ok hI hst hf
  | zlibDeflate => exact zlibDeflateStep_ok hI hst hf
  | zlibTrailer => exact zlibTrailerStep_ok hI hst hf
  | gzipHeader => exact gzipHeaderStep_ok hI hst hf
  | gzipExtraLength => exact extraLengthStep_ok hI hst hf
  | gzipExtra => exact extraStep_ok hI hst hf
  | gzipName =>
    have h := hI.state
    simp only [StateInv, hst] at h
    refine stringStep_ok (k := fun D => GAfterName d.flags (GBody W S D o)) 2 (by omega) (by omega) hI h.1 h.2 (by rw [hst]; nofun) hf
      (by simp only [dRank, hst]; omega) (fun _ _ _ => Iff.rfl) ?_ ?_ ?_
    · intro r' crc p D; simp only [DResumes, hst]; exact Iff.rfl
    · intro r' crc p h1 h2; simp only [StateInv, hst]; exact ⟨h1, h2⟩
    · intro r' crc; simp only [dRank, hst]
  | gzipComment =>
    have h := hI.state
    simp only [StateInv, hst] at h
    refine stringStep_ok (k := fun D => GAfterComment d.flags (GBody W S D o)) 3 (by omega) (by omega) hI h.1 h.2 (by rw [hst]; nofun) hf
      (by simp only [dRank, hst]; omega) (fun _ _ _ => Iff.rfl) ?_ ?_ ?_
    · intro r' crc p D; simp only [DResumes, hst]; exact Iff.rfl
    · intro r' crc p h1 h2; simp only [StateInv, hst]; exact ⟨h1, h2⟩
    · intro r' crc; simp only [dRank, hst]
  | gzipHeaderCrc => exact headerCrcStep_ok hI hst hf
  | gzipDeflate => exact gzipDeflateStep_ok hI hst hf
  | gzipTrailer => exact gzipTrailerStep_ok hI hst hf
  | gzipBetweenMembers => exact betweenStep_ok hI hst hf

theorem stepGo_ok (hf : finish = true → fut = []) : ∀ (n : Nat) (d : Dec) (o : Span) (T : Nat) (pre : List Byte), DInv S fut chunk prev d o T pre → dMeasure d < n →
    (∀ d', d.stepGo finish n ≠ .advanced d') ∧ DOk W S fut chunk prev finish d o T pre (d.stepGo finish n)
  | 0, _, _, _, _, _, h => by omega
  | n + 1, d, o, T, pre, hI, h => by
    have hs := step_ok (W := W) hI hf
    rw [Dec.stepGo]
    generalize d.step finish = y at hs ⊢
    cases hs with
    | stop a b c e f g => exact ⟨nofun, .stop a b c e f g⟩
    | fail a => exact ⟨nofun, .fail a⟩
    | @advanced d1 o1 T1 pre1 a b c e =>
      obtain ⟨h1, h2⟩ := stepGo_ok hf n d1 o1 T1 pre1 a (by omega)
      refine ⟨h1, ?_⟩
      dsimp only
      generalize d1.stepGo finish n = z at h1 h2 ⊢
      cases h2 with
      | advanced => exact absurd rfl (h1 _)
      | fail k => exact .fail fun D hD => k D ((e D).1 hD)
      | stop k1 k2 k3 k4 k5 k6 => exact .stop k1 (k2.trans b) (fun D => (e D).trans (k3 D)) k4 k5 k6

theorem dMeasure_lt : dMeasure d < d.fuel := by
  have : dRank d < 24 := by
    unfold dRank
    split <;> omega
  rw [dMeasure, Dec.fuel]; omega

end Verif.Deflate
