import Verif.Deflate.CanonLemmas
/-! # Lemmas on the decoder for arbitrary input: no access outside of an array, no endless loop -/
namespace Verif.Deflate
open Verif.Bytes (Byte)

/-- a result that is an error of the API, or satisfies `P` -/
inductive Safe {α : Type} (P : α → Prop) : Res α → Prop
  | ok {a : α} (h : P a) : Safe P (.ok a)
  | err (x : Error) : Safe P (.error (.err x))

theorem Safe.imp {α : Type} {P Q : α → Prop} {x : Res α} (h : Safe P x) (hpq : ∀ a, P a → Q a) : Safe Q x := by
  cases h with
  | ok h => exact .ok (hpq _ h)
  | err x => exact .err x

theorem Safe.error_of {α β : Type} {P : α → Prop} {Q : β → Prop} {x : Res α} {e : Fail} (h : Safe P x) (hx : x = .error e) : Safe Q (.error e : Res β) := by
  subst hx; cases h; exact .err _

theorem Safe.ok_of {α : Type} {P : α → Prop} {x : Res α} {a : α} (h : Safe P x) (hx : x = .ok a) : P a := by
  subst hx; cases h; assumption

/-! ## reader -/

theorem readBits_safe {r : Reader} {total : Nat} (h : r.Ok total) (w : Nat) :
    Safe (fun p => p.1 < 2 ^ w ∧ p.2.Ok total ∧ p.2.left + w = r.left) (r.readBits w) := by
  have ⟨h1, h2⟩ := r.readBits_spec h w
  by_cases hw : w ≤ r.bits.length
  · obtain ⟨r', a, b, c⟩ := h1 hw
    rw [a]
    refine .ok ⟨?_, c, ?_⟩
    · have := ofBits_lt (r.bits.take w)
      rwa [List.length_take, Nat.min_eq_left hw] at this
    · rw [← r'.bits_length, b, List.length_drop, ← r.bits_length]; omega
  · rw [h2 (by omega)]; exact Safe.err _

/-! ## prefix codes -/

/-- a decoder whose tables belong to some widths -/
def Decoder.Sound (d : Decoder) : Prop :=
  ∃ l M, d.counts = (List.range (M + 1)).map (widthCount l) ∧ l.length ≤ d.symbols.length ∧ d.maxWidth ≤ M

theorem symbolGo_safe {d : Decoder} {l : List Nat} {M total : Nat} (hc : d.counts = (List.range (M + 1)).map (widthCount l))
    (hl : l.length ≤ d.symbols.length) : ∀ (n w code first : Nat) (r : Reader), n + w ≤ M → r.Ok total →
      Safe (fun p => p.2.Ok total ∧ p.2.left < r.left) (symbolGo d n (w + 1) code first (startIndex (widthCount l) (w + 1)) r)
  | 0, _, _, _, _, _, _ => Safe.err _
  | n + 1, w, code, first, r, hn, hr => by
    have hcnt : d.counts.getD (w + 1) 0 = widthCount l (w + 1) := by
      rw [hc, List.getD_eq_getElem?_getD, List.getElem?_map, List.getElem?_range (by omega)]
      simp only [Option.map_some, Option.getD_some]
    have ⟨f1, f2⟩ := r.fill_takeBit hr
    rw [symbolGo]
    cases hb : r.bits with
    | nil => rw [f1 hb]; exact Safe.err _
    | cons b s =>
      obtain ⟨r', a1, _, a3, a4⟩ := f2 b s hb
      rw [a1]
      dsimp only
      have hleft : r'.takeBit.2.left < r.left := by
        rw [← Reader.bits_length, ← Reader.bits_length, a3, hb, List.length_cons]; omega
      rw [hcnt]
      by_cases hcond : first ≤ (code <<< 1) ||| r'.takeBit.1 ∧ ((code <<< 1) ||| r'.takeBit.1) - first < widthCount l (w + 1)
      · rw [if_pos hcond]
        have hbd := startIndex_bound l (w + 1)
        have hi : startIndex (widthCount l) (w + 1) + (((code <<< 1) ||| r'.takeBit.1) - first) < d.symbols.length := by omega
        rw [List.getElem?_eq_getElem hi]
        exact .ok ⟨a4, hleft⟩
      · rw [if_neg hcond, ← startIndex_succ _ rfl]
        exact (symbolGo_safe hc hl n (w + 1) _ _ r'.takeBit.2 (by omega) a4).imp (fun p hp => ⟨hp.1, by omega⟩)

theorem decodeSymbol_safe {d : Decoder} (hd : d.Sound) {r : Reader} {total : Nat} (hr : r.Ok total) :
    Safe (fun p => p.2.Ok total ∧ p.2.left < r.left) (decodeSymbol r d) := by
  obtain ⟨l, M, h1, h2, h3⟩ := hd
  exact symbolGo_safe h1 h2 d.maxWidth 0 0 0 r (by omega) hr

theorem makeDecoder_safe {n M : Nat} {l : List Nat} (hl : l.length ≤ n) (ae ai : Bool) : Safe Decoder.Sound (makeDecoder n M l ae ai) := by
  unfold makeDecoder
  by_cases h1 : l.any (fun x => decide (M < x)) = true
  · rw [if_pos h1]; exact Safe.err _
  · rw [if_neg h1]
    dsimp only
    have hle : ∀ w ∈ l, w ≤ M := fun w hw => by
      apply Classical.byContradiction
      intro hc
      exact h1 (List.any_eq_true.2 ⟨w, hw, decide_eq_true (by omega)⟩)
    have hmax : l.foldl max 0 ≤ M := foldl_max_bound l M hle 0 (by omega)
    by_cases h2 : (l.all (fun x => decide (x = 0))) = true
    · rw [if_pos h2]
      cases ae
      · exact Safe.err _
      · exact .ok ⟨l, M, rfl, by simpa using hl, hmax⟩
    · rw [if_neg h2]
      cases spaceGo (widthCount l) M 1 1 with
      | none => exact Safe.err _
      | some rem =>
        dsimp only
        by_cases h3 : 0 < rem ∧ (ai = false ∨ l.foldl max 0 ≠ 1)
        · rw [if_pos h3]; exact Safe.err _
        · rw [if_neg h3]
          obtain ⟨s, p1, p2, _⟩ := placeSymbols_spec l n hl l [] (startIndex (widthCount l)) (List.replicate n 0) rfl (by simp) (by simp) (by simp)
          rw [show placeSymbols 0 l (startIndex (widthCount l)) (List.replicate n 0) = .ok s from p1]
          exact .ok ⟨l, M, rfl, by rw [p2]; exact hl, hmax⟩

/-! ## output -/

variable {σ : Type} [Output σ]

/-- a relation kept by every step of an output, and no step is undefined -/
structure SafeOut (K : σ → σ → Prop) : Prop where
  refl : ∀ o, K o o
  trans : ∀ {a b c}, K a b → K b c → K a c
  reset : ∀ o, K o (Output.resetHistory o)
  append : ∀ o b, Safe (K o) (Output.append o b)
  copy : ∀ o d l, Safe (K o) (Output.copy o d l)

variable {K : σ → σ → Prop} {total : Nat}

theorem readExtra_safe {r : Reader} (hr : r.Ok total) (base extra : Nat) :
    Safe (fun p => p.2.Ok total ∧ p.2.left ≤ r.left) (readExtra r base extra) := by
  unfold readExtra
  by_cases h : extra ≠ 0
  · rw [if_pos h]
    have hs := readBits_safe hr extra
    cases e : r.readBits extra with
    | error x => exact hs.error_of e
    | ok p =>
      have := hs.ok_of e
      exact .ok ⟨this.2.1, by show p.2.left ≤ r.left; omega⟩
  · rw [if_neg h]; exact .ok ⟨hr, Nat.le_refl _⟩

theorem decodeMatch_safe (S : SafeOut K) {dd : Decoder} (hd : dd.Sound) {r : Reader} (hr : r.Ok total) (o : σ) (s : Nat) :
    Safe (fun p => p.1.Ok total ∧ p.1.left < r.left ∧ K o p.2) (decodeMatch dd r o s) := by
  unfold decodeMatch
  generalize kLengthBase.getD (s - 257) 0 = base
  generalize kLengthExtra.getD (s - 257) 0 = extra
  have h1 := readExtra_safe hr base extra
  cases e1 : readExtra r base extra with
  | error x => exact h1.error_of e1
  | ok p1 =>
    have h1' := h1.ok_of e1
    dsimp only
    have h2 := decodeSymbol_safe hd h1'.1
    cases e2 : decodeSymbol p1.2 dd with
    | error x => exact h2.error_of e2
    | ok p2 =>
      have h2' := h2.ok_of e2
      dsimp only
      by_cases h3 : 30 ≤ p2.1
      · rw [if_pos h3]; exact Safe.err _
      · rw [if_neg h3]
        have h4 := readExtra_safe h2'.1 (kDistanceBase.getD p2.1 0) (kDistanceExtra.getD p2.1 0)
        cases e4 : readExtra p2.2 (kDistanceBase.getD p2.1 0) (kDistanceExtra.getD p2.1 0) with
        | error x => exact h4.error_of e4
        | ok p4 =>
          have h4' := h4.ok_of e4
          dsimp only
          have h5 := S.copy o p4.1 p1.1
          cases e5 : Output.copy o p4.1 p1.1 with
          | error x => exact h5.error_of e5
          | ok o' => exact .ok ⟨h4'.1, by show p4.2.left < r.left; omega, h5.ok_of e5⟩

theorem blockStep_safe (S : SafeOut K) {ld dd : Decoder} (hl : ld.Sound) (hd : dd.Sound) {r : Reader} (hr : r.Ok total) (o : σ) :
    Safe (fun p => p.2.1.Ok total ∧ p.2.1.left < r.left ∧ K o p.2.2) (blockStep ld dd r o) := by
  unfold blockStep
  have h1 := decodeSymbol_safe hl hr
  cases e1 : decodeSymbol r ld with
  | error x => exact h1.error_of e1
  | ok p =>
    have h1' := h1.ok_of e1
    dsimp only
    by_cases h2 : p.1 < 256
    · rw [if_pos h2]
      have h3 := S.append o (BitVec.ofNat 8 p.1)
      cases e3 : Output.append o (BitVec.ofNat 8 p.1) with
      | error x => exact h3.error_of e3
      | ok o' => exact .ok ⟨h1'.1, h1'.2, h3.ok_of e3⟩
    · rw [if_neg h2]
      by_cases h3 : p.1 = 256
      · rw [if_pos h3]; exact .ok ⟨h1'.1, h1'.2, S.refl o⟩
      · rw [if_neg h3]
        by_cases h4 : 285 < p.1
        · rw [if_pos h4]; exact Safe.err _
        · rw [if_neg h4]
          have h5 := decodeMatch_safe S hd h1'.1 o p.1
          cases e5 : decodeMatch dd p.2 o p.1 with
          | error x => exact h5.error_of e5
          | ok q =>
            have h5' := h5.ok_of e5
            exact .ok ⟨h5'.1, by show q.1.left < r.left; omega, h5'.2.2⟩

theorem blockGo_safe (S : SafeOut K) {ld dd : Decoder} (hl : ld.Sound) (hd : dd.Sound) : ∀ (n : Nat) (r : Reader) (o : σ), r.left < n → r.Ok total →
    Safe (fun p => p.1.Ok total ∧ p.1.left < r.left ∧ K o p.2) (blockGo ld dd n r o)
  | 0, _, _, h, _ => by omega
  | n + 1, r, o, h, hr => by
    rw [blockGo]
    have h1 := blockStep_safe S hl hd hr o
    cases e1 : blockStep ld dd r o with
    | error x => exact h1.error_of e1
    | ok p =>
      obtain ⟨stop, r', o'⟩ := p
      have h1' := h1.ok_of e1
      dsimp only at h1' ⊢
      cases stop with
      | true => exact .ok h1'
      | false =>
        simp only [Bool.false_eq_true, if_false]
        exact (blockGo_safe S hl hd n r' o' (by omega) h1'.1).imp (fun q hq => ⟨hq.1, by omega, S.trans h1'.2.2 hq.2.2⟩)

theorem decodeCompressedBlock_safe (S : SafeOut K) {ld dd : Decoder} (hl : ld.Sound) (hd : dd.Sound) {r : Reader} (hr : r.Ok total) (o : σ) :
    Safe (fun p => p.1.Ok total ∧ p.1.left < r.left ∧ K o p.2) (decodeCompressedBlock ld dd r o) :=
  blockGo_safe S hl hd _ r o (by omega) hr

/-! ## blocks -/

theorem clGo_safe : ∀ (is ls : List Nat) (r : Reader), r.Ok total → Safe (fun p => p.1.length = ls.length ∧ p.2.Ok total ∧ p.2.left ≤ r.left) (clGo is ls r)
  | [], ls, r, hr => .ok ⟨rfl, hr, Nat.le_refl _⟩
  | i :: is, ls, r, hr => by
    rw [clGo]
    have h1 := readBits_safe hr 3
    cases e1 : r.readBits 3 with
    | error x => exact h1.error_of e1
    | ok p =>
      have h1' := h1.ok_of e1
      dsimp only
      exact (clGo_safe is (ls.set i p.1) p.2 h1'.2.1).imp (fun q hq => ⟨by rw [hq.1, List.length_set], hq.2.1, by omega⟩)

theorem repeatOf_safe (s : Nat) (l : List Nat) : Safe (fun p => 3 ≤ p.2.1) (repeatOf s l) := by
  unfold repeatOf
  by_cases h1 : s = 16
  · rw [if_pos h1]
    cases l.getLast? with
    | none => exact Safe.err _
    | some v => exact .ok (Nat.le_refl 3)
  · rw [if_neg h1]
    by_cases h2 : s = 17
    · rw [if_pos h2]; exact .ok (Nat.le_refl 3)
    · rw [if_neg h2]
      by_cases h3 : s = 18
      · rw [if_pos h3]; exact .ok (by decide : 3 ≤ 11)
      · rw [if_neg h3]; exact Safe.err _

theorem lensGo_safe {d : Decoder} (hd : d.Sound) (k : Nat) : ∀ (n : Nat) (ls : List Nat) (r : Reader), ls.length ≤ k → k < n + ls.length → r.Ok total →
    Safe (fun p => p.1.length = k ∧ p.2.Ok total ∧ p.2.left ≤ r.left) (lensGo d k n ls r)
  | 0, _, _, h, h', _ => by omega
  | n + 1, ls, r, hle, h, hr => by
    rw [lensGo]
    by_cases hlt : ls.length < k
    · rw [if_pos hlt]
      have h1 := decodeSymbol_safe hd hr
      cases e1 : decodeSymbol r d with
      | error x => exact h1.error_of e1
      | ok p =>
        have h1' := h1.ok_of e1
        dsimp only
        by_cases hs : p.1 ≤ 15
        · rw [if_pos hs]
          exact (lensGo_safe hd k n _ p.2 (by simp; omega) (by simp; omega) h1'.1).imp (fun q hq => ⟨hq.1, hq.2.1, by omega⟩)
        · rw [if_neg hs]
          have h2 := repeatOf_safe p.1 ls
          cases e2 : repeatOf p.1 ls with
          | error x => exact h2.error_of e2
          | ok q =>
            obtain ⟨v, base, width⟩ := q
            have h2' := h2.ok_of e2
            dsimp only at h2' ⊢
            have h3 := readBits_safe h1'.1 width
            cases e3 : p.2.readBits width with
            | error x => exact h3.error_of e3
            | ok x =>
              have h3' := h3.ok_of e3
              dsimp only
              by_cases h4 : k - ls.length < base + x.1
              · rw [if_pos h4]; exact Safe.err _
              · rw [if_neg h4]
                exact (lensGo_safe hd k n _ x.2 (by simp; omega) (by simp; omega) h3'.2.1).imp (fun q hq => ⟨hq.1, hq.2.1, by omega⟩)
    · rw [if_neg hlt]
      exact .ok ⟨by show ls.length = k; omega, hr, Nat.le_refl _⟩

theorem readDynamic_safe {r : Reader} (hr : r.Ok total) :
    Safe (fun p => p.1.Sound ∧ p.2.1.Sound ∧ p.2.2.Ok total ∧ p.2.2.left ≤ r.left) (readDynamic r) := by
  unfold readDynamic
  have h1 := readBits_safe hr 5
  cases e1 : r.readBits 5 with
  | error x => exact Safe.err _
  | ok p1 =>
    have h1' := h1.ok_of e1
    dsimp only
    have h2 := readBits_safe h1'.2.1 5
    cases e2 : p1.2.readBits 5 with
    | error x => exact Safe.err _
    | ok p2 =>
      have h2' := h2.ok_of e2
      dsimp only
      have h3 := readBits_safe h2'.2.1 4
      cases e3 : p2.2.readBits 4 with
      | error x => exact Safe.err _
      | ok p3 =>
        have h3' := h3.ok_of e3
        dsimp only
        by_cases hbig : 286 < p1.1 + 257 ∨ 30 < p2.1 + 1
        · rw [if_pos hbig]; exact Safe.err _
        · rw [if_neg hbig]
          have h4 := clGo_safe (kCodeLengthOrder.take (p3.1 + 4)) (List.replicate 19 0) p3.2 h3'.2.1
          cases e4 : clGo (kCodeLengthOrder.take (p3.1 + 4)) (List.replicate 19 0) p3.2 with
          | error x => exact h4.error_of e4
          | ok p4 =>
            have h4' := h4.ok_of e4
            rw [List.length_replicate] at h4'
            dsimp only
            have h5 := makeDecoder_safe (n := 19) (M := 7) (l := p4.1) (by omega) false false
            cases e5 : makeDecoder 19 7 p4.1 false false with
            | error x => exact h5.error_of e5
            | ok cd =>
              dsimp only
              have h6 := lensGo_safe (h5.ok_of e5) (p1.1 + 257 + (p2.1 + 1)) (p1.1 + 257 + (p2.1 + 1) + 1) [] p4.2 (by simp) (by simp) h4'.2.1
              cases e6 : lensGo cd (p1.1 + 257 + (p2.1 + 1)) (p1.1 + 257 + (p2.1 + 1) + 1) [] p4.2 with
              | error x => exact h6.error_of e6
              | ok p6 =>
                have h6' := h6.ok_of e6
                dsimp only
                by_cases h7 : (p6.1.take (p1.1 + 257)).getD 256 0 = 0
                · rw [if_pos h7]; exact Safe.err _
                · rw [if_neg h7]
                  have h8 := makeDecoder_safe (n := 288) (M := 15) (l := p6.1.take (p1.1 + 257)) (by rw [List.length_take]; omega) false true
                  cases e8 : makeDecoder 288 15 (p6.1.take (p1.1 + 257)) false true with
                  | error x => exact h8.error_of e8
                  | ok ld =>
                    dsimp only
                    have h9 := makeDecoder_safe (n := 32) (M := 15) (l := p6.1.drop (p1.1 + 257)) (by rw [List.length_drop]; omega) true true
                    cases e9 : makeDecoder 32 15 (p6.1.drop (p1.1 + 257)) true true with
                    | error x => exact h9.error_of e9
                    | ok dd => exact .ok ⟨h8.ok_of e8, h9.ok_of e9, h6'.2.1, by show p6.2.left ≤ r.left; omega⟩

theorem decodeDynamicBlock_safe (S : SafeOut K) {r : Reader} (hr : r.Ok total) (o : σ) :
    Safe (fun p => p.1.Ok total ∧ p.1.left ≤ r.left ∧ K o p.2) (decodeDynamicBlock r o) := by
  unfold decodeDynamicBlock
  have h1 := readDynamic_safe hr
  cases e1 : readDynamic r with
  | error x => exact h1.error_of e1
  | ok p =>
    obtain ⟨ld, dd, r1⟩ := p
    have h1' := h1.ok_of e1
    dsimp only at h1' ⊢
    exact (decodeCompressedBlock_safe S h1'.1 h1'.2.1 h1'.2.2.1 o).imp (fun q hq => ⟨hq.1, by omega, hq.2.2⟩)

theorem storedBytes_safe (S : SafeOut K) : ∀ (n : Nat) (r : Reader) (o : σ), r.Ok total →
    Safe (fun p => p.1.Ok total ∧ p.1.left ≤ r.left ∧ K o p.2) (storedBytes n r o)
  | 0, r, o, hr => .ok ⟨hr, Nat.le_refl _, S.refl o⟩
  | n + 1, r, o, hr => by
    rw [storedBytes]
    have h1 := readBits_safe hr 8
    cases e1 : r.readBits 8 with
    | error x => exact h1.error_of e1
    | ok p =>
      have h1' := h1.ok_of e1
      dsimp only
      have h2 := S.append o (BitVec.ofNat 8 p.1)
      cases e2 : Output.append o (BitVec.ofNat 8 p.1) with
      | error x => exact h2.error_of e2
      | ok o' =>
        dsimp only
        exact (storedBytes_safe S n p.2 o' h1'.2.1).imp (fun q hq => ⟨hq.1, by omega, S.trans (h2.ok_of e2) hq.2.2⟩)

theorem alignByte_left {r : Reader} (hr : r.Ok total) : r.alignByte.left ≤ r.left := by
  rw [← Reader.bits_length, ← Reader.bits_length, (Reader.alignByte_spec hr).1, List.length_drop]; omega

theorem decodeStored_safe (S : SafeOut K) {r : Reader} (hr : r.Ok total) (o : σ) :
    Safe (fun p => p.1.Ok total ∧ p.1.left ≤ r.left ∧ K o p.2) (decodeStored r o) := by
  unfold decodeStored
  have hal := alignByte_left hr
  have h1 := readBits_safe (Reader.alignByte_spec hr).2.1 16
  cases e1 : r.alignByte.readBits 16 with
  | error x => exact Safe.err _
  | ok p =>
    have h1' := h1.ok_of e1
    dsimp only
    have h2 := readBits_safe h1'.2.1 16
    cases e2 : p.2.readBits 16 with
    | error x => exact Safe.err _
    | ok q =>
      have h2' := h2.ok_of e2
      dsimp only
      by_cases hne : 65535 - p.1 ≠ q.1
      · rw [if_pos hne]; exact Safe.err _
      · rw [if_neg hne]
        exact (storedBytes_safe S p.1 q.2 o h2'.2.1).imp (fun x hx => ⟨hx.1, by omega, hx.2.2⟩)

theorem decodeFixed_safe (S : SafeOut K) {r : Reader} (hr : r.Ok total) (o : σ) :
    Safe (fun p => p.1.Ok total ∧ p.1.left ≤ r.left ∧ K o p.2) (decodeFixed r o) := by
  unfold decodeFixed
  have hlen : fixedLiteralLengths.length = 288 := by decide +kernel
  have hlen' : fixedDistanceLengths.length = 32 := by decide +kernel
  have h1 := makeDecoder_safe (n := 288) (M := 15) (l := fixedLiteralLengths) (Nat.le_of_eq hlen) false true
  cases e1 : makeDecoder 288 15 fixedLiteralLengths false true with
  | error x => exact h1.error_of e1
  | ok ld =>
    dsimp only
    have h2 := makeDecoder_safe (n := 32) (M := 15) (l := fixedDistanceLengths) (Nat.le_of_eq hlen') false true
    cases e2 : makeDecoder 32 15 fixedDistanceLengths false true with
    | error x => exact h2.error_of e2
    | ok dd => exact (decodeCompressedBlock_safe S (h1.ok_of e1) (h2.ok_of e2) hr o).imp (fun q hq => ⟨hq.1, by omega, hq.2.2⟩)

theorem decodeBlock_safe (S : SafeOut K) {r : Reader} (hr : r.Ok total) (o : σ) :
    Safe (fun p => p.2.1.Ok total ∧ p.2.1.left < r.left ∧ K o p.2.2) (decodeBlock r o) := by
  unfold decodeBlock
  have h1 := readBits_safe hr 1
  cases e1 : r.readBits 1 with
  | error x => exact Safe.err _
  | ok p1 =>
    have h1' := h1.ok_of e1
    dsimp only
    have h2 := readBits_safe h1'.2.1 2
    cases e2 : p1.2.readBits 2 with
    | error x => exact Safe.err _
    | ok p2 =>
      have h2' := h2.ok_of e2
      dsimp only
      have h3 : Safe (fun p => p.1.Ok total ∧ p.1.left ≤ p2.2.left ∧ K o p.2) (if p2.1 = 0 then decodeStored p2.2 o else if p2.1 = 1 then decodeFixed p2.2 o
          else if p2.1 = 2 then decodeDynamicBlock p2.2 o else .error (.err .invalidBlockType)) := by
        by_cases k0 : p2.1 = 0
        · rw [if_pos k0]; exact decodeStored_safe S h2'.2.1 o
        · rw [if_neg k0]
          by_cases k1 : p2.1 = 1
          · rw [if_pos k1]; exact decodeFixed_safe S h2'.2.1 o
          · rw [if_neg k1]
            by_cases k2 : p2.1 = 2
            · rw [if_pos k2]; exact decodeDynamicBlock_safe S h2'.2.1 o
            · rw [if_neg k2]; exact Safe.err _
      cases e3 : (if p2.1 = 0 then decodeStored p2.2 o else if p2.1 = 1 then decodeFixed p2.2 o
          else if p2.1 = 2 then decodeDynamicBlock p2.2 o else .error (.err .invalidBlockType)) with
      | error x => exact h3.error_of e3
      | ok q =>
        have h3' := h3.ok_of e3
        exact .ok ⟨h3'.1, by show q.1.left < r.left; omega, h3'.2.2⟩

theorem blocksGo_safe (S : SafeOut K) : ∀ (n : Nat) (r : Reader) (o : σ), r.left < n → r.Ok total →
    Safe (fun p => p.1.Ok total ∧ K o p.2) (blocksGo n r o)
  | 0, _, _, h, _ => by omega
  | n + 1, r, o, h, hr => by
    rw [blocksGo]
    have h1 := decodeBlock_safe S hr o
    cases e1 : decodeBlock r o with
    | error x => exact h1.error_of e1
    | ok p =>
      obtain ⟨final, r', o'⟩ := p
      have h1' := h1.ok_of e1
      dsimp only at h1' ⊢
      cases final with
      | true => exact .ok ⟨h1'.1, h1'.2.2⟩
      | false =>
        simp only [Bool.false_eq_true, if_false]
        exact (blocksGo_safe S n r' o' (by omega) h1'.1).imp (fun q hq => ⟨hq.1, S.trans h1'.2.2 hq.2⟩)

theorem decodeDeflate_safe (S : SafeOut K) (input : List Byte) (o : σ) :
    Safe (fun p => p.1 ≤ input.length ∧ K o p.2) (decodeDeflate input o) := by
  unfold decodeDeflate
  have h1 := blocksGo_safe S ((Reader.new input).left + 1) (Reader.new input) (Output.resetHistory o) (by omega) (Reader.new_ok input)
  cases e1 : blocksGo ((Reader.new input).left + 1) (Reader.new input) (Output.resetHistory o) with
  | error x => exact h1.error_of e1
  | ok p =>
    have h1' := h1.ok_of e1
    have := (Reader.alignByte_spec h1'.1).2.1.pos
    exact .ok ⟨by show p.1.alignByte.pos ≤ input.length; omega, S.trans (S.reset o) h1'.2⟩

/-! ## containers -/

theorem readLittle_safe {input : List Byte} {pos n : Nat} (h : pos + n ≤ input.length) : Safe (fun _ => True) (readLittle n input pos) := by
  rw [readLittle, Bytes.slice, if_pos h]; exact .ok trivial

theorem readBig32_safe {input : List Byte} {pos : Nat} (h : pos + 4 ≤ input.length) : Safe (fun _ => True) (readBig32 input pos) := by
  rw [readBig32, Bytes.slice, if_pos h]; exact .ok trivial

theorem decodeRaw_safe (S : SafeOut K) (input : List Byte) (o : σ) : Safe (fun p => p.1 = Output.size p.2 ∧ K o p.2) (decodeRaw input o) := by
  unfold decodeRaw
  have h1 := decodeDeflate_safe S input o
  cases e1 : decodeDeflate input o with
  | error x => exact h1.error_of e1
  | ok p =>
    dsimp only
    by_cases h : p.1 ≠ input.length
    · rw [if_pos h]; exact Safe.err _
    · rw [if_neg h]; exact .ok ⟨rfl, (h1.ok_of e1).2⟩

theorem decodeZlib_safe (S : SafeOut K) (input : List Byte) (o : σ) : Safe (fun p => p.1 = Output.size p.2 ∧ K o p.2) (decodeZlib input o) := by
  unfold decodeZlib
  match input with
  | [] => exact Safe.err _
  | [_] => exact Safe.err _
  | cmf :: flg :: body =>
    dsimp only
    by_cases h0 : cmf.toNat &&& 0x0f ≠ 8 ∨ 7 < cmf.toNat >>> 4 ∨ ((cmf.toNat <<< 8) + flg.toNat) % 31 ≠ 0
    · rw [if_pos h0]; exact Safe.err _
    · rw [if_neg h0]
      by_cases h1 : flg.toNat &&& 0x20 ≠ 0
      · rw [if_pos h1]
        by_cases h2 : (cmf :: flg :: body).length < 6
        · rw [if_pos h2]; exact Safe.err _
        · rw [if_neg h2]; exact Safe.err _
      · rw [if_neg h1]
        have h3 := decodeDeflate_safe S body o
        cases e3 : decodeDeflate body o with
        | error x => exact h3.error_of e3
        | ok p =>
          have h3' := h3.ok_of e3
          dsimp only
          by_cases h4 : (cmf :: flg :: body).length < 2 + p.1 + 4
          · rw [if_pos h4]; exact Safe.err _
          · rw [if_neg h4]
            by_cases h5 : (cmf :: flg :: body).length ≠ 2 + p.1 + 4
            · rw [if_pos h5]; exact Safe.err _
            · rw [if_neg h5]
              have h6 := readBig32_safe (input := cmf :: flg :: body) (pos := 2 + p.1) (by omega)
              cases e6 : readBig32 (cmf :: flg :: body) (2 + p.1) with
              | error x => exact h6.error_of e6
              | ok sum =>
                dsimp only
                by_cases h7 : (Output.range p.2 (Output.size o)).any (fun bs => decide (adler32 bs ≠ sum)) = true
                · rw [if_pos h7]; exact Safe.err _
                · rw [if_neg h7]; exact .ok ⟨rfl, h3'.2⟩

theorem skipString_safe (input : List Byte) (pos : Nat) : Safe (fun q => pos ≤ q ∧ q ≤ input.length) (skipString input pos) := by
  unfold skipString
  cases e : (input.drop pos).findIdx? (fun b => decide (b = 0)) with
  | none => exact Safe.err _
  | some i =>
    have := (List.findIdx?_eq_some_iff_getElem.1 e).1
    rw [List.length_drop] at this
    exact .ok ⟨by omega, by omega⟩

theorem skipExtra_safe (input : List Byte) (pos : Nat) : Safe (fun q => pos ≤ q ∧ q ≤ input.length) (skipExtra input pos) := by
  unfold skipExtra
  by_cases h : input.length - pos < 2
  · rw [if_pos h]; exact Safe.err _
  · rw [if_neg h]
    have h1 := readLittle_safe (input := input) (pos := pos) (n := 2) (by omega)
    cases e1 : readLittle 2 input pos with
    | error x => exact h1.error_of e1
    | ok n =>
      dsimp only
      by_cases h2 : input.length - (pos + 2) < n
      · rw [if_pos h2]; exact Safe.err _
      · rw [if_neg h2]; exact .ok ⟨by omega, by omega⟩

theorem skipHeaderCrc_safe (W : Nat) (input : List Byte) (start pos : Nat) : Safe (fun q => pos ≤ q ∧ q ≤ input.length) (skipHeaderCrc W input start pos) := by
  unfold skipHeaderCrc
  by_cases h : input.length - pos < 2
  · rw [if_pos h]; exact Safe.err _
  · rw [if_neg h]
    have h1 := readLittle_safe (input := input) (pos := pos) (n := 2) (by omega)
    cases e1 : readLittle 2 input pos with
    | error x => exact h1.error_of e1
    | ok n =>
      dsimp only
      by_cases h2 : n ≠ computeCrc32 W ((input.drop start).take (pos - start)) &&& 0xffff
      · rw [if_pos h2]; exact Safe.err _
      · rw [if_neg h2]; exact .ok ⟨by omega, by omega⟩

theorem gzipMemberHeader_safe (W : Nat) (input : List Byte) (start : Nat) :
    Safe (fun q => start + 10 ≤ q ∧ q ≤ input.length) (gzipMemberHeader W input start) := by
  unfold gzipMemberHeader
  by_cases h1 : input.length - start < 2
  · rw [if_pos h1]
    by_cases h2 : start = 0 ∨ input[start]? = some 0x1f#8
    · rw [if_pos h2]; exact Safe.err _
    · rw [if_neg h2]; exact Safe.err _
  · rw [if_neg h1]
    by_cases h2 : input[start]? ≠ some 0x1f#8 ∨ input[start + 1]? ≠ some 0x8b#8
    · rw [if_pos h2]
      by_cases h3 : start = 0
      · rw [if_pos h3]; exact Safe.err _
      · rw [if_neg h3]; exact Safe.err _
    · rw [if_neg h2]
      by_cases h3 : input.length - start < 10
      · rw [if_pos h3]; exact Safe.err _
      · rw [if_neg h3]
        by_cases h4 : input[start + 2]? ≠ some 0x08#8
        · rw [if_pos h4]; exact Safe.err _
        · rw [if_neg h4]
          dsimp only
          generalize (input.getD (start + 3) 0).toNat = flags
          by_cases h5 : flags &&& 0xe0 ≠ 0
          · rw [if_pos h5]; exact Safe.err _
          · rw [if_neg h5]
            have g1 : Safe (fun q => start + 10 ≤ q ∧ q ≤ input.length) (if flags &&& 0x04 ≠ 0 then skipExtra input (start + 10) else .ok (start + 10)) := by
              by_cases h : flags &&& 0x04 ≠ 0
              · rw [if_pos h]; exact skipExtra_safe _ _
              · rw [if_neg h]; exact .ok ⟨Nat.le_refl _, by omega⟩
            cases e1 : (if flags &&& 0x04 ≠ 0 then skipExtra input (start + 10) else .ok (start + 10)) with
            | error x => exact g1.error_of e1
            | ok p1 =>
              have g1' := g1.ok_of e1
              dsimp only
              have g2 : Safe (fun q => start + 10 ≤ q ∧ q ≤ input.length) (if flags &&& 0x08 ≠ 0 then skipString input p1 else .ok p1) := by
                by_cases h : flags &&& 0x08 ≠ 0
                · rw [if_pos h]; exact (skipString_safe _ _).imp (fun q hq => ⟨by omega, hq.2⟩)
                · rw [if_neg h]; exact .ok g1'
              cases e2 : (if flags &&& 0x08 ≠ 0 then skipString input p1 else .ok p1) with
              | error x => exact g2.error_of e2
              | ok p2 =>
                have g2' := g2.ok_of e2
                dsimp only
                have g3 : Safe (fun q => start + 10 ≤ q ∧ q ≤ input.length) (if flags &&& 0x10 ≠ 0 then skipString input p2 else .ok p2) := by
                  by_cases h : flags &&& 0x10 ≠ 0
                  · rw [if_pos h]; exact (skipString_safe _ _).imp (fun q hq => ⟨by omega, hq.2⟩)
                  · rw [if_neg h]; exact .ok g2'
                cases e3 : (if flags &&& 0x10 ≠ 0 then skipString input p2 else .ok p2) with
                | error x => exact g3.error_of e3
                | ok p3 =>
                  have g3' := g3.ok_of e3
                  dsimp only
                  by_cases h : flags &&& 0x02 ≠ 0
                  · rw [if_pos h]; exact (skipHeaderCrc_safe W _ _ _).imp (fun q hq => ⟨by omega, hq.2⟩)
                  · rw [if_neg h]; exact .ok g3'

theorem gzipMember_safe (S : SafeOut K) (W : Nat) (input : List Byte) (start : Nat) (o : σ) :
    Safe (fun p => start < p.1 ∧ p.1 ≤ input.length ∧ K o p.2) (gzipMember W input start o) := by
  unfold gzipMember
  have h1 := gzipMemberHeader_safe W input start
  cases e1 : gzipMemberHeader W input start with
  | error x => exact h1.error_of e1
  | ok p =>
    have h1' := h1.ok_of e1
    dsimp only
    have h2 := decodeDeflate_safe S (input.drop p) o
    cases e2 : decodeDeflate (input.drop p) o with
    | error x => exact h2.error_of e2
    | ok q =>
      have h2' := h2.ok_of e2
      rw [List.length_drop] at h2'
      dsimp only
      by_cases h3 : input.length - (p + q.1) < 8
      · rw [if_pos h3]; exact Safe.err _
      · rw [if_neg h3]
        have h4 := readLittle_safe (input := input) (pos := p + q.1) (n := 4) (by omega)
        cases e4 : readLittle 4 input (p + q.1) with
        | error x => exact h4.error_of e4
        | ok crc =>
          dsimp only
          by_cases h5 : (Output.range q.2 (Output.size o)).any (fun bs => decide (computeCrc32 W bs ≠ crc)) = true
          · rw [if_pos h5]; exact Safe.err _
          · rw [if_neg h5]
            have h6 := readLittle_safe (input := input) (pos := p + q.1 + 4) (n := 4) (by omega)
            cases e6 : readLittle 4 input (p + q.1 + 4) with
            | error x => exact h6.error_of e6
            | ok size =>
              dsimp only
              by_cases h7 : (Output.size q.2 - Output.size o) % 2 ^ 32 ≠ size
              · rw [if_pos h7]; exact Safe.err _
              · rw [if_neg h7]
                exact .ok ⟨by show start < p + q.1 + 8; omega, by show p + q.1 + 8 ≤ input.length; omega, h2'.2⟩

theorem gzipGo_safe (S : SafeOut K) (W : Nat) (input : List Byte) : ∀ (n pos : Nat) (o : σ), pos ≤ input.length → input.length < n + pos →
    Safe (fun p => p.1 = Output.size p.2 ∧ K o p.2) (gzipGo W input n pos o)
  | 0, _, _, h, h' => by omega
  | n + 1, pos, o, h, h' => by
    rw [gzipGo]
    by_cases hlt : pos < input.length
    · rw [if_pos hlt]
      have h1 := gzipMember_safe S W input pos o
      cases e1 : gzipMember W input pos o with
      | error x => exact h1.error_of e1
      | ok p =>
        have h1' := h1.ok_of e1
        dsimp only
        exact (gzipGo_safe S W input n p.1 p.2 h1'.2.1 (by omega)).imp (fun q hq => ⟨hq.1, S.trans h1'.2.2 hq.2⟩)
    · rw [if_neg hlt]; exact .ok ⟨rfl, S.refl o⟩

theorem decompressInto_safe (S : SafeOut K) (W : Nat) (input : List Byte) (o : σ) (format : Format) :
    Safe (fun p => p.1 = Output.size p.2 ∧ K o p.2) (decompressInto W input o format) := by
  cases format with
  | rawDeflate => exact decodeRaw_safe S input o
  | zlib => exact decodeZlib_safe S input o
  | gzip =>
    show Safe _ (decodeGzip W input o)
    rw [decodeGzip]
    by_cases h : input = []
    · rw [if_pos h]; exact Safe.err _
    · rw [if_neg h]; exact gzipGo_safe S W input _ 0 o (by omega) (by omega)

/-! ## the two outputs -/

theorem copyGo_safe : ∀ (n d : Nat) (data : List Byte), 1 ≤ d → d ≤ data.length →
    Safe (fun data' => data'.length = data.length + n ∧ data <+: data') (copyGo n d data)
  | 0, _, data, _, _ => .ok ⟨rfl, List.prefix_rfl⟩
  | n + 1, d, data, h1, h2 => by
    rw [copyGo, if_pos h2, List.getElem?_eq_getElem (show data.length - d < data.length by omega)]
    dsimp only
    refine (copyGo_safe n d (data ++ [data[data.length - d]]) h1 (by simp; omega)).imp (fun q hq => ⟨?_, ?_⟩)
    · rw [hq.1]; simp; omega
    · exact (List.prefix_append data _).trans hq.2

/-- what happens to a buffer: it is extended, within its capacity -/
structure Span.Grows (o o' : Span) : Prop where
  capacity : o'.capacity = o.capacity
  fits : o.data.length ≤ o.capacity → o'.data.length ≤ o'.capacity
  history : o.historyBegin ≤ o.data.length → o'.historyBegin ≤ o'.data.length
  kept : o.data <+: o'.data

theorem span_safe : SafeOut Span.Grows where
  refl o := ⟨rfl, id, id, List.prefix_rfl⟩
  trans h1 h2 := ⟨h2.1.trans h1.1, fun h => h2.2 (h1.2 h), fun h => h2.3 (h1.3 h), h1.4.trans h2.4⟩
  reset o := ⟨rfl, id, fun _ => Nat.le_refl _, List.prefix_rfl⟩
  append o b := by
    show Safe _ (Span.append o b)
    unfold Span.append
    by_cases h : o.data.length = o.capacity
    · rw [if_pos h]; exact Safe.err _
    · rw [if_neg h]
      refine .ok ⟨rfl, fun hl => ?_, fun hl => ?_, List.prefix_append _ _⟩
      · show (o.data ++ [b]).length ≤ o.capacity
        rw [List.length_append, List.length_singleton]; omega
      · show o.historyBegin ≤ (o.data ++ [b]).length
        rw [List.length_append, List.length_singleton]; omega
  copy o d l := by
    show Safe _ (Span.copy o d l)
    unfold Span.copy
    by_cases h : d = 0 ∨ o.data.length - o.historyBegin < d
    · rw [if_pos h]; exact Safe.err _
    · rw [if_neg h]
      by_cases h2 : o.capacity - o.data.length < l
      · rw [if_pos h2]; exact Safe.err _
      · rw [if_neg h2]
        have h3 := copyGo_safe l d o.data (by omega) (by omega)
        cases e3 : copyGo l d o.data with
        | error x => exact h3.error_of e3
        | ok data' =>
          have h3' := h3.ok_of e3
          exact .ok ⟨rfl, fun hl => by show data'.length ≤ o.capacity; omega, fun hl => by show o.historyBegin ≤ data'.length; omega, h3'.2⟩

/-- what happens to a counter -/
structure Counting.Grows (o o' : Counting) : Prop where
  limit : o'.limit = o.limit
  fits : o.count ≤ o.limit → o'.count ≤ o'.limit
  history : o.historyBegin ≤ o.count → o'.historyBegin ≤ o'.count
  kept : o.count ≤ o'.count

theorem grow_safe (o : Counting) (n : Nat) : Safe (Counting.Grows o) (o.grow n) := by
  unfold Counting.grow
  by_cases h : 2 ^ 64 - 1 - o.count < n
  · rw [if_pos h]; exact Safe.err _
  · rw [if_neg h]
    by_cases h2 : o.limit < o.count + n
    · rw [if_pos h2]; exact Safe.err _
    · rw [if_neg h2]
      exact .ok ⟨rfl, fun _ => by show o.count + n ≤ o.limit; omega, fun _ => by show o.historyBegin ≤ o.count + n; omega, by show o.count ≤ o.count + n; omega⟩

theorem counting_safe : SafeOut Counting.Grows where
  refl o := ⟨rfl, id, id, Nat.le_refl _⟩
  trans h1 h2 := ⟨h2.1.trans h1.1, fun h => h2.2 (h1.2 h), fun h => h2.3 (h1.3 h), Nat.le_trans h1.4 h2.4⟩
  reset o := ⟨rfl, id, fun _ => Nat.le_refl _, Nat.le_refl _⟩
  append o b := grow_safe o 1
  copy o d l := by
    show Safe _ (if d = 0 ∨ o.count - o.historyBegin < d then .error (.err .invalidBackReference) else o.grow l)
    by_cases h : d = 0 ∨ o.count - o.historyBegin < d
    · rw [if_pos h]; exact Safe.err _
    · rw [if_neg h]; exact grow_safe o l

end Verif.Deflate
