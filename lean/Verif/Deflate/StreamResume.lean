import Verif.Deflate.StreamOutput
/-!
# Streaming decoder: what the one-shot decoder would do with the rest

For every state the streaming inflater can be in, the relation `Resumes` says how the one-shot decoder ends if it goes on from there with a reader
over everything still to come. It is stated with the functions of the one-shot decoder only.
-/
namespace Verif.Deflate
open Verif.Bytes (Byte)

/-! ## the number of steps allowed does not matter -/

section
variable {σ : Type} [Output σ]

theorem blockGo_mono {ld dd : Decoder} : ∀ (n : Nat) (r : Reader) (o : σ) (x : Res (Reader × σ)), blockGo ld dd n r o = x → x ≠ .error .fuel →
    blockGo ld dd (n + 1) r o = x
  | 0, r, o, x, h, hx => absurd h.symm hx
  | n + 1, r, o, x, h, hx => by
    rw [blockGo] at h ⊢
    cases e : blockStep ld dd r o with
    | error y => rw [e] at h; exact h
    | ok p =>
      obtain ⟨stop, r1, o1⟩ := p
      rw [e] at h
      dsimp only at h ⊢
      cases stop with
      | true => exact h
      | false =>
        simp only [Bool.false_eq_true, if_false] at h ⊢
        exact blockGo_mono n r1 o1 x h hx

theorem blocksGo_mono : ∀ (n : Nat) (r : Reader) (o : σ) (x : Res (Reader × σ)), blocksGo n r o = x → x ≠ .error .fuel → blocksGo (n + 1) r o = x
  | 0, r, o, x, h, hx => absurd h.symm hx
  | n + 1, r, o, x, h, hx => by
    rw [blocksGo] at h ⊢
    cases e : decodeBlock r o with
    | error y => rw [e] at h; exact h
    | ok p =>
      obtain ⟨stop, r1, o1⟩ := p
      rw [e] at h
      dsimp only at h ⊢
      cases stop with
      | true => exact h
      | false =>
        simp only [Bool.false_eq_true, if_false] at h ⊢
        exact blocksGo_mono n r1 o1 x h hx
end

theorem lensGo_mono {d : Decoder} {k : Nat} : ∀ (n : Nat) (ls : List Nat) (r : Reader) (x : Res (List Nat × Reader)), lensGo d k n ls r = x →
    x ≠ .error .fuel → lensGo d k (n + 1) ls r = x
  | 0, ls, r, x, h, hx => absurd h.symm hx
  | n + 1, ls, r, x, h, hx => by
    rw [lensGo] at h ⊢
    by_cases hl : ls.length < k
    · rw [if_pos hl] at h ⊢
      cases e : decodeSymbol r d with
      | error y => rw [e] at h; exact h
      | ok p =>
        rw [e] at h
        dsimp only at h ⊢
        by_cases hs : p.1 ≤ 15
        · rw [if_pos hs] at h ⊢
          exact lensGo_mono n _ _ x h hx
        · rw [if_neg hs] at h ⊢
          cases e2 : repeatOf p.1 ls with
          | error y => rw [e2] at h; exact h
          | ok q =>
            rw [e2] at h
            dsimp only at h ⊢
            cases e3 : p.2.readBits q.2.2 with
            | error y => rw [e3] at h; exact h
            | ok t =>
              rw [e3] at h
              dsimp only at h ⊢
              by_cases hb : k - ls.length < q.2.1 + t.1
              · rw [if_pos hb] at h ⊢; exact h
              · rw [if_neg hb] at h ⊢; exact lensGo_mono n _ _ x h hx
    · rw [if_neg hl] at h ⊢; exact h

theorem mono_add {α : Type} {f : Nat → Res α} (hm : ∀ n x, f n = x → x ≠ .error .fuel → f (n + 1) = x) {n : Nat} {x : Res α} (h : f n = x)
    (hx : x ≠ .error .fuel) : ∀ k, f (n + k) = x
  | 0 => h
  | k + 1 => hm (n + k) x (mono_add hm h hx k) hx

/-- a bound that suffices gives the same as any other that does -/
theorem mono_safe {α : Type} {f : Nat → Res α} (hm : ∀ n x, f n = x → x ≠ .error .fuel → f (n + 1) = x) {m : Nat} {P : α → Prop} (hs : Safe P (f m)) (a : α) :
    f m = .ok a ↔ ∃ n, f n = .ok a := by
  refine ⟨fun h => ⟨m, h⟩, fun ⟨n, h⟩ => ?_⟩
  have hne : f m ≠ .error .fuel := by
    intro e
    rw [e] at hs
    cases hs
  have h1 := mono_add hm (n := m) rfl hne n
  have h2 := mono_add hm h (by simp) m
  rw [Nat.add_comm] at h2
  rw [← h1, h2]

variable {R R1 R2 : Reader} {T : Nat} {o o1 : Span} {F : Reader × Span}

theorem compressed_iff {ld dd : Decoder} (hl : ld.Sound) (hd : dd.Sound) (hR : R.Ok T) (a : Reader × Span) :
    decodeCompressedBlock ld dd R o = .ok a ↔ ∃ n, blockGo ld dd n R o = .ok a :=
  mono_safe (f := fun n => blockGo ld dd n R o) (fun n x h hx => blockGo_mono n R o x h hx) (decodeCompressedBlock_safe span_safe hl hd hR o) a

theorem lens_iff {d : Decoder} (hd : d.Sound) (hR : R.Ok T) (k : Nat) (a : List Nat × Reader) :
    lensGo d k (k + 1) [] R = .ok a ↔ ∃ n, lensGo d k n [] R = .ok a :=
  mono_safe (f := fun n => lensGo d k n [] R) (fun n x h hx => lensGo_mono n _ R x h hx) (lensGo_safe hd k (k + 1) [] R (by simp) (by simp) hR) a

/-! ## the rest of the work, by state -/

/-- the remaining blocks, up to the next byte boundary -/
def Blocks (R : Reader) (o : Span) (F : Reader × Span) : Prop := ∃ n R1 o1, blocksGo n R o = .ok (R1, o1) ∧ F = (R1.alignByte, o1)

/-- after a block -/
def Ends (final : Bool) (R : Reader) (o : Span) (F : Reader × Span) : Prop := if final then F = (R.alignByte, o) else Blocks R o F

/-- in a compressed block -/
def Comp (ld dd : Decoder) (final : Bool) (R : Reader) (o : Span) (F : Reader × Span) : Prop :=
  ∃ n R1 o1, blockGo ld dd n R o = .ok (R1, o1) ∧ Ends final R1 o1 F

/-- in a stored block, with `k` bytes to come -/
def Stored (k : Nat) (final : Bool) (R : Reader) (o : Span) (F : Reader × Span) : Prop := ∃ R1 o1, storedBytes k R o = .ok (R1, o1) ∧ Ends final R1 o1 F

/-- after the code lengths of a dynamic block -/
def Trees (lits : Nat) (lens : List Nat) (final : Bool) (R : Reader) (o : Span) (F : Reader × Span) : Prop :=
  (lens.take lits).getD 256 0 ≠ 0 ∧ ∃ ld dd, makeDecoder 288 15 (lens.take lits) false true = .ok ld ∧
    makeDecoder 32 15 (lens.drop lits) true true = .ok dd ∧ Comp ld dd final R o F

/-- in the code lengths of a dynamic block -/
def Lens (cd : Decoder) (lits dists : Nat) (lens : List Nat) (final : Bool) (R : Reader) (o : Span) (F : Reader × Span) : Prop :=
  ∃ n lens' R1, lensGo cd (lits + dists) n lens R = .ok (lens', R1) ∧ Trees lits lens' final R1 o F

/-- in the lengths of the code length code of a dynamic block -/
def CodeLens (lits dists : Nat) (order cl : List Nat) (final : Bool) (R : Reader) (o : Span) (F : Reader × Span) : Prop :=
  ∃ cl' R1 cd, clGo order cl R = .ok (cl', R1) ∧ makeDecoder 19 7 cl' false false = .ok cd ∧ Lens cd lits dists [] final R1 o F

def byMode (s : Inflate) (R : Reader) (o : Span) (F : Reader × Span) : Prop :=
  match s.mode with
  | .done => F = (R, o)
  | .header => Blocks R o F
  | .storedLength => ∃ R1 o1, decodeStored R o = .ok (R1, o1) ∧ Ends s.finalBlock R1 o1 F
  | .storedData => Stored s.storedRemaining s.finalBlock R o F
  | .dynamicHeader => ∃ R1 o1, decodeDynamicBlock R o = .ok (R1, o1) ∧ Ends s.finalBlock R1 o1 F
  | .dynamicCodeLengths =>
    CodeLens s.literalCount s.distanceCount ((kCodeLengthOrder.take s.codeLengthCount).drop s.codeLengthIndex) s.codeLengthLengths s.finalBlock R o F
  | .dynamicLengths => Lens s.codeLengths s.literalCount s.distanceCount s.lengths s.finalBlock R o F
  | .compressed => Comp s.literals s.distances s.finalBlock R o F

/-- how the one-shot decoder ends if it goes on where the streaming inflater is -/
def Resumes (s : Inflate) (R : Reader) (o : Span) (F : Reader × Span) : Prop :=
  if s.pendingLength ≠ 0 then ∃ o1, o.copy s.pendingDistance s.pendingLength = .ok o1 ∧ byMode s R o1 F else byMode s R o F

theorem resumes_of_zero {s : Inflate} (h : s.pendingLength = 0) : Resumes s R o F ↔ byMode s R o F := by
  rw [Resumes, if_neg (by omega)]

theorem blocks_iff : Blocks R o F ↔ ∃ fin R1 o1, decodeBlock R o = .ok (fin, R1, o1) ∧ Ends fin R1 o1 F := by
  constructor
  · rintro ⟨n, R1, o1, h, hF⟩
    cases n with
    | zero => cases h
    | succ n =>
      rw [blocksGo] at h
      cases e : decodeBlock R o with
      | error x => rw [e] at h; cases h
      | ok p =>
        obtain ⟨fin, R2, o2⟩ := p
        rw [e] at h
        dsimp only at h
        refine ⟨fin, R2, o2, rfl, ?_⟩
        cases fin with
        | true => obtain ⟨rfl, rfl⟩ := Prod.mk.inj (Except.ok.inj h); exact hF
        | false => exact ⟨n, R1, o1, h, hF⟩
  · rintro ⟨fin, R1, o1, h, hF⟩
    cases fin with
    | true => exact ⟨1, R1, o1, by rw [blocksGo, h]; rfl, hF⟩
    | false =>
      obtain ⟨n, R2, o2, h2, h3⟩ := hF
      exact ⟨n + 1, R2, o2, by rw [blocksGo, h]; exact h2, h3⟩

theorem comp_iff {ld dd : Decoder} {final : Bool} : Comp ld dd final R o F ↔
    ∃ stop R1 o1, blockStep ld dd R o = .ok (stop, R1, o1) ∧ if stop then Ends final R1 o1 F else Comp ld dd final R1 o1 F := by
  constructor
  · rintro ⟨n, R1, o1, h, hF⟩
    cases n with
    | zero => cases h
    | succ n =>
      rw [blockGo] at h
      cases e : blockStep ld dd R o with
      | error x => rw [e] at h; cases h
      | ok p =>
        obtain ⟨stop, R2, o2⟩ := p
        rw [e] at h
        dsimp only at h
        refine ⟨stop, R2, o2, rfl, ?_⟩
        cases stop with
        | true => obtain ⟨rfl, rfl⟩ := Prod.mk.inj (Except.ok.inj h); exact hF
        | false => exact ⟨n, R1, o1, h, hF⟩
  · rintro ⟨stop, R1, o1, h, hF⟩
    cases stop with
    | true => exact ⟨1, R1, o1, by rw [blockGo, h]; rfl, hF⟩
    | false =>
      obtain ⟨n, R2, o2, h2, h3⟩ := hF
      exact ⟨n + 1, R2, o2, by rw [blockGo, h]; exact h2, h3⟩

/-- one iteration of the loop over the code lengths -/
theorem lensGo_iff {cd : Decoder} {k : Nat} {ls : List Nat} {a : List Nat × Reader} : (∃ n, lensGo cd k n ls R = .ok a) ↔
    if ls.length < k then ∃ s R1, decodeSymbol R cd = .ok (s, R1) ∧
      if s ≤ 15 then ∃ n, lensGo cd k n (ls ++ [s]) R1 = .ok a
      else ∃ v base width x R2, repeatOf s ls = .ok (v, base, width) ∧ R1.readBits width = .ok (x, R2) ∧ ¬ k - ls.length < base + x ∧
        ∃ n, lensGo cd k n (ls ++ List.replicate (base + x) v) R2 = .ok a
    else a = (ls, R) := by
  by_cases hl : ls.length < k
  · rw [if_pos hl]
    constructor
    · rintro ⟨n, h⟩
      cases n with
      | zero => cases h
      | succ n =>
        rw [lensGo, if_pos hl] at h
        cases e : decodeSymbol R cd with
        | error x => rw [e] at h; cases h
        | ok p =>
          rw [e] at h
          dsimp only at h
          refine ⟨p.1, p.2, rfl, ?_⟩
          by_cases hs : p.1 ≤ 15
          · rw [if_pos hs] at h ⊢; exact ⟨n, h⟩
          · rw [if_neg hs] at h ⊢
            cases e2 : repeatOf p.1 ls with
            | error y => rw [e2] at h; cases h
            | ok q =>
              rw [e2] at h
              dsimp only at h
              cases e3 : p.2.readBits q.2.2 with
              | error y => rw [e3] at h; cases h
              | ok t =>
                rw [e3] at h
                dsimp only at h
                by_cases hb : k - ls.length < q.2.1 + t.1
                · rw [if_pos hb] at h; cases h
                · rw [if_neg hb] at h
                  exact ⟨q.1, q.2.1, q.2.2, t.1, t.2, rfl, e3, hb, n, h⟩
    · rintro ⟨s, R1, e, h⟩
      by_cases hs : s ≤ 15
      · rw [if_pos hs] at h
        obtain ⟨n, h⟩ := h
        refine ⟨n + 1, ?_⟩
        rw [lensGo, if_pos hl, e]
        dsimp only
        rw [if_pos hs]; exact h
      · rw [if_neg hs] at h
        obtain ⟨v, base, width, x, R2, e2, e3, hb, n, h⟩ := h
        refine ⟨n + 1, ?_⟩
        rw [lensGo, if_pos hl, e]
        dsimp only
        rw [if_neg hs, e2]
        dsimp only
        rw [e3]
        dsimp only
        rw [if_neg hb]; exact h
  · rw [if_neg hl]
    constructor
    · rintro ⟨n, h⟩
      cases n with
      | zero => cases h
      | succ n => rw [lensGo, if_neg hl] at h; exact (Except.ok.inj h).symm
    · intro h
      exact ⟨1, by rw [lensGo, if_neg hl, h]⟩

/-- the decoders of a dynamic block, step by step -/
theorem dynamic_iff (hR : R.Ok T) {final : Bool} : (∃ R1 o1, decodeDynamicBlock R o = .ok (R1, o1) ∧ Ends final R1 o1 F) ↔
    ∃ lb R1 db R2 cb R3, R.readBits 5 = .ok (lb, R1) ∧ R1.readBits 5 = .ok (db, R2) ∧ R2.readBits 4 = .ok (cb, R3) ∧
      ¬ (286 < lb + 257 ∨ 30 < db + 1) ∧
      CodeLens (lb + 257) (db + 1) (kCodeLengthOrder.take (cb + 4)) (List.replicate 19 0) final R3 o F := by
  unfold decodeDynamicBlock readDynamic
  have h1 := readBits_safe hR 5
  cases e1 : R.readBits 5 with
  | error x => exact ⟨fun ⟨_, _, h, _⟩ => (by cases h), fun ⟨_, _, _, _, _, _, h, _⟩ => (by cases h)⟩
  | ok p1 =>
    have h1' := h1.ok_of e1
    dsimp only
    have h2 := readBits_safe h1'.2.1 5
    cases e2 : p1.2.readBits 5 with
    | error x =>
      refine ⟨fun ⟨_, _, h, _⟩ => (by cases h), fun ⟨_, _, _, _, _, _, h, h', _⟩ => ?_⟩
      rw [Except.ok.inj h] at e2; dsimp only at e2; rw [e2] at h'; cases h'
    | ok p2 =>
      have h2' := h2.ok_of e2
      dsimp only
      have h3 := readBits_safe h2'.2.1 4
      cases e3 : p2.2.readBits 4 with
      | error x =>
        refine ⟨fun ⟨_, _, h, _⟩ => (by cases h), fun ⟨_, _, _, _, _, _, h, h', h'', _⟩ => ?_⟩
        rw [Except.ok.inj h] at e2; dsimp only at e2
        rw [e2] at h'
        rw [Except.ok.inj h'] at e3; dsimp only at e3; rw [e3] at h''; cases h''
      | ok p3 =>
        have h3' := h3.ok_of e3
        dsimp only
        have key : ∀ P : Nat → Nat → Nat → Reader → Prop, (∃ lb R1 db R2 cb R3, (.ok p1 : Res (Nat × Reader)) = .ok (lb, R1) ∧
            R1.readBits 5 = .ok (db, R2) ∧ R2.readBits 4 = .ok (cb, R3) ∧ P lb db cb R3) ↔ P p1.1 p2.1 p3.1 p3.2 := by
          intro P
          constructor
          · rintro ⟨lb, R1, db, R2, cb, R3, a1, a2, a3, a4⟩
            obtain rfl := Except.ok.inj a1
            dsimp only at e2
            rw [e2] at a2
            obtain rfl := Except.ok.inj a2
            dsimp only at e3
            rw [e3] at a3
            obtain rfl := Except.ok.inj a3
            exact a4
          · intro h
            exact ⟨p1.1, p1.2, p2.1, p2.2, p3.1, p3.2, rfl, e2, e3, h⟩
        refine Iff.trans ?_ (key (fun lb db cb R3 => ¬ (286 < lb + 257 ∨ 30 < db + 1) ∧
          CodeLens (lb + 257) (db + 1) (kCodeLengthOrder.take (cb + 4)) (List.replicate 19 0) final R3 o F)).symm
        by_cases hbig : 286 < p1.1 + 257 ∨ 30 < p2.1 + 1
        · rw [if_pos hbig]
          exact ⟨fun ⟨_, _, h, _⟩ => (by cases h), fun h => absurd hbig h.1⟩
        · rw [if_neg hbig]
          simp only [hbig, not_false_eq_true, true_and]
          have h4 := clGo_safe (kCodeLengthOrder.take (p3.1 + 4)) (List.replicate 19 0) p3.2 h3'.2.1
          unfold CodeLens
          cases e4 : clGo (kCodeLengthOrder.take (p3.1 + 4)) (List.replicate 19 0) p3.2 with
          | error x => exact ⟨fun ⟨_, _, h, _⟩ => (by cases h), fun ⟨_, _, _, h, _⟩ => (by cases h)⟩
          | ok p4 =>
            have h4' := h4.ok_of e4
            rw [List.length_replicate] at h4'
            obtain ⟨cl, R4⟩ := p4
            dsimp only at h4' ⊢
            have h5 := makeDecoder_safe (n := 19) (M := 7) (l := cl) (by omega) false false
            have key2 : ∀ P : List Nat → Reader → Decoder → Prop, (∃ cl' R1 cd, (.ok (cl, R4) : Res (List Nat × Reader)) = .ok (cl', R1) ∧
                makeDecoder 19 7 cl' false false = .ok cd ∧ P cl' R1 cd) ↔ ∃ cd, makeDecoder 19 7 cl false false = .ok cd ∧ P cl R4 cd := by
              intro P
              constructor
              · rintro ⟨cl', R1, cd, a1, a2, a3⟩
                obtain ⟨rfl, rfl⟩ := Prod.mk.inj (Except.ok.inj a1)
                exact ⟨cd, a2, a3⟩
              · rintro ⟨cd, a2, a3⟩; exact ⟨cl, R4, cd, rfl, a2, a3⟩
            refine Iff.trans ?_ (key2 (fun _ R1 cd => Lens cd (p1.1 + 257) (p2.1 + 1) [] final R1 o F)).symm
            cases e5 : makeDecoder 19 7 cl false false with
            | error x => exact ⟨fun ⟨_, _, h, _⟩ => (by cases h), fun ⟨_, h, _⟩ => (by cases h)⟩
            | ok cd =>
              have h5' := h5.ok_of e5
              have key3 : ∀ P : Decoder → Prop, (∃ c, (.ok cd : Res Decoder) = .ok c ∧ P c) ↔ P cd :=
                fun P => ⟨fun ⟨c, a, b⟩ => by obtain rfl := Except.ok.inj a; exact b, fun h => ⟨cd, rfl, h⟩⟩
              refine Iff.trans ?_ (key3 (fun cd => Lens cd (p1.1 + 257) (p2.1 + 1) [] final R4 o F)).symm
              dsimp only
              have h6 := lensGo_safe h5' (p1.1 + 257 + (p2.1 + 1)) (p1.1 + 257 + (p2.1 + 1) + 1) [] R4 (by simp) (by simp) h4'.2.1
              have hli := lens_iff h5' h4'.2.1 (p1.1 + 257 + (p2.1 + 1))
              unfold Lens
              have key4 : (∃ n lens' R1, lensGo cd (p1.1 + 257 + (p2.1 + 1)) n [] R4 = .ok (lens', R1) ∧ Trees (p1.1 + 257) lens' final R1 o F) ↔
                  ∃ lens' R1, lensGo cd (p1.1 + 257 + (p2.1 + 1)) (p1.1 + 257 + (p2.1 + 1) + 1) [] R4 = .ok (lens', R1) ∧
                    Trees (p1.1 + 257) lens' final R1 o F :=
                ⟨fun ⟨n, l, r, a, b⟩ => ⟨l, r, (hli _).2 ⟨n, a⟩, b⟩, fun ⟨l, r, a, b⟩ => ⟨_, l, r, a, b⟩⟩
              rw [key4]
              cases e6 : lensGo cd (p1.1 + 257 + (p2.1 + 1)) (p1.1 + 257 + (p2.1 + 1) + 1) [] R4 with
              | error x => exact ⟨fun ⟨_, _, h, _⟩ => (by cases h), fun ⟨_, _, h, _⟩ => (by cases h)⟩
              | ok p6 =>
                have h6' := h6.ok_of e6
                obtain ⟨lens, R5⟩ := p6
                dsimp only at h6' ⊢
                have key5 : ∀ P : List Nat → Reader → Prop, (∃ l r, (.ok (lens, R5) : Res (List Nat × Reader)) = .ok (l, r) ∧ P l r) ↔ P lens R5 :=
                  fun P => ⟨fun ⟨l, r, a, b⟩ => by obtain ⟨rfl, rfl⟩ := Prod.mk.inj (Except.ok.inj a); exact b, fun h => ⟨lens, R5, rfl, h⟩⟩
                refine Iff.trans ?_ (key5 (fun lens' R1 => Trees (p1.1 + 257) lens' final R1 o F)).symm
                unfold Trees
                by_cases h7 : (lens.take (p1.1 + 257)).getD 256 0 = 0
                · rw [if_pos h7]
                  exact ⟨fun ⟨_, _, h, _⟩ => (by cases h), fun h => absurd h7 h.1⟩
                · rw [if_neg h7]
                  simp only [ne_eq, h7, not_false_eq_true, true_and]
                  have h8 := makeDecoder_safe (n := 288) (M := 15) (l := lens.take (p1.1 + 257)) (by rw [List.length_take]; omega) false true
                  cases e8 : makeDecoder 288 15 (lens.take (p1.1 + 257)) false true with
                  | error x => exact ⟨fun ⟨_, _, h, _⟩ => (by cases h), fun ⟨_, _, h, _⟩ => (by cases h)⟩
                  | ok ld =>
                    dsimp only
                    have h9 := makeDecoder_safe (n := 32) (M := 15) (l := lens.drop (p1.1 + 257)) (by rw [List.length_drop]; omega) true true
                    cases e9 : makeDecoder 32 15 (lens.drop (p1.1 + 257)) true true with
                    | error x => exact ⟨fun ⟨_, _, h, _⟩ => (by cases h), fun ⟨_, _, _, h, _⟩ => (by cases h)⟩
                    | ok dd =>
                      dsimp only
                      have hci := compressed_iff (o := o) (h8.ok_of e8) (h9.ok_of e9) h6'.2.1
                      constructor
                      · rintro ⟨R6, o6, a, b⟩
                        obtain ⟨n, hn⟩ := (hci _).1 a
                        exact ⟨ld, dd, rfl, rfl, n, R6, o6, hn, b⟩
                      · rintro ⟨ld', dd', a, b, n, R6, o6, hn, c⟩
                        obtain rfl := Except.ok.inj a
                        obtain rfl := Except.ok.inj b
                        exact ⟨R6, o6, (hci _).2 ⟨n, hn⟩, c⟩

end Verif.Deflate
