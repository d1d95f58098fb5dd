import Verif.Deflate.StreamInflate
/-! # Streaming decoder: dynamic headers, symbols, copies, and whole calls of the inflater -/
namespace Verif.Deflate
open Verif.Bytes (Byte)

variable {s : Inflate} {r : Reader} {so : StreamOut} {o : Span} {chunk prev fut : List Byte} {T : Nat} {finish : Bool}

theorem ex_ok {α : Type} {P : α → Prop} {a : α} : (∃ x, (Except.ok a : Res α) = .ok x ∧ P x) ↔ P a :=
  ⟨fun ⟨_, h, hp⟩ => Except.ok.inj h ▸ hp, fun h => ⟨a, rfl, h⟩⟩

/-! ## dynamic blocks -/

theorem dynamicHeaderStep_ok (hI : InflateOk s r.count) (hr : r.Within chunk) (ho : OutRel so o prev) (hT : r.rest.length + fut.length ≤ T)
    (hf : finish = true → fut = []) (hp : s.pendingLength = 0) (hm : s.mode = .dynamicHeader) :
    IOk s r so o chunk prev fut T finish (dynamicHeaderStep s r so finish) := by
  unfold dynamicHeaderStep
  have hR := Reader.full_ok hr hT
  have hres0 : ∀ F, Resumes s (r.full fut T) o F ↔ ∃ R1 o1, decodeDynamicBlock (r.full fut T) o = .ok (R1, o1) ∧ Ends s.finalBlock R1 o1 F := fun F => by rw [resumes_of_zero hp, byMode, hm]
  have hres := fun F => (hres0 F).trans (dynamic_iff hR)
  cases e : r.tryBits 14 with
  | none =>
    have h := Reader.tryBits_none (T := T) hr e
    refine starve_ok hI hr ho hf (by omega) fun hfut F => ?_
    subst hfut
    rw [hres]
    rintro ⟨lb, R1, db, R2, cb, R3, a, b, c, _⟩
    rcases (Reader.readBits_split hR 5 9).2 h.2 with e1 | ⟨u, Ra, e1, e2⟩
    · rw [e1] at a; cases a
    · rw [e1] at a
      obtain ⟨rfl, rfl⟩ := Prod.mk.inj (Except.ok.inj a)
      have hRa := ((readBits_safe hR 5).ok_of e1).2.1
      rcases (Reader.readBits_split hRa 5 4).2 e2 with e3 | ⟨u2, Rb, e3, e4⟩
      · rw [e3] at b; cases b
      · rw [e3] at b
        obtain ⟨rfl, rfl⟩ := Prod.mk.inj (Except.ok.inj b)
        rw [e4] at c; cases c
  | some p =>
    obtain ⟨v, r1⟩ := p
    obtain ⟨h1, h2, h3, h4⟩ := Reader.tryBits_some (fut := fut) hr hT e
    obtain ⟨Ra, k1, k2, k3⟩ := (Reader.readBits_split hR 5 9).1 v _ h1
    obtain ⟨Rb, k4, k5, k6⟩ := (Reader.readBits_split k2 5 4).1 _ _ k3
    have hv1 : v &&& 0x1f = v % 2 ^ 5 := and31 v
    have hv2 : (v >>> 5) &&& 0x1f = v / 2 ^ 5 % 2 ^ 5 := by rw [and31, Nat.shiftRight_eq_div_pow]
    have hv3 : (v >>> 10) &&& 0x0f = v / 2 ^ 5 / 2 ^ 5 := by rw [and15, Nat.shiftRight_eq_div_pow]; omega
    dsimp only
    rw [hv1, hv2, hv3]
    have hlt := (readBits_safe k5 4).ok_of k6
    have hlt : v / 2 ^ 5 / 2 ^ 5 < 2 ^ 4 := hlt.1
    generalize v % 2 ^ 5 = lb at *
    generalize v / 2 ^ 5 % 2 ^ 5 = db at *
    generalize v / 2 ^ 5 / 2 ^ 5 = cb at *
    have hres2 : ∀ F, Resumes s (r.full fut T) o F ↔ ¬ (286 < lb + 257 ∨ 30 < db + 1) ∧
        CodeLens (lb + 257) (db + 1) (kCodeLengthOrder.take (cb + 4)) (List.replicate 19 0) s.finalBlock (r1.full fut T) o F := by
      intro F
      rw [hres]
      constructor
      · rintro ⟨lb', R1, db', R2, cb', R3, a, b, c, d⟩
        rw [k1] at a
        obtain ⟨rfl, rfl⟩ := Prod.mk.inj (Except.ok.inj a)
        rw [k4] at b
        obtain ⟨rfl, rfl⟩ := Prod.mk.inj (Except.ok.inj b)
        rw [k6] at c
        obtain ⟨rfl, rfl⟩ := Prod.mk.inj (Except.ok.inj c)
        exact d
      · intro h
        exact ⟨lb, _, db, _, cb, _, k1, k4, k6, h⟩
    by_cases hx : 286 < lb + 257 ∨ 30 < db + 1
    · rw [if_pos hx]
      exact .fail fun F h => ((hres2 F).1 h).1 hx
    · rw [if_neg hx]
      refine .advanced (o' := o) ⟨⟨fun h => by simp at h, nofun, fun _ => (by dsimp only; omega), fun _ => ⟨by simp, (by dsimp only; omega), rfl⟩, nofun, fun h => absurd hp h⟩, h2, ho, rfl, ⟨rfl, rfl⟩, by omega⟩ ?_ ?_
      · simp only [iMeasure, modeRank, hm]; omega
      · intro F
        rw [hres2, resumes_of_zero (by exact hp), byMode]
        exact ⟨fun h => h.2, fun h => ⟨hx, h⟩⟩

theorem codeLens_nil {lits dists : Nat} {cl : List Nat} {final : Bool} {R : Reader} {F : Reader × Span} : CodeLens lits dists [] cl final R o F ↔
    ∃ cd, makeDecoder 19 7 cl false false = .ok cd ∧ Lens cd lits dists [] final R o F := by
  unfold CodeLens
  constructor
  · rintro ⟨cl', R1, cd, h, h2⟩
    obtain ⟨rfl, rfl⟩ := Prod.mk.inj (Except.ok.inj h)
    exact ⟨cd, h2⟩
  · rintro ⟨cd, h⟩; exact ⟨cl, R, cd, rfl, h⟩

theorem codeLens_cons {lits dists i : Nat} {rest cl : List Nat} {final : Bool} {R : Reader} {F : Reader × Span} :
    CodeLens lits dists (i :: rest) cl final R o F ↔ ∃ p : Nat × Reader, R.readBits 3 = .ok p ∧ CodeLens lits dists rest (cl.set i p.1) final p.2 o F := by
  unfold CodeLens
  constructor
  · rintro ⟨cl', R1, cd, h, h2⟩
    rw [clGo] at h
    cases e : R.readBits 3 with
    | error x => rw [e] at h; cases h
    | ok p => rw [e] at h; exact ⟨p, rfl, cl', R1, cd, h, h2⟩
  · rintro ⟨p, e, cl', R1, cd, h, h2⟩
    exact ⟨cl', R1, cd, by rw [clGo, e]; exact h, h2⟩

theorem order_length : kCodeLengthOrder.length = 19 := by decide

theorem codeLengthsStep_ok (hI : InflateOk s r.count) (hr : r.Within chunk) (ho : OutRel so o prev) (hT : r.rest.length + fut.length ≤ T)
    (hf : finish = true → fut = []) (hp : s.pendingLength = 0) (hm : s.mode = .dynamicCodeLengths) :
    IOk s r so o chunk prev fut T finish (codeLengthsStep s r so finish) := by
  unfold codeLengthsStep
  have hord := hI.order hm
  have hcnt := hI.counts (.inl hm)
  have hres : ∀ F, Resumes s (r.full fut T) o F ↔ CodeLens s.literalCount s.distanceCount ((kCodeLengthOrder.take s.codeLengthCount).drop s.codeLengthIndex)
      s.codeLengthLengths s.finalBlock (r.full fut T) o F := fun F => by rw [resumes_of_zero hp, byMode, hm]
  have hno : ∀ m, m ≠ Mode.dynamicCodeLengths → s.mode ≠ m := fun m h1 h2 => h1 (h2.symm.trans hm)
  by_cases hi : s.codeLengthIndex < s.codeLengthCount
  · rw [if_pos hi]
    have hlt : s.codeLengthIndex < kCodeLengthOrder.length := by rw [order_length]; omega
    have hdrop : (kCodeLengthOrder.take s.codeLengthCount).drop s.codeLengthIndex =
        kCodeLengthOrder[s.codeLengthIndex] :: (kCodeLengthOrder.take s.codeLengthCount).drop (s.codeLengthIndex + 1) := by
      rw [List.drop_eq_getElem_cons (by rw [List.length_take]; omega), List.getElem_take]
    cases e : r.tryBits 3 with
    | none =>
      have h := Reader.tryBits_none (T := T) hr e
      refine starve_ok hI hr ho hf (by omega) fun hfut F => ?_
      subst hfut
      rw [hres, hdrop, codeLens_cons, h.2]
      rintro ⟨_, h, _⟩; cases h
    | some p =>
      obtain ⟨v, r1⟩ := p
      obtain ⟨h1, h2, h3, h4⟩ := Reader.tryBits_some (fut := fut) hr hT e
      dsimp only
      rw [List.getElem?_eq_getElem hlt]
      dsimp only
      refine .advanced (o' := o) ⟨⟨fun h => ?_, fun h => absurd h (hno _ nofun), fun _ => hcnt, fun _ => ⟨?_, hord.2⟩, fun h => absurd h (hno _ nofun),
        fun h => absurd hp h⟩, h2, ho, rfl, ⟨rfl, rfl⟩, by omega⟩ ?_ ?_
      · rcases h with h | h | h <;> exact absurd h (hno _ nofun)
      · simp only [List.length_set]; exact hord.1
      · simp only [iMeasure]; omega
      · intro F
        rw [hres, hdrop, codeLens_cons, h1, ex_ok, resumes_of_zero (by exact hp), byMode]
        dsimp only
        rw [hm]
  · rw [if_neg hi]
    have hdrop : (kCodeLengthOrder.take s.codeLengthCount).drop s.codeLengthIndex = [] :=
      List.drop_eq_nil_of_le (by rw [List.length_take]; omega)
    have hsafe := makeDecoder_safe (n := 19) (M := 7) (l := s.codeLengthLengths) (by omega) false false
    cases e : makeDecoder 19 7 s.codeLengthLengths false false with
    | error x =>
      dsimp only
      have : ∃ y, x = .err y := by rw [e] at hsafe; cases hsafe; exact ⟨_, rfl⟩
      obtain ⟨y, rfl⟩ := this
      refine .fail fun F => ?_
      rw [hres, hdrop, codeLens_nil, e]
      rintro ⟨_, h, _⟩; cases h
    | ok d =>
      dsimp only
      refine .advanced (o' := o) ⟨⟨fun h => by simp at h, nofun, fun _ => hcnt, nofun, fun _ => ⟨makeDecoder_good (by omega) e, ?_⟩, fun h => absurd hp h⟩,
        ⟨hr, Nat.le_refl _⟩, ho, rfl, ⟨rfl, rfl⟩, Nat.le_refl _⟩ ?_ ?_
      · dsimp only; rw [hord.2.2]; exact Nat.zero_le _
      · simp only [iMeasure, modeRank, hm]; omega
      · intro F
        rw [hres, hdrop, codeLens_nil, e, ex_ok, resumes_of_zero (by exact hp), byMode]
        dsimp only
        rw [hord.2.2]

theorem lens_step {cd : Decoder} {lits dists : Nat} {ls : List Nat} {final : Bool} {R : Reader} {F : Reader × Span} : Lens cd lits dists ls final R o F ↔
    if ls.length < lits + dists then ∃ p : Nat × Reader, decodeSymbol R cd = .ok p ∧
      if p.1 ≤ 15 then Lens cd lits dists (ls ++ [p.1]) final p.2 o F
      else ∃ q : Nat × Nat × Nat, repeatOf p.1 ls = .ok q ∧ ∃ t : Nat × Reader, p.2.readBits q.2.2 = .ok t ∧ ¬ lits + dists - ls.length < q.2.1 + t.1 ∧
        Lens cd lits dists (ls ++ List.replicate (q.2.1 + t.1) q.1) final t.2 o F
    else Trees lits ls final R o F := by
  have hswap : ∀ ls' R', Lens cd lits dists ls' final R' o F ↔ ∃ a, (∃ n, lensGo cd (lits + dists) n ls' R' = .ok a) ∧ Trees lits a.1 final a.2 o F :=
    fun ls' R' => ⟨fun ⟨n, l, R1, h1, h2⟩ => ⟨(l, R1), ⟨n, h1⟩, h2⟩, fun ⟨a, ⟨n, h1⟩, h2⟩ => ⟨n, a.1, a.2, h1, h2⟩⟩
  rw [hswap]
  by_cases hl : ls.length < lits + dists
  · rw [if_pos hl]
    constructor
    · rintro ⟨a, h1, h2⟩
      rw [lensGo_iff, if_pos hl] at h1
      obtain ⟨sy, R1, e, h⟩ := h1
      refine ⟨(sy, R1), e, ?_⟩
      by_cases hs : sy ≤ 15
      · rw [if_pos hs] at h ⊢; exact (hswap _ _).2 ⟨a, h, h2⟩
      · rw [if_neg hs] at h ⊢
        obtain ⟨v, base, width, x, R2, e2, e3, hb, h⟩ := h
        exact ⟨(v, base, width), e2, (x, R2), e3, hb, (hswap _ _).2 ⟨a, h, h2⟩⟩
    · rintro ⟨⟨sy, R1⟩, e, h⟩
      by_cases hs : sy ≤ 15
      · rw [if_pos hs] at h
        obtain ⟨a, h1, h2⟩ := (hswap _ _).1 h
        exact ⟨a, by rw [lensGo_iff, if_pos hl]; exact ⟨sy, R1, e, by rw [if_pos hs]; exact h1⟩, h2⟩
      · rw [if_neg hs] at h
        obtain ⟨⟨v, base, width⟩, e2, ⟨x, R2⟩, e3, hb, h⟩ := h
        obtain ⟨a, h1, h2⟩ := (hswap _ _).1 h
        exact ⟨a, by rw [lensGo_iff, if_pos hl]; exact ⟨sy, R1, e, by rw [if_neg hs]; exact ⟨v, base, width, x, R2, e2, e3, hb, h1⟩⟩, h2⟩
  · rw [if_neg hl]
    constructor
    · rintro ⟨a, h1, h2⟩
      rw [lensGo_iff, if_neg hl] at h1
      rw [h1] at h2; exact h2
    · intro h
      exact ⟨(ls, R), by rw [lensGo_iff, if_neg hl], h⟩

/-- the two decoders read repetitions alike -/
theorem repetition_eq (sy : Nat) (ls : List Nat) : (∃ v base width, repetition sy ls = .ok (v, base, width) ∧ repeatOf sy ls = .ok (v, base, width) ∧ width ≤ 7) ∨
    ∃ x, repetition sy ls = .error x ∧ repeatOf sy ls = .error (.err x) := by
  unfold repetition repeatOf
  by_cases h1 : sy = 16
  · rw [if_pos h1, if_pos h1]
    cases ls.getLast? with
    | none => exact .inr ⟨_, rfl, rfl⟩
    | some v => exact .inl ⟨_, _, _, rfl, rfl, by omega⟩
  · rw [if_neg h1, if_neg h1]
    by_cases h2 : sy = 17
    · rw [if_pos h2, if_pos h2]; exact .inl ⟨_, _, _, rfl, rfl, by omega⟩
    · rw [if_neg h2, if_neg h2]
      by_cases h3 : sy = 18
      · rw [if_pos h3, if_pos h3]; exact .inl ⟨_, _, _, rfl, rfl, by omega⟩
      · rw [if_neg h3, if_neg h3]; exact .inr ⟨_, rfl, rfl⟩

theorem treesStep_ok (hI : InflateOk s r.count) (hr : r.Within chunk) (ho : OutRel so o prev) (hp : s.pendingLength = 0) (hm : s.mode = .dynamicLengths)
    (hres : ∀ F, Resumes s (r.full fut T) o F ↔ Trees s.literalCount s.lengths s.finalBlock (r.full fut T) o F) :
    IOk s r so o chunk prev fut T finish (treesStep s r so) := by
  unfold treesStep
  have hcnt := hI.counts (.inr hm)
  have hlen := hI.lens hm
  by_cases h0 : (s.lengths.take s.literalCount).getD 256 0 = 0
  · rw [if_pos h0]
    refine .fail fun F h => ?_
    rw [hres] at h
    exact h.1 h0
  · rw [if_neg h0]
    have hl1 : (s.lengths.take s.literalCount).length ≤ 288 := by rw [List.length_take]; omega
    have hl2 : (s.lengths.drop s.literalCount).length ≤ 32 := by rw [List.length_drop]; omega
    have g1 := makeDecoder_safe (n := 288) (M := 15) hl1 false true
    cases e1 : makeDecoder 288 15 (s.lengths.take s.literalCount) false true with
    | error x =>
      dsimp only
      have : ∃ y, x = .err y := by rw [e1] at g1; cases g1; exact ⟨_, rfl⟩
      obtain ⟨y, rfl⟩ := this
      refine .fail fun F => ?_
      rw [hres, Trees, e1]
      rintro ⟨_, _, _, h, _⟩; cases h
    | ok ld =>
      dsimp only
      have g2 := makeDecoder_safe (n := 32) (M := 15) hl2 true true
      cases e2 : makeDecoder 32 15 (s.lengths.drop s.literalCount) true true with
      | error x =>
        dsimp only
        have : ∃ y, x = .err y := by rw [e2] at g2; cases g2; exact ⟨_, rfl⟩
        obtain ⟨y, rfl⟩ := this
        refine .fail fun F => ?_
        rw [hres, Trees, e2]
        rintro ⟨_, _, _, _, h, _⟩; cases h
      | ok dd =>
        dsimp only
        refine .advanced (o' := o) ⟨⟨fun h => by simp at h, fun _ => ⟨makeDecoder_good hl1 e1, makeDecoder_good hl2 e2⟩, fun h => by simp at h, nofun, nofun, fun h => absurd hp h⟩,
          ⟨hr, Nat.le_refl _⟩, ho, rfl, ⟨rfl, rfl⟩, Nat.le_refl _⟩ ?_ ?_
        · simp only [iMeasure, modeRank, hm]; omega
        · intro F
          rw [hres, Trees, e1, e2, resumes_of_zero (by exact hp), byMode]
          dsimp only
          constructor
          · rintro ⟨_, ld', dd', a, b, h⟩
            rw [Except.ok.inj a, Except.ok.inj b]; exact h
          · intro h; exact ⟨h0, ld, dd, rfl, rfl, h⟩

theorem lengthsStep_ok (hI : InflateOk s r.count) (hr : r.Within chunk) (ho : OutRel so o prev) (hT : r.rest.length + fut.length ≤ T)
    (hf : finish = true → fut = []) (hp : s.pendingLength = 0) (hm : s.mode = .dynamicLengths) :
    IOk s r so o chunk prev fut T finish (lengthsStep s r so finish) := by
  unfold lengthsStep
  have hcnt := hI.counts (.inr hm)
  have hlen := hI.lens hm
  have hno : ∀ m, m ≠ Mode.dynamicLengths → s.mode ≠ m := fun m h1 h2 => h1 (h2.symm.trans hm)
  have hres0 : ∀ F, Resumes s (r.full fut T) o F ↔ Lens s.codeLengths s.literalCount s.distanceCount s.lengths s.finalBlock (r.full fut T) o F := fun F => by rw [resumes_of_zero hp, byMode, hm]
  have hres := fun F => (hres0 F).trans lens_step
  by_cases hl : s.lengths.length < s.literalCount + s.distanceCount
  · rw [if_pos hl]
    simp only [if_pos hl] at hres
    have hs := Reader.trySymbol_ok (fut := fut) (T := T) s.codeLengths hr hT
    have hs' := decodeSymbol_safe hlen.1.1 (Reader.full_ok hr hT)
    have h7 := hlen.1.2
    generalize r.trySymbol s.codeLengths = y at hs ⊢
    cases hs with
    | need h1 h2 =>
      refine starve_ok hI hr ho hf (by omega) fun hfut F => ?_
      rw [hres, h2 hfut]
      rintro ⟨_, h, _⟩; cases h
    | invalid h1 =>
      refine .fail fun F => ?_
      rw [hres, h1]
      rintro ⟨_, h, _⟩; cases h
    | ub h1 => rw [h1] at hs'; cases hs'
    | @got sy r1 h1 h2 h3 h4 =>
      have hr1 := h2.within
      have hT1 : r1.rest.length + fut.length ≤ T := by have := h2.le; omega
      simp only [h1, ex_ok] at hres
      dsimp only
      by_cases h15 : sy ≤ 15
      · rw [if_pos h15]
        simp only [if_pos h15] at hres
        refine .advanced (o' := o) ⟨⟨fun h => ?_, fun h => absurd h (hno _ nofun), fun _ => hcnt, fun h => absurd h (hno _ nofun),
          fun _ => ⟨hlen.1, by simp only [List.length_append, List.length_singleton]; omega⟩,
          fun h => absurd hp h⟩, h2, ho, rfl, ⟨rfl, rfl⟩, by omega⟩ ?_ ?_
        · rcases h with h | h | h <;> exact absurd h (hno _ nofun)
        · simp only [iMeasure]; omega
        · intro F
          rw [hres, resumes_of_zero (by exact hp), byMode]
          dsimp only
          rw [hm]
      · rw [if_neg h15]
        simp only [if_neg h15] at hres
        rcases repetition_eq sy s.lengths with ⟨v, base, width, e1, e2, hw⟩ | ⟨x, e1, e2⟩
        · rw [e1]
          simp only [e2, ex_ok] at hres
          dsimp only
          cases e : r1.tryBits width with
          | none =>
            have h := Reader.tryBits_none (T := T) hr1 e
            refine starveBack_ok hI hr ho hf (by omega) fun hfut F => ?_
            subst hfut
            rw [hres, h.2]
            rintro ⟨_, h, _⟩; cases h
          | some p =>
            obtain ⟨x, r2⟩ := p
            obtain ⟨k1, k2, k3, k4⟩ := Reader.tryBits_some (fut := fut) hr1 hT1 e
            simp only [k1, ex_ok] at hres
            dsimp only
            by_cases hb : s.literalCount + s.distanceCount - s.lengths.length < base + x
            · rw [if_pos hb]
              refine .fail fun F => ?_
              rw [hres]
              exact fun h => h.1 hb
            · rw [if_neg hb]
              refine .advanced (o' := o) ⟨⟨fun h => ?_, fun h => absurd h (hno _ nofun), fun _ => hcnt, fun h => absurd h (hno _ nofun),
                fun _ => ⟨hlen.1, by simp only [List.length_append, List.length_replicate]; omega⟩,
                fun h => absurd hp h⟩, h2.trans k2, ho, rfl, ⟨rfl, rfl⟩, by omega⟩ ?_ ?_
              · rcases h with h | h | h <;> exact absurd h (hno _ nofun)
              · simp only [iMeasure]; omega
              · intro F
                rw [hres, resumes_of_zero (by exact hp), byMode]
                dsimp only
                rw [hm]
                exact ⟨fun h => h.2, fun h => ⟨hb, h⟩⟩
        · rw [e1]
          dsimp only
          refine .fail fun F => ?_
          rw [hres, e2]
          rintro ⟨_, h, _⟩; cases h
  · rw [if_neg hl]
    simp only [if_neg hl] at hres
    exact treesStep_ok hI hr ho hp hm hres

/-! ## compressed blocks -/

inductive ExtraOk (r : Reader) (chunk fut : List Byte) (T base extra : Nat) (x : Res (Nat × Reader)) : Option (Nat × Reader) → Prop
  | some {v r'} : x = .ok (v, r'.full fut T) → Moves r r' chunk → r'.left + extra = r.left → base ≤ v → v < base + 2 ^ extra →
      ExtraOk r chunk fut T base extra x (some (v, r'))
  | none : r.left < extra → (fut = [] → x = .error (.err .truncatedInput)) → ExtraOk r chunk fut T base extra x none

theorem Reader.tryExtra_ok (hr : r.Within chunk) (hT : r.rest.length + fut.length ≤ T) (base extra : Nat) :
    ExtraOk r chunk fut T base extra (readExtra (r.full fut T) base extra) (r.tryExtra base extra) := by
  unfold Reader.tryExtra readExtra
  by_cases hx : extra ≠ 0
  · rw [if_pos hx, if_pos hx]
    cases e : r.tryBits extra with
    | none =>
      have h := Reader.tryBits_none (T := T) hr e
      refine .none h.1 fun hfut => ?_
      subst hfut
      rw [h.2]
    | some p =>
      obtain ⟨v, r1⟩ := p
      obtain ⟨h1, h2, h3, h4⟩ := Reader.tryBits_some (fut := fut) hr hT e
      exact .some (by rw [h1]) h2 h3 (by omega) (by omega)
  · rw [if_neg hx, if_neg hx]
    have : extra = 0 := by omega
    subst this
    exact .some rfl ⟨hr, Nat.le_refl _⟩ rfl (Nat.le_refl _) (by omega)

theorem length_tables : ∀ i, i < 29 → 3 ≤ kLengthBase.getD i 0 ∧ kLengthExtra.getD i 0 ≤ 5 := by decide
theorem distance_tables : ∀ i, i < 30 → kDistanceBase.getD i 0 + 2 ^ kDistanceExtra.getD i 0 ≤ 32769 ∧ kDistanceExtra.getD i 0 ≤ 13 := by decide

theorem comp_step {ld dd : Decoder} {final : Bool} {R : Reader} {F : Reader × Span} : Comp ld dd final R o F ↔
    ∃ p : Nat × Reader, decodeSymbol R ld = .ok p ∧
      if p.1 < 256 then ∃ o1, o.append (BitVec.ofNat 8 p.1) = .ok o1 ∧ Comp ld dd final p.2 o1 F
      else if p.1 = 256 then Ends final p.2 o F
      else ¬ 285 < p.1 ∧ ∃ q : Reader × Span, decodeMatch dd p.2 o p.1 = .ok q ∧ Comp ld dd final q.1 q.2 F := by
  rw [comp_iff]
  unfold blockStep
  cases e : decodeSymbol R ld with
  | error x => exact ⟨fun ⟨_, _, _, h, _⟩ => (by cases h), fun ⟨_, h, _⟩ => (by cases h)⟩
  | ok p =>
    obtain ⟨sy, R1⟩ := p
    rw [ex_ok]
    dsimp only
    by_cases h1 : sy < 256
    · rw [if_pos h1, if_pos h1]
      change _ ↔ ∃ o1, Output.append o (BitVec.ofNat 8 sy) = .ok o1 ∧ Comp ld dd final R1 o1 F
      cases ea : Output.append o (BitVec.ofNat 8 sy) with
      | error x => exact ⟨fun ⟨_, _, _, h, _⟩ => (by cases h), fun ⟨_, h, _⟩ => (by cases h)⟩
      | ok o1 =>
        rw [ex_ok]
        dsimp only
        constructor
        · rintro ⟨st, R2, o2, h, h'⟩
          have := Except.ok.inj h
          simp only [Prod.mk.injEq] at this
          obtain ⟨rfl, rfl, rfl⟩ := this
          exact h'
        · intro h; exact ⟨false, R1, o1, rfl, h⟩
    · rw [if_neg h1, if_neg h1]
      by_cases h2 : sy = 256
      · rw [if_pos h2, if_pos h2]
        constructor
        · rintro ⟨st, R2, o2, h, h'⟩
          have := Except.ok.inj h
          simp only [Prod.mk.injEq] at this
          obtain ⟨rfl, rfl, rfl⟩ := this
          exact h'
        · intro h; exact ⟨true, R1, o, rfl, h⟩
      · rw [if_neg h2, if_neg h2]
        by_cases h3 : 285 < sy
        · rw [if_pos h3]
          exact ⟨fun ⟨_, _, _, h, _⟩ => (by cases h), fun h => absurd h3 h.1⟩
        · rw [if_neg h3]
          cases ed : decodeMatch dd R1 o sy with
          | error x => exact ⟨fun ⟨_, _, _, h, _⟩ => (by cases h), fun ⟨_, _, h, _⟩ => (by cases h)⟩
          | ok q =>
            rw [ex_ok]
            dsimp only
            constructor
            · rintro ⟨st, R2, o2, h, h'⟩
              have := Except.ok.inj h
              simp only [Prod.mk.injEq] at this
              obtain ⟨rfl, rfl, rfl⟩ := this
              exact ⟨h3, h'⟩
            · intro h; exact ⟨false, q.1, q.2, rfl, h.2⟩

theorem decodeMatch_iff {dd : Decoder} {R : Reader} {sy : Nat} {P : Reader × Span → Prop} : (∃ q, decodeMatch dd R o sy = .ok q ∧ P q) ↔
    ∃ a : Nat × Reader, readExtra R (kLengthBase.getD (sy - 257) 0) (kLengthExtra.getD (sy - 257) 0) = .ok a ∧
    ∃ b : Nat × Reader, decodeSymbol a.2 dd = .ok b ∧ ¬ 30 ≤ b.1 ∧
    ∃ c : Nat × Reader, readExtra b.2 (kDistanceBase.getD b.1 0) (kDistanceExtra.getD b.1 0) = .ok c ∧
    ∃ o1, o.copy c.1 a.1 = .ok o1 ∧ P (c.2, o1) := by
  unfold decodeMatch
  cases e1 : readExtra R (kLengthBase.getD (sy - 257) 0) (kLengthExtra.getD (sy - 257) 0) with
  | error x => exact ⟨fun ⟨_, h, _⟩ => (by cases h), fun ⟨_, h, _⟩ => (by cases h)⟩
  | ok a =>
    rw [ex_ok]
    dsimp only
    cases e2 : decodeSymbol a.2 dd with
    | error x => exact ⟨fun ⟨_, h, _⟩ => (by cases h), fun ⟨_, h, _⟩ => (by cases h)⟩
    | ok b =>
      rw [ex_ok]
      dsimp only
      by_cases h30 : 30 ≤ b.1
      · rw [if_pos h30]
        exact ⟨fun ⟨_, h, _⟩ => (by cases h), fun h => absurd h30 h.1⟩
      · rw [if_neg h30]
        cases e3 : readExtra b.2 (kDistanceBase.getD b.1 0) (kDistanceExtra.getD b.1 0) with
        | error x => exact ⟨fun ⟨_, h, _⟩ => (by cases h), fun ⟨_, _, h, _⟩ => (by cases h)⟩
        | ok c =>
          rw [ex_ok]
          dsimp only
          change _ ↔ ¬ 30 ≤ b.1 ∧ ∃ o1, Output.copy o c.1 a.1 = .ok o1 ∧ P (c.2, o1)
          cases e4 : Output.copy o c.1 a.1 with
          | error x => exact ⟨fun ⟨_, h, _⟩ => (by cases h), fun ⟨_, _, h, _⟩ => (by cases h)⟩
          | ok o1 =>
            rw [ex_ok, ex_ok]
            exact ⟨fun h => ⟨h30, h⟩, fun h => h.2⟩

theorem matchStep_ok {r1 : Reader} {sy : Nat} (hI : InflateOk s r.count) (hr : r.Within chunk) (ho : OutRel so o prev)
    (hT : r.rest.length + fut.length ≤ T) (hf : finish = true → fut = []) (hp : s.pendingLength = 0) (hm : s.mode = .compressed)
    (h2 : Moves r r1 chunk) (h3 : r1.left < r.left) (h4 : r.left ≤ r1.left + 15) (hsy : 256 < sy) (hsy2 : sy ≤ 285)
    (hres : ∀ F, Resumes s (r.full fut T) o F ↔ ∃ q : Reader × Span, decodeMatch s.distances (r1.full fut T) o sy = .ok q ∧
      Comp s.literals s.distances s.finalBlock q.1 q.2 F) :
    IOk s r so o chunk prev fut T finish (matchStep s r1 r so finish sy) := by
  unfold matchStep
  have htab := hI.tables hm
  have hno : ∀ m, m ≠ Mode.compressed → s.mode ≠ m := fun m h1 h2 => h1 (h2.symm.trans hm)
  have hgrow : ∀ F, Resumes s (r.full fut T) o F → o.data.length < F.2.data.length := by
    intro F hF
    obtain ⟨q, hq, hF⟩ := (hres F).1 hF
    have hok := (decodeMatch_safe span_safe htab.2.1 (Reader.full_ok h2.within (T := T) (fut := fut) (by have := h2.le; omega)) o sy).ok_of hq
    exact Nat.lt_of_lt_of_le (match_grows (length_tables (sy - 257) (by omega)).1 hq) (comp_grows htab.1.1 htab.2.1 hok.1 hF)
  simp only [decodeMatch_iff] at hres
  have hr1 := h2.within
  have hT1 : r1.rest.length + fut.length ≤ T := by have := h2.le; omega
  by_cases hfull : so.full = true
  · rw [if_pos hfull]
    exact .stop (Keeps.refl hI hr ho) (fun _ => Iff.rfl) nofun (fun _ => ⟨hfull, hgrow⟩) nofun
  · rw [if_neg hfull]
    have hlt := length_tables (sy - 257) (by omega)
    have hx := Reader.tryExtra_ok (fut := fut) hr1 hT1 (kLengthBase.getD (sy - 257) 0) (kLengthExtra.getD (sy - 257) 0)
    generalize kLengthBase.getD (sy - 257) 0 = lb at hx hres hlt ⊢
    generalize kLengthExtra.getD (sy - 257) 0 = lx at hx hres hlt ⊢
    generalize r1.tryExtra lb lx = y at hx ⊢
    cases hx with
    | none k1 k2 =>
      refine starveBack_ok hI hr ho hf (by omega) fun hfut F => ?_
      rw [hres, k2 hfut]
      rintro ⟨_, h, _⟩; cases h
    | @some len r2 k1 k2 k3 k4 k5 =>
      simp only [k1, ex_ok] at hres
      dsimp only
      have hr2 := k2.within
      have hT2 : r2.rest.length + fut.length ≤ T := by have := k2.le; omega
      have hs := Reader.trySymbol_ok (fut := fut) (T := T) s.distances hr2 hT2
      have hs' := decodeSymbol_safe htab.2.1 (Reader.full_ok hr2 hT2)
      have h15 := htab.2.2
      generalize r2.trySymbol s.distances = y at hs ⊢
      cases hs with
      | need h1 h2 =>
        refine starveBack_ok hI hr ho hf (by omega) fun hfut F => ?_
        rw [hres, h2 hfut]
        rintro ⟨_, h, _⟩; cases h
      | invalid h1 =>
        refine .fail fun F => ?_
        rw [hres, h1]
        rintro ⟨_, h, _⟩; cases h
      | ub h1 => rw [h1] at hs'; cases hs'
      | @got ds r3 l1 l2 l3 l4 =>
        simp only [l1, ex_ok] at hres
        dsimp only
        have hr3 := l2.within
        have hT3 : r3.rest.length + fut.length ≤ T := by have := l2.le; omega
        by_cases h30 : 30 ≤ ds
        · rw [if_pos h30]
          refine .fail fun F => ?_
          rw [hres]
          exact fun h => h.1 h30
        · rw [if_neg h30]
          have hdt := distance_tables ds (by omega)
          have hx := Reader.tryExtra_ok (fut := fut) hr3 hT3 (kDistanceBase.getD ds 0) (kDistanceExtra.getD ds 0)
          generalize kDistanceBase.getD ds 0 = db at hx hres hdt ⊢
          generalize kDistanceExtra.getD ds 0 = dx at hx hres hdt ⊢
          generalize r3.tryExtra db dx = y at hx ⊢
          cases hx with
          | none m1 m2 =>
            refine starveBack_ok hI hr ho hf (by omega) fun hfut F => ?_
            rw [hres, m2 hfut]
            rintro ⟨_, _, h, _⟩; cases h
          | @some dist r4 m1 m2 m3 m4 m5 =>
            simp only [m1, ex_ok] at hres
            dsimp only
            refine .advanced (o' := o) ⟨⟨fun h => ?_, fun _ => htab, fun h => ?_, fun h => absurd h (hno _ nofun),
              fun h => absurd h (hno _ nofun), fun _ => ⟨hm, ?_⟩⟩, ((h2.trans k2).trans l2).trans m2, ho, rfl, ⟨rfl, rfl⟩, by omega⟩ ?_ ?_
            · rcases h with h | h | h <;> exact absurd h (hno _ nofun)
            · rcases h with h | h <;> exact absurd h (hno _ nofun)
            · show dist ≤ 32768
              omega
            · simp only [iMeasure]; omega
            · intro F
              have hl0 : len ≠ 0 := by omega
              rw [hres, Resumes]
              dsimp only
              rw [if_pos hl0]
              simp only [byMode, hm]
              exact ⟨fun h => h.2, fun h => ⟨h30, h⟩⟩

theorem symbolStep_ok (hI : InflateOk s r.count) (hr : r.Within chunk) (ho : OutRel so o prev) (hT : r.rest.length + fut.length ≤ T)
    (hf : finish = true → fut = []) (hp : s.pendingLength = 0) (hm : s.mode = .compressed) :
    IOk s r so o chunk prev fut T finish (symbolStep s r so finish) := by
  unfold symbolStep
  have htab := hI.tables hm
  have hno : ∀ m, m ≠ Mode.compressed → s.mode ≠ m := fun m h1 h2 => h1 (h2.symm.trans hm)
  have hres0 : ∀ F, Resumes s (r.full fut T) o F ↔ Comp s.literals s.distances s.finalBlock (r.full fut T) o F := fun F => by rw [resumes_of_zero hp, byMode, hm]
  have hres := fun F => (hres0 F).trans comp_step
  have hs := Reader.trySymbol_ok (fut := fut) (T := T) s.literals hr hT
  have hs' := decodeSymbol_safe htab.1.1 (Reader.full_ok hr hT)
  have h15 := htab.1.2
  generalize r.trySymbol s.literals = y at hs ⊢
  cases hs with
  | need h1 h2 =>
    refine starve_ok hI hr ho hf (by omega) fun hfut F => ?_
    rw [hres, h2 hfut]
    rintro ⟨_, h, _⟩; cases h
  | invalid h1 =>
    refine .fail fun F => ?_
    rw [hres, h1]
    rintro ⟨_, h, _⟩; cases h
  | ub h1 => rw [h1] at hs'; cases hs'
  | @got sy r1 h1 h2 h3 h4 =>
    simp only [h1, ex_ok] at hres
    have hr1 := h2.within
    have hT1 : r1.rest.length + fut.length ≤ T := by have := h2.le; omega
    dsimp only
    by_cases h256 : sy < 256
    · rw [if_pos h256]
      simp only [if_pos h256] at hres
      by_cases hfull : so.full = true
      · rw [if_pos hfull]
        refine .stop (Keeps.refl hI hr ho) (fun _ => Iff.rfl) nofun (fun _ => ⟨hfull, fun F hF => ?_⟩) nofun
        obtain ⟨o1, ha, hF⟩ := (hres F).1 hF
        exact Nat.lt_of_lt_of_le (append_grows ha) (comp_grows htab.1.1 htab.2.1 (Reader.full_ok hr1 hT1) hF)
      · rw [if_neg hfull]
        rcases ho.append (by simpa using hfull) (BitVec.ofNat 8 sy) with ⟨e1, e2⟩ | ⟨so1, e1, e2, g1, g2, g3⟩
        · rw [e1]
          dsimp only
          refine .fail fun F => ?_
          rw [hres, e2]
          rintro ⟨_, h, _⟩; cases h
        · rw [e1]
          dsimp only
          refine .advanced ⟨⟨fun h => ?_, fun _ => htab, fun h => ?_, fun h => absurd h (hno _ nofun),
            fun h => absurd h (hno _ nofun), fun h => absurd hp h⟩, h2, g1, g2, ⟨rfl, rfl⟩, by omega⟩ ?_ ?_
          · rcases h with h | h | h <;> exact absurd h (hno _ nofun)
          · rcases h with h | h <;> exact absurd h (hno _ nofun)
          · simp only [iMeasure, g3, g2, List.length_append]; omega
          · intro F
            rw [hres, e2, ex_ok, resumes_of_zero hp, byMode, hm]
    · rw [if_neg h256]
      simp only [if_neg h256] at hres
      by_cases he : sy = 256
      · rw [if_pos he]
        simp only [if_pos he] at hres
        have ha := Reader.alignByte_full (fut := fut) (T := T) hr1
        cases hfin : s.finalBlock with
        | true =>
          rw [if_pos rfl]
          refine .stop (o' := o) ⟨⟨fun _ => ha.2.2.1, nofun, fun h => by simp at h, nofun, nofun, fun h => absurd hp h⟩, h2.trans ha.2.1, ho, rfl, ⟨rfl, rfl⟩, by omega⟩ ?_ nofun nofun
            (fun _ => ⟨rfl, hp⟩)
          intro F
          rw [hres, hfin, resumes_of_zero (by exact hp), byMode, Ends, if_pos rfl, ha.1]
        | false =>
          rw [if_neg (by decide)]
          refine .advanced (o' := o) ⟨⟨fun h => by simp at h, nofun, fun h => by simp at h, nofun, nofun, fun h => absurd hp h⟩, h2, ho, rfl, ⟨rfl, rfl⟩, by omega⟩ ?_ ?_
          · simp only [iMeasure, modeRank, hm]; omega
          · intro F
            rw [hres, hfin, resumes_of_zero (by exact hp), byMode, Ends, if_neg (by decide)]
      · rw [if_neg he]
        simp only [if_neg he] at hres
        by_cases h285 : 285 < sy
        · rw [if_pos h285]
          refine .fail fun F => ?_
          rw [hres]
          exact fun h => h.1 h285
        · rw [if_neg h285]
          refine matchStep_ok hI hr ho hT hf hp hm h2 h3 (by omega) (by omega) (by omega) fun F => ?_
          rw [hres]
          exact ⟨fun h => h.2, fun h => ⟨h285, h⟩⟩

theorem pendingStep_ok (hI : InflateOk s r.count) (hr : r.Within chunk) (ho : OutRel so o prev) (hT : r.rest.length + fut.length ≤ T)
    (hp : s.pendingLength ≠ 0) : IOk s r so o chunk prev fut T finish (pendingStep s r so) := by
  unfold pendingStep
  obtain ⟨hm, hd⟩ := hI.pending hp
  have htab := hI.tables hm
  have hno : ∀ m, m ≠ Mode.compressed → s.mode ≠ m := fun m h1 h2 => h1 (h2.symm.trans hm)
  have hres : ∀ F, Resumes s (r.full fut T) o F ↔ ∃ o1, o.copy s.pendingDistance s.pendingLength = .ok o1 ∧ byMode s (r.full fut T) o1 F := fun F => by
    rw [Resumes, if_pos hp]
  have hc := ho.copy (n := s.pendingLength) hd
  have hkeep : ∀ m, InflateOk { s with pendingLength := m } r.count := fun m =>
    ⟨fun h => by (rcases h with h | h | h) <;> exact absurd h (hno _ nofun), fun _ => htab, fun h => by (rcases h with h | h) <;> exact absurd h (hno _ nofun),
      fun h => absurd h (hno _ nofun), fun h => absurd h (hno _ nofun), fun _ => ⟨hm, hd⟩⟩
  generalize so.copy s.pendingDistance s.pendingLength = y at hc ⊢
  cases hc with
  | error h => exact .fail fun F => fun hr => by obtain ⟨o1, h1, _⟩ := (hres F).1 hr; exact h o1 h1
  | @ok c m so1 o1 a1 a2 a3 a4 a5 a6 a7 a8 a9 =>
    cases c with
    | true =>
      obtain ⟨rfl, hlt⟩ := a7 rfl
      dsimp only
      refine .advanced ⟨hkeep 0, ⟨hr, Nat.le_refl _⟩, a1, a2, ⟨a3, a4⟩, Nat.le_refl _⟩ ?_ ?_
      · have := hlt hp
        have := a1.room
        simp only [iMeasure]; omega
      · intro F
        rw [hres, resumes_of_zero rfl]
        simp only [a9, Span.copy_zero a5, ex_ok]
        exact Iff.rfl
    | false =>
      obtain ⟨h1, h2⟩ := a8 rfl
      dsimp only
      refine .stop ⟨hkeep m, ⟨hr, Nat.le_refl _⟩, a1, a2, ⟨a3, a4⟩, Nat.le_refl _⟩ ?_ nofun (fun _ => ⟨h2, fun F hF => ?_⟩) nofun
      rotate_left
      · rw [Resumes, if_pos h1] at hF
        obtain ⟨o2, hc, hF⟩ := hF
        rw [byMode, hm] at hF
        have := copy_grows hc
        have := comp_grows htab.1.1 htab.2.1 (Reader.full_ok hr hT) hF
        dsimp only at *
        omega
      intro F
      rw [hres, Resumes]
      dsimp only
      rw [if_pos h1]
      simp only [a9]
      exact Iff.rfl

theorem inflateStep_ok (hI : InflateOk s r.count) (hr : r.Within chunk) (ho : OutRel so o prev) (hT : r.rest.length + fut.length ≤ T)
    (hf : finish = true → fut = []) : IOk s r so o chunk prev fut T finish (inflateStep s r so finish) := by
  unfold inflateStep
  by_cases hp : s.pendingLength ≠ 0
  · rw [if_pos hp]; exact pendingStep_ok hI hr ho hT hp
  · rw [if_neg hp]
    have hp : s.pendingLength = 0 := by omega
    cases hm : s.mode with
    | done => exact .stop (Keeps.refl hI hr ho) (fun _ => Iff.rfl) nofun nofun (fun _ => ⟨hm, hp⟩)
    | header => exact headerStep_ok hI hr ho hT hf hp hm
    | storedLength => exact storedLengthStep_ok hI hr ho hT hf hp hm
    | storedData => exact storedDataStep_ok hI hr ho hT hf hp hm
    | dynamicHeader => exact dynamicHeaderStep_ok hI hr ho hT hf hp hm
    | dynamicCodeLengths => exact codeLengthsStep_ok hI hr ho hT hf hp hm
    | dynamicLengths => exact lengthsStep_ok hI hr ho hT hf hp hm
    | compressed => exact symbolStep_ok hI hr ho hT hf hp hm

/-- a whole call of the inflater -/
theorem inflateGo_ok (hf : finish = true → fut = []) : ∀ (n : Nat) (s : Inflate) (r : Reader) (so : StreamOut) (o : Span), InflateOk s r.count → r.Within chunk →
    OutRel so o prev → r.rest.length + fut.length ≤ T → iMeasure s r so < n →
    (∀ s' r' so', inflateGo finish n s r so ≠ .advanced s' r' so') ∧ IOk s r so o chunk prev fut T finish (inflateGo finish n s r so)
  | 0, _, _, _, _, _, _, _, _, h => by omega
  | n + 1, s, r, so, o, hI, hr, ho, hT, h => by
    have hs := inflateStep_ok hI hr ho hT hf
    rw [inflateGo]
    generalize inflateStep s r so finish = y at hs ⊢
    cases hs with
    | stop a b c d e => exact ⟨nofun, .stop a b c d e⟩
    | fail a => exact ⟨nofun, .fail a⟩
    | @advanced s1 r1 so1 o1 a b c =>
      have hT1 : r1.rest.length + fut.length ≤ T := by have := a.moves.le; omega
      have ih := inflateGo_ok hf n s1 r1 so1 o1 a.ok a.moves.within a.out hT1 (by omega)
      refine ⟨ih.1, ?_⟩
      have h2 := ih.2
      have h1 := ih.1
      dsimp only
      generalize inflateGo finish n s1 r1 so1 = z at h1 h2 ⊢
      cases h2 with
      | advanced => exact absurd rfl (h1 _ _ _)
      | fail k => exact .fail fun F hF => k F ((c F).1 hF)
      | stop k1 k2 k3 k4 k5 =>
        exact .stop ⟨k1.ok, a.moves.trans k1.moves, k1.out, k1.room.trans a.room, ⟨k1.hb.1.trans a.hb.1, k1.hb.2.trans a.hb.2⟩, Nat.le_trans k1.left a.left⟩
          (fun F => (c F).trans (k2 F)) k3 k4 k5

theorem modeRank_le : ∀ m, modeRank m ≤ 5 := by intro m; cases m <;> decide

theorem iMeasure_lt : iMeasure s r so < inflateFuel r so := by
  have := modeRank_le s.mode
  rw [iMeasure, inflateFuel]; omega

end Verif.Deflate
