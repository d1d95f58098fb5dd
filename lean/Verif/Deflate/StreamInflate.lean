import Verif.Deflate.StreamGrow
/-! # Streaming decoder: every turn of the inflater keeps the rest of the work -/
namespace Verif.Deflate
open Verif.Bytes (Byte)

/-- a decoder as `makeDecoder` builds it -/
def Decoder.Good (d : Decoder) (M : Nat) : Prop := d.Sound ∧ d.maxWidth ≤ M

theorem makeDecoder_good {n M : Nat} {l : List Nat} {ae ai : Bool} {d : Decoder} (hl : l.length ≤ n) (h : makeDecoder n M l ae ai = .ok d) : d.Good M := by
  refine ⟨(makeDecoder_safe hl ae ai).ok_of h, ?_⟩
  unfold makeDecoder at h
  by_cases h1 : l.any (fun x => decide (M < x)) = true
  · rw [if_pos h1] at h; cases h
  · rw [if_neg h1] at h
    dsimp only at h
    have hle : ∀ w ∈ l, w ≤ M := fun w hw => by
      apply Classical.byContradiction
      intro hc
      exact h1 (List.any_eq_true.2 ⟨w, hw, decide_eq_true (by omega)⟩)
    have hmax : l.foldl max 0 ≤ M := foldl_max_bound l M hle 0 (by omega)
    by_cases h2 : (l.all (fun x => decide (x = 0))) = true
    · rw [if_pos h2] at h
      cases ae
      · cases h
      · rw [← Except.ok.inj h]; exact hmax
    · rw [if_neg h2] at h
      cases e : spaceGo (widthCount l) M 1 1 with
      | none => rw [e] at h; cases h
      | some rem =>
        rw [e] at h
        dsimp only at h
        by_cases h3 : 0 < rem ∧ (ai = false ∨ l.foldl max 0 ≠ 1)
        · rw [if_pos h3] at h; cases h
        · rw [if_neg h3] at h
          cases e2 : placeSymbols 0 l (startIndex (widthCount l)) (List.replicate n 0) with
          | error x => rw [e2] at h; cases h
          | ok s => rw [e2] at h; rw [← Except.ok.inj h]; exact hmax

/-- what holds of the inflater between two turns -/
structure InflateOk (s : Inflate) (count : Nat) : Prop where
  aligned : s.mode = .storedLength ∨ s.mode = .storedData ∨ s.mode = .done → count = 0
  tables : s.mode = .compressed → s.literals.Good 15 ∧ s.distances.Good 15
  counts : s.mode = .dynamicCodeLengths ∨ s.mode = .dynamicLengths → s.literalCount ≤ 286 ∧ s.distanceCount ≤ 30
  order : s.mode = .dynamicCodeLengths → s.codeLengthLengths.length = 19 ∧ s.codeLengthCount ≤ 19 ∧ s.lengths = []
  lens : s.mode = .dynamicLengths → s.codeLengths.Good 7 ∧ s.lengths.length ≤ s.literalCount + s.distanceCount
  pending : s.pendingLength ≠ 0 → s.mode = .compressed ∧ s.pendingDistance ≤ kWindowSize

theorem InflateOk.fresh : InflateOk .fresh 0 := by
  refine ⟨fun _ => rfl, nofun, fun h => ?_, nofun, nofun, fun h => absurd rfl h⟩
  rcases h with h | h <;> cases h

def modeRank : Mode → Nat
  | .header => 0
  | .storedData => 1
  | .compressed => 1
  | .dynamicLengths => 2
  | .dynamicCodeLengths => 3
  | .dynamicHeader => 4
  | .storedLength => 5
  | .done => 0

def iMeasure (s : Inflate) (r : Reader) (so : StreamOut) : Nat := 2 * r.left + modeRank s.mode + (so.room - so.out.length)

/-- what holds after a turn -/
structure Keeps (r : Reader) (so : StreamOut) (o : Span) (chunk prev : List Byte) (s' : Inflate) (r' : Reader) (so' : StreamOut) (o' : Span) : Prop where
  ok : InflateOk s' r'.count
  moves : Moves r r' chunk
  out : OutRel so' o' prev
  room : so'.room = so.room
  hb : o'.historyBegin = o.historyBegin ∧ o'.capacity = o.capacity
  left : r'.left ≤ r.left

inductive IOk (s : Inflate) (r : Reader) (so : StreamOut) (o : Span) (chunk prev fut : List Byte) (T : Nat) (finish : Bool) : IStep → Prop
  | advanced {s' r' so' o'} : Keeps r so o chunk prev s' r' so' o' → iMeasure s' r' so' < iMeasure s r so →
      (∀ F, Resumes s (r.full fut T) o F ↔ Resumes s' (r'.full fut T) o' F) → IOk s r so o chunk prev fut T finish (.advanced s' r' so')
  | stop {p s' r' so' o'} : Keeps r so o chunk prev s' r' so' o' →
      (∀ F, Resumes s (r.full fut T) o F ↔ Resumes s' (r'.full fut T) o' F) →
      (p = .needInput → finish = false ∧ r'.left < 48) → (p = .needOutput → so'.full = true ∧ ∀ F, Resumes s' (r'.full fut T) o' F → o'.data.length < F.2.data.length) →
      (p = .finished → s'.mode = .done ∧ s'.pendingLength = 0) →
      IOk s r so o chunk prev fut T finish (.stop p s' r' so')
  | fail {x s' r' so'} : (∀ F, ¬ Resumes s (r.full fut T) o F) → IOk s r so o chunk prev fut T finish (.fail (.err x) s' r' so')

variable {s : Inflate} {r : Reader} {so : StreamOut} {o : Span} {chunk prev fut : List Byte} {T : Nat} {finish : Bool}

theorem Keeps.refl (hI : InflateOk s r.count) (hr : r.Within chunk) (ho : OutRel so o prev) : Keeps r so o chunk prev s r so o :=
  ⟨hI, ⟨hr, Nat.le_refl _⟩, ho, rfl, ⟨rfl, rfl⟩, Nat.le_refl _⟩

/-- bits are missing -/
theorem starve_ok (hI : InflateOk s r.count) (hr : r.Within chunk) (ho : OutRel so o prev) (hf : finish = true → fut = []) (h48 : r.left < 48)
    (hn : fut = [] → ∀ F, ¬ Resumes s (r.full fut T) o F) : IOk s r so o chunk prev fut T finish (starve finish s r so) := by
  rw [starve]
  cases finish with
  | true => exact .fail (hn (hf rfl))
  | false => exact .stop (Keeps.refl hI hr ho) (fun _ => Iff.rfl) (fun _ => ⟨rfl, h48⟩) nofun nofun

theorem starveBack_ok {r1 : Reader} (hI : InflateOk s r.count) (hr : r.Within chunk) (ho : OutRel so o prev) (hf : finish = true → fut = [])
    (h48 : r.left < 48) (hn : fut = [] → ∀ F, ¬ Resumes s (r.full fut T) o F) :
    IOk s r so o chunk prev fut T finish (starveBack finish s r1 r so) := by
  rw [starveBack]
  cases finish with
  | true => exact .fail (hn (hf rfl))
  | false => exact .stop (Keeps.refl hI hr ho) (fun _ => Iff.rfl) (fun _ => ⟨rfl, h48⟩) nofun nofun

theorem shr1 (v : Nat) : v >>> 1 = v / 2 := by rw [Nat.shiftRight_eq_div_pow]
theorem and1 (v : Nat) : v &&& 1 = v % 2 := by rw [show (1 : Nat) = 2 ^ 1 - 1 from rfl, Nat.and_two_pow_sub_one_eq_mod]
theorem and31 (v : Nat) : v &&& 0x1f = v % 32 := by rw [show (0x1f : Nat) = 2 ^ 5 - 1 from rfl, Nat.and_two_pow_sub_one_eq_mod]
theorem and15 (v : Nat) : v &&& 0x0f = v % 16 := by rw [show (0x0f : Nat) = 2 ^ 4 - 1 from rfl, Nat.and_two_pow_sub_one_eq_mod]

/-! ## block header -/

theorem blocks_header {R R3 : Reader} {v : Nat} {F : Reader × Span} (hR : R.Ok T) (e : R.readBits 3 = .ok (v, R3)) : Blocks R o F ↔
    ∃ R1 o1, (if v / 2 = 0 then decodeStored R3 o else if v / 2 = 1 then decodeFixed R3 o else if v / 2 = 2 then decodeDynamicBlock R3 o
        else .error (.err .invalidBlockType)) = .ok (R1, o1) ∧ Ends (decide (v % 2 ≠ 0)) R1 o1 F := by
  obtain ⟨Ra, h1, h2, h3⟩ := (Reader.readBits_split hR 1 2).1 v R3 e
  rw [Nat.pow_one] at h1 h3
  rw [blocks_iff]
  unfold decodeBlock
  rw [h1]
  dsimp only
  rw [h3]
  dsimp only
  generalize (if v / 2 = 0 then decodeStored R3 o else if v / 2 = 1 then decodeFixed R3 o else if v / 2 = 2 then decodeDynamicBlock R3 o
        else .error (.err .invalidBlockType)) = res
  cases res with
  | error x => exact ⟨fun ⟨_, _, _, h, _⟩ => (by cases h), fun ⟨_, _, h, _⟩ => (by cases h)⟩
  | ok p =>
    obtain ⟨R1, o1⟩ := p
    dsimp only
    constructor
    · rintro ⟨fin, R2, o2, h, hE⟩
      have := Except.ok.inj h
      simp only [Prod.mk.injEq] at this
      obtain ⟨rfl, rfl, rfl⟩ := this
      exact ⟨R1, o1, rfl, hE⟩
    · rintro ⟨R2, o2, h, hE⟩
      obtain ⟨rfl, rfl⟩ := Prod.mk.inj (Except.ok.inj h)
      exact ⟨_, R1, o1, rfl, hE⟩

theorem blocks_trunc {R : Reader} {F : Reader × Span} (hR : R.Ok T) (e : R.readBits 3 = .error (.err .truncatedInput)) : ¬ Blocks R o F := by
  rw [blocks_iff]
  rintro ⟨fin, R1, o1, h, _⟩
  unfold decodeBlock at h
  rcases (Reader.readBits_split hR 1 2).2 e with e1 | ⟨u, Ra, e1, e2⟩
  · rw [e1] at h; cases h
  · rw [e1] at h
    dsimp only at h
    rw [e2] at h; cases h

theorem decodeStored_align {R : Reader} (hR : R.Ok T) : decodeStored R.alignByte o = decodeStored R o := by
  unfold decodeStored
  rw [Reader.alignByte_of_count (Reader.alignByte_spec hR).2.2.1]

theorem resumes_header {R : Reader} {F : Reader × Span} (hp : s.pendingLength = 0) (hm : s.mode = .header) : Resumes s R o F ↔ Blocks R o F := by
  rw [resumes_of_zero hp, byMode, hm]

theorem fixed_len : fixedLiteralLengths.length ≤ 288 ∧ fixedDistanceLengths.length ≤ 32 := by decide +kernel

theorem headerStep_ok (hI : InflateOk s r.count) (hr : r.Within chunk) (ho : OutRel so o prev) (hT : r.rest.length + fut.length ≤ T)
    (hf : finish = true → fut = []) (hp : s.pendingLength = 0) (hm : s.mode = .header) :
    IOk s r so o chunk prev fut T finish (headerStep s r so finish) := by
  unfold headerStep
  have hR := Reader.full_ok hr hT
  cases e : r.tryBits 3 with
  | none =>
    have h := Reader.tryBits_none (T := T) hr e
    refine starve_ok hI hr ho hf (by omega) fun hfut F => ?_
    subst hfut
    rw [resumes_header hp hm]
    exact blocks_trunc hR h.2
  | some p =>
    obtain ⟨v, r1⟩ := p
    obtain ⟨h1, h2, h3, h4⟩ := Reader.tryBits_some (fut := fut) hr hT e
    have hb := fun F => (resumes_header (R := r.full fut T) (o := o) (F := F) hp hm).trans (blocks_header hR h1)
    have hr1 := h2.within
    have hT1 : r1.rest.length + fut.length ≤ T := by have := h2.le; omega
    dsimp only
    rw [shr1, and1]
    by_cases hk0 : v / 2 = 0
    · rw [if_pos hk0]
      have ha := Reader.alignByte_full (fut := fut) (T := T) hr1
      refine .advanced (o' := o) ⟨⟨fun _ => ha.2.2.1, nofun, fun h => by simp at h, nofun, nofun, fun h => absurd hp h⟩, h2.trans ha.2.1, ho, rfl, ⟨rfl, rfl⟩, by omega⟩ ?_ ?_
      · simp only [iMeasure, modeRank, hm]; omega
      · intro F
        rw [hb F, if_pos hk0, resumes_of_zero (by exact hp), ← ha.1, byMode]
        simp only
        rw [decodeStored_align (Reader.full_ok hr1 hT1)]
    · rw [if_neg hk0]
      by_cases hk1 : v / 2 = 1
      · rw [if_pos hk1]
        have g1 := makeDecoder_safe (n := 288) (M := 15) fixed_len.1 false true
        cases e1 : makeDecoder 288 15 fixedLiteralLengths false true with
        | error x =>
          dsimp only
          have : ∃ y, x = .err y := by rw [e1] at g1; cases g1; exact ⟨_, rfl⟩
          obtain ⟨y, rfl⟩ := this
          refine .fail fun F => ?_
          rw [hb F, if_neg hk0, if_pos hk1]
          unfold decodeFixed
          rw [e1]
          rintro ⟨_, _, h, _⟩; cases h
        | ok ld =>
          dsimp only
          have g2 := makeDecoder_safe (n := 32) (M := 15) fixed_len.2 false true
          cases e2 : makeDecoder 32 15 fixedDistanceLengths false true with
          | error x =>
            dsimp only
            have : ∃ y, x = .err y := by rw [e2] at g2; cases g2; exact ⟨_, rfl⟩
            obtain ⟨y, rfl⟩ := this
            refine .fail fun F => ?_
            rw [hb F, if_neg hk0, if_pos hk1]
            unfold decodeFixed
            rw [e1]
            dsimp only
            rw [e2]
            rintro ⟨_, _, h, _⟩; cases h
          | ok dd =>
            dsimp only
            have gl := makeDecoder_good fixed_len.1 e1
            have gd := makeDecoder_good fixed_len.2 e2
            refine .advanced (o' := o) ⟨⟨fun h => by simp at h, fun _ => ⟨gl, gd⟩, fun h => by simp at h, nofun, nofun, fun h => absurd hp h⟩, h2, ho, rfl, ⟨rfl, rfl⟩, by omega⟩ ?_ ?_
            · simp only [iMeasure, modeRank, hm]; omega
            · intro F
              rw [hb F, if_neg hk0, if_pos hk1, resumes_of_zero (by exact hp), byMode]
              simp only
              unfold decodeFixed Comp
              rw [e1]
              dsimp only
              rw [e2]
              dsimp only
              have hci := compressed_iff (o := o) gl.1 gd.1 (Reader.full_ok hr1 hT1)
              exact ⟨fun ⟨R1, o1, a, b⟩ => by obtain ⟨n, hn⟩ := (hci _).1 a; exact ⟨n, R1, o1, hn, b⟩,
                fun ⟨n, R1, o1, a, b⟩ => ⟨R1, o1, (hci _).2 ⟨n, a⟩, b⟩⟩
      · rw [if_neg hk1]
        by_cases hk2 : v / 2 = 2
        · rw [if_pos hk2]
          refine .advanced (o' := o) ⟨⟨fun h => by simp at h, nofun, fun h => by simp at h, nofun, nofun, fun h => absurd hp h⟩, h2, ho, rfl, ⟨rfl, rfl⟩, by omega⟩ ?_ ?_
          · simp only [iMeasure, modeRank, hm]; omega
          · intro F
            rw [hb F, if_neg hk0, if_neg hk1, if_pos hk2, resumes_of_zero (by exact hp), byMode]
        · rw [if_neg hk2]
          refine .fail fun F => ?_
          rw [hb F, if_neg hk0, if_neg hk1, if_neg hk2]
          rintro ⟨_, _, h, _⟩; cases h

/-! ## stored blocks -/

theorem storedLengthStep_ok (hI : InflateOk s r.count) (hr : r.Within chunk) (ho : OutRel so o prev) (hT : r.rest.length + fut.length ≤ T)
    (hf : finish = true → fut = []) (hp : s.pendingLength = 0) (hm : s.mode = .storedLength) :
    IOk s r so o chunk prev fut T finish (storedLengthStep s r so finish) := by
  unfold storedLengthStep
  have hR := Reader.full_ok hr hT
  have hc : r.count = 0 := hI.aligned (.inl hm)
  have hal : (r.full fut T).alignByte = r.full fut T := Reader.alignByte_of_count hc
  have hres : ∀ F, Resumes s (r.full fut T) o F ↔ ∃ R1 o1, decodeStored (r.full fut T) o = .ok (R1, o1) ∧ Ends s.finalBlock R1 o1 F := fun F => by
    rw [resumes_of_zero hp, byMode, hm]
  cases e : r.tryBits 32 with
  | none =>
    have h := Reader.tryBits_none (T := T) hr e
    refine starve_ok hI hr ho hf (by omega) fun hfut F => ?_
    subst hfut
    rw [hres]
    rintro ⟨R1, o1, h', _⟩
    unfold decodeStored at h'
    rw [hal] at h'
    rcases (Reader.readBits_split hR 16 16).2 h.2 with e1 | ⟨u, Ra, e1, e2⟩
    · rw [e1] at h'; cases h'
    · rw [e1] at h'
      dsimp only at h'
      rw [e2] at h'; cases h'
  | some p =>
    obtain ⟨v, r1⟩ := p
    obtain ⟨h1, h2, h3, h4⟩ := Reader.tryBits_some (fut := fut) hr hT e
    obtain ⟨Ra, k1, k2, k3⟩ := (Reader.readBits_split hR 16 16).1 v _ h1
    have hv : (v >>> 16) % 65536 = v / 2 ^ 16 := by
      rw [Nat.shiftRight_eq_div_pow, Nat.mod_eq_of_lt]
      omega
    have hst : decodeStored (r.full fut T) o = if 65535 - v % 65536 ≠ v / 2 ^ 16 then .error (.err .invalidStoredBlockLength)
        else storedBytes (v % 65536) (r1.full fut T) o := by
      unfold decodeStored
      rw [hal, k1]
      dsimp only
      rw [k3]
    dsimp only
    rw [hv]
    by_cases hx : 65535 - v % 65536 ≠ v / 2 ^ 16
    · rw [if_pos hx]
      refine .fail fun F => ?_
      rw [hres, hst, if_pos hx]
      rintro ⟨_, _, h, _⟩; cases h
    · rw [if_neg hx]
      have hc1 : r1.count = 0 := by
        have := h2.within.count
        have := h2.le
        simp only [Reader.left] at h3
        omega
      refine .advanced (o' := o) ⟨⟨fun _ => hc1, nofun, fun h => by simp at h, nofun, nofun, fun h => absurd hp h⟩, h2, ho, rfl, ⟨rfl, rfl⟩, by omega⟩ ?_ ?_
      · simp only [iMeasure, modeRank, hm]; omega
      · intro F
        rw [hres, hst, if_neg hx, resumes_of_zero (by exact hp), byMode]
        exact Iff.rfl

theorem storedDataStep_ok (hI : InflateOk s r.count) (hr : r.Within chunk) (ho : OutRel so o prev) (hT : r.rest.length + fut.length ≤ T)
    (hf : finish = true → fut = []) (hp : s.pendingLength = 0) (hm : s.mode = .storedData) :
    IOk s r so o chunk prev fut T finish (storedDataStep s r so finish) := by
  unfold storedDataStep
  have hc : r.count = 0 := hI.aligned (.inr (.inl hm))
  have hal : (r.full fut T).alignByte = r.full fut T := Reader.alignByte_of_count hc
  have hres : ∀ F, Resumes s (r.full fut T) o F ↔ Stored s.storedRemaining s.finalBlock (r.full fut T) o F := fun F => by
    rw [resumes_of_zero hp, byMode, hm]
  by_cases hz : s.storedRemaining = 0
  · rw [if_pos hz]
    have hends : ∀ F, Resumes s (r.full fut T) o F ↔ Ends s.finalBlock (r.full fut T) o F := fun F => by
      rw [hres, hz]
      exact ⟨fun ⟨R1, o1, a, b⟩ => by obtain ⟨rfl, rfl⟩ := Prod.mk.inj (Except.ok.inj a); exact b, fun h => ⟨_, _, rfl, h⟩⟩
    cases hfin : s.finalBlock with
    | true =>
      rw [if_pos rfl]
      refine .stop (o' := o) ⟨⟨fun _ => hc, nofun, fun h => by simp at h, nofun, nofun, fun h => absurd hp h⟩, ⟨hr, Nat.le_refl _⟩, ho, rfl, ⟨rfl, rfl⟩, Nat.le_refl _⟩ ?_ nofun nofun
        (fun _ => ⟨rfl, hp⟩)
      intro F
      rw [hends, hfin, resumes_of_zero (by exact hp), byMode, Ends, if_pos rfl, hal]
    | false =>
      rw [if_neg (by decide)]
      refine .advanced (o' := o) ⟨⟨fun h => by simp at h, nofun, fun h => by simp at h, nofun, nofun, fun h => absurd hp h⟩, ⟨hr, Nat.le_refl _⟩, ho, rfl, ⟨rfl, rfl⟩, Nat.le_refl _⟩ ?_ ?_
      · simp only [iMeasure, modeRank, hm]; omega
      · intro F
        rw [hends, hfin, resumes_of_zero (by exact hp), byMode, Ends, if_neg (by decide)]
  · rw [if_neg hz]
    by_cases hfull : so.full = true
    · rw [if_pos hfull]
      exact .stop (Keeps.refl hI hr ho) (fun _ => Iff.rfl) nofun (fun _ => ⟨hfull, fun F hF => stored_grows hz (Reader.full_ok hr hT) ((hres F).1 hF)⟩) nofun
    · rw [if_neg hfull]
      obtain ⟨k, hk⟩ : ∃ k, s.storedRemaining = k + 1 := ⟨s.storedRemaining - 1, by omega⟩
      rw [hk, Nat.add_sub_cancel]
      rw [hk] at hres
      have hstep : ∀ F, Stored (k + 1) s.finalBlock (r.full fut T) o F ↔ ∃ v R1 o1, (r.full fut T).readBits 8 = .ok (v, R1) ∧
          o.append (BitVec.ofNat 8 v) = .ok o1 ∧ Stored k s.finalBlock R1 o1 F := by
        intro F
        unfold Stored
        rw [storedBytes]
        cases e8 : (r.full fut T).readBits 8 with
        | error x => exact ⟨fun ⟨_, _, h, _⟩ => (by cases h), fun ⟨_, _, _, h, _⟩ => (by cases h)⟩
        | ok q =>
          obtain ⟨v, R1⟩ := q
          dsimp only
          cases ea : Output.append o (BitVec.ofNat 8 v) with
          | error x =>
            refine ⟨fun ⟨_, _, h, _⟩ => (by cases h), fun ⟨v', R1', o1', h, h', _⟩ => ?_⟩
            obtain ⟨rfl, rfl⟩ := Prod.mk.inj (Except.ok.inj h)
            have : Output.append o (BitVec.ofNat 8 v) = .ok o1' := h'
            rw [ea] at this; cases this
          | ok o1 =>
            dsimp only
            constructor
            · rintro ⟨R2, o2, a, b⟩; exact ⟨v, R1, o1, rfl, ea, R2, o2, a, b⟩
            · rintro ⟨v', R1', o1', h, h', R2, o2, a, b⟩
              obtain ⟨rfl, rfl⟩ := Prod.mk.inj (Except.ok.inj h)
              have : Output.append o (BitVec.ofNat 8 v) = .ok o1' := h'
              rw [ea] at this
              obtain rfl := Except.ok.inj this
              exact ⟨R2, o2, a, b⟩
      cases e : r.tryBits 8 with
      | none =>
        have h := Reader.tryBits_none (T := T) hr e
        refine starve_ok hI hr ho hf (by omega) fun hfut F => ?_
        subst hfut
        rw [hres, hstep, h.2]
        rintro ⟨_, _, _, h, _⟩; cases h
      | some p =>
        obtain ⟨v, r1⟩ := p
        obtain ⟨h1, h2, h3, h4⟩ := Reader.tryBits_some (fut := fut) hr hT e
        have hc1 : r1.count = 0 := by
          have := h2.within.count
          have := h2.le
          simp only [Reader.left] at h3
          omega
        dsimp only
        rcases ho.append (by simpa using hfull) (BitVec.ofNat 8 v) with ⟨e1, e2⟩ | ⟨so1, e1, e2, g1, g2, g3⟩
        · rw [e1]
          dsimp only
          refine .fail fun F => ?_
          rw [hres, hstep, h1]
          rintro ⟨v', R1, o1, h, h', _⟩
          obtain ⟨rfl, rfl⟩ := Prod.mk.inj (Except.ok.inj h)
          rw [e2] at h'; cases h'
        · rw [e1]
          dsimp only
          have hno : ∀ m, m ≠ Mode.storedData → s.mode ≠ m := fun m h1 h2 => h1 (h2.symm.trans hm)
          refine .advanced ⟨⟨fun _ => hc1, fun h => absurd h (hno _ nofun), fun h => ?_, fun h => absurd h (hno _ nofun),
            fun h => absurd h (hno _ nofun), fun h => absurd hp h⟩, h2, g1, g2, ⟨rfl, rfl⟩, by omega⟩ ?_ ?_
          · rcases h with h | h <;> exact absurd h (hno _ nofun)
          · simp only [iMeasure, g3, g2, List.length_append]; omega
          · intro F
            rw [hres, hstep, h1, resumes_of_zero (by exact hp), byMode]
            dsimp only
            rw [hm]
            dsimp only
            constructor
            · rintro ⟨v', R1, o1, h, h', h''⟩
              obtain ⟨rfl, rfl⟩ := Prod.mk.inj (Except.ok.inj h)
              rw [e2] at h'
              obtain rfl := Except.ok.inj h'
              exact h''
            · intro h
              exact ⟨v, _, _, rfl, e2, h⟩

end Verif.Deflate
