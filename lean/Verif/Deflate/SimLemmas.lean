import Verif.Deflate.SafeLemmas
/-! # Lemmas comparing the decoder with one kind of output to the decoder with another -/
namespace Verif.Deflate
open Verif.Bytes (Byte)

variable {σ τ : Type} [Output σ] [Output τ]

/-- if `x` succeeds with an output satisfying `Q`, `y` succeeds alike -/
def Follows (K : σ → σ → Prop) (Q : σ → Prop) (R : σ → τ → Prop) {α : Type} (o : σ) (x : Res (α × σ)) (y : Res (α × τ)) : Prop :=
  ∀ a o', x = .ok (a, o') → K o o' ∧ (Q o' → ∃ c', y = .ok (a, c') ∧ R o' c')

/-- one output follows the other; `C` tells whether the second one may compare checksums -/
structure Sim (K : σ → σ → Prop) (Q : σ → Prop) (R : σ → τ → Prop) (C : Prop) : Prop where
  safe : SafeOut K
  back : ∀ {a b}, K a b → Q b → Q a
  size : ∀ {o c}, R o c → Output.size o = Output.size c
  reset : ∀ {o c}, R o c → R (Output.resetHistory o) (Output.resetHistory c)
  append : ∀ {o c b o'}, R o c → Output.append o b = .ok o' → Q o' → ∃ c', Output.append c b = .ok c' ∧ R o' c'
  copy : ∀ {o c d l o'}, R o c → Output.copy o d l = .ok o' → Q o' → ∃ c', Output.copy c d l = .ok c' ∧ R o' c'
  range : C ∨ ∀ (c : τ) n, Output.range c n = none

variable {K : σ → σ → Prop} {Q : σ → Prop} {R : σ → τ → Prop} {C : Prop}

theorem decodeMatch_follows (S : Sim K Q R C) {o : σ} {c : τ} (h : R o c) (dd : Decoder) (r : Reader) (s : Nat) :
    Follows K Q R o (decodeMatch dd r o s) (decodeMatch dd r c s) := by
  intro a o' e
  unfold decodeMatch at e ⊢
  cases h1 : readExtra r (kLengthBase.getD (s - 257) 0) (kLengthExtra.getD (s - 257) 0) with
  | error _ => rw [h1] at e; cases e
  | ok p =>
    obtain ⟨len, r1⟩ := p
    rw [h1] at e
    dsimp only at e ⊢
    cases h2 : decodeSymbol r1 dd with
    | error _ => rw [h2] at e; cases e
    | ok p =>
      obtain ⟨ds, r2⟩ := p
      rw [h2] at e
      dsimp only at e ⊢
      by_cases h3 : 30 ≤ ds
      · rw [if_pos h3] at e; cases e
      · rw [if_neg h3] at e ⊢
        cases h4 : readExtra r2 (kDistanceBase.getD ds 0) (kDistanceExtra.getD ds 0) with
        | error _ => rw [h4] at e; cases e
        | ok p =>
          obtain ⟨d, r3⟩ := p
          rw [h4] at e
          dsimp only at e ⊢
          cases h5 : Output.copy o d len with
          | error _ => rw [h5] at e; cases e
          | ok o1 =>
            rw [h5] at e
            injection e with e
            injection e with e1 e2
            subst e1; subst e2
            refine ⟨(S.safe.copy o d len).ok_of h5, fun hq => ?_⟩
            obtain ⟨c', k1, k2⟩ := S.copy h h5 hq
            exact ⟨c', by rw [k1], k2⟩

/-- `Follows` for a step that also tells whether it was the last -/
def Follows3 (K : σ → σ → Prop) (Q : σ → Prop) (R : σ → τ → Prop) (o : σ) (x : Res (Bool × Reader × σ)) (y : Res (Bool × Reader × τ)) : Prop :=
  ∀ a r o', x = .ok (a, r, o') → K o o' ∧ (Q o' → ∃ c', y = .ok (a, r, c') ∧ R o' c')

theorem blockStep_follows (S : Sim K Q R C) {o : σ} {c : τ} (h : R o c) (ld dd : Decoder) (r : Reader) :
    Follows3 K Q R o (blockStep ld dd r o) (blockStep ld dd r c) := by
  intro a r' o' e
  unfold blockStep at e ⊢
  cases h1 : decodeSymbol r ld with
  | error _ => rw [h1] at e; cases e
  | ok p =>
    obtain ⟨s, r1⟩ := p
    rw [h1] at e
    dsimp only at e ⊢
    by_cases h2 : s < 256
    · rw [if_pos h2] at e ⊢
      cases h5 : Output.append o (BitVec.ofNat 8 s) with
      | error _ => rw [h5] at e; cases e
      | ok o1 =>
        rw [h5] at e
        injection e with e
        injection e with e1 e2
        injection e2 with e2 e3
        subst e1; subst e2; subst e3
        refine ⟨(S.safe.append _ _).ok_of h5, fun hq => ?_⟩
        obtain ⟨c', k1, k2⟩ := S.append h h5 hq
        exact ⟨c', by rw [k1], k2⟩
    · rw [if_neg h2] at e ⊢
      by_cases h3 : s = 256
      · rw [if_pos h3] at e ⊢
        injection e with e
        injection e with e1 e2
        injection e2 with e2 e3
        subst e1; subst e2; subst e3
        exact ⟨S.safe.refl _, fun _ => ⟨c, rfl, h⟩⟩
      · rw [if_neg h3] at e ⊢
        by_cases h4 : 285 < s
        · rw [if_pos h4] at e; cases e
        · rw [if_neg h4] at e ⊢
          cases h5 : decodeMatch dd r1 o s with
          | error _ => rw [h5] at e; cases e
          | ok p =>
            obtain ⟨r2, o1⟩ := p
            rw [h5] at e
            injection e with e
            injection e with e1 e2
            injection e2 with e2 e3
            subst e1; subst e2; subst e3
            have ⟨m1, m2⟩ := decodeMatch_follows S h dd r1 s _ _ h5
            refine ⟨m1, fun hq => ?_⟩
            obtain ⟨c', k1, k2⟩ := m2 hq
            exact ⟨c', by rw [k1], k2⟩

theorem blockGo_grows (S : SafeOut K) (ld dd : Decoder) : ∀ (n : Nat) (r : Reader) (o : σ) (r' : Reader) (o' : σ),
    (∀ r o a r1 o1, blockStep ld dd r o = .ok (a, r1, o1) → K o o1) → blockGo ld dd n r o = .ok (r', o') → K o o'
  | 0, _, _, _, _, _, e => by rw [blockGo] at e; cases e
  | n + 1, r, o, r', o', hs, e => by
    rw [blockGo] at e
    cases h1 : blockStep ld dd r o with
    | error _ => rw [h1] at e; cases e
    | ok p =>
      obtain ⟨a, r1, o1⟩ := p
      rw [h1] at e
      dsimp only at e
      cases a with
      | true =>
        rw [if_pos rfl] at e
        injection e with e
        injection e with e1 e2
        subst e2
        exact hs _ _ _ _ _ h1
      | false =>
        rw [if_neg (by decide)] at e
        exact S.trans (hs _ _ _ _ _ h1) (blockGo_grows S ld dd n r1 o1 r' o' hs e)

theorem blockGo_follows (S : Sim K Q R C) (ld dd : Decoder) : ∀ (n : Nat) (r : Reader) {o : σ} {c : τ}, R o c →
    Follows K Q R o (blockGo ld dd n r o) (blockGo ld dd n r c)
  | 0, r, o, c, h => by intro a o' e; rw [blockGo] at e; cases e
  | n + 1, r, o, c, h => by
    intro r' o' e
    rw [blockGo] at e
    cases h1 : blockStep ld dd r o with
    | error _ => rw [h1] at e; cases e
    | ok p =>
      obtain ⟨a, r1, o1⟩ := p
      have ⟨s1, s2⟩ := blockStep_follows S h ld dd r _ _ _ h1
      rw [h1] at e
      dsimp only at e
      cases a with
      | true =>
        rw [if_pos rfl] at e
        injection e with e
        injection e with e1 e2
        subst e1; subst e2
        refine ⟨s1, fun hq => ?_⟩
        obtain ⟨c', k1, k2⟩ := s2 hq
        refine ⟨c', ?_, k2⟩
        rw [blockGo, k1]
        rfl
      | false =>
        rw [if_neg (by decide)] at e
        have hk : K o1 o' := blockGo_grows S.safe ld dd n r1 o1 r' o' (fun r o a r1 o1 h => step_grows S.safe h) e
        refine ⟨S.safe.trans s1 hk, fun hq => ?_⟩
        obtain ⟨c1, k1, k2⟩ := s2 (S.back hk hq)
        obtain ⟨c', k3, k4⟩ := (blockGo_follows S ld dd n r1 k2 r' o' e).2 hq
        refine ⟨c', ?_, k4⟩
        rw [blockGo, k1]
        exact k3
where
  /-- a step alone -/
  step_grows {r : Reader} {o : σ} {a : Bool} {r1 : Reader} {o1 : σ} {ld dd : Decoder} (S : SafeOut K) (h : blockStep ld dd r o = .ok (a, r1, o1)) : K o o1 := by
    have id_sim : Sim K (fun _ : σ => True) (fun a b : σ => a = b) True :=
      ⟨S, fun _ _ => trivial, fun h => by rw [h], fun h => by rw [h], fun h e _ => ⟨_, h ▸ e, rfl⟩, fun h e _ => ⟨_, h ▸ e, rfl⟩, .inl trivial⟩
    exact (blockStep_follows id_sim rfl ld dd r _ _ _ h).1

theorem decodeCompressedBlock_follows (S : Sim K Q R C) (ld dd : Decoder) (r : Reader) {o : σ} {c : τ} (h : R o c) :
    Follows K Q R o (decodeCompressedBlock ld dd r o) (decodeCompressedBlock ld dd r c) :=
  blockGo_follows S ld dd _ r h

theorem decodeDynamicBlock_follows (S : Sim K Q R C) (r : Reader) {o : σ} {c : τ} (h : R o c) :
    Follows K Q R o (decodeDynamicBlock r o) (decodeDynamicBlock r c) := by
  unfold decodeDynamicBlock
  cases readDynamic r with
  | error _ => intro a o' e; cases e
  | ok p => exact decodeCompressedBlock_follows S _ _ _ h

theorem decodeFixed_follows (S : Sim K Q R C) (r : Reader) {o : σ} {c : τ} (h : R o c) :
    Follows K Q R o (decodeFixed r o) (decodeFixed r c) := by
  unfold decodeFixed
  generalize makeDecoder 288 15 fixedLiteralLengths false true = x
  generalize makeDecoder 32 15 fixedDistanceLengths false true = y
  cases x with
  | error _ => intro a o' e; cases e
  | ok ld =>
    cases y with
    | error _ => intro a o' e; cases e
    | ok dd => exact decodeCompressedBlock_follows S _ _ _ h

theorem storedBytes_follows (S : Sim K Q R C) : ∀ (n : Nat) (r : Reader) {o : σ} {c : τ}, R o c → Follows K Q R o (storedBytes n r o) (storedBytes n r c)
  | 0, r, o, c, h => by
    intro a o' e
    rw [storedBytes] at e
    injection e with e
    injection e with e1 e2
    subst e1; subst e2
    exact ⟨S.safe.refl _, fun _ => ⟨c, rfl, h⟩⟩
  | n + 1, r, o, c, h => by
    intro a o' e
    rw [storedBytes] at e ⊢
    cases h1 : r.readBits 8 with
    | error _ => rw [h1] at e; cases e
    | ok p =>
      rw [h1] at e
      dsimp only at e ⊢
      cases h2 : Output.append o (BitVec.ofNat 8 p.1) with
      | error _ => rw [h2] at e; cases e
      | ok o1 =>
        rw [h2] at e
        dsimp only at e
        have k1 : K o o1 := (S.safe.append _ _).ok_of h2
        have k2 : K o1 o' := stored_grows S.safe n _ _ _ _ e
        refine ⟨S.safe.trans k1 k2, fun hq => ?_⟩
        obtain ⟨c1, m1, m2⟩ := S.append h h2 (S.back k2 hq)
        rw [m1]
        exact (storedBytes_follows S n p.2 m2 a o' e).2 hq
where
  /-- the bytes of a stored block alone -/
  stored_grows (S : SafeOut K) : ∀ (n : Nat) (r : Reader) (o : σ) (r' : Reader) (o' : σ), storedBytes n r o = .ok (r', o') → K o o'
    | 0, r, o, r', o', e => by
      rw [storedBytes] at e
      injection e with e
      injection e with e1 e2
      subst e2
      exact S.refl _
    | n + 1, r, o, r', o', e => by
      rw [storedBytes] at e
      cases h1 : r.readBits 8 with
      | error _ => rw [h1] at e; cases e
      | ok p =>
        rw [h1] at e
        dsimp only at e
        cases h2 : Output.append o (BitVec.ofNat 8 p.1) with
        | error _ => rw [h2] at e; cases e
        | ok o1 =>
          rw [h2] at e
          exact S.trans ((S.append _ _).ok_of h2) (stored_grows S n _ _ _ _ e)

theorem decodeStored_follows (S : Sim K Q R C) (r : Reader) {o : σ} {c : τ} (h : R o c) :
    Follows K Q R o (decodeStored r o) (decodeStored r c) := by
  unfold decodeStored
  cases r.alignByte.readBits 16 with
  | error _ => intro a o' e; cases e
  | ok p =>
    dsimp only
    cases p.2.readBits 16 with
    | error _ => intro a o' e; cases e
    | ok q =>
      dsimp only
      by_cases hne : 65535 - p.1 ≠ q.1
      · rw [if_pos hne]; intro a o' e; cases e
      · rw [if_neg hne, if_neg hne]; exact storedBytes_follows S _ _ h

theorem decodeBlock_follows (S : Sim K Q R C) (r : Reader) {o : σ} {c : τ} (h : R o c) :
    Follows3 K Q R o (decodeBlock r o) (decodeBlock r c) := by
  unfold decodeBlock
  cases r.readBits 1 with
  | error _ => intro a r' o' e; cases e
  | ok p =>
    dsimp only
    cases p.2.readBits 2 with
    | error _ => intro a r' o' e; cases e
    | ok q =>
      dsimp only
      have hf : Follows K Q R o (if q.1 = 0 then decodeStored q.2 o else if q.1 = 1 then decodeFixed q.2 o
          else if q.1 = 2 then decodeDynamicBlock q.2 o else .error (.err .invalidBlockType))
          (if q.1 = 0 then decodeStored q.2 c else if q.1 = 1 then decodeFixed q.2 c
          else if q.1 = 2 then decodeDynamicBlock q.2 c else .error (.err .invalidBlockType)) := by
        by_cases k0 : q.1 = 0
        · rw [if_pos k0, if_pos k0]; exact decodeStored_follows S _ h
        · rw [if_neg k0, if_neg k0]
          by_cases k1 : q.1 = 1
          · rw [if_pos k1, if_pos k1]; exact decodeFixed_follows S _ h
          · rw [if_neg k1, if_neg k1]
            by_cases k2 : q.1 = 2
            · rw [if_pos k2, if_pos k2]; exact decodeDynamicBlock_follows S _ h
            · rw [if_neg k2, if_neg k2]; intro a o' e; cases e
      generalize (if q.1 = 0 then decodeStored q.2 o else if q.1 = 1 then decodeFixed q.2 o
          else if q.1 = 2 then decodeDynamicBlock q.2 o else .error (.err .invalidBlockType)) = x at hf
      generalize (if q.1 = 0 then decodeStored q.2 c else if q.1 = 1 then decodeFixed q.2 c
          else if q.1 = 2 then decodeDynamicBlock q.2 c else .error (.err .invalidBlockType)) = y at hf
      intro a r' o' e
      cases x with
      | error _ => cases e
      | ok x =>
        injection e with e
        injection e with e1 e2
        injection e2 with e2 e3
        subst e1; subst e2; subst e3
        have ⟨k1, k2⟩ := hf _ _ rfl
        refine ⟨k1, fun hq => ?_⟩
        obtain ⟨c', m1, m2⟩ := k2 hq
        exact ⟨c', by rw [m1], m2⟩

theorem blocksGo_follows (S : Sim K Q R C) : ∀ (n : Nat) (r : Reader) {o : σ} {c : τ}, R o c → Follows K Q R o (blocksGo n r o) (blocksGo n r c)
  | 0, r, o, c, h => by intro a o' e; rw [blocksGo] at e; cases e
  | n + 1, r, o, c, h => by
    intro r' o' e
    rw [blocksGo] at e
    cases h1 : decodeBlock r o with
    | error _ => rw [h1] at e; cases e
    | ok p =>
      obtain ⟨a, r1, o1⟩ := p
      have ⟨s1, s2⟩ := decodeBlock_follows S r h _ _ _ h1
      rw [h1] at e
      dsimp only at e
      cases a with
      | true =>
        rw [if_pos rfl] at e
        injection e with e
        injection e with e1 e2
        subst e1; subst e2
        refine ⟨s1, fun hq => ?_⟩
        obtain ⟨c', k1, k2⟩ := s2 hq
        refine ⟨c', ?_, k2⟩
        rw [blocksGo, k1]
        rfl
      | false =>
        rw [if_neg (by decide)] at e
        have hk : K o1 o' := blocks_grows S.safe n r1 o1 r' o' e
        refine ⟨S.safe.trans s1 hk, fun hq => ?_⟩
        obtain ⟨c1, k1, k2⟩ := s2 (S.back hk hq)
        obtain ⟨c', k3, k4⟩ := (blocksGo_follows S n r1 k2 r' o' e).2 hq
        refine ⟨c', ?_, k4⟩
        rw [blocksGo, k1]
        exact k3
where
  /-- the blocks alone -/
  blocks_grows (S : SafeOut K) : ∀ (n : Nat) (r : Reader) (o : σ) (r' : Reader) (o' : σ), blocksGo n r o = .ok (r', o') → K o o'
    | 0, r, o, r', o', e => by rw [blocksGo] at e; cases e
    | n + 1, r, o, r', o', e => by
      have id_sim : Sim K (fun _ : σ => True) (fun a b : σ => a = b) True :=
        ⟨S, fun _ _ => trivial, fun h => by rw [h], fun h => by rw [h], fun h e _ => ⟨_, h ▸ e, rfl⟩, fun h e _ => ⟨_, h ▸ e, rfl⟩, .inl trivial⟩
      rw [blocksGo] at e
      cases h1 : decodeBlock r o with
      | error _ => rw [h1] at e; cases e
      | ok p =>
        obtain ⟨a, r1, o1⟩ := p
        have s1 := (decodeBlock_follows id_sim r rfl _ _ _ h1).1
        rw [h1] at e
        dsimp only at e
        cases a with
        | true =>
          rw [if_pos rfl] at e
          injection e with e
          injection e with e1 e2
          subst e2
          exact s1
        | false =>
          rw [if_neg (by decide)] at e
          exact S.trans s1 (blocks_grows S n r1 o1 r' o' e)

theorem decodeDeflate_follows (S : Sim K Q R C) (input : List Byte) {o : σ} {c : τ} (h : R o c) :
    Follows K Q R o (decodeDeflate input o) (decodeDeflate input c) := by
  intro a o' e
  unfold decodeDeflate at e ⊢
  have hf := blocksGo_follows S ((Reader.new input).left + 1) (Reader.new input) (S.reset h)
  cases h1 : blocksGo ((Reader.new input).left + 1) (Reader.new input) (Output.resetHistory o) with
  | error _ => rw [h1] at e; cases e
  | ok p =>
    rw [h1] at e
    injection e with e
    injection e with e1 e2
    subst e1; subst e2
    have ⟨k1, k2⟩ := hf _ _ h1
    refine ⟨S.safe.trans (S.safe.reset o) k1, fun hq => ?_⟩
    obtain ⟨c', m1, m2⟩ := k2 hq
    exact ⟨c', by rw [m1], m2⟩

/-! ## containers -/

/-- like `Follows`, except that the second one may find a wrong checksum -/
def FollowsC (K : σ → σ → Prop) (Q : σ → Prop) (R : σ → τ → Prop) (C : Prop) {α : Type} (o : σ) (x : Res (α × σ)) (y : Res (α × τ)) : Prop :=
  ∀ a o', x = .ok (a, o') → K o o' ∧ (Q o' → (∃ c', y = .ok (a, c') ∧ R o' c') ∨ C ∧ y = .error (.err .checksumMismatch))

theorem decodeRaw_follows (S : Sim K Q R C) (input : List Byte) {o : σ} {c : τ} (h : R o c) :
    FollowsC K Q R C o (decodeRaw input o) (decodeRaw input c) := by
  intro a o' e
  have hf := decodeDeflate_follows S input h
  unfold decodeRaw at e ⊢
  cases h1 : decodeDeflate input o with
  | error _ => rw [h1] at e; cases e
  | ok p =>
    have ⟨k1, k2⟩ := hf _ _ h1
    rw [h1] at e
    dsimp only at e
    by_cases h2 : p.1 ≠ input.length
    · rw [if_pos h2] at e; cases e
    · rw [if_neg h2] at e
      injection e with e
      injection e with e1 e2
      subst e1; subst e2
      refine ⟨k1, fun hq => .inl ?_⟩
      obtain ⟨c', m1, m2⟩ := k2 hq
      refine ⟨c', ?_, m2⟩
      rw [m1]
      dsimp only
      rw [if_neg h2, S.size m2]

theorem decodeZlib_follows (S : Sim K Q R C) (input : List Byte) {o : σ} {c : τ} (h : R o c) :
    FollowsC K Q R C o (decodeZlib input o) (decodeZlib input c) := by
  intro a o' e
  match input with
  | [] => cases e
  | [_] => cases e
  | cmf :: flg :: body =>
    have hf := decodeDeflate_follows S body h
    simp only [decodeZlib] at e ⊢
    by_cases h0 : cmf.toNat &&& 0x0f ≠ 8 ∨ 7 < cmf.toNat >>> 4 ∨ ((cmf.toNat <<< 8) + flg.toNat) % 31 ≠ 0
    · rw [if_pos h0] at e; cases e
    · rw [if_neg h0] at e ⊢
      by_cases h1 : flg.toNat &&& 0x20 ≠ 0
      · rw [if_pos h1] at e
        by_cases h2 : (cmf :: flg :: body).length < 6
        · rw [if_pos h2] at e; cases e
        · rw [if_neg h2] at e; cases e
      · rw [if_neg h1] at e ⊢
        cases h3 : decodeDeflate body o with
        | error _ => rw [h3] at e; cases e
        | ok p =>
          have ⟨k1, k2⟩ := hf _ _ h3
          rw [h3] at e
          dsimp only at e
          by_cases h4 : (cmf :: flg :: body).length < 2 + p.1 + 4
          · rw [if_pos h4] at e; cases e
          · rw [if_neg h4] at e
            by_cases h5 : (cmf :: flg :: body).length ≠ 2 + p.1 + 4
            · rw [if_pos h5] at e; cases e
            · rw [if_neg h5] at e
              cases h6 : readBig32 (cmf :: flg :: body) (2 + p.1) with
              | error _ => rw [h6] at e; cases e
              | ok sum =>
                rw [h6] at e
                dsimp only at e
                by_cases h7 : (Output.range p.2 (Output.size o)).any (fun bs => decide (adler32 bs ≠ sum)) = true
                · rw [if_pos h7] at e; cases e
                · rw [if_neg h7] at e
                  injection e with e
                  injection e with e1 e2
                  subst e1; subst e2
                  refine ⟨k1, fun hq => ?_⟩
                  obtain ⟨c', m1, m2⟩ := k2 hq
                  rw [m1]
                  dsimp only
                  rw [if_neg h4, if_neg h5, h6]
                  dsimp only
                  by_cases h8 : (Output.range c' (Output.size c)).any (fun bs => decide (adler32 bs ≠ sum)) = true
                  · rw [if_pos h8]
                    rcases S.range with hc | hc
                    · exact .inr ⟨hc, rfl⟩
                    · rw [hc] at h8; cases h8
                  · rw [if_neg h8, S.size m2]
                    exact .inl ⟨c', rfl, m2⟩

theorem gzipMember_follows (S : Sim K Q R C) (W : Nat) (input : List Byte) (start : Nat) {o : σ} {c : τ} (h : R o c) :
    FollowsC K Q R C o (gzipMember W input start o) (gzipMember W input start c) := by
  intro a o' e
  unfold gzipMember at e ⊢
  cases h0 : gzipMemberHeader W input start with
  | error _ => rw [h0] at e; cases e
  | ok p =>
    rw [h0] at e
    dsimp only at e ⊢
    have hf := decodeDeflate_follows S (input.drop p) h
    cases h1 : decodeDeflate (input.drop p) o with
    | error _ => rw [h1] at e; cases e
    | ok q =>
      have ⟨k1, k2⟩ := hf _ _ h1
      rw [h1] at e
      dsimp only at e
      by_cases h2 : input.length - (p + q.1) < 8
      · rw [if_pos h2] at e; cases e
      · rw [if_neg h2] at e
        cases h3 : readLittle 4 input (p + q.1) with
        | error _ => rw [h3] at e; cases e
        | ok crc =>
          rw [h3] at e
          dsimp only at e
          by_cases h4 : (Output.range q.2 (Output.size o)).any (fun bs => decide (computeCrc32 W bs ≠ crc)) = true
          · rw [if_pos h4] at e; cases e
          · rw [if_neg h4] at e
            cases h5 : readLittle 4 input (p + q.1 + 4) with
            | error _ => rw [h5] at e; cases e
            | ok size =>
              rw [h5] at e
              dsimp only at e
              by_cases h6 : (Output.size q.2 - Output.size o) % 2 ^ 32 ≠ size
              · rw [if_pos h6] at e; cases e
              · rw [if_neg h6] at e
                injection e with e
                injection e with e1 e2
                subst e1; subst e2
                refine ⟨k1, fun hq => ?_⟩
                obtain ⟨c', m1, m2⟩ := k2 hq
                rw [m1]
                dsimp only
                rw [if_neg h2, h3]
                dsimp only
                by_cases h8 : (Output.range c' (Output.size c)).any (fun bs => decide (computeCrc32 W bs ≠ crc)) = true
                · rw [if_pos h8]
                  rcases S.range with hc | hc
                  · exact .inr ⟨hc, rfl⟩
                  · rw [hc] at h8; cases h8
                · rw [if_neg h8, h5]
                  dsimp only
                  rw [← S.size m2, ← S.size h, if_neg h6]
                  exact .inl ⟨c', rfl, m2⟩

theorem gzipGo_follows (S : Sim K Q R C) (W : Nat) (input : List Byte) : ∀ (n pos : Nat) {o : σ} {c : τ}, R o c →
    FollowsC K Q R C o (gzipGo W input n pos o) (gzipGo W input n pos c)
  | 0, pos, o, c, h => by intro a o' e; rw [gzipGo] at e; cases e
  | n + 1, pos, o, c, h => by
    intro a o' e
    rw [gzipGo] at e ⊢
    by_cases hlt : pos < input.length
    · rw [if_pos hlt] at e ⊢
      cases h1 : gzipMember W input pos o with
      | error _ => rw [h1] at e; cases e
      | ok p =>
        have ⟨k1, k2⟩ := gzipMember_follows S W input pos h _ _ h1
        rw [h1] at e
        dsimp only at e
        have hk : K p.2 o' := gzip_grows S.safe W input n _ _ _ _ e
        refine ⟨S.safe.trans k1 hk, fun hq => ?_⟩
        rcases k2 (S.back hk hq) with ⟨c1, m1, m2⟩ | ⟨hc, m⟩
        · rw [m1]
          exact (gzipGo_follows S W input n p.1 m2 a o' e).2 hq
        · rw [m]; exact .inr ⟨hc, rfl⟩
    · rw [if_neg hlt] at e ⊢
      injection e with e
      injection e with e1 e2
      subst e1; subst e2
      exact ⟨S.safe.refl _, fun _ => .inl ⟨c, by rw [S.size h], h⟩⟩
where
  /-- the members alone -/
  gzip_grows (S : SafeOut K) (W : Nat) (input : List Byte) : ∀ (n pos : Nat) (o : σ) (a : Nat) (o' : σ), gzipGo W input n pos o = .ok (a, o') → K o o'
    | 0, pos, o, a, o', e => by rw [gzipGo] at e; cases e
    | n + 1, pos, o, a, o', e => by
      rw [gzipGo] at e
      by_cases hlt : pos < input.length
      · rw [if_pos hlt] at e
        cases h1 : gzipMember W input pos o with
        | error _ => rw [h1] at e; cases e
        | ok p =>
          rw [h1] at e
          exact S.trans ((gzipMember_safe S W input pos o).ok_of h1).2.2 (gzip_grows S W input n _ _ _ _ e)
      · rw [if_neg hlt] at e
        injection e with e
        injection e with e1 e2
        subst e2
        exact S.refl _

theorem decompressInto_follows (S : Sim K Q R C) (W : Nat) (input : List Byte) (format : Format) {o : σ} {c : τ} (h : R o c) :
    FollowsC K Q R C o (decompressInto W input o format) (decompressInto W input c format) := by
  cases format with
  | rawDeflate => exact decodeRaw_follows S input h
  | zlib => exact decodeZlib_follows S input h
  | gzip =>
    show FollowsC K Q R C o (decodeGzip W input o) (decodeGzip W input c)
    rw [decodeGzip, decodeGzip]
    by_cases h0 : input = []
    · rw [if_pos h0, if_pos h0]; intro a o' e; cases e
    · rw [if_neg h0, if_neg h0]; exact gzipGo_follows S W input _ 0 h

/-! ## the two outputs -/

/-- buffer and counter agree -/
structure Agree (o : Span) (c : Counting) : Prop where
  size : o.data.length = c.count
  history : o.historyBegin = c.historyBegin
  begin_le : o.historyBegin ≤ o.data.length
  fits : o.data.length ≤ o.capacity
  limit : c.count ≤ c.limit
  small : c.limit < 2 ^ 64

/-- the counter succeeds whenever a buffer not larger than its limit does -/
theorem span_counting : Sim Span.Grows (fun _ => True) (fun (o : Span) (c : Counting) => Agree o c ∧ o.capacity ≤ c.limit) False where
  safe := span_safe
  back _ _ := trivial
  size h := h.1.size
  reset h := ⟨⟨h.1.1, h.1.1, Nat.le_refl _, h.1.4, h.1.5, h.1.6⟩, h.2⟩
  append {o c b o'} h e _ := by
    have hg := (span_safe.append o b).ok_of e
    have a1 : o'.data.length = o.data.length + 1 ∧ o'.historyBegin = o.historyBegin := by
      have e' : Span.append o b = .ok o' := e
      unfold Span.append at e'
      by_cases hc : o.data.length = o.capacity
      · rw [if_pos hc] at e'; cases e'
      · rw [if_neg hc] at e'
        injection e' with e'
        subst e'
        exact ⟨by simp, rfl⟩
    have hfit := hg.fits h.1.fits
    have hcap := hg.capacity
    have := h.1.size; have := h.1.history; have := h.1.begin_le; have := h.1.small; have := h.2
    refine ⟨{ c with count := c.count + 1 }, ?_, ⟨⟨?_, ?_, ?_, hfit, ?_, h.1.small⟩, ?_⟩⟩
    · show c.grow 1 = _
      rw [Counting.grow, if_neg (by omega), if_neg (by omega)]
    · show o'.data.length = c.count + 1; omega
    · show o'.historyBegin = c.historyBegin; omega
    · omega
    · show c.count + 1 ≤ c.limit; omega
    · show o'.capacity ≤ c.limit; omega
  copy {o c d l o'} h e _ := by
    have hg := (span_safe.copy o d l).ok_of e
    have := h.1.size; have := h.1.history; have := h.1.begin_le; have := h.1.small; have := h.2
    have e' : Span.copy o d l = .ok o' := e
    unfold Span.copy at e'
    by_cases h1 : d = 0 ∨ o.data.length - o.historyBegin < d
    · rw [if_pos h1] at e'; cases e'
    · rw [if_neg h1] at e'
      by_cases h2 : o.capacity - o.data.length < l
      · rw [if_pos h2] at e'; cases e'
      · rw [if_neg h2] at e'
        have hs := copyGo_safe l d o.data (by omega) (by omega)
        cases h3 : copyGo l d o.data with
        | error _ => rw [h3] at e'; cases e'
        | ok data =>
          have hs' := hs.ok_of h3
          rw [h3] at e'
          injection e' with e'
          subst e'
          have hfit := hg.fits h.1.fits
          dsimp only at hfit
          refine ⟨{ c with count := c.count + l }, ?_, ⟨⟨?_, h.1.history, ?_, hfit, ?_, h.1.small⟩, h.2⟩⟩
          · show (if d = 0 ∨ c.count - c.historyBegin < d then .error (.err .invalidBackReference) else c.grow l) = _
            rw [if_neg (by omega), Counting.grow, if_neg (by omega), if_neg (by omega)]
          · show data.length = c.count + l; omega
          · show o.historyBegin ≤ data.length; omega
          · show c.count + l ≤ c.limit; omega
  range := .inr fun _ _ => rfl

/-- a buffer succeeds whenever the counter does and the bytes fit, apart from checksums -/
theorem counting_span (cap : Nat) : Sim Counting.Grows (fun c => c.count ≤ cap)
    (fun (c : Counting) (o : Span) => o.data.length = c.count ∧ o.historyBegin = c.historyBegin ∧ o.historyBegin ≤ o.data.length ∧ o.capacity = cap) True where
  safe := counting_safe
  back h1 h2 := Nat.le_trans h1.kept h2
  size h := h.1.symm
  reset h := ⟨h.1, h.1, Nat.le_refl _, h.2.2.2⟩
  append {c o b c'} h e hq := by
    obtain ⟨a1, a2, a3, a4⟩ := h
    have e' : c.grow 1 = .ok c' := e
    unfold Counting.grow at e'
    by_cases h1 : 2 ^ 64 - 1 - c.count < 1
    · rw [if_pos h1] at e'; cases e'
    · rw [if_neg h1] at e'
      by_cases h2 : c.limit < c.count + 1
      · rw [if_pos h2] at e'; cases e'
      · rw [if_neg h2] at e'
        injection e' with e'
        subst e'
        dsimp only at hq
        refine ⟨{ o with data := o.data ++ [b] }, ?_, ?_, a2, ?_, a4⟩
        · show Span.append o b = _
          rw [Span.append, if_neg (by omega)]
        · show (o.data ++ [b]).length = c.count + 1
          simp; omega
        · show o.historyBegin ≤ (o.data ++ [b]).length
          simp; omega
  copy {c o d l c'} h e hq := by
    obtain ⟨a1, a2, a3, a4⟩ := h
    have e' : (if d = 0 ∨ c.count - c.historyBegin < d then .error (.err .invalidBackReference) else c.grow l) = .ok c' := e
    by_cases h0 : d = 0 ∨ c.count - c.historyBegin < d
    · rw [if_pos h0] at e'; cases e'
    · rw [if_neg h0] at e'
      unfold Counting.grow at e'
      by_cases h1 : 2 ^ 64 - 1 - c.count < l
      · rw [if_pos h1] at e'; cases e'
      · rw [if_neg h1] at e'
        by_cases h2 : c.limit < c.count + l
        · rw [if_pos h2] at e'; cases e'
        · rw [if_neg h2] at e'
          injection e' with e'
          subst e'
          dsimp only at hq
          have hs := copyGo_safe l d o.data (by omega) (by omega)
          have hok : ∃ data, copyGo l d o.data = .ok data ∧ data.length = o.data.length + l := copyGo_ok l d o.data (by omega) (by omega)
          obtain ⟨data, g1, g2⟩ := hok
          refine ⟨{ o with data := data }, ?_, ?_, a2, ?_, a4⟩
          · show Span.copy o d l = _
            rw [Span.copy, if_neg (by omega), if_neg (by omega), g1]
          · show data.length = c.count + l; omega
          · show o.historyBegin ≤ data.length; omega
  range := .inl trivial
where
  /-- the copy loop never fails -/
  copyGo_ok : ∀ (n d : Nat) (data : List Byte), 1 ≤ d → d ≤ data.length → ∃ data', copyGo n d data = .ok data' ∧ data'.length = data.length + n
    | 0, _, data, _, _ => ⟨data, rfl, rfl⟩
    | n + 1, d, data, h1, h2 => by
      rw [copyGo, if_pos h2, List.getElem?_eq_getElem (show data.length - d < data.length by omega)]
      dsimp only
      obtain ⟨data', a, b⟩ := copyGo_ok n d (data ++ [data[data.length - d]]) h1 (by simp; omega)
      exact ⟨data', a, by rw [b]; simp; omega⟩

end Verif.Deflate
