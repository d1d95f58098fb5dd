import Verif.Deflate.StreamReader
import Verif.Deflate.AdlerProps
import Verif.Crc.Props
/-! # Streaming decoder: the circular history against the whole output -/
namespace Verif.Deflate
open Verif.Bytes (Byte)

/-- the running checksums cover everything but the part of the target after `checksumPos` -/
structure Sums (so : StreamOut) (o : Span) (old : List Byte) : Prop where
  pos : so.checksumPos ≤ so.out.length
  data : o.data = old ++ so.out.drop so.checksumPos
  hb : o.historyBegin ≤ old.length
  crc : so.crcState = Crc.updateScalar Crc.ieee 0xffffffff#32 (old.drop o.historyBegin)
  adler : so.adler = updateAdler (1, 0) old
  size : so.memberSize = (old.length - o.historyBegin) % 2 ^ 32

/-- the streaming output holds what the output `o` of the one-shot decoder ends with; `prev` was handed out by earlier calls -/
structure OutRel (so : StreamOut) (o : Span) (prev : List Byte) : Prop where
  data : o.data = prev ++ so.out
  total : so.total = o.data.length
  limit : so.limit = o.capacity
  le : o.data.length ≤ o.capacity
  room : so.out.length ≤ so.room
  hb : o.historyBegin ≤ o.data.length
  size : so.historySize = min (o.data.length - o.historyBegin) kWindowSize
  pos : so.historyPos < kWindowSize
  ring : ∀ k, 1 ≤ k → k ≤ so.historySize → o.data[o.data.length - k]? = some (so.history ((so.historyPos + kWindowSize - k) % kWindowSize))
  sums : ∃ old, Sums so o old

theorem and_mask (x : Nat) : x &&& (kWindowSize - 1) = x % kWindowSize := by
  rw [show kWindowSize - 1 = 2 ^ 15 - 1 from rfl, Nat.and_two_pow_sub_one_eq_mod]; rfl

theorem ring_last {p : Nat} (h : p < kWindowSize) : ((p + 1) % kWindowSize + kWindowSize - 1) % kWindowSize = p := by
  rw [show kWindowSize = 32768 from rfl] at *; omega

theorem ring_other {p k : Nat} (h : p < kWindowSize) (h1 : 1 < k) (h2 : k ≤ kWindowSize) :
    ((p + 1) % kWindowSize + kWindowSize - k) % kWindowSize ≠ p ∧
    ((p + 1) % kWindowSize + kWindowSize - k) % kWindowSize = (p + kWindowSize - (k - 1)) % kWindowSize := by
  rw [show kWindowSize = 32768 from rfl] at *; omega

variable {so so' : StreamOut} {o o' o1 o2 : Span} {prev : List Byte}

theorem OutRel.not_full (h : OutRel so o prev) (hf : so.full = false) : so.out.length < so.room := by
  have := h.room
  simp only [StreamOut.full, decide_eq_false_iff_not] at hf
  omega

/-- `append` of both -/
theorem OutRel.append (h : OutRel so o prev) (hf : so.full = false) (b : Byte) :
    (so.append b = .error .sizeLimitExceeded ∧ o.append b = .error (.err .outputTooSmall)) ∨
    (∃ so', so.append b = .ok (some so') ∧ o.append b = .ok { o with data := o.data ++ [b] } ∧ OutRel so' { o with data := o.data ++ [b] } prev ∧
      so'.room = so.room ∧ so'.out = so.out ++ [b]) := by
  have hroom := h.not_full hf
  rw [StreamOut.append, if_neg (by rw [hf]; decide), Span.append, h.total, h.limit]
  by_cases hl : o.data.length = o.capacity
  · rw [if_pos hl, if_pos hl]; exact .inl ⟨rfl, rfl⟩
  · rw [if_neg hl, if_neg hl]
    refine .inr ⟨_, rfl, rfl, ?_, rfl, rfl⟩
    have hk : kWindowSize = 32768 := rfl
    have hle := h.le
    have hpos := h.pos
    have hhb := h.hb
    refine ⟨?_, ?_, rfl, ?_, ?_, ?_, ?_, ?_, ?_, ?_⟩
    · show o.data ++ [b] = prev ++ (so.out ++ [b])
      rw [h.data, List.append_assoc]
    · show o.data.length + 1 = (o.data ++ [b]).length; simp
    · show (o.data ++ [b]).length ≤ o.capacity; simp; omega
    · show (so.out ++ [b]).length ≤ so.room; simp; omega
    · show o.historyBegin ≤ (o.data ++ [b]).length; simp; omega
    · show min (so.historySize + 1) kWindowSize = min ((o.data ++ [b]).length - o.historyBegin) kWindowSize
      rw [h.size]; simp only [List.length_append, List.length_singleton]; omega
    · show (so.historyPos + 1) &&& (kWindowSize - 1) < kWindowSize
      rw [and_mask]; exact Nat.mod_lt _ (by decide)
    · intro k h1 h2
      replace h2 : k ≤ min (so.historySize + 1) kWindowSize := h2
      show (o.data ++ [b])[(o.data ++ [b]).length - k]? =
        some (StreamOut.append.upd so.history so.historyPos b ((((so.historyPos + 1) &&& (kWindowSize - 1)) + kWindowSize - k) % kWindowSize))
      rw [and_mask, List.length_append, List.length_singleton, StreamOut.append.upd]
      have hsz := h.size
      by_cases hk1 : k = 1
      · subst hk1
        rw [if_pos (ring_last hpos), Nat.add_sub_cancel, List.getElem?_append_right (Nat.le_refl _), Nat.sub_self]; rfl
      · rw [if_neg (ring_other hpos (by omega) (by omega)).1, show o.data.length + 1 - k = o.data.length - (k - 1) by omega, List.getElem?_append_left (by omega),
          h.ring (k - 1) (by omega) (by omega)]
        rw [(ring_other hpos (by omega) (by omega)).2]
    · obtain ⟨old, hs⟩ := h.sums
      have hp := hs.pos
      refine ⟨old, ?_, ?_, hs.hb, hs.crc, hs.adler, hs.size⟩
      · show so.checksumPos ≤ (so.out ++ [b]).length; simp; omega
      · show o.data ++ [b] = old ++ (so.out ++ [b]).drop so.checksumPos
        rw [List.drop_append_of_le_length hp, ← List.append_assoc, ← hs.data]

theorem Span.copy_zero (hd : ¬ (d = 0 ∨ o.data.length - o.historyBegin < d)) : o.copy d 0 = .ok o := by
  rw [Span.copy, if_neg hd, if_neg (by omega)]; rfl

/-- a copy byte by byte -/
theorem Span.copy_succ {d n : Nat} (hle : o.data.length ≤ o.capacity) (hd : ¬ (d = 0 ∨ o.data.length - o.historyBegin < d)) {b : Byte}
    (hb : o.data[o.data.length - d]? = some b) : o.copy d (n + 1) = .ok o2 ↔
      ∃ o1, o.append b = .ok o1 ∧ o1.copy d n = .ok o2 := by
  rw [Span.copy, if_neg hd]
  by_cases hl : o.data.length = o.capacity
  · rw [if_pos (by omega), Span.append, if_pos hl]
    exact ⟨nofun, fun ⟨_, h, _⟩ => nomatch h⟩
  · have ha : o.append b = .ok { o with data := o.data ++ [b] } := by rw [Span.append, if_neg hl]
    rw [ha]
    have hd2 : ¬ (d = 0 ∨ ({ o with data := o.data ++ [b] } : Span).data.length - o.historyBegin < d) := by
      simp only [List.length_append, List.length_singleton]; omega
    have he : (∃ o1, (.ok { o with data := o.data ++ [b] } : Res Span) = .ok o1 ∧ o1.copy d n = .ok o2) ↔
        ({ o with data := o.data ++ [b] } : Span).copy d n = .ok o2 :=
      ⟨fun ⟨o1, h1, h2⟩ => by obtain rfl := Except.ok.inj h1; exact h2, fun h => ⟨_, rfl, h⟩⟩
    rw [he, Span.copy, if_neg hd2]
    have hcap : o.capacity - (o.data ++ [b]).length = o.capacity - o.data.length - 1 := by simp; omega
    by_cases hc : o.capacity - o.data.length < n + 1
    · rw [if_pos hc, if_pos (show o.capacity - (o.data ++ [b]).length < n by omega)]
    · rw [if_neg hc, if_neg (show ¬ o.capacity - (o.data ++ [b]).length < n by omega), Deflate.copyGo, if_pos (by omega), hb]

/-- what a streaming copy says about the one-shot one; `n` bytes were asked for -/
inductive CopyOk (so : StreamOut) (o : Span) (prev : List Byte) (d n : Nat) : Except Error Bool × Nat × StreamOut → Prop
  | ok {c m so' o'} : OutRel so' o' prev → so'.room = so.room → o'.historyBegin = o.historyBegin → o'.capacity = o.capacity →
      (d = 0 ∨ o'.data.length - o'.historyBegin < d → False) → so.out.length ≤ so'.out.length →
      (c = true → m = 0 ∧ (n ≠ 0 → so.out.length < so'.out.length)) → (c = false → m ≠ 0 ∧ so'.full = true) →
      (∀ o2, o.copy d n = .ok o2 ↔ o'.copy d m = .ok o2) → CopyOk so o prev d n (.ok c, m, so')
  | error {e m so'} : (∀ o2, o.copy d n ≠ .ok o2) → CopyOk so o prev d n (.error e, m, so')

theorem OutRel.copyGo {d : Nat} (hk : d ≤ kWindowSize) : ∀ (n : Nat) (so : StreamOut) (o : Span), OutRel so o prev →
    ¬ (d = 0 ∨ o.data.length - o.historyBegin < d) → CopyOk so o prev d n (so.copyGo d n)
  | 0, so, o, h, hd => by
    rw [StreamOut.copyGo]
    exact .ok h rfl rfl rfl hd (Nat.le_refl _) (fun _ => ⟨rfl, fun h => absurd rfl h⟩) nofun fun _ => Iff.rfl
  | n + 1, so, o, h, hd => by
    rw [StreamOut.copyGo]
    by_cases hf : so.full = true
    · rw [if_pos hf]
      exact .ok h rfl rfl rfl hd (Nat.le_refl _) nofun (fun _ => ⟨by omega, hf⟩) fun _ => Iff.rfl
    · rw [if_neg hf]
      have hring := h.ring d (by omega) (by have := h.size; omega)
      rw [and_mask]
      generalize so.history ((so.historyPos + kWindowSize - d) % kWindowSize) = b at hring ⊢
      rcases h.append (by simpa using hf) b with ⟨e1, e2⟩ | ⟨so1, e1, e2, h1, h2, h3⟩
      · rw [e1]
        dsimp only
        refine .error fun o2 hc => ?_
        rw [Span.copy_succ h.le hd hring, e2] at hc
        obtain ⟨_, hc, _⟩ := hc
        cases hc
      · rw [e1]
        dsimp only
        have hd1 : ¬ (d = 0 ∨ ({ o with data := o.data ++ [b] } : Span).data.length - o.historyBegin < d) := by
          simp only [List.length_append, List.length_singleton]; omega
        have ih := OutRel.copyGo hk n so1 _ h1 hd1
        generalize so1.copyGo d n = y at ih ⊢
        have hiff : ∀ o2, o.copy d (n + 1) = .ok o2 ↔ ({ o with data := o.data ++ [b] } : Span).copy d n = .ok o2 := by
          intro o2
          rw [Span.copy_succ h.le hd hring, e2]
          exact ⟨fun ⟨o1, h1, h2⟩ => by obtain rfl := Except.ok.inj h1; exact h2, fun h => ⟨_, rfl, h⟩⟩
        have hlen : so1.out.length = so.out.length + 1 := by rw [h3]; simp
        cases ih with
        | ok a1 a2 a3 a4 a5 a6 a7 a8 a9 =>
          exact .ok a1 (a2.trans h2) a3 a4 a5 (by omega) (fun hc => ⟨(a7 hc).1, fun _ => by omega⟩) a8 fun o2 => (hiff o2).trans (a9 o2)
        | error a1 => exact .error fun o2 hc => a1 o2 ((hiff o2).1 hc)

theorem OutRel.copy {d n : Nat} (hk : d ≤ kWindowSize) (h : OutRel so o prev) : CopyOk so o prev d n (so.copy d n) := by
  rw [StreamOut.copy]
  have hs := h.size
  by_cases hd : d = 0 ∨ so.historySize < d
  · rw [if_pos hd]
    refine .error fun o2 hc => ?_
    rw [Span.copy, if_pos (by omega)] at hc
    cases hc
  · rw [if_neg hd]
    exact OutRel.copyGo hk n so o h (by omega)

theorem updateScalar_append (e : Crc.Engine) (hg : e.Good) (c : BitVec e.w) (p q : List Byte) :
    Crc.updateScalar e (Crc.updateScalar e c p) q = Crc.updateScalar e c (p ++ q) := by
  rw [Crc.updateScalar_eq _ hg, Crc.updateScalar_eq _ hg, Crc.updateScalar_eq _ hg, List.foldl_append]

theorem crc_append (c : BitVec 32) (p q : List Byte) :
    Crc.updateScalar Crc.ieee (Crc.updateScalar Crc.ieee c p) q = Crc.updateScalar Crc.ieee c (p ++ q) := updateScalar_append Crc.ieee (Crc.engine_good .ieee) c p q

theorem adler_append (p q : List Byte) : updateAdler (updateAdler (1, 0) p) q = updateAdler (1, 0) (p ++ q) := by
  have h := updateAdler_chunks [p, q]
  have h' := updateAdler_chunks [p ++ q]
  simp only [List.foldl_cons, List.foldl_nil, List.flatten_cons, List.flatten_nil, List.append_nil] at h h'
  rw [h, h']

/-- after `flushChecksums` everything is covered -/
theorem OutRel.flush (h : OutRel so o prev) : OutRel so.flush o prev ∧ Sums so.flush o o.data ∧ so.flush.room = so.room ∧ so.flush.out = so.out ∧
    so.flush.checksumPos = so.flush.out.length := by
  obtain ⟨old, hs⟩ := h.sums
  rw [StreamOut.flush]
  by_cases hc : so.checksumPos = so.out.length
  · rw [if_pos hc]
    have hd : o.data = old := by rw [hs.data, List.drop_of_length_le (by omega), List.append_nil]
    exact ⟨h, hd ▸ hs, rfl, rfl, hc⟩
  · rw [if_neg hc]
    have hsums : ∀ so' : StreamOut, so'.out = so.out → so'.checksumPos = so.out.length →
        so'.crcState = Crc.updateScalar Crc.ieee so.crcState (so.out.drop so.checksumPos) →
        so'.adler = updateAdler so.adler (so.out.drop so.checksumPos) →
        so'.memberSize = (so.memberSize + (so.out.drop so.checksumPos).length) % 2 ^ 32 → Sums so' o o.data := by
      intro so' e1 e2 e3 e4 e5
      refine ⟨by rw [e1, e2]; exact Nat.le_refl _, by rw [e1, e2, List.drop_of_length_le (Nat.le_refl _), List.append_nil], h.hb, ?_, ?_, ?_⟩
      · rw [e3, hs.crc, crc_append, ← List.drop_append_of_le_length hs.hb, ← hs.data]
      · rw [e4, hs.adler, adler_append, ← hs.data]
      · rw [e5, hs.size]
        have := congrArg List.length hs.data
        have := hs.hb
        simp only [List.length_append] at *
        omega
    exact ⟨⟨h.data, h.total, h.limit, h.le, h.room, h.hb, h.size, h.pos, h.ring, ⟨_, hsums _ rfl rfl rfl rfl rfl⟩⟩, hsums _ rfl rfl rfl rfl rfl, rfl, rfl, rfl⟩

theorem OutRel.resetGzipMember (h : OutRel so o prev) : OutRel so.resetGzipMember { o with historyBegin := o.data.length } prev ∧
    so.resetGzipMember.room = so.room ∧ so.resetGzipMember.out = so.out := by
  obtain ⟨h1, h2, h3, h4, h5⟩ := h.flush
  refine ⟨⟨h1.data, h1.total, h1.limit, h1.le, h1.room, Nat.le_refl _, ?_, (show 0 < kWindowSize by decide), ?_, ⟨o.data, h2.pos, h2.data, Nat.le_refl _, ?_, h2.adler, ?_⟩⟩, h3, h4⟩
  · show 0 = min (o.data.length - o.data.length) kWindowSize; omega
  · intro k k1 k2
    replace k2 : k ≤ 0 := k2
    omega
  · show (0xffffffff#32) = _
    rw [List.drop_of_length_le (Nat.le_refl _)]; rfl
  · show 0 = (o.data.length - o.data.length) % 2 ^ 32; omega

/-- `resetHistory` at the very beginning -/
theorem OutRel.resetHistory (h : OutRel so o prev) (he : o.data = []) : OutRel so.resetHistory o prev := by
  refine ⟨h.data, h.total, h.limit, h.le, h.room, h.hb, ?_, (show 0 < kWindowSize by decide), ?_, ?_⟩
  · show 0 = min (o.data.length - o.historyBegin) kWindowSize; rw [he]; simp
  · intro k k1 k2
    replace k2 : k ≤ 0 := k2
    omega
  · obtain ⟨old, hs⟩ := h.sums
    exact ⟨old, hs.pos, hs.data, hs.hb, hs.crc, hs.adler, hs.size⟩

theorem OutRel.fresh (cap : Nat) : OutRel (.fresh cap) ⟨[], cap, 0⟩ [] := by
  refine ⟨rfl, rfl, rfl, by simp, by simp [StreamOut.fresh], by simp, by simp [StreamOut.fresh], by show 0 < kWindowSize; decide, ?_, ⟨[], ?_⟩⟩
  · intro k k1 k2
    replace k2 : k ≤ 0 := k2
    omega
  · exact ⟨by simp [StreamOut.fresh], by simp [StreamOut.fresh], by simp, rfl, by rw [updateAdler]; simp [StreamOut.fresh], by simp [StreamOut.fresh]⟩

/-- between two calls -/
theorem OutRel.nextCall (h : OutRel so o prev) (room : Nat) : OutRel (so.clearTarget.setTarget room) o o.data := by
  obtain ⟨h1, h2, h3, h4, h5⟩ := h.flush
  refine ⟨by simp [StreamOut.setTarget], h1.total, h1.limit, h1.le, by simp [StreamOut.setTarget], h1.hb, h1.size, h1.pos, h1.ring, ⟨o.data, ?_⟩⟩
  exact ⟨by simp [StreamOut.setTarget], by simp [StreamOut.setTarget], h1.hb, h2.crc, h2.adler, h2.size⟩

theorem OutRel.firstCall (h : OutRel so o []) (he : so.out = []) (room : Nat) : OutRel (so.setTarget room) o [] := by
  refine ⟨by rw [h.data, he]; rfl, h.total, h.limit, h.le, by simp [StreamOut.setTarget], h.hb, h.size, h.pos, h.ring, ?_⟩
  obtain ⟨old, hs⟩ := h.sums
  have := hs.data
  rw [he] at this
  exact ⟨old, by simp [StreamOut.setTarget], by simpa [StreamOut.setTarget] using this, hs.hb, hs.crc, hs.adler, hs.size⟩

/-- every output of the one-shot decoder at the begin of a member has a streaming counterpart -/
theorem OutRel.exists (o : Span) (hle : o.data.length ≤ o.capacity) (hb : o.historyBegin = o.data.length) (room : Nat) :
    ∃ so, OutRel so o o.data ∧ so.out = [] ∧ so.room = room := by
  refine ⟨⟨fun _ => 0, room, [], 0, 0, 0, o.data.length, o.capacity, 0xffffffff#32, updateAdler (1, 0) o.data, 0⟩, ?_, rfl, rfl⟩
  refine ⟨by simp, rfl, rfl, hle, by simp, by omega, by show 0 = _; omega, by show 0 < kWindowSize; decide, ?_, ⟨o.data, ?_⟩⟩
  · intro k k1 k2
    replace k2 : k ≤ 0 := k2
    omega
  · exact ⟨by simp, by simp, by omega, by rw [hb, List.drop_of_length_le (Nat.le_refl _)]; rfl, rfl, by rw [hb]; simp⟩

end Verif.Deflate
