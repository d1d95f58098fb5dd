import Verif.Deflate.TokenLemmas
/-! # Lemmas on compressed blocks: decoding the tokens that were emitted restores the bytes -/
namespace Verif.Deflate
open Verif.Bytes (Byte)

/-! ## output -/

theorem copyGo_spec (data X : List Byte) (d : Nat) (hd : 1 ≤ d) : ∀ (n pos : Nat), d ≤ pos → pos + n ≤ data.length →
    (∀ i, i < n → data[pos + i]? = data[pos + i - d]?) → copyGo n d (X ++ data.take pos) = .ok (X ++ data.take (pos + n)) := by
  intro n
  induction n with
  | zero => intro pos _ _ _; rfl
  | succ n ih =>
    intro pos h1 h2 h3
    have hl : (X ++ data.take pos).length = X.length + pos := by simp; omega
    simp only [copyGo, hl]
    rw [if_pos (by omega)]
    have hg : (X ++ data.take pos)[X.length + pos - d]? = data[pos]? := by
      rw [List.getElem?_append_right (by omega), show X.length + pos - d - X.length = pos - d by omega, List.getElem?_take, if_pos (by omega)]
      have := h3 0 (by omega)
      simpa using this.symm
    have hp : pos < data.length := by omega
    rw [hg, List.getElem?_eq_getElem hp]
    dsimp only
    have e : X ++ data.take pos ++ [data[pos]] = X ++ data.take (pos + 1) := by
      rw [List.append_assoc, List.take_succ, List.getElem?_eq_getElem hp]; rfl
    rw [e, ih (pos + 1) (by omega) (by omega) (fun i hi => by
      have := h3 (i + 1) (by omega)
      rw [show pos + 1 + i = pos + (i + 1) by omega]; exact this)]
    rw [show pos + 1 + n = pos + (n + 1) by omega]

/-- an output that holds `X` and the bytes of `data` up to a position -/
structure Span.At (o : Span) (X data : List Byte) (cap hb pos : Nat) : Prop where
  data : o.data = X ++ data.take pos
  capacity : o.capacity = cap
  history : o.historyBegin = hb

theorem span_append {o : Span} {X data : List Byte} {cap hb pos : Nat} (h : o.At X data cap hb pos) (hp : pos < data.length)
    (hc : X.length + data.length ≤ cap) {b : Byte} (hb' : data[pos]? = some b) :
    ∃ o', Output.append o b = .ok o' ∧ o'.At X data cap hb (pos + 1) := by
  have hl : o.data.length = X.length + pos := by rw [h.data]; simp; omega
  refine ⟨⟨o.data ++ [b], o.capacity, o.historyBegin⟩, ?_, ?_, h.capacity, h.history⟩
  · show Span.append o b = _
    simp only [Span.append]
    rw [if_neg (by rw [hl, h.capacity]; omega)]
  · show o.data ++ [b] = _
    rw [h.data, List.append_assoc, List.take_succ, hb']; rfl

theorem span_copy {o : Span} {X data : List Byte} {cap hb pos len dist : Nat} (h : o.At X data cap hb pos) (hr : Repeats data pos len dist)
    (hc : X.length + data.length ≤ cap) (hh : hb ≤ X.length) :
    ∃ o', Output.copy o dist len = .ok o' ∧ o'.At X data cap hb (pos + len) := by
  have h1 := hr.near
  have h2 := hr.history
  have h3 := hr.stop
  have hl : o.data.length = X.length + pos := by rw [h.data]; simp; omega
  refine ⟨⟨X ++ data.take (pos + len), o.capacity, o.historyBegin⟩, ?_, rfl, h.capacity, h.history⟩
  show Span.copy o dist len = _
  simp only [Span.copy]
  rw [if_neg (by rw [hl, h.history]; omega), if_neg (by rw [hl, h.capacity]; omega), h.data, copyGo_spec data X dist h1 len pos h2 h3 hr.same]

/-! ## symbols -/

/-- `enc` gives the bits of the symbols the decoder recognises -/
structure CodeOk (enc : Nat → List Bool) (used : Nat → Prop) (d : Decoder) : Prop where
  pos : ∀ s, used s → 1 ≤ (enc s).length
  decode : ∀ s, used s → ∀ (r : Reader) (total : Nat) (rest : List Bool), r.Ok total → r.bits = enc s ++ rest →
    ∃ r', decodeSymbol r d = .ok (s, r') ∧ r'.bits = rest ∧ r'.Ok total

theorem readExtra_spec {r : Reader} {total base extra v : Nat} {rest : List Bool} (hr : r.Ok total) (hv : v < 2 ^ extra) (hb : r.bits = bitsLE extra v ++ rest) :
    ∃ r', readExtra r base extra = .ok (base + v, r') ∧ r'.bits = rest ∧ r'.Ok total := by
  by_cases h : extra ≠ 0
  · obtain ⟨r', h1, h2, h3⟩ := Reader.readBits_bits hr hv hb
    exact ⟨r', by simp only [readExtra, if_pos h, h1], h2, h3⟩
  · have h0 : extra = 0 := by omega
    subst h0
    have : v = 0 := by simpa using hv
    subst this
    exact ⟨r, by simp [readExtra], by simpa [bitsLE] using hb, hr⟩

theorem decodeMatch_ok {σ : Type} [Output σ] {dd : Decoder} {r rb rc re : Reader} {o o' : σ} {s ds len d : Nat}
    (h1 : readExtra r (kLengthBase.getD (s - 257) 0) (kLengthExtra.getD (s - 257) 0) = .ok (len, rb)) (h2 : decodeSymbol rb dd = .ok (ds, rc))
    (h3 : ¬ 30 ≤ ds) (h4 : readExtra rc (kDistanceBase.getD ds 0) (kDistanceExtra.getD ds 0) = .ok (d, re)) (h5 : Output.copy o d len = .ok o') :
    decodeMatch dd r o s = .ok (re, o') := by
  unfold decodeMatch
  rw [h1]
  dsimp only
  rw [h2]
  dsimp only
  rw [if_neg h3, h4]
  dsimp only
  rw [h5]

/-- the bits of a token -/
def tokenBits (lit dist : Nat → List Bool) (t : Token) : List Bool :=
  if t.distance = 0 then lit t.value
  else lit (encodeLength t.value).symbol ++ bitsLE (encodeLength t.value).extraBits (encodeLength t.value).extraValue ++
    dist (encodeDistance t.distance).symbol ++ bitsLE (encodeDistance t.distance).extraBits (encodeDistance t.distance).extraValue

/-- the symbols a token needs are available -/
def TokenUses (lit dist : Nat → Prop) (t : Token) : Prop :=
  (t.distance = 0 → lit t.value) ∧ (t.distance ≠ 0 → lit (encodeLength t.value).symbol ∧ dist (encodeDistance t.distance).symbol)

theorem blockGo_spec {lit dist : Nat → List Bool} {ul ud : Nat → Prop} {ld dd : Decoder} (hl : CodeOk lit ul ld) (hd : CodeOk dist ud dd)
    (h256 : ul 256) {X data : List Byte} {cap hb total : Nat} (hc : X.length + data.length ≤ cap) (hh : hb ≤ X.length) {rest : List Bool} :
    ∀ (ts : List Token) (n pos : Nat) (r : Reader) (o : Span), Covers data pos ts → (∀ t ∈ ts, TokenUses ul ud t) → ts.length < n →
      r.Ok total → r.bits = ts.flatMap (tokenBits lit dist) ++ (lit 256 ++ rest) → o.At X data cap hb pos →
      ∃ r' o', blockGo ld dd n r o = .ok (r', o') ∧ r'.bits = rest ∧ r'.Ok total ∧ o'.At X data cap hb data.length := by
  intro ts
  induction ts with
  | nil =>
    intro n pos r o hcov _ hn hr hb ho
    obtain ⟨n, rfl⟩ : ∃ m, n = m + 1 := ⟨n - 1, by omega⟩
    have hp : pos = data.length := hcov
    subst hp
    obtain ⟨r', h1, h2, h3⟩ := hl.decode 256 h256 r total rest hr (by simpa using hb)
    refine ⟨r', o, ?_, h2, h3, ho⟩
    have hs : blockStep ld dd r o = .ok (true, r', o) := by
      rw [blockStep, h1]
      dsimp only
      rw [if_neg (by omega), if_pos rfl]
    rw [blockGo, hs]
    rfl
  | cons t ts ih =>
    intro n pos r o hcov huse hn hr hbits ho
    simp only [List.length_cons] at hn
    obtain ⟨n, rfl⟩ : ∃ m, n = m + 1 := ⟨n - 1, by omega⟩
    rw [List.flatMap_cons, List.append_assoc] at hbits
    have hu := huse t (by simp)
    have huse' : ∀ u ∈ ts, TokenUses ul ud u := fun u hu => huse u (by simp [hu])
    rcases hcov with ⟨h0, hv, hd0, hcov⟩ | ⟨hrep, hcov⟩
    · rw [tokenBits, if_pos h0] at hbits
      obtain ⟨r', h1, h2, h3⟩ := hl.decode t.value (hu.1 h0) r total _ hr hbits
      have hpos : pos < data.length := by
        apply Classical.byContradiction
        intro hcn
        rw [List.getElem?_eq_none (by omega)] at hd0; cases hd0
      obtain ⟨o', g1, g2⟩ := span_append ho hpos hc hd0
      obtain ⟨r2, o2, k1, k2, k3, k4⟩ := ih n (pos + 1) r' o' hcov huse' (by omega) h3 h2 g2
      refine ⟨r2, o2, ?_, k2, k3, k4⟩
      have hs : blockStep ld dd r o = .ok (false, r', o') := by
        rw [blockStep, h1]
        dsimp only
        rw [if_pos hv, g1]
      rw [blockGo, hs]
      exact k1
    · have hne : t.distance ≠ 0 := by have := hrep.near; omega
      have ⟨e1, e2, e3, e4, e5, e6⟩ := encodeLength_spec hrep.min hrep.max
      have ⟨f1, f2, f3, f4, f5⟩ := encodeDistance_spec hrep.near hrep.window
      rw [tokenBits, if_neg hne] at hbits
      simp only [List.append_assoc] at hbits
      obtain ⟨ra, a1, a2, a3⟩ := hl.decode _ (hu.2 hne).1 r total _ hr hbits
      obtain ⟨rb, b1, b2, b3⟩ := readExtra_spec (base := kLengthBase.getD ((encodeLength t.value).symbol - 257) 0) a3 e5 a2
      rw [e3, e4] at b1
      obtain ⟨rc, c1, c2, c3⟩ := hd.decode _ (hu.2 hne).2 rb total _ b3 b2
      obtain ⟨re, d1, d2, d3⟩ := readExtra_spec (base := kDistanceBase.getD (encodeDistance t.distance).symbol 0) c3 f4 c2
      rw [f2, f3] at d1
      obtain ⟨o', g1, g2⟩ := span_copy ho hrep hc hh
      obtain ⟨r2, o2, k1, k2, k3, k4⟩ := ih n (pos + t.value) re o' hcov huse' (by omega) d3 d2 g2
      refine ⟨r2, o2, ?_, k2, k3, k4⟩
      have hm : decodeMatch dd ra o (encodeLength t.value).symbol = .ok (re, o') := by
        exact decodeMatch_ok b1 c1 (by omega) d1 g1
      have hs : blockStep ld dd r o = .ok (false, re, o') := by
        rw [blockStep, a1]
        dsimp only
        rw [if_neg (by omega), if_neg (by omega), if_neg (by omega), hm]
      rw [blockGo, hs]
      exact k1

theorem tokens_length_le {lit dist : Nat → List Bool} {ul ud : Nat → Prop} {ld : Decoder} (hl : CodeOk lit ul ld) :
    ∀ (ts : List Token), (∀ t ∈ ts, TokenUses ul ud t) → ts.length ≤ (ts.flatMap (tokenBits lit dist)).length
  | [], _ => by simp
  | t :: ts, h => by
    have ih := tokens_length_le (dist := dist) hl ts (fun u hu => h u (by simp [hu]))
    have hu := h t (by simp)
    have : 1 ≤ (tokenBits lit dist t).length := by
      rw [tokenBits]
      by_cases h0 : t.distance = 0
      · rw [if_pos h0]; exact hl.pos _ (hu.1 h0)
      · rw [if_neg h0]
        have := hl.pos _ (hu.2 h0).1
        simp only [List.length_append]; omega
    simp only [List.flatMap_cons, List.length_append, List.length_cons]; omega

theorem decodeCompressedBlock_spec {lit dist : Nat → List Bool} {ul ud : Nat → Prop} {ld dd : Decoder} (hl : CodeOk lit ul ld) (hd : CodeOk dist ud dd)
    (h256 : ul 256) {X data : List Byte} {cap hb total pos : Nat} (hc : X.length + data.length ≤ cap) (hh : hb ≤ X.length) {rest : List Bool}
    {ts : List Token} {r : Reader} {o : Span} (hcov : Covers data pos ts) (hu : ∀ t ∈ ts, TokenUses ul ud t)
    (hr : r.Ok total) (hbits : r.bits = ts.flatMap (tokenBits lit dist) ++ (lit 256 ++ rest)) (ho : o.At X data cap hb pos) :
    ∃ r' o', decodeCompressedBlock ld dd r o = .ok (r', o') ∧ r'.bits = rest ∧ r'.Ok total ∧ o'.At X data cap hb data.length := by
  refine blockGo_spec hl hd h256 hc hh ts _ pos r o hcov hu ?_ hr hbits ho
  have h1 := tokens_length_le (dist := dist) hl ts hu
  rw [← r.bits_length, hbits, List.length_append]
  omega

end Verif.Deflate
