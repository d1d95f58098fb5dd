import Verif.Deflate.HuffLemmas
/-! # Lemmas on the matcher and on the symbols of lengths and distances -/
namespace Verif.Deflate
open Verif.Bytes (Byte)

/-! ## symbols -/

theorem takeWhile_spec (v : Nat) : ∀ (base : List Nat), (∀ i, i < (base.takeWhile (· ≤ v)).length → base.getD i 0 ≤ v) ∧
    ((base.takeWhile (· ≤ v)).length < base.length → v < base.getD (base.takeWhile (· ≤ v)).length 0) ∧
    (base.takeWhile (· ≤ v)).length ≤ base.length
  | [] => by simp
  | b :: base => by
    have ⟨h1, h2, h3⟩ := takeWhile_spec v base
    by_cases h : b ≤ v
    · simp only [List.takeWhile_cons, decide_eq_true h, if_true, List.length_cons]
      refine ⟨fun i hi => ?_, fun hl => ?_, by omega⟩
      · cases i with
        | zero => simpa using h
        | succ i => rw [List.getD_cons_succ]; exact h1 i (by omega)
      · rw [List.getD_cons_succ]; exact h2 (by omega)
    · simp only [List.takeWhile_cons, decide_eq_false h]
      exact ⟨fun i hi => by simp at hi, fun _ => by simp; omega, by simp⟩

/-- the symbol, its base and the extra bits name the length -/
theorem encodeLength_spec {n : Nat} (h3 : 3 ≤ n) (hn : n ≤ 258) :
    257 ≤ (encodeLength n).symbol ∧ (encodeLength n).symbol ≤ 285 ∧
    kLengthBase.getD ((encodeLength n).symbol - 257) 0 + (encodeLength n).extraValue = n ∧
    (encodeLength n).extraBits = kLengthExtra.getD ((encodeLength n).symbol - 257) 0 ∧
    (encodeLength n).extraValue < 2 ^ (encodeLength n).extraBits ∧ (encodeLength n).extraBits ≤ 5 := by
  have H : ∀ n, n < 259 → 3 ≤ n → 257 ≤ (encodeLength n).symbol ∧ (encodeLength n).symbol ≤ 285 ∧
    kLengthBase.getD ((encodeLength n).symbol - 257) 0 + (encodeLength n).extraValue = n ∧
    (encodeLength n).extraBits = kLengthExtra.getD ((encodeLength n).symbol - 257) 0 ∧
    (encodeLength n).extraValue < 2 ^ (encodeLength n).extraBits ∧ (encodeLength n).extraBits ≤ 5 := by decide +kernel
  exact H n (by omega) h3

theorem encodeDistance_spec {d : Nat} (h1 : 1 ≤ d) (hd : d ≤ 32768) :
    (encodeDistance d).symbol < 30 ∧ kDistanceBase.getD (encodeDistance d).symbol 0 + (encodeDistance d).extraValue = d ∧
    (encodeDistance d).extraBits = kDistanceExtra.getD (encodeDistance d).symbol 0 ∧
    (encodeDistance d).extraValue < 2 ^ (encodeDistance d).extraBits ∧ (encodeDistance d).extraBits ≤ 13 := by
  have ⟨t1, t2, t3⟩ := takeWhile_spec d kDistanceBase
  have hlen : kDistanceBase.length = 30 := rfl
  have hm : d % 65536 = d := Nat.mod_eq_of_lt (by omega)
  simp only [encodeDistance, lastNotAbove, hm]
  have hpos : 1 ≤ (kDistanceBase.takeWhile (· ≤ d)).length := by
    apply Classical.byContradiction
    intro hc
    have h0 : (kDistanceBase.takeWhile (· ≤ d)).length = 0 := by omega
    rw [h0] at t2
    have : d < 1 := t2 (by omega)
    omega
  generalize (kDistanceBase.takeWhile (· ≤ d)).length = k at t1 t2 t3 hpos
  have b1 := t1 (k - 1) (by omega)
  have hx : ∀ i, i < 30 → kDistanceExtra.getD i 0 ≤ 13 := by decide
  have hstep : ∀ i, i < 29 → kDistanceBase.getD (i + 1) 0 ≤ kDistanceBase.getD i 0 + 2 ^ kDistanceExtra.getD i 0 := by decide
  have hup : d < kDistanceBase.getD (k - 1) 0 + 2 ^ kDistanceExtra.getD (k - 1) 0 := by
    by_cases hk : k < 30
    · have := t2 (by omega)
      have hs := hstep (k - 1) (by omega)
      rw [show k - 1 + 1 = k by omega] at hs
      omega
    · have : k = 30 := by omega
      subst this
      show d < 24577 + 2 ^ 13
      omega
  exact ⟨by omega, by omega, trivial, by omega, hx _ (by omega)⟩

/-! ## matches -/

theorem matchLen_spec (data : List Byte) : ∀ (n o p : Nat), matchLen data n o p ≤ n ∧ ∀ i, i < matchLen data n o p → data[o + i]? = data[p + i]?
  | 0, _, _ => ⟨Nat.le_refl _, fun i hi => by simp [matchLen] at hi⟩
  | n + 1, o, p => by
    have ⟨h1, h2⟩ := matchLen_spec data n (o + 1) (p + 1)
    simp only [matchLen]
    by_cases h : data[o]? = data[p]?
    · rw [if_pos h]
      refine ⟨by omega, fun i hi => ?_⟩
      cases i with
      | zero => exact h
      | succ i => rw [show o + (i + 1) = o + 1 + i by omega, show p + (i + 1) = p + 1 + i by omega]; exact h2 i (by omega)
    · rw [if_neg h]; exact ⟨by omega, fun i hi => by omega⟩

/-- the bytes at a position repeat those `distance` before it -/
structure Repeats (data : List Byte) (pos length distance : Nat) : Prop where
  near : 1 ≤ distance
  window : distance ≤ 32768
  history : distance ≤ pos
  min : 3 ≤ length
  max : length ≤ 258
  stop : pos + length ≤ data.length
  same : ∀ i, i < length → data[pos + i]? = data[pos + i - distance]?

theorem findGo_spec (w : Window) (t : Chains) (pos limit oldest : Nat) (hpos : pos < w.data.length) (hl : limit = min 258 (w.data.length - pos))
    (ho1 : w.base ≤ oldest) (ho2 : w.base + pos - 32768 ≤ oldest) : ∀ (n candidate : Nat) (best : Match),
    (best.length = 0 ∨ Repeats w.data pos best.length best.distance) →
    (w.findGo t pos limit oldest n candidate best).length = 0 ∨
      Repeats w.data pos (w.findGo t pos limit oldest n candidate best).length (w.findGo t pos limit oldest n candidate best).distance := by
  intro n
  induction n with
  | zero => intro c best hb; exact hb
  | succ n ih =>
    intro candidate best hb
    simp only [Window.findGo]
    by_cases hc : oldest < candidate ∧ candidate ≤ w.base + pos
    · rw [if_pos hc]
      have ⟨m1, m2⟩ := matchLen_spec w.data limit (candidate - 1 - w.base) pos
      generalize matchLen w.data limit (candidate - 1 - w.base) pos = len at m1 m2
      by_cases hb2 : 3 ≤ len ∧ best.length < len
      · rw [if_pos hb2]
        have hgood : Repeats w.data pos len (w.base + pos - (candidate - 1)) := by
          refine ⟨by omega, by omega, by omega, hb2.1, by omega, by omega, fun i hi => ?_⟩
          rw [← m2 i hi]; congr 1; omega
        by_cases hk : len = kMaxMatchLength
        · rw [if_pos hk]; exact Or.inr hgood
        · rw [if_neg hk]; exact ih _ _ (Or.inr hgood)
      · rw [if_neg hb2]; exact ih _ _ hb
    · rw [if_neg hc]; exact hb

theorem find_spec (w : Window) (t : Chains) (pos : Nat) :
    (w.find t pos).length = 0 ∨ Repeats w.data pos (w.find t pos).length (w.find t pos).distance := by
  simp only [Window.find]
  by_cases h : pos + 2 ≥ w.data.length
  · rw [if_pos h]; exact Or.inl rfl
  · rw [if_neg h]
    refine findGo_spec w t pos _ _ (by omega) rfl (by omega) ?_ _ _ _ (Or.inl rfl)
    have hk : kWindowSize = 32768 := rfl
    by_cases h' : kWindowSize < w.base + pos
    · rw [if_pos h']; omega
    · omega

/-- tokens describe the bytes from a position on -/
def Covers (data : List Byte) : Nat → List Token → Prop
  | pos, [] => pos = data.length
  | pos, t :: ts => (t.distance = 0 ∧ t.value < 256 ∧ data[pos]? = some (BitVec.ofNat 8 t.value) ∧ Covers data (pos + 1) ts) ∨
      (Repeats data pos t.value t.distance ∧ Covers data (pos + t.value) ts)

theorem literal_covers {w : Window} {pos : Nat} (hpos : pos < w.data.length) {ts : List Token} (h : Covers w.data (pos + 1) ts) :
    Covers w.data pos (w.literal pos :: ts) := by
  refine Or.inl ⟨rfl, ?_, ?_, h⟩
  · exact (w.data.getD pos 0).isLt
  · simp only [Window.literal, List.getD_eq_getElem?_getD, List.getElem?_eq_getElem hpos, Option.getD_some, BitVec.ofNat_toNat, BitVec.setWidth_eq]

theorem match_covers {w : Window} {pos : Nat} {m : Match} (hm : Repeats w.data pos m.length m.distance) {ts : List Token}
    (h : Covers w.data (pos + m.length) ts) : Covers w.data pos (m.token :: ts) := by
  have h1 : m.length % 65536 = m.length := Nat.mod_eq_of_lt (by have := hm.max; omega)
  have h2 : m.distance % 65536 = m.distance := Nat.mod_eq_of_lt (by have := hm.window; omega)
  refine Or.inr ⟨?_, ?_⟩
  · simp only [Match.token, h1, h2]; exact hm
  · simp only [Match.token, h1]; exact h

theorem tokenGo_spec (w : Window) : ∀ (n pos : Nat) (t : Chains), pos ≤ w.data.length → w.data.length - pos ≤ n → Covers w.data pos (w.tokenGo n pos t).1 := by
  intro n
  induction n with
  | zero => intro pos t h1 h2; show pos = w.data.length; omega
  | succ n ih =>
    intro pos t h1 h2
    simp only [Window.tokenGo]
    by_cases hp : pos < w.data.length
    · rw [if_pos hp]
      have hf := find_spec w t pos
      generalize w.find t pos = m at hf
      by_cases hlazy : (w.level.lazyMatching && decide (3 ≤ m.length)) = true
      · rw [if_pos hlazy]
        have hm3 : 3 ≤ m.length := by simp at hlazy; exact hlazy.2
        have hr : Repeats w.data pos m.length m.distance := by
          rcases hf with h | h
          · omega
          · exact h
        by_cases hl : m.length < (w.find (w.insert t pos) (pos + 1)).length
        · rw [if_pos hl]; exact literal_covers hp (ih _ _ (by omega) (by omega))
        · rw [if_neg hl]; exact match_covers hr (ih _ _ hr.stop (by omega))
      · rw [if_neg hlazy]
        by_cases hm3 : 3 ≤ m.length
        · rw [if_pos hm3]
          have hr : Repeats w.data pos m.length m.distance := by
            rcases hf with h | h
            · omega
            · exact h
          exact match_covers hr (ih _ _ hr.stop (by omega))
        · rw [if_neg hm3]; exact literal_covers hp (ih _ _ (by omega) (by omega))
    · rw [if_neg hp]; show pos = w.data.length; omega

/-- the tokens of a window cover it from `tokenFrom` on -/
theorem tokenize_spec (w : Window) (t : Chains) {indexedFrom tokenFrom : Nat} (h1 : indexedFrom ≤ tokenFrom) (h2 : tokenFrom ≤ w.data.length) :
    Covers w.data tokenFrom (w.tokenize t indexedFrom tokenFrom).1 := by
  simp only [Window.tokenize]
  rw [show max indexedFrom tokenFrom = tokenFrom by omega]
  exact tokenGo_spec w _ _ _ h2 (by omega)

theorem oneShotTokens_spec (data : List Byte) (level : Level) : Covers data 0 (oneShotTokens data level) :=
  tokenize_spec ⟨data, 0, historyBound data.length, level⟩ .fresh (Nat.le_refl 0) (Nat.zero_le _)

/-- no more tokens than bytes -/
theorem covers_length (data : List Byte) : ∀ (ts : List Token) (pos : Nat), Covers data pos ts → pos + ts.length ≤ data.length
  | [], pos, h => by simp only [Covers] at h; simp; omega
  | t :: ts, pos, h => by
    rcases h with ⟨_, _, _, h⟩ | ⟨hr, h⟩
    · have := covers_length data ts _ h
      simp only [List.length_cons]; omega
    · have := covers_length data ts _ h
      have := hr.min
      simp only [List.length_cons]; omega

/-- what a token of a cover looks like -/
structure Token.Ok (t : Token) : Prop where
  literal : t.distance = 0 → t.value < 256
  length : t.distance ≠ 0 → 3 ≤ t.value ∧ t.value ≤ 258 ∧ t.distance ≤ 32768

theorem covers_ok (data : List Byte) : ∀ (ts : List Token) (pos : Nat), Covers data pos ts → ∀ t ∈ ts, t.Ok
  | [], _, _, t, ht => by simp at ht
  | u :: ts, pos, h, t, ht => by
    rcases h with ⟨h1, h2, _, h⟩ | ⟨hr, h⟩
    · rcases List.mem_cons.1 ht with rfl | ht
      · exact ⟨fun _ => h2, fun h' => absurd h1 h'⟩
      · exact covers_ok data ts _ h t ht
    · rcases List.mem_cons.1 ht with rfl | ht
      · exact ⟨fun h' => by have := hr.near; omega, fun _ => ⟨hr.min, hr.max, hr.window⟩⟩
      · exact covers_ok data ts _ h t ht

end Verif.Deflate
