import Verif.Deflate.BitLemmas
import Verif.Deflate.Decode
/-! # Lemmas on canonical prefix codes: what the encoder assigns is what the decoder recognises -/
namespace Verif.Deflate
open Verif.Bytes (Byte)

/-- the low `w` bits of a number, most significant first -/
def bitsBE (w v : Nat) : List Bool := (bitsLE w v).reverse

@[simp] theorem bitsBE_length (w v : Nat) : (bitsBE w v).length = w := by simp [bitsBE]

theorem bitsBE_succ (w v : Nat) : bitsBE (w + 1) v = decide (v / 2 ^ w % 2 = 1) :: bitsBE w v := by
  rw [bitsBE, bitsLE_add]
  simp only [bitsBE, List.reverse_append, bitsLE, List.reverse_cons, List.reverse_nil, List.nil_append, List.cons_append]

theorem or_bit (r : Nat) (b : Nat) (hb : b < 2) : (r <<< 1) ||| b = 2 * r + b := by
  rw [← Nat.shiftLeft_add_eq_or_of_lt (by omega), Nat.shiftLeft_eq]; omega

theorem reverseGo_spec (n : Nat) : ∀ (v result k : Nat), result < 2 ^ k → n + k ≤ 16 →
    bitsLE (n + k) (reverseGo n v result) = (bitsLE n v).reverse ++ bitsLE k result ∧ reverseGo n v result < 2 ^ (n + k) := by
  induction n with
  | zero => intro v result k h _; simp [reverseGo, bitsLE, h]
  | succ n ih =>
    intro v result k h hk
    have hb : v &&& 1 = v % 2 := Nat.and_one_is_mod v
    have hlt : 2 * result + v % 2 < 2 ^ (k + 1) := by rw [Nat.pow_succ]; omega
    have hle : 2 ^ (k + 1) ≤ 2 ^ 16 := Nat.pow_le_pow_right (by omega) (by omega)
    have e : ((result <<< 1) ||| (v &&& 1)) % 65536 = 2 * result + v % 2 := by
      rw [hb, or_bit _ _ (by omega), Nat.mod_eq_of_lt (by omega)]
    have h' := ih (v >>> 1) (2 * result + v % 2) (k + 1) hlt (by omega)
    rw [reverseGo, e, show n + 1 + k = n + (k + 1) by omega]
    refine ⟨h'.1.trans ?_, h'.2⟩
    simp only [bitsLE, List.reverse_cons, List.append_assoc, List.singleton_append]
    rw [Nat.shiftRight_eq_div_pow, Nat.pow_one, show (2 * result + v % 2) / 2 = result by omega, show (2 * result + v % 2) % 2 = v % 2 by omega]

theorem reverseBits_spec {v w : Nat} (hw : w ≤ 16) : bitsLE w (reverseBits v w) = bitsBE w v ∧ reverseBits v w < 2 ^ w := by
  have h := reverseGo_spec w (v % 65536) 0 0 (by simp) (by omega)
  simp only [bitsLE, List.append_nil, Nat.add_zero] at h
  rw [show (65536 : Nat) = 2 ^ 16 from rfl, bitsLE_mod' v hw] at h
  exact h

/-! ## codes -/

/-- the first code of a width (RFC 1951, 3.2.2) without any wrapping -/
def firstCode (c : Nat → Nat) : Nat → Nat
  | 0 => 0
  | w + 1 => 2 * (firstCode c w + c w)

/-- no width has more codes than there is room for -/
def Fits (c : Nat → Nat) (maxBits : Nat) : Prop := ∀ w, w ≤ maxBits → firstCode c w + c w ≤ 2 ^ w

theorem fits_of_last (c : Nat → Nat) : ∀ M, firstCode c M + c M ≤ 2 ^ M → Fits c M
  | 0, h => fun w hw => by have : w = 0 := by omega
                           subst this; exact h
  | M + 1, h => fun w hw => by
    by_cases hM : w = M + 1
    · subst hM; exact h
    · refine fits_of_last c M ?_ w (by omega)
      rw [firstCode, Nat.pow_succ] at h
      omega

/-- the code of a symbol -/
def codeOf (lengths : List Nat) (s : Nat) : Nat := firstCode (widthCount lengths) (lengths.getD s 0) + (lengths.take s).count (lengths.getD s 0)

theorem nextCode_eq {c : Nat → Nat} {M : Nat} (h : Fits c M) (hM : M ≤ 15) : ∀ w, w ≤ M → nextCode c w = firstCode c w
  | 0, _ => rfl
  | w + 1, hw => by
    have h1 := h w (by omega)
    have h2 : 2 ^ (w + 1) ≤ 2 ^ 15 := Nat.pow_le_pow_right (by omega) (by omega)
    rw [Nat.pow_succ] at h2
    rw [nextCode, nextCode_eq h hM w (by omega), Nat.mod_eq_of_lt (by omega), Nat.shiftLeft_eq, Nat.mod_eq_of_lt (by omega), firstCode]
    omega

theorem assignCodes_length : ∀ (l : List Nat) next, (assignCodes l next).length = l.length
  | [], _ => rfl
  | w :: r, next => by
    simp only [assignCodes]
    split <;> simp [assignCodes_length r]

theorem assignCodes_spec (l : List Nat) : ∀ (next : Nat → Nat), (∀ w, w ∈ l → w ≠ 0 → next w + l.count w < 65536) →
    ∀ s (hs : s < l.length), l[s] ≠ 0 → (assignCodes l next).getD s 0 = reverseBits (next l[s] + (l.take s).count l[s]) l[s] := by
  induction l with
  | nil => intro next _ s hs; simp at hs
  | cons w r ih =>
    intro next h s hs hne
    by_cases hw : w ≠ 0
    · simp only [assignCodes, if_pos hw]
      have hb := h w (by simp) hw
      simp only [List.count_cons_self] at hb
      have e : (next w + 1) % 65536 = next w + 1 := Nat.mod_eq_of_lt (by omega)
      rw [e]
      cases s with
      | zero => simp
      | succ s =>
        simp only [List.length_cons] at hs
        simp only [List.getElem_cons_succ] at hne ⊢
        have := ih (upd next w (next w + 1)) (fun v hv hv0 => by
          have := h v (List.mem_cons_of_mem _ hv) hv0
          rw [List.count_cons] at this
          by_cases e : v = w
          · subst e; simp [upd] at this ⊢; omega
          · have e' : ¬ w = v := fun x => e x.symm
            simp [upd, e, e'] at this ⊢; omega) s (by omega) hne
        rw [List.getD_cons_succ, this, List.take_succ_cons, List.count_cons]
        by_cases e : r[s] = w
        · simp [upd, e]; congr 1; omega
        · have e' : ¬ w = r[s] := fun x => e x.symm
          simp [upd, e, e']
    · have h0 : w = 0 := by omega
      simp only [assignCodes, if_neg hw]
      cases s with
      | zero => exact absurd (by simpa using h0) hne
      | succ s =>
        simp only [List.length_cons] at hs
        simp only [List.getElem_cons_succ] at hne ⊢
        have := ih next (fun v hv hv0 => by
          have := h v (List.mem_cons_of_mem _ hv) hv0
          rw [List.count_cons] at this
          omega) s (by omega) hne
        rw [List.getD_cons_succ, this, List.take_succ_cons, List.count_cons]
        have e' : ¬ w = r[s] := fun x => hne (by omega)
        simp [e']

/-- what the writer gets for a symbol: the bits of its code, most significant first -/
theorem writeCode_spec {l : List Nat} {M : Nat} (h : Fits (widthCount l) M) (hM : M ≤ 15) (hl : ∀ w ∈ l, w ≤ M) {s : Nat} (hs : l.getD s 0 ≠ 0) :
    bitsLE (l.getD s 0) ((makeCanonicalCodes l).bits.getD s 0) = bitsBE (l.getD s 0) (codeOf l s) ∧
      (makeCanonicalCodes l).bits.getD s 0 < 2 ^ l.getD s 0 ∧ l.getD s 0 ≤ M := by
  have hlen : s < l.length := by
    apply Classical.byContradiction
    intro hc
    exact hs (by simp [List.getD_eq_getElem?_getD, List.getElem?_eq_none (Nat.le_of_not_lt hc)])
  have hg : l.getD s 0 = l[s] := by simp [List.getD_eq_getElem?_getD, hlen]
  have hm : l[s] ≤ M := hl _ (List.getElem_mem hlen)
  have hp : ∀ w, w ≤ M → 2 ^ w ≤ 2 ^ 15 := fun w hw => Nat.pow_le_pow_right (by omega) (by omega)
  have e := assignCodes_spec l (nextCode (widthCount l)) (fun w hw hw0 => by
    have h1 := h w (hl w hw)
    have h2 := hp w (hl w hw)
    rw [nextCode_eq h hM w (hl w hw)]
    simp only [widthCount, if_neg hw0] at h1
    omega) s hlen (by rw [← hg]; exact hs)
  rw [hg]
  simp only [makeCanonicalCodes, e, codeOf, hg]
  rw [nextCode_eq h hM _ hm]
  have := reverseBits_spec (v := firstCode (widthCount l) l[s] + (l.take s).count l[s]) (w := l[s]) (by omega)
  exact ⟨this.1, this.2, hm⟩

/-! ## decoder -/

theorem spaceGo_spec (c : Nat → Nat) (n : Nat) : ∀ v rem, rem + (firstCode c v + c v) = 2 ^ v →
    (∀ R, spaceGo c n (v + 1) rem = some R → R + (firstCode c (v + n) + c (v + n)) = 2 ^ (v + n)) ∧
    (firstCode c (v + n) + c (v + n) ≤ 2 ^ (v + n) → ∃ R, spaceGo c n (v + 1) rem = some R) := by
  induction n with
  | zero => intro v rem h; simp only [spaceGo, Nat.add_zero, Option.some.injEq]; exact ⟨fun R hR => by subst hR; exact h, fun _ => ⟨_, rfl⟩⟩
  | succ n ih =>
    intro v rem h
    simp only [spaceGo]
    have hf : firstCode c (v + 1) = 2 * (firstCode c v + c v) := rfl
    by_cases hc : rem * 2 < c (v + 1)
    · rw [if_pos hc]
      refine ⟨fun R hR => by simp at hR, fun hl => ?_⟩
      have := fits_of_last c _ hl (v + 1) (by omega)
      rw [hf, Nat.pow_succ] at this
      omega
    · rw [if_neg hc]
      have := ih (v + 1) (rem * 2 - c (v + 1)) (by rw [hf, Nat.pow_succ]; omega)
      rw [show v + 1 + n = v + (n + 1) by omega] at this
      exact this

theorem widthCount_zero (l : List Nat) : widthCount l 0 = 0 := rfl
theorem widthCount_pos (l : List Nat) {w : Nat} (h : w ≠ 0) : widthCount l w = l.count w := if_neg h

/-- the code space of a whole decoder -/
theorem space_spec (l : List Nat) (M : Nat) :
    (∀ R, spaceGo (widthCount l) M 1 1 = some R → R + (firstCode (widthCount l) M + widthCount l M) = 2 ^ M) ∧
    (firstCode (widthCount l) M + widthCount l M ≤ 2 ^ M → ∃ R, spaceGo (widthCount l) M 1 1 = some R) := by
  have := spaceGo_spec (widthCount l) M 0 1 (by simp [firstCode, widthCount])
  simpa using this

theorem startIndex_succ (c : Nat → Nat) (hc : c 0 = 0) (w : Nat) : startIndex c (w + 1) = startIndex c w + c w := by
  cases w with
  | zero => simp [startIndex, hc]
  | succ w => rfl

theorem startIndex_le (c : Nat → Nat) (hc : c 0 = 0) {v w : Nat} (h : v < w) : startIndex c v + c v ≤ startIndex c w := by
  induction w with
  | zero => omega
  | succ w ih =>
    rw [startIndex_succ c hc]
    by_cases e : v = w
    · subst e; exact Nat.le_refl _
    · have := ih (by omega); omega

/-- number of entries that are not zero and below a width -/
theorem startIndex_eq (l : List Nat) : ∀ w, startIndex (widthCount l) w = l.countP (fun x => decide (x ≠ 0 ∧ x < w))
  | 0 => by simp [startIndex]
  | w + 1 => by
    rw [startIndex_succ _ rfl, startIndex_eq l w]
    induction l with
    | nil => simp [widthCount]
    | cons x l ih =>
      simp only [List.countP_cons, widthCount, List.count_cons] at ih ⊢
      by_cases hw : w = 0
      · subst hw; simp at ih ⊢
      · simp only [if_neg hw] at ih ⊢
        by_cases hx0 : x = 0
        · have : ¬ x = w := by omega
          simp [hx0, this] at ih ⊢; split <;> omega
        · by_cases hxw : x = w
          · subst hxw; simp [hx0] at ih ⊢; omega
          · by_cases hlt : x < w
            · simp [hx0, hxw, hlt, show x < w + 1 by omega] at ih ⊢; omega
            · simp [hx0, hxw, hlt, show ¬ x < w + 1 by omega] at ih ⊢; omega

theorem startIndex_bound (l : List Nat) (w : Nat) : startIndex (widthCount l) w + widthCount l w ≤ l.length := by
  have h := startIndex_succ (widthCount l) rfl w
  rw [← h, startIndex_eq]
  exact List.countP_le_length

theorem count_take_lt (l : List Nat) : ∀ (t k v : Nat), l[t]? = some v → t < k → (l.take t).count v < (l.take k).count v := by
  induction l with
  | nil => intro t k v h; simp at h
  | cons x l ih =>
    intro t k v h hk
    obtain ⟨k, rfl⟩ : ∃ m, k = m + 1 := ⟨k - 1, by omega⟩
    cases t with
    | zero => simp at h; subst h; simp
    | succ t =>
      have := ih t k v (by simpa using h) (by omega)
      simp only [List.take_succ_cons, List.count_cons]; omega

theorem lt_of_getD {l : List Nat} {s : Nat} (hs : l.getD s 0 ≠ 0) : s < l.length := by
  apply Classical.byContradiction
  intro hc
  exact hs (by simp [List.getD_eq_getElem?_getD, List.getElem?_eq_none (Nat.le_of_not_lt hc)])

theorem rank_lt {l : List Nat} {s : Nat} (hs : l.getD s 0 ≠ 0) : (l.take s).count (l.getD s 0) < l.count (l.getD s 0) := by
  have hlen := lt_of_getD hs
  have hg : l[s]? = some (l.getD s 0) := by simp [List.getD_eq_getElem?_getD, hlen]
  have := count_take_lt l s l.length _ hg hlen
  rwa [List.take_length] at this

/-- where a symbol is placed -/
def placeOf (l : List Nat) (s : Nat) : Nat := startIndex (widthCount l) (l.getD s 0) + (l.take s).count (l.getD s 0)

theorem placeSymbols_spec (l : List Nat) (n : Nat) (hn : l.length ≤ n) : ∀ (q p : List Nat) (next : Nat → Nat) (syms : List Nat), p ++ q = l →
    syms.length = n → (∀ w, w ≠ 0 → next w = startIndex (widthCount l) w + p.count w) →
    (∀ t, t < p.length → l.getD t 0 ≠ 0 → syms[placeOf l t]? = some t) →
    ∃ syms', placeSymbols p.length q next syms = .ok syms' ∧ syms'.length = n ∧ ∀ t, t < l.length → l.getD t 0 ≠ 0 → syms'[placeOf l t]? = some t := by
  intro q
  induction q with
  | nil =>
    intro p next syms hp hl _ hs
    refine ⟨syms, rfl, hl, fun t ht => hs t ?_⟩
    rw [← hp] at ht; simpa using ht
  | cons w q ih =>
    intro p next syms hp hl hnext hs
    have hlen : p.length < l.length := by rw [← hp]; simp
    have hpw : l.getD p.length 0 = w := by rw [← hp]; simp [List.getD_eq_getElem?_getD]
    have htake : l.take p.length = p := by rw [← hp]; simp
    have hcount : ∀ v, l.count v = p.count v + (w :: q).count v := fun v => by rw [← hp, List.count_append]
    have hp' : (p ++ [w]) ++ q = l := by rw [← hp]; simp
    by_cases hw : w ≠ 0
    · have hnw := hnext w hw
      have hcw : p.count w < l.count w := by rw [hcount, List.count_cons_self]; omega
      have hb := startIndex_bound l w
      rw [widthCount_pos l hw] at hb
      have hlt : next w < syms.length := by omega
      simp only [placeSymbols, if_pos hw, if_pos hlt]
      have := ih (p ++ [w]) (upd next w (next w + 1)) (syms.set (next w) p.length) hp' (by simp [hl]) (fun v hv => by
        rw [List.count_append, List.count_cons, List.count_nil]
        by_cases e : v = w
        · subst e; simp [upd]; omega
        · have e' : ¬ w = v := fun x => e x.symm
          simp [upd, e, e']; exact hnext v hv) (fun t ht ht0 => by
        simp only [List.length_append, List.length_cons, List.length_nil] at ht
        by_cases e : t = p.length
        · subst e
          rw [placeOf, hpw, htake, ← hnw, List.getElem?_set_self hlt]
        · have hold := hs t (by omega) ht0
          have hne : next w ≠ placeOf l t := by
            rw [hnw, placeOf]
            generalize hvt : l.getD t 0 = v at ht0 ⊢
            have htp : (l.take t).count v < p.count v := by
              rw [List.getD_eq_getElem?_getD, List.getElem?_eq_getElem (by omega)] at hvt
              have := count_take_lt l t p.length v (by rw [List.getElem?_eq_getElem (by omega), ← hvt]; rfl) (by omega)
              rwa [htake] at this
            have hpl : p.count v ≤ l.count v := by rw [hcount]; omega
            rcases Nat.lt_trichotomy v w with hvw | hvw | hvw
            · have := startIndex_le (widthCount l) rfl hvw
              rw [widthCount_pos l ht0] at this; omega
            · subst hvw; omega
            · have := startIndex_le (widthCount l) rfl hvw
              rw [widthCount_pos l hw] at this; omega
          rw [List.getElem?_set_ne hne]; exact hold)
      simpa using this
    · have h0 : w = 0 := by omega
      simp only [placeSymbols, if_neg hw]
      have := ih (p ++ [w]) next syms hp' hl (fun v hv => by
        rw [List.count_append, List.count_cons, List.count_nil]
        have e' : ¬ w = v := by omega
        simp [e']; exact hnext v hv) (fun t ht ht0 => by
        simp only [List.length_append, List.length_cons, List.length_nil] at ht
        refine hs t ?_ ht0
        by_cases e : t = p.length
        · subst e; rw [hpw] at ht0; exact absurd h0 ht0
        · omega)
      simpa using this

/-- a decoder for these lengths -/
structure Decoder.For (d : Decoder) (l : List Nat) (maxBits : Nat) : Prop where
  counts : d.counts = (List.range (maxBits + 1)).map (widthCount l)
  width : d.maxWidth = l.foldl max 0
  symbols : ∀ t, t < l.length → l.getD t 0 ≠ 0 → d.symbols[placeOf l t]? = some t
  fits : Fits (widthCount l) maxBits
  bounded : ∀ w ∈ l, w ≤ maxBits

theorem foldl_max_le (l : List Nat) : ∀ a, a ≤ l.foldl max a ∧ ∀ x ∈ l, x ≤ l.foldl max a := by
  induction l with
  | nil => intro a; simp
  | cons x l ih =>
    intro a
    have := ih (max a x)
    simp only [List.foldl_cons, List.mem_cons]
    refine ⟨by omega, fun y hy => ?_⟩
    rcases hy with rfl | hy
    · omega
    · exact this.2 y hy

theorem foldl_max_bound (l : List Nat) (M : Nat) (h : ∀ w ∈ l, w ≤ M) : ∀ a, a ≤ M → l.foldl max a ≤ M := by
  induction l with
  | nil => intro a ha; exact ha
  | cons x l ih =>
    intro a ha
    have hx := h x (by simp)
    exact ih (fun w hw => h w (by simp [hw])) (max a x) (by omega)

theorem firstCode_ge (c : Nat → Nat) (a : Nat) : ∀ k, 2 ^ (k + 1) * (firstCode c a + c a) ≤ firstCode c (a + (k + 1))
  | 0 => by simp [firstCode]
  | k + 1 => by
    have := firstCode_ge c a k
    rw [show a + (k + 1 + 1) = (a + (k + 1)) + 1 by omega, firstCode, Nat.pow_succ, Nat.mul_comm (2 ^ (k + 1)) 2, Nat.mul_assoc]
    omega

theorem symbolGo_spec {d : Decoder} {l : List Nat} {M : Nat} (hd : d.For l M) {s : Nat} (hs : l.getD s 0 ≠ 0) {total : Nat} {rest : List Bool} :
    ∀ (k j n : Nat) (r : Reader), j + (k + 1) = l.getD s 0 → n + j = d.maxWidth → r.Ok total → r.bits = bitsBE (k + 1) (codeOf l s) ++ rest →
      ∃ r', symbolGo d n (j + 1) (codeOf l s / 2 ^ (k + 1)) (firstCode (widthCount l) (j + 1)) (startIndex (widthCount l) (j + 1)) r = .ok (s, r') ∧
        r'.bits = rest ∧ r'.Ok total := by
  have hlen : s < l.length := by
    apply Classical.byContradiction
    intro hc
    exact hs (by simp [List.getD_eq_getElem?_getD, List.getElem?_eq_none (Nat.le_of_not_lt hc)])
  have hg : l.getD s 0 = l[s] := by simp [List.getD_eq_getElem?_getD, hlen]
  have hmem : l.getD s 0 ∈ l := by rw [hg]; exact List.getElem_mem hlen
  have hM := hd.bounded _ hmem
  have hw := (foldl_max_le l 0).2 _ hmem
  rw [← hd.width] at hw
  have hrank : (l.take s).count (l.getD s 0) < l.count (l.getD s 0) := rank_lt hs
  intro k
  induction k with
  | zero =>
    intro j n r hj hn hr hb
    obtain ⟨n, rfl⟩ : ∃ m, n = m + 1 := ⟨n - 1, by omega⟩
    rw [bitsBE_succ, List.cons_append] at hb
    obtain ⟨r', h1, h2, h3, h4⟩ := (r.fill_takeBit hr).2 _ _ hb
    have hbit : r'.takeBit.1 = codeOf l s % 2 := by
      rw [h2, Nat.pow_zero, Nat.div_one]
      by_cases e : codeOf l s % 2 = 1
      · simp [e]
      · have : codeOf l s % 2 = 0 := by omega
        simp [this]
    have hcode : (codeOf l s / 2 ^ 1) <<< 1 ||| r'.takeBit.1 = codeOf l s := by
      rw [hbit, or_bit _ _ (by omega), Nat.pow_one]; omega
    simp only [symbolGo, h1, hcode]
    have hcnt : d.counts.getD (j + 1) 0 = l.count (l.getD s 0) := by
      rw [hd.counts, List.getD_eq_getElem?_getD, List.getElem?_map, List.getElem?_range (by omega)]
      simp only [Option.map_some, Option.getD_some]
      rw [widthCount_pos l (by omega), hj]
    rw [hcnt]
    have hco : codeOf l s = firstCode (widthCount l) (j + 1) + (l.take s).count (l.getD s 0) := by rw [codeOf, ← hj]
    have hcond : firstCode (widthCount l) (j + 1) ≤ codeOf l s ∧ codeOf l s - firstCode (widthCount l) (j + 1) < l.count (l.getD s 0) := by
      rw [hco]; omega
    rw [if_pos hcond]
    have hidx : startIndex (widthCount l) (j + 1) + (codeOf l s - firstCode (widthCount l) (j + 1)) = placeOf l s := by
      rw [placeOf, hco, show l.getD s 0 = j + 1 by omega]; omega
    rw [hidx, hd.symbols s hlen hs]
    refine ⟨_, rfl, ?_, h4⟩
    rw [h3]; rfl
  | succ k ih =>
    intro j n r hj hn hr hb
    obtain ⟨n, rfl⟩ : ∃ m, n = m + 1 := ⟨n - 1, by omega⟩
    rw [bitsBE_succ, List.cons_append] at hb
    obtain ⟨r', h1, h2, h3, h4⟩ := (r.fill_takeBit hr).2 _ _ hb
    have hbit : r'.takeBit.1 = codeOf l s / 2 ^ (k + 1) % 2 := by
      rw [h2]
      by_cases e : codeOf l s / 2 ^ (k + 1) % 2 = 1
      · simp [e]
      · have : codeOf l s / 2 ^ (k + 1) % 2 = 0 := by omega
        simp [this]
    have hcode : (codeOf l s / 2 ^ (k + 1 + 1)) <<< 1 ||| r'.takeBit.1 = codeOf l s / 2 ^ (k + 1) := by
      rw [hbit, or_bit _ _ (by omega), Nat.pow_succ 2 (k + 1), ← Nat.div_div_eq_div_mul]; omega
    simp only [symbolGo, h1, hcode]
    have hcnt : d.counts.getD (j + 1) 0 = widthCount l (j + 1) := by
      rw [hd.counts, List.getD_eq_getElem?_getD, List.getElem?_map, List.getElem?_range (by omega)]
      simp only [Option.map_some, Option.getD_some]
    rw [hcnt]
    have hge : firstCode (widthCount l) (j + 1) + widthCount l (j + 1) ≤ codeOf l s / 2 ^ (k + 1) := by
      rw [Nat.le_div_iff_mul_le (Nat.two_pow_pos _), Nat.mul_comm]
      have := firstCode_ge (widthCount l) (j + 1) k
      rw [show j + 1 + (k + 1) = l.getD s 0 by omega] at this
      rw [codeOf]; omega
    rw [if_neg (by omega)]
    have := ih (j + 1) n r'.takeBit.2 (by omega) (by omega) h4 h3
    rw [← startIndex_succ _ rfl, Nat.shiftLeft_eq, show (firstCode (widthCount l) (j + 1) + widthCount l (j + 1)) * 2 ^ 1 =
      firstCode (widthCount l) (j + 1 + 1) from (Nat.mul_comm _ _).trans rfl]
    exact this

/-- the decoder recognises the code of every symbol -/
theorem decodeSymbol_spec {d : Decoder} {l : List Nat} {M : Nat} (hd : d.For l M) {s : Nat} (hs : l.getD s 0 ≠ 0) {total : Nat} {rest : List Bool}
    {r : Reader} (hr : r.Ok total) (hb : r.bits = bitsBE (l.getD s 0) (codeOf l s) ++ rest) :
    ∃ r', decodeSymbol r d = .ok (s, r') ∧ r'.bits = rest ∧ r'.Ok total := by
  obtain ⟨k, hk⟩ : ∃ k, l.getD s 0 = k + 1 := ⟨l.getD s 0 - 1, by omega⟩
  have hlt : codeOf l s < 2 ^ (k + 1) := by
    have hlen : s < l.length := by
      apply Classical.byContradiction
      intro hc
      exact hs (by simp [List.getD_eq_getElem?_getD, List.getElem?_eq_none (Nat.le_of_not_lt hc)])
    have hg : l.getD s 0 = l[s] := by simp [List.getD_eq_getElem?_getD, hlen]
    have hmem : l.getD s 0 ∈ l := by rw [hg]; exact List.getElem_mem hlen
    have hf := hd.fits _ (hd.bounded _ hmem)
    rw [widthCount_pos l hs] at hf
    have hrank : (l.take s).count (l.getD s 0) < l.count (l.getD s 0) := rank_lt hs
    rw [← hk, codeOf]; omega
  have := symbolGo_spec hd hs k 0 d.maxWidth r (by omega) (by omega) hr (by rw [← hk]; exact hb)
  rw [Nat.div_eq_of_lt hlt] at this
  exact this

/-- complete codes are accepted -/
theorem makeDecoder_spec {n M : Nat} {l : List Nat} (hn : l.length ≤ n) (hl : ∀ w ∈ l, w ≤ M) (hne : ∃ w ∈ l, w ≠ 0)
    (hk : firstCode (widthCount l) M + widthCount l M = 2 ^ M) (ae ai : Bool) : ∃ d, makeDecoder n M l ae ai = .ok d ∧ d.For l M := by
  obtain ⟨w, hw, hw0⟩ := hne
  have h1 : ¬ (l.any (fun x => decide (M < x)) = true) := by
    intro h
    obtain ⟨x, hx, hx'⟩ := List.any_eq_true.1 h
    have := hl x hx
    simp at hx'; omega
  have h2 : ¬ (l.all (fun x => decide (x = 0)) = true) := by
    intro h
    have := List.all_eq_true.1 h w hw
    simp at this; omega
  obtain ⟨R, hR⟩ := (space_spec l M).2 (by omega)
  have hR0 := (space_spec l M).1 R hR
  have hR' : R = 0 := by omega
  obtain ⟨syms, hp, hpl, hps⟩ := placeSymbols_spec l n hn l [] (startIndex (widthCount l)) (List.replicate n 0) rfl (by simp) (fun w _ => by simp)
    (fun t ht => by simp at ht)
  simp only [List.length_nil] at hp
  refine ⟨⟨_, syms, _⟩, ?_, ⟨rfl, rfl, hps, fits_of_last _ _ (by omega), hl⟩⟩
  simp only [makeDecoder, if_neg h1, if_neg h2, hR, hp]
  rw [if_neg (by omega)]

end Verif.Deflate
