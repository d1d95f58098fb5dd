import Verif.Wav.Head
/-!
What becomes of a sample: whole numbers of 8, 16, 24 and 32 bits and `float`, put out as `std::int16_t` or as `float`.
-/
namespace Verif.Wav
open Verif.Bytes

/-! ## specification -/

/-- Full scale of whole numbers of the given number of bits. -/
def full (bits : Nat) : Nat := 2 ^ (bits - 1)

/-- A whole number as it is in a file: with 8 bits the distance from the smallest number, otherwise the two's complement with the low byte first. -/
def encode (bits : Nat) (v : Int) : List Byte := if bits = 8 then le 1 (v + 128).toNat else le (bits / 8) (v % 2 ^ bits).toNat

/-- `w` is a whole number next to `32767 * num / den`. -/
def Nearest (w num : Int) (den : Nat) : Prop := 2 * (w * den - num * 32767).natAbs ≤ den

/-! ## lemmas -/

theorem lround_near (num : Int) (den : Nat) (h : 0 < den) : 2 * (lround num den * den - num).natAbs ≤ den := by
  unfold lround
  have key : ∀ a : Nat, ∃ q : Nat, (2 * a + den) / (2 * den) = q ∧ 2 * (den * q) ≤ 2 * a + den ∧ 2 * a + den < 2 * (den * q) + 2 * den := by
    intro a
    refine ⟨_, rfl, ?_, ?_⟩
    · have := Nat.div_mul_le_self (2 * a + den) (2 * den)
      rw [Nat.mul_comm, Nat.mul_assoc] at this
      exact this
    · have := Nat.lt_mul_div_succ (2 * a + den) (by omega : 0 < 2 * den)
      rw [Nat.mul_add, Nat.mul_assoc] at this
      omega
  split
  · obtain ⟨q, h1, h2, h3⟩ := key num.toNat
    rw [h1]
    have e : ((q : Int) * (den : Int)) = ((den * q : Nat) : Int) := by rw [Nat.mul_comm]; push_cast; rfl
    rw [e]
    generalize den * q = x at h2 h3
    omega
  · obtain ⟨q, h1, h2, h3⟩ := key (-num).toNat
    rw [h1]
    have e : (-(q : Int) * (den : Int)) = -((den * q : Nat) : Int) := by rw [Nat.mul_comm, Int.neg_mul]; push_cast; rfl
    rw [e]
    generalize den * q = x at h2 h3
    omega

theorem lround_mono (den : Nat) {a b : Int} (h : a ≤ b) : lround a den ≤ lround b den := by
  unfold lround
  split
  · rw [if_pos (by omega)]
    have := Nat.div_le_div_right (c := 2 * den) (show 2 * a.toNat + den ≤ 2 * b.toNat + den by omega)
    omega
  · split
    · have h1 := Nat.zero_le ((2 * (-a).toNat + den) / (2 * den))
      have h2 := Nat.zero_le ((2 * b.toNat + den) / (2 * den))
      omega
    · have := Nat.div_le_div_right (c := 2 * den) (show 2 * (-b).toNat + den ≤ 2 * (-a).toNat + den by omega)
      omega

theorem lround_bound (num : Int) (den : Nat) (h : 0 < den) (h1 : -(den : Int) < num) (h2 : num ≤ den) : -32767 ≤ lround (num * 32767) den ∧ lround (num * 32767) den ≤ 32767 := by
  have a := lround_mono den (show num * 32767 ≤ (den : Int) * 32767 by omega)
  have b := lround_mono den (show (-(den : Int)) * 32767 ≤ num * 32767 by omega)
  have e1 : lround ((den : Int) * 32767) den = 32767 := by
    unfold lround
    rw [if_pos (by omega), show ((den : Int) * 32767).toNat = den * 32767 by omega, show 2 * (den * 32767) + den = den + 32767 * (2 * den) by omega, Nat.add_mul_div_right _ _ (by omega),
      Nat.div_eq_of_lt (by omega)]
    rfl
  have e2 : lround (-(den : Int) * 32767) den = -32767 := by
    unfold lround
    rw [if_neg (by omega), show (-(-(den : Int) * 32767)).toNat = den * 32767 by omega, show 2 * (den * 32767) + den = den + 32767 * (2 * den) by omega, Nat.add_mul_div_right _ _ (by omega),
      Nat.div_eq_of_lt (by omega)]
    rfl
  omega

theorem toI16_near (num : Int) (den : Nat) (h : 0 < den) (h1 : -(den : Int) < num) (h2 : num ≤ den) : Nearest (toI16 num den) num den ∧ -32767 ≤ toI16 num den ∧ toI16 num den ≤ 32767 := by
  have hb := lround_bound num den h h1 h2
  have e : toI16 num den = lround (num * 32767) den := by
    unfold toI16
    dsimp only
    rw [show max (-(den : Int)) (min num den) = num by omega, if_neg (by omega)]
    omega
  rw [e]
  exact ⟨lround_near _ den h, hb⟩

theorem toI16_low (num : Int) (den : Nat) (h1 : num ≤ -(den : Int)) : toI16 num den = -32768 := by
  unfold toI16
  dsimp only
  rw [if_pos (by omega)]

theorem toI16_high (num : Int) (den : Nat) (h : 0 < den) (h1 : (den : Int) ≤ num) : toI16 num den = 32767 := by
  have e : toI16 num den = toI16 den den := by
    unfold toI16
    dsimp only
    rw [show max (-(den : Int)) (min num den) = den by omega, show max (-(den : Int)) (min (den : Int) den) = den by omega]
  have hb := toI16_near den den h (by omega) (by omega)
  rw [e]
  unfold toI16 at *
  dsimp only at *
  rw [show max (-(den : Int)) (min (den : Int) den) = den by omega, if_neg (by omega)] at *
  have e1 : lround ((den : Int) * 32767) den = 32767 := by
    unfold lround
    rw [if_pos (by omega), show ((den : Int) * 32767).toNat = den * 32767 by omega, show 2 * (den * 32767) + den = den + 32767 * (2 * den) by omega, Nat.add_mul_div_right _ _ (by omega),
      Nat.div_eq_of_lt (by omega)]
    rfl
  rw [e1]
  rfl

theorem toI16_mono (den : Nat) (h : 0 < den) {a b : Int} (hab : a ≤ b) : toI16 a den ≤ toI16 b den := by
  by_cases h1 : a ≤ -(den : Int)
  · rw [toI16_low a den h1]
    by_cases h2 : b ≤ -(den : Int)
    · rw [toI16_low b den h2]; omega
    · by_cases h3 : b ≤ den
      · have := toI16_near b den h (by omega) h3
        omega
      · rw [toI16_high b den h (by omega)]; omega
  · by_cases h3 : b ≤ den
    · unfold toI16
      dsimp only
      rw [show max (-(den : Int)) (min a den) = a by omega, show max (-(den : Int)) (min b den) = b by omega, if_neg (by omega), if_neg (by omega)]
      have := lround_mono den (show a * 32767 ≤ b * 32767 by omega)
      omega
    · rw [toI16_high b den h (by omega)]
      by_cases h4 : a ≤ den
      · have := toI16_near a den h (by omega) h4
        omega
      · rw [toI16_high a den h (by omega)]; omega

theorem signed_mod (n : Nat) (hn : 1 ≤ n) (v : Int) (h1 : -(2 ^ (n - 1) : Int) ≤ v) (h2 : v < 2 ^ (n - 1)) : signed n (v % 2 ^ n).toNat = v := by
  have e : (2 : Int) ^ n = 2 * 2 ^ (n - 1) := by rw [← Int.pow_succ', Nat.sub_add_cancel hn]
  have en : (2 : Nat) ^ (n - 1) = ((2 : Int) ^ (n - 1)).toNat := by
    have : ((2 ^ (n - 1) : Nat) : Int) = (2 : Int) ^ (n - 1) := by push_cast; rfl
    omega
  unfold signed
  rw [en, e]
  generalize (2 : Int) ^ (n - 1) = p at *
  by_cases hv : 0 ≤ v
  · rw [Int.emod_eq_of_lt hv (by omega), if_pos (by omega)]
    omega
  · have : v % (2 * p) = v + 2 * p := by
      rw [← Int.add_emod_right, Int.emod_eq_of_lt (by omega) (by omega)]
    rw [this, if_neg (by omega)]
    omega

theorem encode_length (bits : Nat) (v : Int) (hb : bits ∈ [8, 16, 24, 32]) : (encode bits v).length = bits / 8 := by
  unfold encode
  split
  · simp_all
  · simp

theorem pcm_encode {f : Fmt} (hb : f.bits ∈ [8, 16, 24, 32]) (v : Int) (h1 : -(full f.bits : Int) ≤ v) (h2 : v < full f.bits) : pcm f (encode f.bits v) = (v, full f.bits) := by
  simp only [List.mem_cons, List.not_mem_nil, or_false] at hb
  unfold pcm encode full at *
  rcases hb with hb | hb | hb | hb <;> rw [hb] at h1 h2 ⊢
  · rw [if_pos rfl, if_pos rfl, List.take_of_length_le (by simp), leNat_le]
    simp only [Nat.reduceSub, Nat.reducePow] at *
    congr 1
    omega
  · rw [if_neg (by decide), if_pos rfl, if_neg (by decide), List.take_of_length_le (by simp), leNat_le, Nat.mod_eq_of_lt (by simp only [Nat.reduceDiv, Nat.reducePow, Int.reducePow]; omega), signed_mod 16 (by decide) v (by simpa using h1) (by simpa using h2)]
  · rw [if_neg (by decide), if_neg (by decide), if_pos rfl, if_neg (by decide), List.take_of_length_le (by simp), leNat_le, Nat.mod_eq_of_lt (by simp only [Nat.reduceDiv, Nat.reducePow, Int.reducePow]; omega), signed_mod 24 (by decide) v (by simpa using h1) (by simpa using h2)]
  · rw [if_neg (by decide), if_neg (by decide), if_neg (by decide), if_pos rfl, if_neg (by decide), List.take_of_length_le (by simp), leNat_le, Nat.mod_eq_of_lt (by simp only [Nat.reduceDiv, Nat.reducePow, Int.reducePow]; omega), signed_mod 32 (by decide) v (by simpa using h1) (by simpa using h2)]

/-! ## properties -/

/-- All bytes are the encoding of a number, so the theorems below say what becomes of any sample. -/
theorem encode_onto (bits : Nat) (hb : bits ∈ [8, 16, 24, 32]) (b : List Byte) (hl : b.length = bits / 8) : ∃ v : Int, -(full bits : Int) ≤ v ∧ v < full bits ∧ encode bits v = b := by
  have hlt := leNat_lt b
  simp only [List.mem_cons, List.not_mem_nil, or_false] at hb
  have hwide : ∀ w, 1 ≤ w → b.length = w → bits = 8 * w → bits ≠ 8 → ∃ v : Int, -(full bits : Int) ≤ v ∧ v < full bits ∧ encode bits v = b := by
    intro w hw hlw hbw hne
    have e : (256 : Nat) ^ w = 2 * 2 ^ (bits - 1) := by
      rw [← Nat.pow_succ', show (bits - 1).succ = 8 * w by omega, Nat.pow_mul]
    have ei : (2 : Int) ^ bits = 2 * ((2 ^ (bits - 1) : Nat) : Int) := by
      push_cast
      rw [← Int.pow_succ', Nat.sub_add_cancel (by omega)]
    rw [hlw, e] at hlt
    have hb8 : bits / 8 = w := by omega
    have hfin : ∀ v : Int, (v % 2 ^ bits).toNat = leNat b → encode bits v = b := by
      intro v hv
      unfold encode
      rw [if_neg hne, hv, hb8, ← hlw, le_leNat]
    unfold full
    rw [ei] at hfin
    generalize 2 ^ (bits - 1) = p at *
    by_cases hp : leNat b < p
    · exact ⟨leNat b, by omega, by omega, hfin _ (by rw [Int.emod_eq_of_lt (by omega) (by omega)]; rfl)⟩
    · refine ⟨(leNat b : Int) - 2 * p, by omega, by omega, hfin _ ?_⟩
      rw [Int.sub_emod_right, Int.emod_eq_of_lt (by omega) (by omega)]
      rfl
  rcases hb with rfl | rfl | rfl | rfl
  · refine ⟨(leNat b : Int) - 128, by unfold full; omega, ?_, ?_⟩
    · rw [hl] at hlt
      unfold full
      simp at hlt ⊢
      omega
    · unfold encode
      rw [if_pos rfl, show ((leNat b : Int) - 128 + 128).toNat = leNat b by omega, ← show b.length = 1 from hl, le_leNat]
  · exact hwide 2 (by omega) hl rfl (by omega)
  · exact hwide 3 (by omega) hl rfl (by omega)
  · exact hwide 4 (by omega) hl rfl (by omega)

/-- **C98, whole numbers to `std::int16_t`.** 16 bits are kept as they are. Otherwise the smallest number becomes -32768, and any other the number next to its share of full scale times 32767; so the order of
samples is kept and nothing overflows. -/
theorem convert_i16 {f : Fmt} (ht : f.tag = 1) (hb : f.bits ∈ [8, 16, 24, 32]) (v : Int) (h1 : -(full f.bits : Int) ≤ v) (h2 : v < full f.bits) :
    ∃ w, decode .i16 f (encode f.bits v) = .i16 w ∧ -32768 ≤ w ∧ w ≤ 32767 ∧ (f.bits = 16 → w = v) ∧
      (f.bits ≠ 16 → (v = -(full f.bits : Int) → w = -32768) ∧ (v ≠ -(full f.bits : Int) → Nearest w v (full f.bits))) := by
  have hf : 0 < full f.bits := Nat.pow_pos (by decide)
  by_cases h16 : f.bits = 16
  · refine ⟨v, ?_, ?_, ?_, fun _ => rfl, fun h => absurd h16 h⟩
    · have := pcm_encode hb v h1 h2
      unfold decode
      rw [if_pos ⟨rfl, ht, h16⟩]
      unfold pcm at this
      rw [if_neg (by omega), if_pos h16] at this
      rw [(Prod.mk.inj this).1]
    · rw [h16] at h1; simp [full] at h1; exact h1
    · rw [h16] at h2; simp [full] at h2; omega
  · refine ⟨toI16 v (full f.bits), ?_, ?_⟩
    · unfold decode
      rw [if_neg (by simp [h16]), if_neg (by omega), pcm_encode hb v h1 h2]
    · by_cases hlow : v = -(full f.bits : Int)
      · have := toI16_low v (full f.bits) (by omega)
        exact ⟨by omega, by omega, fun h => absurd h h16, fun _ => ⟨fun _ => this, fun h => absurd hlow h⟩⟩
      · have := toI16_near v (full f.bits) hf (by omega) (by omega)
        exact ⟨by omega, by omega, fun h => absurd h h16, fun _ => ⟨fun h => absurd h hlow, fun _ => this.1⟩⟩

theorem convert_i16_mono {f : Fmt} (ht : f.tag = 1) (hb : f.bits ∈ [8, 16, 24, 32]) (v v' : Int) (h1 : -(full f.bits : Int) ≤ v) (h2 : v ≤ v') (h3 : v' < full f.bits) (w w' : Int)
    (e : decode .i16 f (encode f.bits v) = .i16 w) (e' : decode .i16 f (encode f.bits v') = .i16 w') : w ≤ w' := by
  by_cases h16 : f.bits = 16
  · obtain ⟨x, hx, _, _, hx2, _⟩ := convert_i16 ht hb v h1 (by omega)
    obtain ⟨y, hy, _, _, hy2, _⟩ := convert_i16 ht hb v' (by omega) h3
    rw [e] at hx
    rw [e'] at hy
    cases hx; cases hy
    have := hx2 h16
    have := hy2 h16
    omega
  · unfold decode at e e'
    rw [if_neg (by simp [h16]), if_neg (by omega), pcm_encode hb _ (by omega) (by omega)] at e e'
    cases e; cases e'
    exact toI16_mono _ (Nat.pow_pos (by decide)) h2

/-- **C98, whole numbers to `float`.** The share of full scale, which is at least -1 and less than 1. -/
theorem convert_f32 {f : Fmt} (ht : f.tag = 1) (hb : f.bits ∈ [8, 16, 24, 32]) (v : Int) (h1 : -(full f.bits : Int) ≤ v) (h2 : v < full f.bits) :
    decode .f32 f (encode f.bits v) = .ratio v (full f.bits) := by
  unfold decode
  rw [if_neg (by simp), if_neg (by omega), pcm_encode hb v h1 h2]
  dsimp only
  rw [show max (-(full f.bits : Int)) (min v (full f.bits)) = v by omega]

/-- **C98, `float` to `float`.** Numbers between -1 and 1 are kept bit by bit, larger ones become 1 or -1, and a NaN stays what it is. -/
theorem convert_float {f : Fmt} (ht : f.tag = 3) (x : Nat) (hx : x < 2 ^ 32) :
    decode .f32 f (le 4 x) = .f32 (if f32Nan x then x else if 2 ^ 149 < f32Num x then 0x3F800000 else if f32Num x < -2 ^ 149 then 0xBF800000 else x) := by
  unfold decode
  rw [if_neg (by simp), if_pos ht, List.take_of_length_le (by simp), le_at 4 x hx]
  dsimp only
  congr 1
  unfold clampF32
  by_cases h1 : f32Nan x = true
  · rw [if_pos h1, if_pos h1]
  · rw [if_neg h1, if_neg h1]
    by_cases h2 : f32Num x < -2 ^ 149
    · rw [if_pos h2, if_neg (by omega), if_pos h2]
    · rw [if_neg h2, if_neg h2]

/-- **C98, `float` to `std::int16_t`.** Numbers up to -1 become -32768, those from 1 on 32767, and others the number next to 32767 times them. For a NaN the result is not specified. -/
theorem convert_float_i16 {f : Fmt} (ht : f.tag = 3) (x : Nat) (hx : x < 2 ^ 32) :
    (f32Nan x = true → decode .i16 f (le 4 x) = .unspecified) ∧
    (f32Nan x = false → ∃ w, decode .i16 f (le 4 x) = .i16 w ∧ -32768 ≤ w ∧ w ≤ 32767 ∧ (f32Num x ≤ -2 ^ 149 → w = -32768) ∧ (2 ^ 149 ≤ f32Num x → w = 32767) ∧
      (-2 ^ 149 < f32Num x → f32Num x < 2 ^ 149 → Nearest w (f32Num x) (2 ^ 149))) := by
  have e : decode .i16 f (le 4 x) = if f32Nan x then .unspecified else .i16 (toI16 (f32Num x) (2 ^ 149)) := by
    unfold decode
    rw [if_neg (by omega), if_pos ht, List.take_of_length_le (by simp), le_at 4 x hx]
  rw [e]
  refine ⟨fun h => by rw [if_pos h], fun h => ?_⟩
  rw [if_neg (by simp [h])]
  have hp : 0 < 2 ^ 149 := by decide
  have ep : ((2 ^ 149 : Nat) : Int) = 2 ^ 149 := by decide
  refine ⟨_, rfl, ?_⟩
  by_cases h1 : f32Num x ≤ -2 ^ 149
  · have := toI16_low (f32Num x) (2 ^ 149) (by rw [ep]; exact h1)
    exact ⟨by omega, by omega, fun _ => this, by omega, by omega⟩
  · by_cases h2 : 2 ^ 149 ≤ f32Num x
    · have := toI16_high (f32Num x) (2 ^ 149) hp (by rw [ep]; exact h2)
      exact ⟨by omega, by omega, by omega, fun _ => this, by omega⟩
    · have := toI16_near (f32Num x) (2 ^ 149) hp (by rw [ep]; omega) (by rw [ep]; omega)
      exact ⟨by omega, by omega, by omega, by omega, fun _ _ => this.1⟩

example : [0, 1, 127, 128, 129, 255].map (fun x => decode .i16 ⟨1, 1, 8000, 1, 8⟩ (le 1 x)) =
    [.i16 (-32768), .i16 (-32511), .i16 (-256), .i16 0, .i16 256, .i16 32511] := by decide +kernel
example : decode .i16 ⟨1, 1, 8000, 4, 32⟩ (encode 32 (-2147483647)) = .i16 (-32767) := by decide +kernel
example : decode .f32 ⟨1, 1, 8000, 3, 24⟩ (encode 24 (-5)) = .ratio (-5) 8388608 := by decide +kernel
/-- 1.5, -2, 0.5 and an infinity -/
example : [0x3FC00000, 0xC0000000, 0x3F000000, 0x7F800000].map (fun x => decode .f32 ⟨3, 1, 8000, 4, 32⟩ (le 4 x)) =
    [.f32 0x3F800000, .f32 0xBF800000, .f32 0x3F000000, .f32 0x3F800000] := by decide +kernel
example : [0x3FC00000, 0xC0000000, 0x3F000000, 0x7FC00000].map (fun x => decode .i16 ⟨3, 1, 8000, 4, 32⟩ (le 4 x)) =
    [.i16 32767, .i16 (-32768), .i16 16384, .unspecified] := by decide +kernel

end Verif.Wav
