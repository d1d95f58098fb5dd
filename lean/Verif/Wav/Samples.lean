import Verif.Wav.Spec
/-! Lemmas about taking samples from bytes. -/
namespace Verif.Wav
open Verif.Bytes (Byte le leNat)

theorem samples_length (k : Kind) (f : Fmt) (A : List Byte) : (samples k f A).length = A.length / f.width := by simp [samples]

theorem samples_nil (k : Kind) (f : Fmt) : samples k f [] = [] := by simp [samples]

theorem samples_append (k : Kind) (f : Fmt) {A B : List Byte} (n : Nat) (h : A.length = n * f.width) (hw : 0 < f.width) :
    samples k f (A ++ B) = samples k f A ++ samples k f B := by
  unfold samples
  rw [List.length_append, h, Nat.mul_comm n, Nat.mul_add_div hw, Nat.mul_div_cancel_left _ hw, List.range_add, List.map_append, List.map_map]
  congr 1
  · apply List.map_congr_left
    intro i hi
    have hi := List.mem_range.1 hi
    have h1 : (i + 1) * f.width ≤ A.length := by rw [h]; exact Nat.mul_le_mul_right _ hi
    rw [Nat.succ_mul] at h1
    rw [List.drop_append_of_le_length (by omega), List.take_append_of_le_length (by rw [List.length_drop]; omega)]
  · apply List.map_congr_left
    intro i _
    show decode k f (List.take f.width (List.drop ((n + i) * f.width) (A ++ B))) = _
    rw [Nat.add_mul, List.drop_append, List.drop_eq_nil_of_le (by omega), List.nil_append, h, Nat.add_sub_cancel_left]

theorem samples_one (k : Kind) (f : Fmt) {A : List Byte} (h : A.length = f.width) (hw : 0 < f.width) : samples k f A = [decode k f A] := by
  unfold samples
  rw [h, Nat.div_self hw]
  simp only [List.range_one, List.map_cons, List.map_nil, Nat.zero_mul, List.drop_zero]
  rw [← h, List.take_length]

/-- What `decodeChunk` does. -/
structure Decoded (k : Kind) (f : Fmt) (part b : List Byte) (room : Nat) (r : List Out × Nat × List Byte) : Prop where
  pos : 0 < r.2.1
  le : r.2.1 ≤ b.length
  fits : r.1.length ≤ room
  short : r.2.2.length < f.width
  eq : ∃ X, part ++ b.take r.2.1 = X ++ r.2.2 ∧ X.length = r.1.length * f.width ∧ r.1 = samples k f X
  keep : r.2.2 ≠ [] → r.2.1 = b.length
  full : r.2.1 < b.length → r.1.length = room

theorem decodeChunk_spec (k : Kind) (f : Fmt) {part b : List Byte} {room : Nat} (hb : b ≠ []) (hr : 0 < room) (hw : 0 < f.width) (hp : part.length < f.width) :
    Decoded k f part b room (decodeChunk k f part b room) := by
  have hbl := List.length_pos_iff.2 hb
  unfold decodeChunk
  rw [if_neg (by simp only [hb, false_or]; omega)]
  dsimp only
  generalize htake : (if part = [] then 0 else min (f.width - part.length) b.length) = take
  have htk : take ≤ b.length := by rw [← htake]; split <;> omega
  by_cases hc : part ≠ [] ∧ (part ++ b.take take).length ≠ f.width
  · rw [if_pos hc]
    rw [if_neg hc.1] at htake
    have hlen : (part ++ b.take take).length = part.length + take := by rw [List.length_append, List.length_take]; omega
    have h2 := hc.2
    rw [hlen] at h2
    exact ⟨by dsimp only; omega, htk, Nat.zero_le _, by dsimp only; omega, ⟨[], rfl, by simp, (samples_nil k f).symm⟩, fun _ => by dsimp only; omega, fun h => by dsimp only at h; omega⟩
  · rw [if_neg hc]
    generalize hdone : (if part = [] then [] else [decode k f (part ++ b.take take)]) = done
    generalize hn : min (room - done.length) ((b.length - take) / f.width) = n
    have hdone1 : done.length ≤ 1 := by rw [← hdone]; split <;> simp
    have hpart : part = [] → take = 0 := fun h => by rw [← htake, if_pos h]
    have hfirst : part ≠ [] → (part ++ b.take take).length = f.width := fun h => Classical.byContradiction fun h' => hc ⟨h, h'⟩
    have hX : (part ++ b.take take).length = done.length * f.width ∧ done = samples k f (part ++ b.take take) := by
      by_cases h : part = []
      · rw [if_pos h] at hdone
        rw [← hdone, hpart h, h]
        simp [samples_nil]
      · rw [if_neg h] at hdone
        rw [← hdone]
        exact ⟨by rw [hfirst h]; simp, (samples_one k f (hfirst h) hw).symm⟩
    have hnle : n * f.width ≤ b.length - take := by
      have : n ≤ (b.length - take) / f.width := by omega
      exact Nat.le_trans (Nat.mul_le_mul_right _ this) (Nat.div_mul_le_self _ _)
    have hmore : (List.range n).map (fun i => decode k f ((b.drop (take + i * f.width)).take f.width)) = samples k f ((b.drop take).take (n * f.width)) := by
      unfold samples
      rw [List.length_take, List.length_drop, Nat.min_eq_left hnle, Nat.mul_div_cancel _ hw]
      apply List.map_congr_left
      intro i hi
      have hi := List.mem_range.1 hi
      have h1 : (i + 1) * f.width ≤ n * f.width := Nat.mul_le_mul_right _ hi
      rw [Nat.succ_mul] at h1
      rw [List.drop_take, List.take_take, List.drop_drop, Nat.min_eq_left (by omega)]
    have hroom : done.length + n ≤ room := by omega
    have heq : ∀ m, take + n * f.width ≤ m → part ++ b.take m = (part ++ b.take take ++ (b.drop take).take (n * f.width)) ++ (b.drop (take + n * f.width)).take (m - (take + n * f.width)) := by
      intro m hm
      have h1 : b.take m = b.take take ++ (b.drop take).take (m - take) := by
        rw [← List.take_add]
        congr 1
        omega
      have h2 : (b.drop take).take (m - take) = (b.drop take).take (n * f.width) ++ (b.drop (take + n * f.width)).take (m - (take + n * f.width)) := by
        rw [← List.drop_drop, ← List.take_add]
        congr 1
        omega
      rw [h1, h2]
      simp only [List.append_assoc]
    have hXl : (part ++ b.take take ++ (b.drop take).take (n * f.width)).length = (done.length + n) * f.width := by
      rw [List.length_append, hX.1, List.length_take, List.length_drop, Nat.min_eq_left hnle, Nat.add_mul]
    have hXs : done ++ samples k f ((b.drop take).take (n * f.width)) = samples k f (part ++ b.take take ++ (b.drop take).take (n * f.width)) := by
      rw [samples_append k f done.length hX.1 hw, ← hX.2]
    have hsl : (done ++ (List.range n).map (fun i => decode k f ((b.drop (take + i * f.width)).take f.width))).length = done.length + n := by simp
    have hpospos : part ≠ [] → 0 < take := by
      intro h
      rw [if_neg h] at htake
      omega
    split
    · rename_i hl
      refine ⟨hbl, Nat.le_refl _, by rw [hsl]; exact hroom, by simp only [List.length_drop]; omega, ⟨_, ?_, by rw [hsl]; exact hXl, by rw [hmore]; exact hXs⟩, fun _ => rfl, fun h => absurd h (Nat.lt_irrefl _)⟩
      dsimp only
      have := heq b.length (by omega)
      rw [this]
      congr 1
      rw [List.take_of_length_le]
      rw [List.length_drop]; omega
    · rename_i hl
      refine ⟨?_, by dsimp only; omega, by rw [hsl]; exact hroom, hw, ⟨_, ?_, by rw [hsl]; exact hXl, by rw [hmore]; exact hXs⟩, fun h => absurd rfl h, ?_⟩
      · dsimp only
        by_cases h : part = []
        · have : 0 < n := by
            apply Classical.byContradiction
            intro h0
            have h0 : n = 0 := by omega
            rw [h0, hpart h] at hl
            have h1 : done.length = 0 := by rw [← hdone, if_pos h]; rfl
            have h2 : b.length / f.width = 0 := by rw [h1, h0, hpart h, Nat.sub_zero] at hn; generalize b.length / f.width = z at *; omega
            have := (Nat.div_eq_zero_iff_lt hw).1 h2
            omega
          have := Nat.mul_pos this hw
          omega
        · have := hpospos h
          omega
      · dsimp only
        have := heq (take + n * f.width) (Nat.le_refl _)
        rw [Nat.sub_self, List.take_zero] at this
        exact this
      · intro h
        dsimp only at h
        rw [hsl]
        have h3 : f.width ≤ b.length - (take + n * f.width) := by omega
        have : n < (b.length - take) / f.width := by
          rw [Nat.lt_iff_add_one_le, Nat.le_div_iff_mul_le hw, Nat.add_mul]
          omega
        omega

end Verif.Wav
