import Verif.Deflate.RoundLemmas
/-!
# Compressed files made of several members

What several calls of `compress` with the gzip format give, one after the other in one file, is
decompressed to the data one after the other.
-/
namespace Verif.Deflate
open Verif.Bytes (Byte)
open Verif

/-- One member in the middle of the input. -/
theorem gzipMember_at {W W' : Nat} {data body before after X : List Byte} {level : Level} {cap hb : Nat}
    (h : ∀ trailer : List Byte, decodeDeflate (body ++ trailer) (⟨X, cap, hb⟩ : Span) = .ok (body.length, ⟨X ++ data, cap, X.length⟩)) :
    gzipMember W' (before ++ (headBytes .gzip level ++ body ++ tailBytes W data .gzip) ++ after) before.length (⟨X, cap, hb⟩ : Span) =
      .ok (before.length + (headBytes .gzip level ++ body ++ tailBytes W data .gzip).length, ⟨X ++ data, cap, X.length⟩) := by
  have hcrc : computeCrc32 W data % 2 ^ 32 = computeCrc32 W data := Nat.mod_eq_of_lt (Crc.compute .ieee W data).isLt
  have htl : (tailBytes W data .gzip).length = 8 := tailBytes_length W data .gzip
  have hhl : (headBytes .gzip level).length = 10 := headBytes_length .gzip level
  have hml : (headBytes .gzip level ++ body ++ tailBytes W data .gzip).length = 10 + body.length + 8 := by
    rw [List.length_append, List.length_append, hhl, htl]
  have hs1 := slice_append (before ++ headBytes .gzip level ++ body) (Bytes.le 4 (computeCrc32 W data)) (Bytes.le 4 data.length ++ after)
  have hs2 := slice_append (before ++ headBytes .gzip level ++ body ++ Bytes.le 4 (computeCrc32 W data)) (Bytes.le 4 data.length) after
  have l1 : (before ++ headBytes .gzip level ++ body).length = before.length + 10 + body.length := by
    rw [List.length_append, List.length_append, hhl]
  have l2 : (before ++ headBytes .gzip level ++ body ++ Bytes.le 4 (computeCrc32 W data)).length = before.length + 10 + body.length + 4 := by
    rw [List.length_append, l1, Bytes.le_length]
  rw [l1, Bytes.le_length] at hs1
  rw [l2, Bytes.le_length] at hs2
  have e1 : before ++ (headBytes .gzip level ++ body ++ tailBytes W data .gzip) ++ after =
      before ++ headBytes .gzip level ++ body ++ Bytes.le 4 (computeCrc32 W data) ++ (Bytes.le 4 data.length ++ after) := by
    simp only [tailBytes, List.append_assoc]
  have e2 : before ++ (headBytes .gzip level ++ body ++ tailBytes W data .gzip) ++ after =
      before ++ headBytes .gzip level ++ body ++ Bytes.le 4 (computeCrc32 W data) ++ Bytes.le 4 data.length ++ after := by
    simp only [tailBytes, List.append_assoc]
  rw [← e1] at hs1
  rw [← e2] at hs2
  have hr1 : readLittle 4 (before ++ (headBytes .gzip level ++ body ++ tailBytes W data .gzip) ++ after) (before.length + 10 + body.length) = .ok (computeCrc32 W data) := by
    simp only [readLittle, hs1]
    rw [Bytes.leNat_le, hcrc]
  have hr2 : readLittle 4 (before ++ (headBytes .gzip level ++ body ++ tailBytes W data .gzip) ++ after) (before.length + 10 + body.length + 4) = .ok (data.length % 2 ^ 32) := by
    simp only [readLittle, hs2]
    rw [Bytes.leNat_le]
  have hdrop : (before ++ (headBytes .gzip level ++ body ++ tailBytes W data .gzip) ++ after).drop (before.length + 10) = body ++ (tailBytes W data .gzip ++ after) := by
    rw [show before ++ (headBytes .gzip level ++ body ++ tailBytes W data .gzip) ++ after =
        (before ++ headBytes .gzip level) ++ (body ++ (tailBytes W data .gzip ++ after)) by simp only [List.append_assoc],
      ← hhl, ← List.length_append, List.drop_left]
  have hg : ∀ i, i < 10 → (before ++ (headBytes .gzip level ++ body ++ tailBytes W data .gzip) ++ after)[before.length + i]? = (headBytes .gzip level)[i]? := fun i hi => by
    rw [List.append_assoc, List.getElem?_append_right (by omega), Nat.add_sub_cancel_left, List.append_assoc, List.append_assoc,
      List.getElem?_append_left (by rw [hhl]; exact hi)]
  have hlen : (before ++ (headBytes .gzip level ++ body ++ tailBytes W data .gzip) ++ after).length = before.length + (10 + body.length + 8) + after.length := by
    rw [List.length_append, List.length_append, hml]
  rw [hml]
  generalize before ++ (headBytes .gzip level ++ body ++ tailBytes W data .gzip) ++ after = input at *
  have hhead : gzipMemberHeader W' input before.length = .ok (before.length + 10) := by
    unfold gzipMemberHeader
    have g0 : input[before.length]? = some 0x1f#8 := by rw [← Nat.add_zero before.length, hg 0 (by decide)]; cases level <;> rfl
    have g1 : input[before.length + 1]? = some 0x8b#8 := by rw [hg 1 (by decide)]; cases level <;> rfl
    have g2 : input[before.length + 2]? = some 0x08#8 := by rw [hg 2 (by decide)]; cases level <;> rfl
    have g3 : (input.getD (before.length + 3) 0) = 0#8 := by rw [List.getD_eq_getElem?_getD, hg 3 (by decide)]; cases level <;> rfl
    rw [if_neg (by omega), if_neg (by rw [g0, g1]; simp), if_neg (by omega), if_neg (by rw [g2]; simp), g3]
    rfl
  unfold gzipMember
  rw [hhead]
  dsimp only
  rw [hdrop, h]
  dsimp only
  rw [if_neg (by omega), hr1]
  dsimp only
  rw [if_neg (by
    simp only [Output.range, Output.size, List.drop_left, Option.any_some, computeCrc32_eq W' W]
    simp), hr2]
  dsimp only
  rw [if_neg (by simp [Output.size])]
  simp only [Except.ok.injEq, Prod.mk.injEq, and_true]
  omega

/-- What compressing each of the given data with gzip gives, one after the other. -/
def MemberFile (W : Nat) : List (List Byte) → List Byte → Prop
  | [], file => file = []
  | data :: more, file => ∃ level z rest, compress W data .gzip level = .ok z ∧ file = z ++ rest ∧ MemberFile W more rest

theorem gzipGo_members_at (W W' : Nat) (cap : Nat) : ∀ (datas : List (List Byte)) (before file X : List Byte) (hb n : Nat),
    MemberFile W datas file → (∀ d ∈ datas, d.length < 2 ^ 32) → X.length + datas.flatten.length ≤ cap → file.length < n →
    ∃ hb', gzipGo W' (before ++ file) n before.length (⟨X, cap, hb⟩ : Span) =
      .ok ((X ++ datas.flatten).length, ⟨X ++ datas.flatten, cap, hb'⟩)
  | [], before, file, X, hb, n, hm, _, _, hn => by
    cases hm
    obtain ⟨n, rfl⟩ : ∃ m, n = m + 1 := ⟨n - 1, by omega⟩
    refine ⟨hb, ?_⟩
    rw [gzipGo, if_neg (by simp)]
    simp [Output.size]
  | data :: more, before, file, X, hb, n, hm, hl, hc, hn => by
    obtain ⟨level, z, rest, hz, rfl, hr⟩ := hm
    obtain ⟨body, h1, h2⟩ := compress_bytes W data .gzip level (hl data (List.mem_cons_self ..))
    rw [h1] at hz
    cases hz
    obtain ⟨n, rfl⟩ : ∃ m, n = m + 1 := ⟨n - 1, by omega⟩
    simp only [List.flatten_cons, List.length_append] at hc
    have hmem := gzipMember_at (W := W) (W' := W') (before := before) (after := rest) (level := level) (X := X) (cap := cap) (hb := hb)
      (fun t => h2 X t cap hb (by omega))
    have hpos : 0 < (headBytes .gzip level ++ body ++ tailBytes W data .gzip).length := by
      rw [List.length_append, tailBytes_length]; exact Nat.lt_of_lt_of_le (by decide : 0 < 8) (Nat.le_add_left ..)
    generalize headBytes .gzip level ++ body ++ tailBytes W data .gzip = z at *
    obtain ⟨hb', ih⟩ := gzipGo_members_at W W' cap more (before ++ z) rest (X ++ data) X.length n hr
      (fun d hd => hl d (List.mem_cons_of_mem _ hd)) (by rw [List.length_append]; omega) (by rw [List.length_append] at hn; omega)
    refine ⟨hb', ?_⟩
    rw [gzipGo, if_pos (by simp only [List.length_append]; omega), ← List.append_assoc, hmem]
    dsimp only
    rw [List.length_append] at ih
    rw [ih]
    simp only [List.flatten_cons, List.append_assoc]

/-- Several compressed byte strings in one file are restored one after the other. -/
theorem members_decompress (W W' : Nat) (datas : List (List Byte)) (file : List Byte) (capacity : Nat) (hm : MemberFile W datas file)
    (hne : datas ≠ []) (hl : ∀ d ∈ datas, d.length < 2 ^ 32) (hc : datas.flatten.length ≤ capacity) :
    file ≠ [] ∧ decompressSpan W' file capacity .gzip = .ok (datas.flatten.length, datas.flatten) := by
  have hf : file ≠ [] := by
    match datas, hm, hne with
    | data :: more, hm, _ =>
      obtain ⟨level, z, rest, hz, rfl, _⟩ := hm
      obtain ⟨body, h1, _⟩ := compress_bytes W data .gzip level (hl data (List.mem_cons_self ..))
      rw [h1] at hz
      cases hz
      intro he
      have := congrArg List.length he
      simp only [List.length_append, tailBytes_length W data .gzip, headBytes_length] at this
      simp at this
  refine ⟨hf, ?_⟩
  obtain ⟨hb, h⟩ := gzipGo_members_at W W' capacity datas [] file [] 0 (file.length + 1) hm hl (by simpa using hc) (Nat.lt_succ_self _)
  simp only [List.nil_append, List.length_nil] at h
  rw [decompressSpan]
  dsimp only [decompressInto]
  rw [decodeGzip, if_neg hf, h]

end Verif.Deflate
