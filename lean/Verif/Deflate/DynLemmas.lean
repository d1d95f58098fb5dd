import Verif.Deflate.HeaderLemmas
/-! # Lemmas on dynamic and fixed blocks: what the encoder emits is what the decoder reads -/
namespace Verif.Deflate
open Verif.Bytes (Byte)

/-! ## frequencies -/

theorem bump_length (f : List Nat) (i : Nat) : (bump f i).length = f.length := by simp [bump]

theorem bumps_spec : ∀ (ss : List Nat) (f : List Nat), (ss.foldl bump f).length = f.length ∧
    ∀ s, s < f.length → f.getD s 0 < 2 ^ 32 → (ss.foldl bump f).getD s 0 = (f.getD s 0 + ss.count s) % 2 ^ 32
  | [], f => ⟨rfl, fun s _ hlt => by rw [List.foldl_nil, List.count_nil, Nat.add_zero, Nat.mod_eq_of_lt hlt]⟩
  | i :: ss, f => by
    have ⟨h1, h2⟩ := bumps_spec ss (bump f i)
    rw [bump_length] at h1 h2
    refine ⟨h1, fun s hs hlt => ?_⟩
    rw [List.foldl_cons]
    by_cases h : i = s
    · subst h
      have e : (bump f i).getD i 0 = (f.getD i 0 + 1) % 2 ^ 32 := getD_set_self hs
      rw [h2 i hs (by rw [e]; exact Nat.mod_lt _ (by decide)), e, List.count_cons_self]
      omega
    · have e : (bump f i).getD s 0 = f.getD s 0 := getD_set_ne h
      rw [h2 s hs (by rw [e]; exact hlt), e, List.count_cons_of_ne h]

theorem freq_ne_zero {n : Nat} {ss : List Nat} {s : Nat} (hn : s < n) (hm : s ∈ ss) (hc : ss.count s < 2 ^ 32) :
    (ss.foldl bump (List.replicate n 0)).getD s 0 ≠ 0 := by
  have hg : (List.replicate n 0).getD s 0 = 0 := by
    rw [List.getD_eq_getElem?_getD, List.getElem?_replicate, if_pos hn]; rfl
  have := List.count_pos_iff.2 hm
  rw [(bumps_spec ss _).2 s (by simpa using hn) (by rw [hg]; decide), hg, Nat.zero_add, Nat.mod_eq_of_lt hc]
  omega

/-- the literal or length symbol of a token -/
def Token.lit (t : Token) : Nat := if t.distance = 0 then t.value else (encodeLength t.value).symbol
/-- the distance symbols of a token -/
def Token.dists (t : Token) : List Nat := if t.distance = 0 then [] else [(encodeDistance t.distance).symbol]

theorem literalFreq_eq (ts : List Token) : literalFreq ts = (ts.map Token.lit ++ [256]).foldl bump (List.replicate 286 0) := by
  rw [literalFreq, List.foldl_append, List.foldl_map]
  have : (fun f (t : Token) => if t.distance = 0 then bump f t.value else bump f (encodeLength t.value).symbol) = fun f t => bump f t.lit := by
    funext f t
    simp only [Token.lit]
    by_cases h : t.distance = 0 <;> simp only [h, if_true, if_false]
  rw [this]
  rfl

theorem distanceFreq_eq (ts : List Token) : distanceFreq ts = (ts.flatMap Token.dists).foldl bump (List.replicate 30 0) := by
  rw [distanceFreq]
  generalize List.replicate 30 0 = f
  induction ts generalizing f with
  | nil => rfl
  | cons t ts ih =>
    rw [List.foldl_cons, List.flatMap_cons, List.foldl_append, ← ih]
    by_cases h : t.distance = 0 <;> simp only [h, Token.dists, if_true, if_false, List.foldl_nil, List.foldl_cons]

theorem lit_bounds {t : Token} (h : t.Ok) : t.lit < 286 ∧ t.lit ≠ 256 := by
  simp only [Token.lit]
  by_cases h0 : t.distance = 0
  · rw [if_pos h0]; have := h.literal h0; omega
  · rw [if_neg h0]
    have ⟨a, b, _⟩ := h.length h0
    have := encodeLength_spec a b
    omega

theorem stop_used {ts : List Token} (hok : ∀ t ∈ ts, t.Ok) : (literalFreq ts).getD 256 0 ≠ 0 := by
  rw [literalFreq_eq]
  refine freq_ne_zero (by decide) (by simp) ?_
  rw [List.count_append, List.count_eq_zero_of_not_mem (fun hm => ?_)]
  · decide
  · obtain ⟨t, ht, h⟩ := List.mem_map.1 hm
    exact (lit_bounds (hok t ht)).2 h

theorem literalFreq_used {ts : List Token} (hok : ∀ t ∈ ts, t.Ok) (hlen : ts.length < 2 ^ 32) {s : Nat} (hs : s ∈ ts.map Token.lit ++ [256]) :
    (literalFreq ts).getD s 0 ≠ 0 := by
  rw [literalFreq_eq]
  have hb : ∀ s ∈ ts.map Token.lit, s < 286 ∧ s ≠ 256 := fun s hs => by
    obtain ⟨t, ht, rfl⟩ := List.mem_map.1 hs
    exact lit_bounds (hok t ht)
  have h286 : s < 286 := by
    rcases List.mem_append.1 hs with h | h
    · exact (hb s h).1
    · rw [List.mem_singleton.1 h]; decide
  refine freq_ne_zero h286 hs ?_
  rw [List.count_append]
  by_cases h : s = 256
  · subst h
    rw [List.count_eq_zero_of_not_mem (fun hm => (hb 256 hm).2 rfl)]
    decide
  · have : List.count s [256] = 0 := List.count_eq_zero_of_not_mem (by simpa using h)
    have := List.count_le_length (a := s) (l := ts.map Token.lit)
    rw [List.length_map] at this
    omega

theorem dists_length (ts : List Token) : (ts.flatMap Token.dists).length ≤ ts.length := by
  induction ts with
  | nil => simp
  | cons t ts ih =>
    have : t.dists.length ≤ 1 := by
      simp only [Token.dists]
      by_cases h : t.distance = 0 <;> simp [h]
    rw [List.flatMap_cons, List.length_append, List.length_cons]
    omega

theorem distanceFreq_used {ts : List Token} (hok : ∀ t ∈ ts, t.Ok) (hlen : ts.length < 2 ^ 32) {t : Token} (ht : t ∈ ts) (h0 : t.distance ≠ 0) :
    (distanceFreq ts).getD (encodeDistance t.distance).symbol 0 ≠ 0 := by
  rw [distanceFreq_eq]
  have ⟨_, _, c⟩ := (hok t ht).length h0
  have hs := (encodeDistance_spec (by omega) c).1
  refine freq_ne_zero hs (List.mem_flatMap.2 ⟨t, ht, by simp [Token.dists, h0]⟩) ?_
  have := List.count_le_length (a := (encodeDistance t.distance).symbol) (l := ts.flatMap Token.dists)
  have := dists_length ts
  omega

/-! ## trimming -/

theorem trimmed_spec (l : List Nat) (least : Nat) (h1 : 1 ≤ least) : ∀ n, least ≤ n → least ≤ trimmed l least n ∧ trimmed l least n ≤ n ∧
    ∀ i, trimmed l least n ≤ i → i < n → l.getD i 0 = 0
  | 0, h => by omega
  | n + 1, h => by
    simp only [trimmed]
    by_cases hc : least < n + 1 ∧ l.getD n 0 = 0
    · rw [if_pos hc]
      have ⟨a, b, c⟩ := trimmed_spec l least h1 n (by omega)
      refine ⟨a, by omega, fun i hi hn => ?_⟩
      by_cases e : i = n
      · subst e; exact hc.2
      · exact c i hi (by omega)
    · rw [if_neg hc]
      exact ⟨h, Nat.le_refl _, fun i hi hn => by omega⟩

theorem trimmed_zero {l : List Nat} {least n : Nat} (h1 : 1 ≤ least) (hle : least ≤ n) (hl : l.length = n) (i : Nat) (hi : trimmed l least n ≤ i) :
    l.getD i 0 = 0 := by
  by_cases h : i < n
  · exact (trimmed_spec l least h1 n hle).2.2 i hi h
  · simp [List.getD_eq_getElem?_getD, List.getElem?_eq_none (show l.length ≤ i by omega)]

/-! ## the coding of a block -/

theorem lensOk_length {final : List Nat} : ∀ (ts : List LenToken) (acc : List Nat), LensOk final acc ts →
    acc.length + ts.length ≤ final.length ∧ ∀ t ∈ ts, t.symbol ≤ 18 ∧ t.extraValue < 2 ^ t.extraBits ∧ t.extraBits ≤ 7
  | [], acc, h => by
    have : acc = final := h
    subst this; simp
  | t :: ts, acc, h => by
    rcases h with ⟨hlt, ⟨hs, hx, hv, h⟩ | ⟨hs, hs', v, base, hrep, hv, hx, hfit, h⟩⟩
    · have ⟨a, b⟩ := lensOk_length ts _ h
      simp only [List.length_append, List.length_cons, List.length_nil] at a ⊢
      refine ⟨by omega, fun u hu => ?_⟩
      rcases List.mem_cons.1 hu with rfl | hu
      · rw [hx, hv]; exact ⟨by omega, by decide, by decide⟩
      · exact b u hu
    · have ⟨a, b⟩ := lensOk_length ts _ h
      have hb0 : 1 ≤ base := by
        rw [repeatOf] at hrep
        by_cases e : t.symbol = 16
        · rw [if_pos e] at hrep
          cases hg : acc.getLast? with
          | none => rw [hg] at hrep; cases hrep
          | some x => rw [hg] at hrep; injection hrep with hrep; injection hrep with _ hrep; injection hrep; omega
        · rw [if_neg e] at hrep
          by_cases e2 : t.symbol = 17
          · rw [if_pos e2] at hrep; injection hrep with hrep; injection hrep with _ hrep; injection hrep; omega
          · rw [if_neg e2] at hrep
            by_cases e3 : t.symbol = 18
            · rw [if_pos e3] at hrep; injection hrep with hrep; injection hrep with _ hrep; injection hrep; omega
            · rw [if_neg e3] at hrep; cases hrep
      simp only [List.length_append, List.length_replicate, List.length_cons] at a ⊢
      refine ⟨by omega, fun u hu => ?_⟩
      rcases List.mem_cons.1 hu with rfl | hu
      · exact ⟨by omega, hv, hx⟩
      · exact b u hu

/-- a coding fit for the tokens -/
structure CodingOk (c : Coding) (ts : List Token) (lits dists cl : List Nat) : Prop where
  literals : c.literals = makeCanonicalCodes lits
  distances : c.distances = makeCanonicalCodes dists
  codeLengths : c.codeLengths = makeCanonicalCodes cl
  litLen : lits.length = 286
  distLen : dists.length = 30
  clLen : cl.length = 19
  litC : Complete lits 15
  distC : Complete dists 15
  clC : Complete cl 7
  litUsed : ts.length < 2 ^ 32 → ∀ t ∈ ts, lits.getD t.lit 0 ≠ 0
  stopUsed : lits.getD 256 0 ≠ 0
  distUsed : ts.length < 2 ^ 32 → ∀ t ∈ ts, t.distance ≠ 0 → dists.getD (encodeDistance t.distance).symbol 0 ≠ 0
  clUsed : ∀ t ∈ c.encoded, cl.getD t.symbol 0 ≠ 0
  litCount : 257 ≤ c.literalCount ∧ c.literalCount ≤ 286
  distCount : 1 ≤ c.distanceCount ∧ c.distanceCount ≤ 30
  clCount : 4 ≤ c.codeLengthCount ∧ c.codeLengthCount ≤ 19
  litRest : ∀ i, c.literalCount ≤ i → lits.getD i 0 = 0
  distRest : ∀ i, c.distanceCount ≤ i → dists.getD i 0 = 0
  clRest : ∀ i, c.codeLengthCount ≤ i → (kCodeLengthOrder.map (fun i => cl.getD i 0)).getD i 0 = 0
  encoded : LensOk (lits.take c.literalCount ++ dists.take c.distanceCount) [] c.encoded

theorem makeDynamicCoding_spec {ts : List Token} (hok : ∀ t ∈ ts, t.Ok) :
    ∃ lits dists cl, CodingOk (makeDynamicCoding ts) ts lits dists cl := by
  have hlf : (literalFreq ts).length = 286 := by rw [literalFreq_eq, (bumps_spec _ _).1, List.length_replicate]
  have hdf : (distanceFreq ts).length = 30 := by rw [distanceFreq_eq, (bumps_spec _ _).1, List.length_replicate]
  have hL := makeCodeLengths_spec (M := 15) (f := literalFreq ts) (by decide) (by rw [hlf]; decide) (by rw [hlf]; decide) (by rw [hlf]; decide) (by rw [hlf]; decide)
  have hD := makeCodeLengths_spec (M := 15) (f := distanceFreq ts) (by decide) (by rw [hdf]; decide) (by rw [hdf]; decide) (by rw [hdf]; decide) (by rw [hdf]; decide)
  have hlu : ts.length < 2 ^ 32 → ∀ t ∈ ts, (makeCodeLengths 15 (literalFreq ts)).getD t.lit 0 ≠ 0 := fun hlen t ht =>
    hL.2.2.2.1 _ (literalFreq_used hok hlen (List.mem_append_left _ (List.mem_map.2 ⟨t, ht, rfl⟩)))
  have hsu : (makeCodeLengths 15 (literalFreq ts)).getD 256 0 ≠ 0 := hL.2.2.2.1 _ (stop_used hok)
  have hdu : ts.length < 2 ^ 32 → ∀ t ∈ ts, t.distance ≠ 0 → (makeCodeLengths 15 (distanceFreq ts)).getD (encodeDistance t.distance).symbol 0 ≠ 0 :=
    fun hlen t ht h0 =>
    hD.2.2.2.1 _ (distanceFreq_used hok hlen ht h0)
  simp only [makeDynamicCoding]
  rw [hlf] at hL
  rw [hdf] at hD
  generalize makeCodeLengths 15 (literalFreq ts) = lits at hL hlu hsu
  generalize makeCodeLengths 15 (distanceFreq ts) = dists at hD hdu
  have htl := trimmed_spec lits 257 (by decide) 286 (by decide)
  have htd := trimmed_spec dists 1 (by decide) 30 (by decide)
  have hzl := trimmed_zero (l := lits) (least := 257) (by decide) (by decide) hL.1
  have hzd := trimmed_zero (l := dists) (least := 1) (by decide) (by decide) hD.1
  generalize trimmed lits 257 286 = lc at htl hzl
  generalize trimmed dists 1 30 = dc at htd hzd
  have henc : LensOk (lits.take lc ++ dists.take dc) [] (encodeCodeLengths (lits.take lc ++ dists.take dc)) := by
    refine encodeLensGo_ok _ (fun w hw => ?_) _ _ [] rfl (Nat.le_refl _)
    rcases List.mem_append.1 hw with h | h
    · exact hL.2.1 w (List.mem_of_mem_take h)
    · exact hD.2.1 w (List.mem_of_mem_take h)
  have hel : (lits.take lc ++ dists.take dc).length ≤ 316 := by
    rw [List.length_append, List.length_take, List.length_take]; omega
  generalize encodeCodeLengths (lits.take lc ++ dists.take dc) = enc at henc
  have hlo := lensOk_length enc [] henc
  have hcf : (enc.foldl (fun f t => bump f t.symbol) (List.replicate 19 0)) = (enc.map LenToken.symbol).foldl bump (List.replicate 19 0) := by
    rw [List.foldl_map]
  have hcu : ∀ t ∈ enc, ((enc.map LenToken.symbol).foldl bump (List.replicate 19 0)).getD t.symbol 0 ≠ 0 := fun t ht => by
    refine freq_ne_zero (by have := (hlo.2 t ht).1; omega) (List.mem_map.2 ⟨t, ht, rfl⟩) ?_
    have := List.count_le_length (a := t.symbol) (l := enc.map LenToken.symbol)
    have := hlo.1
    simp only [List.length_map, List.length_nil] at *
    omega
  have hcl : ((enc.map LenToken.symbol).foldl bump (List.replicate 19 0)).length = 19 := by rw [(bumps_spec _ _).1, List.length_replicate]
  rw [hcf]
  generalize (enc.map LenToken.symbol).foldl bump (List.replicate 19 0) = cf at hcu hcl
  have hC := makeCodeLengths_spec (M := 7) (f := cf) (by decide) (by rw [hcl]; decide) (by rw [hcl]; decide) (by rw [hcl]; decide) (by rw [hcl]; decide)
  have hcu' : ∀ t ∈ enc, (makeCodeLengths 7 cf).getD t.symbol 0 ≠ 0 := fun t ht => hC.2.2.2.1 _ (hcu t ht)
  rw [hcl] at hC
  generalize makeCodeLengths 7 cf = cl at hC hcu'
  have htc := trimmed_spec (kCodeLengthOrder.map (fun i => cl.getD i 0)) 4 (by decide) 19 (by decide)
  have hzc := trimmed_zero (l := kCodeLengthOrder.map (fun i => cl.getD i 0)) (least := 4) (n := 19) (by decide) (by decide) (by simp [kCodeLengthOrder])
  exact ⟨lits, dists, cl, {
    literals := rfl, distances := rfl, codeLengths := rfl, litLen := hL.1, distLen := hD.1, clLen := hC.1
    litC := ⟨hL.2.1, hL.2.2.1, hL.2.2.2.2⟩, distC := ⟨hD.2.1, hD.2.2.1, hD.2.2.2.2⟩, clC := ⟨hC.2.1, hC.2.2.1, hC.2.2.2.2⟩
    litUsed := hlu, stopUsed := hsu, distUsed := hdu, clUsed := hcu'
    litCount := ⟨htl.1, htl.2.1⟩, distCount := ⟨htd.1, htd.2.1⟩, clCount := ⟨htc.1, htc.2.1⟩
    litRest := hzl, distRest := hzd, clRest := hzc, encoded := henc }⟩

/-! ## the header -/

theorem clGo_spec {total : Nat} {rest : List Bool} (v : Nat → Nat) (hv : ∀ i, v i < 8) : ∀ (is : List Nat) (ls : List Nat) (r : Reader),
    (∀ i ∈ is, i < ls.length) → r.Ok total → r.bits = is.flatMap (fun i => bitsLE 3 (v i)) ++ rest →
    ∃ ls' r', clGo is ls r = .ok (ls', r') ∧ r'.bits = rest ∧ r'.Ok total ∧ ls'.length = ls.length ∧
      (∀ j ∈ is, ls'.getD j 0 = v j) ∧ ∀ j, j ∉ is → ls'.getD j 0 = ls.getD j 0
  | [], ls, r, _, hr, hb => ⟨ls, r, rfl, by simpa using hb, hr, rfl, by simp, by simp⟩
  | i :: is, ls, r, hi, hr, hb => by
    rw [List.flatMap_cons, List.append_assoc] at hb
    obtain ⟨r1, a1, a2, a3⟩ := Reader.readBits_bits hr (show v i < 2 ^ 3 from hv i) hb
    obtain ⟨ls', r', b1, b2, b3, b4, b5, b6⟩ := clGo_spec v hv is (ls.set i (v i)) r1 (fun j hj => by
      rw [List.length_set]; exact hi j (by simp [hj])) a3 a2
    refine ⟨ls', r', by rw [clGo, a1]; exact b1, b2, b3, by rw [b4, List.length_set], fun j hj => ?_, fun j hj => ?_⟩
    · by_cases h : j ∈ is
      · exact b5 j h
      · rcases List.mem_cons.1 hj with rfl | hj
        · rw [b6 j h, getD_set_self (hi j (by simp))]
        · exact absurd hj h
    · simp only [List.mem_cons, not_or] at hj
      rw [b6 j hj.2, getD_set_ne (fun h => hj.1 h.symm)]

theorem order_mem (j : Nat) (h : j < 19) : j ∈ kCodeLengthOrder := by
  have H : ∀ j, j < 19 → j ∈ kCodeLengthOrder := by decide
  exact H j h

theorem order_lt (k i : Nat) (h : i ∈ kCodeLengthOrder.take k) : i < 19 := by
  have H : ∀ i ∈ kCodeLengthOrder, i < 19 := by decide
  exact H i (List.mem_of_mem_take h)

/-- the bits of the header -/
def headerBits (c : Coding) (cl : List Nat) : List Bool :=
  bitsLE 5 (c.literalCount - 257) ++ (bitsLE 5 (c.distanceCount - 1) ++ (bitsLE 4 (c.codeLengthCount - 4) ++
    ((kCodeLengthOrder.take c.codeLengthCount).flatMap (fun i => bitsLE 3 (cl.getD i 0)) ++
      c.encoded.flatMap (fun t => codeBits cl t.symbol ++ bitsLE t.extraBits t.extraValue))))

theorem readDynamic_spec {c : Coding} {ts : List Token} {lits dists cl : List Nat} (h : CodingOk c ts lits dists cl) {r : Reader} {total : Nat}
    {rest : List Bool} (hr : r.Ok total) (hb : r.bits = headerBits c cl ++ rest) :
    ∃ ld dd r', readDynamic r = .ok (ld, dd, r') ∧ r'.bits = rest ∧ r'.Ok total ∧
      CodeOk (codeBits lits) (fun s => lits.getD s 0 ≠ 0) ld ∧ CodeOk (codeBits dists) (fun s => dists.getD s 0 ≠ 0) dd := by
  have hlc := h.litCount
  have hdc := h.distCount
  have hcc := h.clCount
  simp only [headerBits, List.append_assoc] at hb
  obtain ⟨r1, a1, a2, a3⟩ := Reader.readBits_bits hr (show c.literalCount - 257 < 2 ^ 5 by omega) hb
  obtain ⟨r2, b1, b2, b3⟩ := Reader.readBits_bits a3 (show c.distanceCount - 1 < 2 ^ 5 by omega) a2
  obtain ⟨r3, c1, c2, c3⟩ := Reader.readBits_bits b3 (show c.codeLengthCount - 4 < 2 ^ 4 by omega) b2
  have hcv : ∀ i, cl.getD i 0 < 8 := fun i => by
    rw [List.getD_eq_getElem?_getD]
    cases hg : cl[i]? with
    | none => decide
    | some w => have := h.clC.bounded w (List.mem_iff_getElem?.2 ⟨i, hg⟩); show w < 8; omega
  obtain ⟨cl', r4, d1, d2, d3, d4, d5, d6⟩ := clGo_spec (total := total) (fun i => cl.getD i 0) hcv (kCodeLengthOrder.take c.codeLengthCount)
    (List.replicate 19 0) r3 (fun i hi => by rw [List.length_replicate]; exact order_lt _ i hi) c3 c2
  have hcl : cl' = cl := by
    rw [List.length_replicate] at d4
    apply List.ext_getElem (by rw [d4, h.clLen])
    intro j hj hj'
    have e1 : cl'.getD j 0 = cl'[j] := by rw [List.getD_eq_getElem?_getD, List.getElem?_eq_getElem hj]; rfl
    have e2 : cl.getD j 0 = cl[j] := by rw [List.getD_eq_getElem?_getD, List.getElem?_eq_getElem hj']; rfl
    rw [← e1, ← e2]
    by_cases hm : j ∈ kCodeLengthOrder.take c.codeLengthCount
    · exact d5 j hm
    · rw [d6 j hm]
      have hz : (List.replicate 19 0).getD j 0 = 0 := by
        rw [List.getD_eq_getElem?_getD, List.getElem?_replicate, if_pos (by omega)]; rfl
      rw [hz]
      obtain ⟨i, hi⟩ := List.mem_iff_getElem?.1 (order_mem j (by omega))
      have hik : c.codeLengthCount ≤ i := by
        apply Classical.byContradiction
        intro hc
        exact hm (List.mem_iff_getElem?.2 ⟨i, by rw [List.getElem?_take, if_pos (by omega), hi]⟩)
      have := h.clRest i hik
      rw [List.getD_eq_getElem?_getD, List.getElem?_map, hi] at this
      exact this.symm
  subst hcl
  obtain ⟨cd, e1, e2⟩ := decoder_full h.clC (n := 19) (by rw [h.clLen]; decide) false false
  have hfl : (lits.take c.literalCount ++ dists.take c.distanceCount).length = c.literalCount - 257 + 257 + (c.distanceCount - 1 + 1) := by
    rw [List.length_append, List.length_take, List.length_take, h.litLen, h.distLen]; omega
  obtain ⟨r5, f1, f2, f3⟩ := lensGo_spec e2 (total := total) c.encoded [] (c.literalCount - 257 + 257 + (c.distanceCount - 1 + 1) + 1) r4 h.encoded h.clUsed
    (by rw [hfl]; simp) d3 d2
  rw [hfl] at f1
  have ht : (lits.take c.literalCount ++ dists.take c.distanceCount).take (c.literalCount - 257 + 257) = lits.take c.literalCount := by
    rw [List.take_append_of_le_length (by rw [List.length_take, h.litLen]; omega), List.take_of_length_le (by rw [List.length_take]; omega)]
  have hdr : (lits.take c.literalCount ++ dists.take c.distanceCount).drop (c.literalCount - 257 + 257) = dists.take c.distanceCount := by
    rw [List.drop_append_of_le_length (by rw [List.length_take, h.litLen]; omega), List.drop_of_length_le (by rw [List.length_take]; omega)]; rfl
  obtain ⟨ld, g1, g2⟩ := decoder_take h.litC h.litRest (n := 288) (by rw [List.length_take, h.litLen]; omega) false true
  obtain ⟨dd, k1, k2⟩ := decoder_take h.distC h.distRest (n := 32) (by rw [List.length_take, h.distLen]; omega) true true
  refine ⟨ld, dd, r5, ?_, f2, f3, g2, k2⟩
  have hn1 : ¬ (286 < c.literalCount - 257 + 257 ∨ 30 < c.distanceCount - 1 + 1) := by omega
  have hcc' : c.codeLengthCount - 4 + 4 = c.codeLengthCount := by omega
  unfold readDynamic
  rw [a1]; dsimp only
  rw [b1]; dsimp only
  rw [c1]; dsimp only
  rw [if_neg hn1, hcc', d1]; dsimp only
  rw [e1]; dsimp only
  rw [f1]; dsimp only
  rw [ht, hdr, getD_take h.litRest, if_neg h.stopUsed, g1]; dsimp only
  rw [k1]

end Verif.Deflate
