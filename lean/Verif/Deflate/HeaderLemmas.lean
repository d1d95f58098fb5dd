import Verif.Deflate.BlockLemmas
/-! # Lemmas on the header of a dynamic block: the widths of the codes come back -/
namespace Verif.Deflate
open Verif.Bytes (Byte)

/-! ## runs of bit writes -/

/-- the bits of a write -/
def Op.flat : Op → List Bool
  | .bits v n => bitsLE n v
  | _ => []

/-- a write of bits within the contract -/
def Op.IsBits : Op → Prop
  | .bits v n => v < 2 ^ n ∧ n ≤ 32
  | _ => False

theorem bits_ops : ∀ (ops : List Op) (b : List Bool), (∀ op ∈ ops, op.IsBits) → opsBits b ops = b ++ ops.flatMap Op.flat ∧ OpsOk b ops
  | [], b, _ => by simp [opsBits, OpsOk]
  | op :: ops, b, h => by
    have h0 := h op (by simp)
    cases op with
    | bits v n =>
      have ⟨h1, h2⟩ := bits_ops ops (b ++ bitsLE n v) (fun o ho => h o (by simp [ho]))
      refine ⟨?_, h0, h2⟩
      have e : opsBits b (.bits v n :: ops) = opsBits (b ++ bitsLE n v) ops := rfl
      rw [e, h1, List.flatMap_cons, List.append_assoc]; rfl
    | align => exact absurd h0 id
    | bytes bs => exact absurd h0 id

/-! ## codes of symbols -/

/-- the bits of a symbol in the code given by widths -/
def codeBits (l : List Nat) (s : Nat) : List Bool := bitsBE (l.getD s 0) (codeOf l s)

/-- widths of a complete code of at most `M` bits -/
structure Complete (l : List Nat) (M : Nat) : Prop where
  bounded : ∀ w ∈ l, w ≤ M
  full : firstCode (widthCount l) M + widthCount l M = 2 ^ M
  used : ∃ w ∈ l, w ≠ 0

theorem writeCode_flat {l : List Nat} {M : Nat} (h : Complete l M) (hM : M ≤ 15) {s : Nat} (hs : l.getD s 0 ≠ 0) :
    (writeCode (makeCanonicalCodes l) s).flat = codeBits l s ∧ (writeCode (makeCanonicalCodes l) s).IsBits := by
  have ⟨h1, h2, h3⟩ := writeCode_spec (fits_of_last _ M (by rw [h.full]; exact Nat.le_refl _)) hM h.bounded hs
  exact ⟨h1, h2, by show l.getD s 0 ≤ 32; omega⟩

theorem assignCodes_zero (l : List Nat) : ∀ (next : Nat → Nat) (s : Nat), l.getD s 0 = 0 → (assignCodes l next).getD s 0 = 0 := by
  induction l with
  | nil => intro next s _; simp [assignCodes]
  | cons w r ih =>
    intro next s h
    cases s with
    | zero =>
      have hw : w = 0 := h
      subst hw
      rfl
    | succ s =>
      have h' : r.getD s 0 = 0 := h
      by_cases hw : w ≠ 0
      · simp only [assignCodes, if_pos hw, List.getD_cons_succ]; exact ih _ s h'
      · simp only [assignCodes, if_neg hw, List.getD_cons_succ]; exact ih _ s h'

/-- a symbol without a code is written as no bits -/
theorem writeCode_unused {l : List Nat} {s : Nat} (h : l.getD s 0 = 0) : writeCode (makeCanonicalCodes l) s = .bits 0 0 := by
  simp only [writeCode, makeCanonicalCodes, h, assignCodes_zero l _ s h]

theorem writeCode_isBits {l : List Nat} {M : Nat} (h : Complete l M) (hM : M ≤ 15) (s : Nat) : (writeCode (makeCanonicalCodes l) s).IsBits := by
  by_cases hs : l.getD s 0 = 0
  · rw [writeCode_unused hs]; exact ⟨by decide, by decide⟩
  · exact (writeCode_flat h hM hs).2

theorem getD_take {l : List Nat} {k : Nat} (hz : ∀ i, k ≤ i → l.getD i 0 = 0) (s : Nat) : (l.take k).getD s 0 = l.getD s 0 := by
  by_cases h : s < k
  · simp only [List.getD_eq_getElem?_getD, List.getElem?_take, if_pos h]
  · rw [hz s (by omega)]
    simp only [List.getD_eq_getElem?_getD, List.getElem?_take, if_neg h]; rfl

theorem widthCount_take {l : List Nat} {k : Nat} (hz : ∀ i, k ≤ i → l.getD i 0 = 0) : widthCount (l.take k) = widthCount l := by
  funext w
  by_cases hw : w = 0
  · subst hw; rfl
  · rw [widthCount_pos _ hw, widthCount_pos _ hw]
    conv => rhs; rw [← List.take_append_drop k l, List.count_append]
    have : (l.drop k).count w = 0 := by
      apply List.count_eq_zero_of_not_mem
      intro hm
      obtain ⟨i, hi⟩ := List.mem_iff_getElem?.1 hm
      rw [List.getElem?_drop] at hi
      have := hz (k + i) (by omega)
      rw [List.getD_eq_getElem?_getD, hi] at this
      exact hw this
    omega

theorem codeOf_take {l : List Nat} {k : Nat} (hz : ∀ i, k ≤ i → l.getD i 0 = 0) {s : Nat} (hs : l.getD s 0 ≠ 0) : codeOf (l.take k) s = codeOf l s := by
  have hlt : s < k := by
    apply Classical.byContradiction
    intro hc; exact hs (hz s (by omega))
  rw [codeOf, codeOf, widthCount_take hz, getD_take hz, List.take_take, Nat.min_eq_left (by omega)]

/-- the decoder of the widths without their trailing zeros recognises the codes -/
theorem decoder_take {l : List Nat} {M n k : Nat} (h : Complete l M) (hz : ∀ i, k ≤ i → l.getD i 0 = 0) (hn : (l.take k).length ≤ n) (ae ai : Bool) :
    ∃ d, makeDecoder n M (l.take k) ae ai = .ok d ∧ CodeOk (codeBits l) (fun s => l.getD s 0 ≠ 0) d := by
  obtain ⟨w, hw, hw0⟩ := h.used
  have hmem : w ∈ l.take k := by
    obtain ⟨i, hi⟩ := List.mem_iff_getElem?.1 hw
    have hg : l.getD i 0 = w := by rw [List.getD_eq_getElem?_getD, hi]; rfl
    have hik : i < k := by
      apply Classical.byContradiction
      intro hc; have := hz i (by omega); omega
    rw [List.mem_iff_getElem?]
    exact ⟨i, by rw [List.getElem?_take, if_pos hik, hi]⟩
  obtain ⟨d, hd, hfor⟩ := makeDecoder_spec (M := M) hn (fun w hw => h.bounded w (List.mem_of_mem_take hw)) ⟨w, hmem, hw0⟩
    (by rw [widthCount_take hz]; exact h.full) ae ai
  refine ⟨d, hd, ⟨fun s hs => ?_, fun s hs r total rest hr hb => ?_⟩⟩
  · simp only [codeBits, bitsBE_length]; omega
  · refine decodeSymbol_spec hfor (s := s) (by rw [getD_take hz]; exact hs) hr ?_
    rw [getD_take hz, codeOf_take hz hs]; exact hb

theorem decoder_full {l : List Nat} {M n : Nat} (h : Complete l M) (hn : l.length ≤ n) (ae ai : Bool) :
    ∃ d, makeDecoder n M l ae ai = .ok d ∧ CodeOk (codeBits l) (fun s => l.getD s 0 ≠ 0) d := by
  have := decoder_take (k := l.length) (n := n) h (fun i hi => by simp [List.getD_eq_getElem?_getD, List.getElem?_eq_none hi])
    (by simpa using hn) ae ai
  simpa using this

/-! ## run-length coding of widths -/

/-- tokens that extend `acc` to `final` -/
def LensOk (final : List Nat) : List Nat → List LenToken → Prop
  | acc, [] => acc = final
  | acc, t :: ts => acc.length < final.length ∧
    ((t.symbol ≤ 15 ∧ t.extraBits = 0 ∧ t.extraValue = 0 ∧ LensOk final (acc ++ [t.symbol]) ts) ∨
     (15 < t.symbol ∧ t.symbol ≤ 18 ∧ ∃ v base, repeatOf t.symbol acc = .ok (v, base, t.extraBits) ∧ t.extraValue < 2 ^ t.extraBits ∧ t.extraBits ≤ 7 ∧
        acc.length + (base + t.extraValue) ≤ final.length ∧ LensOk final (acc ++ List.replicate (base + t.extraValue) v) ts))

theorem replicate_more {α : Type} (acc : List α) (a b : Nat) (v : α) : acc ++ List.replicate a v ++ List.replicate b v = acc ++ List.replicate (a + b) v := by
  rw [List.append_assoc, List.replicate_append_replicate]

theorem single_ok (final : List Nat) (l : Nat) (hl : l ≤ 15) : ∀ (n : Nat) (acc : List Nat) (ts : List LenToken), acc.length + n ≤ final.length →
    LensOk final (acc ++ List.replicate n l) ts → LensOk final acc (List.replicate n ⟨l, 0, 0⟩ ++ ts)
  | 0, acc, ts, _, h => by simpa using h
  | n + 1, acc, ts, hn, h => by
    rw [List.replicate_succ, List.cons_append]
    refine ⟨by omega, Or.inl ⟨hl, rfl, rfl, single_ok final l hl n (acc ++ [l]) ts (by simp; omega) ?_⟩⟩
    rw [show acc ++ [l] = acc ++ List.replicate 1 l from rfl, replicate_more, Nat.add_comm]
    exact h

theorem zeroRuns_ok (final : List Nat) : ∀ (n run : Nat) (acc : List Nat) (ts : List LenToken), run ≤ n → acc.length + run ≤ final.length →
    (zeroRuns n run).2 ≤ 10 ∧ (zeroRuns n run).2 ≤ run ∧
    (LensOk final (acc ++ List.replicate (run - (zeroRuns n run).2) 0) ts → LensOk final acc ((zeroRuns n run).1 ++ ts)) := by
  intro n
  induction n with
  | zero =>
    intro run acc ts h1 _
    have : run = 0 := by omega
    subst this
    simp [zeroRuns]
  | succ n ih =>
    intro run acc ts h1 h2
    simp only [zeroRuns]
    by_cases h : 11 ≤ run
    · rw [if_pos h]
      have ⟨i1, i2, i3⟩ := ih (run - min run 138) (acc ++ List.replicate (min run 138) 0) ts (by omega) (by simp; omega)
      refine ⟨i1, by dsimp only; omega, fun hl => ?_⟩
      refine ⟨by omega, Or.inr ⟨(by decide : 15 < 18), (by decide : 18 ≤ 18), 0, 11, rfl, ?_, by show 7 ≤ 7; omega, ?_, ?_⟩⟩
      · show min run 138 - 11 < 2 ^ 7; omega
      · show acc.length + (11 + (min run 138 - 11)) ≤ final.length; omega
      · rw [show 11 + (min run 138 - 11) = min run 138 by omega]
        refine i3 ?_
        rw [replicate_more, show min run 138 + (run - min run 138 - (zeroRuns n (run - min run 138)).2) = run - (zeroRuns n (run - min run 138)).2 by omega]
        exact hl
    · rw [if_neg h]
      exact ⟨by dsimp only; omega, by dsimp only; omega, fun hl => by simpa using hl⟩

theorem copyRuns_ok (final : List Nat) (l : Nat) : ∀ (n run : Nat) (acc : List Nat) (ts : List LenToken), acc.getLast? = some l → run ≤ n →
    acc.length + run ≤ final.length →
    (copyRuns n run).2 ≤ run ∧ (LensOk final (acc ++ List.replicate (run - (copyRuns n run).2) l) ts → LensOk final acc ((copyRuns n run).1 ++ ts)) := by
  intro n
  induction n with
  | zero =>
    intro run acc ts _ h1 _
    have : run = 0 := by omega
    subst this
    simp [copyRuns]
  | succ n ih =>
    intro run acc ts hlast h1 h2
    simp only [copyRuns]
    by_cases h : 3 ≤ run
    · rw [if_pos h]
      have hlast' : (acc ++ List.replicate (min run 6) l).getLast? = some l := by
        obtain ⟨m, hm⟩ : ∃ m, min run 6 = m + 1 := ⟨min run 6 - 1, by omega⟩
        rw [hm, List.replicate_succ', ← List.append_assoc, List.getLast?_append]; simp
      have ⟨i2, i3⟩ := ih (run - min run 6) (acc ++ List.replicate (min run 6) l) ts hlast' (by omega) (by simp; omega)
      refine ⟨by dsimp only; omega, fun hl => ?_⟩
      refine ⟨by omega, Or.inr ⟨(by decide : 15 < 16), (by decide : 16 ≤ 18), l, 3, ?_, ?_, by show 2 ≤ 7; omega, ?_, ?_⟩⟩
      · show repeatOf 16 acc = _
        rw [repeatOf, if_pos rfl, hlast]
      · show min run 6 - 3 < 2 ^ 2; omega
      · show acc.length + (3 + (min run 6 - 3)) ≤ final.length; omega
      · rw [show 3 + (min run 6 - 3) = min run 6 by omega]
        refine i3 ?_
        rw [replicate_more, show min run 6 + (run - min run 6 - (copyRuns n (run - min run 6)).2) = run - (copyRuns n (run - min run 6)).2 by omega]
        exact hl
    · rw [if_neg h]
      exact ⟨Nat.le_refl _, fun hl => by simpa using hl⟩

theorem runTokens_ok (final : List Nat) (l run : Nat) (hl : l ≤ 15) (hr : 1 ≤ run) (acc : List Nat) (ts : List LenToken) (h2 : acc.length + run ≤ final.length)
    (h : LensOk final (acc ++ List.replicate run l) ts) : LensOk final acc (runTokens l run ++ ts) := by
  simp only [runTokens]
  by_cases h0 : l = 0
  · subst h0
    rw [if_pos rfl]
    by_cases h3 : 3 ≤ (zeroRuns run run).2
    · rw [if_pos h3]
      have ⟨z1, z2, z3⟩ := zeroRuns_ok final run run acc (⟨17, (zeroRuns run run).2 - 3, 3⟩ :: ts) (Nat.le_refl _) h2
      rw [List.append_assoc]
      refine z3 ⟨by simp; omega, Or.inr ⟨(by decide : 15 < 17), (by decide : 17 ≤ 18), 0, 3, rfl, ?_, by show 3 ≤ 7; omega, ?_, ?_⟩⟩
      · show (zeroRuns run run).2 - 3 < 2 ^ 3; omega
      · simp only [List.length_append, List.length_replicate]; omega
      · rw [replicate_more, show run - (zeroRuns run run).2 + (3 + ((zeroRuns run run).2 - 3)) = run by omega]
        exact h
    · rw [if_neg h3]
      have ⟨z1, z2, z3⟩ := zeroRuns_ok final run run acc (List.replicate (zeroRuns run run).2 ⟨0, 0, 0⟩ ++ ts) (Nat.le_refl _) h2
      rw [List.append_assoc]
      refine z3 (single_ok final 0 (by omega) _ _ _ (by simp; omega) ?_)
      rw [replicate_more, show run - (zeroRuns run run).2 + (zeroRuns run run).2 = run by omega]
      exact h
  · rw [if_neg h0]
    have ⟨z2, z3⟩ := copyRuns_ok final l (run - 1) (run - 1) (acc ++ [l]) (List.replicate (copyRuns (run - 1) (run - 1)).2 ⟨l, 0, 0⟩ ++ ts)
      (by simp) (Nat.le_refl _) (by simp; omega)
    rw [List.cons_append, List.cons_append, List.append_assoc]
    refine ⟨by omega, Or.inl ⟨hl, rfl, rfl, z3 (single_ok final l hl _ _ _ (by simp; omega) ?_)⟩⟩
    rw [show acc ++ [l] = acc ++ List.replicate 1 l from rfl, replicate_more, replicate_more,
      show 1 + (run - 1 - (copyRuns (run - 1) (run - 1)).2 + (copyRuns (run - 1) (run - 1)).2) = run by omega]
    exact h

theorem runLength_spec (l : Nat) : ∀ r : List Nat, runLength l r ≤ r.length ∧ r.take (runLength l r) = List.replicate (runLength l r) l
  | [] => by simp [runLength]
  | x :: r => by
    have ⟨h1, h2⟩ := runLength_spec l r
    simp only [runLength]
    by_cases h : x = l
    · rw [if_pos h]; subst h
      simp only [List.length_cons, List.take_succ_cons, List.replicate_succ, h2]
      exact ⟨by omega, trivial⟩
    · rw [if_neg h]; simp

theorem encodeLensGo_ok (final : List Nat) (h15 : ∀ w ∈ final, w ≤ 15) : ∀ (n : Nat) (rest acc : List Nat), acc ++ rest = final → rest.length ≤ n →
    LensOk final acc (encodeLensGo n rest)
  | 0, rest, acc, h, hn => by
    have : rest = [] := List.length_eq_zero_iff.1 (by omega)
    subst this
    show acc = final
    simpa using h
  | n + 1, [], acc, h, _ => by
    show acc = final
    simpa using h
  | n + 1, l :: r, acc, h, hn => by
    have ⟨h1, h2⟩ := runLength_spec l r
    simp only [encodeLensGo]
    have hlen : acc.length + (r.length + 1) = final.length := by rw [← h]; simp
    have ht : (l :: r).take (runLength l r + 1) = List.replicate (runLength l r + 1) l := by rw [List.take_succ_cons, h2, List.replicate_succ]
    refine runTokens_ok final l _ (h15 l (by rw [← h]; simp)) (by omega) acc _ (by omega) ?_
    refine encodeLensGo_ok final h15 n _ _ ?_ (by simp only [List.length_drop, List.length_cons] at hn ⊢; omega)
    rw [← ht, List.append_assoc, List.take_append_drop]
    exact h

/-- the bits of a run-length token -/
def lenBits (l : List Nat) (t : LenToken) : List Bool := codeBits l t.symbol ++ bitsLE t.extraBits t.extraValue

theorem lensGo_spec {enc : Nat → List Bool} {used : Nat → Prop} {d : Decoder} (hd : CodeOk enc used d) {final : List Nat} {rest : List Bool} {total : Nat} :
    ∀ (ts : List LenToken) (acc : List Nat) (n : Nat) (r : Reader), LensOk final acc ts → (∀ t ∈ ts, used t.symbol) → final.length < n + acc.length →
      r.Ok total → r.bits = ts.flatMap (fun t => enc t.symbol ++ bitsLE t.extraBits t.extraValue) ++ rest →
      ∃ r', lensGo d final.length n acc r = .ok (final, r') ∧ r'.bits = rest ∧ r'.Ok total
  | [], acc, n, r, h, _, hn, hr, hb => by
    have h' : acc = final := h
    subst h'
    obtain ⟨n, rfl⟩ : ∃ m, n = m + 1 := ⟨n - 1, by omega⟩
    refine ⟨r, ?_, by simpa using hb, hr⟩
    rw [lensGo, if_neg (by omega)]
  | t :: ts, acc, n, r, h, hu, hn, hr, hb => by
    obtain ⟨hlt, h⟩ := h
    obtain ⟨n, rfl⟩ : ∃ m, n = m + 1 := ⟨n - 1, by omega⟩
    rw [List.flatMap_cons, List.append_assoc, List.append_assoc] at hb
    obtain ⟨r1, a1, a2, a3⟩ := hd.decode _ (hu t (by simp)) r total _ hr hb
    rw [lensGo, if_pos hlt, a1]
    dsimp only
    rcases h with ⟨hs, hx, hv, h⟩ | ⟨hs, hs', v, base, hrep, hv, hx, hfit, h⟩
    · rw [if_pos hs]
      refine lensGo_spec hd ts _ n r1 h (fun u hu' => hu u (by simp [hu'])) (by simp; omega) a3 ?_
      rw [a2, hx, hv]; rfl
    · rw [if_neg (by omega), hrep]
      dsimp only
      obtain ⟨r2, b1, b2, b3⟩ := Reader.readBits_bits a3 hv a2
      rw [b1]
      dsimp only
      rw [if_neg (by omega)]
      have hb0 : 3 ≤ base := by
        rw [repeatOf] at hrep
        by_cases e : t.symbol = 16
        · rw [if_pos e] at hrep
          cases hg : acc.getLast? with
          | none => rw [hg] at hrep; cases hrep
          | some x => rw [hg] at hrep; injection hrep with hrep; injection hrep with _ hrep; injection hrep; omega
        · rw [if_neg e] at hrep
          by_cases e2 : t.symbol = 17
          · rw [if_pos e2] at hrep; injection hrep with hrep; injection hrep with _ hrep; injection hrep; omega
          · rw [if_neg e2] at hrep
            by_cases e3 : t.symbol = 18
            · rw [if_pos e3] at hrep; injection hrep with hrep; injection hrep with _ hrep; injection hrep; omega
            · rw [if_neg e3] at hrep; cases hrep
      exact lensGo_spec hd ts _ n r2 h (fun u hu' => hu u (by simp [hu'])) (by simp; omega) b3 b2

end Verif.Deflate
