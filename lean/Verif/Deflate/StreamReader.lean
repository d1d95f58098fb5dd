import Verif.Deflate.Stream
import Verif.Deflate.SafeLemmas
/-! # Streaming decoder: the reader over one piece of the input against the reader over all of it -/
namespace Verif.Deflate
open Verif.Bytes (Byte)

/-- the reader over everything still to come: `fut` follows the current piece; `T` is the length of what the reader started with -/
def Reader.full (r : Reader) (fut : List Byte) (T : Nat) : Reader := ⟨r.rest ++ fut, T - (r.rest.length + fut.length), r.acc, r.count⟩

/-- a reader inside of the piece `chunk` -/
structure Reader.Within (r : Reader) (chunk : List Byte) : Prop where
  acc : r.acc < 2 ^ r.count
  count : r.count < 8
  pos : r.pos ≤ chunk.length
  rest : r.rest = chunk.drop r.pos

theorem Reader.Within.ok {r : Reader} {chunk : List Byte} (h : r.Within chunk) : r.Ok chunk.length :=
  ⟨h.acc, h.count, by rw [h.rest, List.length_drop]; have := h.pos; omega⟩

theorem Reader.full_ok {r : Reader} {chunk : List Byte} (h : r.Within chunk) {fut : List Byte} {T : Nat} (hT : r.rest.length + fut.length ≤ T) :
    (r.full fut T).Ok T := ⟨h.acc, h.count, by simp only [Reader.full, List.length_append]; omega⟩

/-- the same readers move on in the same way -/
structure Moves (r r' : Reader) (chunk : List Byte) : Prop where
  within : r'.Within chunk
  le : r'.rest.length ≤ r.rest.length

theorem fillGo_full (w : Nat) (fut : List Byte) (T : Nat) (chunk : List Byte) : ∀ (rest : List Byte) (pos acc count : Nat) (r' : Reader),
    rest.length + fut.length ≤ T → pos ≤ chunk.length → rest = chunk.drop pos →
    fillGo w rest pos acc count = some r' →
    fillGo w (rest ++ fut) (T - (rest.length + fut.length)) acc count = some (r'.full fut T) ∧ r'.rest.length ≤ rest.length ∧
      r'.pos ≤ chunk.length ∧ r'.rest = chunk.drop r'.pos := by
  intro rest
  induction rest with
  | nil =>
    intro pos acc count r' hT hp hr h
    rw [fillGo] at h
    by_cases hc : count < w
    · rw [if_pos hc] at h; exact absurd h (by simp)
    · rw [if_neg hc] at h
      obtain rfl := Option.some.inj h
      refine ⟨?_, Nat.le_refl _, hp, hr⟩
      rw [List.nil_append]
      cases fut with
      | nil => rw [fillGo, if_neg hc]; rfl
      | cons b fut => rw [fillGo, if_neg hc]; rfl
  | cons b rest ih =>
    intro pos acc count r' hT hp hr h
    rw [fillGo] at h
    rw [List.cons_append, fillGo]
    by_cases hc : count < w
    · rw [if_pos hc] at h
      rw [if_pos hc]
      have hpl : pos < chunk.length := by
        have := congrArg List.length hr
        rw [List.length_drop, List.length_cons] at this; omega
      have hr2 : rest = chunk.drop (pos + 1) := by
        rw [List.drop_eq_getElem_cons hpl] at hr
        exact (List.cons.inj hr).2
      obtain ⟨h1, h2, h3⟩ := ih (pos + 1) _ _ r' (by simp only [List.length_cons] at hT; omega) hpl hr2 h
      refine ⟨?_, by simp only [List.length_cons]; omega, h3⟩
      rw [← h1]
      congr 1
      simp only [List.length_cons] at hT ⊢
      omega
    · rw [if_neg hc] at h
      rw [if_neg hc]
      obtain rfl := Option.some.inj h
      exact ⟨rfl, Nat.le_refl _, hp, hr⟩

theorem Reader.tryBits_eq_some {r r' : Reader} {w v : Nat} : r.tryBits w = some (v, r') ↔ r.readBits w = .ok (v, r') := by
  rw [Reader.tryBits, Reader.readBits]
  cases r.fill w with
  | none => exact ⟨(fun h => by cases h), (fun h => by cases h)⟩
  | some r1 =>
    dsimp only
    exact ⟨fun h => by rw [Option.some.inj h], fun h => by rw [Except.ok.inj h]⟩

theorem Reader.tryBits_eq_none {r : Reader} {w : Nat} : r.tryBits w = none ↔ r.readBits w = .error (.err .truncatedInput) := by
  rw [Reader.tryBits, Reader.readBits]
  cases r.fill w with
  | none => exact ⟨fun _ => rfl, fun _ => rfl⟩
  | some r1 => exact ⟨(fun h => by cases h), (fun h => by cases h)⟩

variable {r r' : Reader} {chunk fut : List Byte} {T w v : Nat}

theorem Reader.tryBits_some (h : r.Within chunk) (hT : r.rest.length + fut.length ≤ T) (e : r.tryBits w = some (v, r')) :
    (r.full fut T).readBits w = .ok (v, r'.full fut T) ∧ Moves r r' chunk ∧ r'.left + w = r.left ∧ v < 2 ^ w := by
  have e0 := Reader.tryBits_eq_some.1 e
  have hs := r.readBits_spec h.ok w
  by_cases hw : w ≤ r.bits.length
  · obtain ⟨r2, h1, h2, h3⟩ := hs.1 hw
    rw [h1] at e0
    obtain ⟨rfl, rfl⟩ := Prod.mk.inj (Except.ok.inj e0)
    have hv : ofBits (r.bits.take w) < 2 ^ w := by
      have := ofBits_lt (r.bits.take w)
      rwa [List.length_take, Nat.min_eq_left hw] at this
    rw [Reader.tryBits] at e
    cases ef : r.fill w with
    | none => rw [ef] at e; cases e
    | some r1 =>
      rw [ef] at e
      dsimp only at e
      obtain ⟨ea, eb⟩ := Prod.mk.inj (Option.some.inj e)
      obtain ⟨g1, g2, g3, g4⟩ := fillGo_full w fut T chunk r.rest r.pos r.acc r.count r1 hT h.pos h.rest ef
      have hrest : r2.rest = r1.rest := by rw [← eb]
      have hpos : r2.pos = r1.pos := by rw [← eb]
      refine ⟨?_, ⟨⟨h3.acc, h3.count, by rw [hpos]; exact g3, by rw [hrest, hpos]; exact g4⟩, by rw [hrest]; exact g2⟩, ?_, hv⟩
      · have e1 : (r.full fut T).fill w = some (r1.full fut T) := g1
        rw [Reader.readBits, e1, ← ea, ← eb]
        rfl
      · rw [← Reader.bits_length, ← Reader.bits_length, h2, List.length_drop]; omega
  · rw [hs.2 (by omega)] at e0; cases e0

theorem Reader.tryBits_none (h : r.Within chunk) (e : r.tryBits w = none) :
    r.left < w ∧ (r.full [] T).readBits w = .error (.err .truncatedInput) := by
  have hs := r.readBits_spec h.ok w
  have hlt : r.left < w := by
    rw [← r.bits_length]
    refine Nat.lt_of_not_le fun hw => ?_
    obtain ⟨r2, h1, _⟩ := hs.1 hw
    rw [Reader.tryBits_eq_none.1 e] at h1; cases h1
  refine ⟨hlt, ?_⟩
  have hok : (r.full [] (r.rest.length)).Ok r.rest.length := Reader.full_ok h (by simp)
  have h2 := ((r.full [] r.rest.length).readBits_spec hok w).2 (by rw [Reader.bits_length]; simpa [Reader.full, Reader.left] using hlt)
  rw [Reader.readBits, Reader.fill] at h2 ⊢
  have hnone : ∀ (rest : List Byte) (p q acc count : Nat), fillGo w rest p acc count = none → fillGo w rest q acc count = none := by
    intro rest
    induction rest with
    | nil => intro p q acc count h; rw [fillGo] at h ⊢; by_cases hc : count < w
             · rw [if_pos hc]
             · rw [if_neg hc] at h; cases h
    | cons b rest ih =>
      intro p q acc count h
      rw [fillGo] at h ⊢
      by_cases hc : count < w
      · rw [if_pos hc] at h ⊢; exact ih _ _ _ _ h
      · rw [if_neg hc] at h; cases h
  cases ef : fillGo w (r.full [] r.rest.length).rest (r.full [] r.rest.length).pos (r.full [] r.rest.length).acc (r.full [] r.rest.length).count with
  | some x => rw [ef] at h2; cases h2
  | none =>
    have : fillGo w (r.full [] T).rest (r.full [] T).pos (r.full [] T).acc (r.full [] T).count = none := hnone _ _ _ _ _ ef
    rw [this]

theorem Reader.fill_one_full (h : r.Within chunk) (hT : r.rest.length + fut.length ≤ T) {r1 : Reader} (e : r.fill 1 = some r1) :
    (r.full fut T).fill 1 = some (r1.full fut T) ∧ Moves r r1.takeBit.2 chunk ∧ r1.takeBit.2.left + 1 = r.left ∧
      (r1.full fut T).takeBit = (r1.takeBit.1, r1.takeBit.2.full fut T) := by
  have et : r.tryBits 1 = some (r1.acc &&& (2 ^ 1 - 1), r1.takeBit.2) := by rw [Reader.tryBits, e]; rfl
  obtain ⟨_, h2, h3, _⟩ := Reader.tryBits_some (fut := fut) h hT et
  obtain ⟨g1, _⟩ := fillGo_full 1 fut T chunk r.rest r.pos r.acc r.count r1 hT h.pos h.rest e
  exact ⟨g1, h2, h3, rfl⟩

theorem Reader.fill_one_none (h : r.Within chunk) (e : r.fill 1 = none) : (r.full [] T).fill 1 = none := by
  have et : r.tryBits 1 = none := by rw [Reader.tryBits, e]
  have := (Reader.tryBits_none (T := T) h et).2
  rw [Reader.readBits] at this
  cases ef : (r.full [] T).fill 1 with
  | none => rfl
  | some x => rw [ef] at this; cases this

theorem Moves.trans {r r1 r2 : Reader} (h1 : Moves r r1 chunk) (h2 : Moves r1 r2 chunk) : Moves r r2 chunk :=
  ⟨h2.within, Nat.le_trans h2.le h1.le⟩

/-- what the streaming `decodeSymbol` says about the one-shot one over everything -/
inductive SymOk (r : Reader) (d : Decoder) (chunk fut : List Byte) (T n : Nat) (x : Res (Nat × Reader)) : Sym → Prop
  | got {s r'} : x = .ok (s, r'.full fut T) → Moves r r' chunk → r'.left < r.left → r.left ≤ r'.left + n → SymOk r d chunk fut T n x (.got s r')
  | need : r.left < n → (fut = [] → x = .error (.err .truncatedInput)) → SymOk r d chunk fut T n x .need
  | invalid : x = .error (.err .invalidCode) → SymOk r d chunk fut T n x .invalid
  | ub : x = .error .ub → SymOk r d chunk fut T n x .ub

theorem trySymbolGo_ok (d : Decoder) : ∀ (n width code first index : Nat) (r : Reader), r.Within chunk → r.rest.length + fut.length ≤ T →
    SymOk r d chunk fut T n (symbolGo d n width code first index (r.full fut T)) (trySymbolGo d n width code first index r)
  | 0, width, code, first, index, r, h, hT => by
    rw [trySymbolGo, symbolGo]; exact .invalid rfl
  | n + 1, width, code, first, index, r, h, hT => by
    rw [trySymbolGo, symbolGo]
    cases e : r.fill 1 with
    | none =>
      dsimp only
      refine .need ?_ fun hf => ?_
      · have et : r.tryBits 1 = none := by rw [Reader.tryBits, e]
        have := (Reader.tryBits_none (T := 0) h et).1
        omega
      · subst hf
        rw [Reader.fill_one_none h e]
    | some r1 =>
      obtain ⟨h1, h2, h3, h4⟩ := Reader.fill_one_full h hT e
      rw [h1]
      dsimp only
      rw [h4]
      dsimp only
      by_cases hc : first ≤ (code <<< 1 ||| r1.takeBit.1) ∧ (code <<< 1 ||| r1.takeBit.1) - first < d.counts.getD width 0
      · rw [if_pos hc, if_pos hc]
        cases es : d.symbols[index + ((code <<< 1 ||| r1.takeBit.1) - first)]? with
        | none => exact .ub rfl
        | some s => exact .got rfl h2 (by omega) (by omega)
      · rw [if_neg hc, if_neg hc]
        have ih := trySymbolGo_ok d n (width + 1) (code <<< 1 ||| r1.takeBit.1) ((first + d.counts.getD width 0) <<< 1) (index + d.counts.getD width 0)
          r1.takeBit.2 h2.within (by have := h2.le; omega)
        generalize symbolGo d n (width + 1) (code <<< 1 ||| r1.takeBit.1) ((first + d.counts.getD width 0) <<< 1) (index + d.counts.getD width 0)
          (r1.takeBit.2.full fut T) = x at ih ⊢
        generalize trySymbolGo d n (width + 1) (code <<< 1 ||| r1.takeBit.1) ((first + d.counts.getD width 0) <<< 1) (index + d.counts.getD width 0)
          r1.takeBit.2 = y at ih ⊢
        cases ih with
        | got a b c e => exact .got a (h2.trans b) (by omega) (by omega)
        | need a b => exact .need (by omega) b
        | invalid a => exact .invalid a
        | ub a => exact .ub a

theorem Reader.trySymbol_ok (d : Decoder) (h : r.Within chunk) (hT : r.rest.length + fut.length ≤ T) :
    SymOk r d chunk fut T d.maxWidth (decodeSymbol (r.full fut T) d) (r.trySymbol d) := trySymbolGo_ok d _ _ _ _ _ r h hT

/-- readers with the same bits are equal -/
theorem Reader.eq_of_bits {a b : Reader} {T : Nat} (ha : a.Ok T) (hb : b.Ok T) (h : a.bits = b.bits) : a = b := by
  have hl := congrArg List.length h
  rw [a.bits_length, b.bits_length, Reader.left, Reader.left] at hl
  have h1 := ha.count
  have h2 := hb.count
  have hc : a.count = b.count := by omega
  have hr : a.rest.length = b.rest.length := by omega
  simp only [Reader.bits] at h
  obtain ⟨e1, e2⟩ := List.append_inj h (by simp [hc])
  have er := flatMap_byteBits_inj e2
  have ea : a.acc = b.acc := by
    have := congrArg ofBits e1
    rwa [ofBits_bitsLE, ofBits_bitsLE, Nat.mod_eq_of_lt ha.acc, Nat.mod_eq_of_lt hb.acc] at this
  have ep : a.pos = b.pos := by have := ha.pos; have := hb.pos; omega
  cases a; cases b
  simp_all

/-- two reads in a row instead of one -/
theorem Reader.readBits_split {R : Reader} {T : Nat} (h : R.Ok T) (a b : Nat) :
    (∀ v R2, R.readBits (a + b) = .ok (v, R2) → ∃ R1, R.readBits a = .ok (v % 2 ^ a, R1) ∧ R1.Ok T ∧ R1.readBits b = .ok (v / 2 ^ a, R2)) ∧
    (R.readBits (a + b) = .error (.err .truncatedInput) → R.readBits a = .error (.err .truncatedInput) ∨
      ∃ u R1, R.readBits a = .ok (u, R1) ∧ R1.readBits b = .error (.err .truncatedInput)) := by
  have hs := R.readBits_spec h (a + b)
  have hsa := R.readBits_spec h a
  constructor
  · intro v R2 e
    by_cases hw : a + b ≤ R.bits.length
    · obtain ⟨r2, h1, h2, h3⟩ := hs.1 hw
      rw [h1] at e
      obtain ⟨rfl, rfl⟩ := Prod.mk.inj (Except.ok.inj e)
      obtain ⟨r1, g1, g2, g3⟩ := hsa.1 (by omega)
      obtain ⟨r3, k1, k2, k3⟩ := (r1.readBits_spec g3 b).1 (by rw [g2, List.length_drop]; omega)
      have hsplit : R.bits.take (a + b) = R.bits.take a ++ (R.bits.drop a).take b := List.take_add
      have hla : (R.bits.take a).length = a := by rw [List.length_take]; omega
      have hof : ∀ (p q : List Bool), ofBits (p ++ q) = ofBits p + 2 ^ p.length * ofBits q := by
        intro p q
        induction p with
        | nil => simp [ofBits]
        | cons x p ih => simp only [List.cons_append, ofBits, ih, List.length_cons, Nat.pow_succ]; rw [Nat.mul_add, ← Nat.mul_assoc]; rw [Nat.mul_comm 2 (2 ^ p.length)]; omega
      have hlt : ofBits (R.bits.take a) < 2 ^ a := by have := ofBits_lt (R.bits.take a); rwa [hla] at this
      refine ⟨r1, ?_, g3, ?_⟩
      · rw [g1, hsplit, hof, hla, Nat.add_mul_mod_self_left, Nat.mod_eq_of_lt hlt]
      · have : r3 = r2 := Reader.eq_of_bits k3 h3 (by rw [k2, g2, h2, List.drop_drop])
        rw [k1, this, hsplit, hof, hla, Nat.add_mul_div_left _ _ (Nat.two_pow_pos a), Nat.div_eq_of_lt hlt, Nat.zero_add, g2]
    · rw [hs.2 (by omega)] at e; cases e
  · intro e
    by_cases hw : a + b ≤ R.bits.length
    · obtain ⟨r2, h1, _⟩ := hs.1 hw
      rw [h1] at e; cases e
    · by_cases ha : a ≤ R.bits.length
      · obtain ⟨r1, g1, g2, g3⟩ := hsa.1 ha
        exact .inr ⟨_, r1, g1, (r1.readBits_spec g3 b).2 (by rw [g2, List.length_drop]; omega)⟩
      · exact .inl (hsa.2 (by omega))

theorem Reader.alignByte_full (h : r.Within chunk) : (r.full fut T).alignByte = r.alignByte.full fut T ∧ Moves r r.alignByte chunk ∧
    r.alignByte.count = 0 ∧ r.alignByte.left ≤ r.left := by
  have hs := r.alignByte_spec h.ok
  exact ⟨rfl, ⟨⟨hs.2.1.acc, hs.2.1.count, h.pos, h.rest⟩, Nat.le_refl _⟩, hs.2.2.1, alignByte_left h.ok⟩

theorem Reader.alignByte_of_count {R : Reader} (h : R.count = 0) : R.alignByte = R := by
  cases R with
  | mk rest pos acc count => simp only at h; subst h; simp [Reader.alignByte]

end Verif.Deflate
