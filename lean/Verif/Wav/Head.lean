import Verif.Wav.Samples
/-! Lemmas about headers. -/
namespace Verif.Wav
open Verif.Bytes

theorem le_at (n v : Nat) (h : v < 256 ^ n) : leNat (le n v) = v := by rw [leNat_le, Nat.mod_eq_of_lt h]

theorem take_left {α : Type} {A B : List α} {n : Nat} (h : A.length = n) : (A ++ B).take n = A := by rw [← h]; exact List.take_left ..

theorem drop_left {α : Type} {A B : List α} {n : Nat} (h : A.length = n) : (A ++ B).drop n = B := by rw [← h]; exact List.drop_left ..

theorem drop_left' {α : Type} {A B : List α} {n : Nat} (m : Nat) (h : A.length = n) : (A ++ B).drop (n + m) = B.drop m := by
  rw [← List.drop_drop, drop_left h]

theorem supported_bits {f : Fmt} (h : Supported f) : f.bits ∈ [8, 16, 24, 32] ∧ f.bits ≠ 0 ∧ f.bits % 8 = 0 ∧ f.bits < 2 ^ 16 := by
  have : f.bits = 8 ∨ f.bits = 16 ∨ f.bits = 24 ∨ f.bits = 32 := by
    rcases h with ⟨_, h⟩ | ⟨_, h⟩
    · simpa using h
    · exact .inr (.inr (.inr h))
  refine ⟨by simpa using this, ?_⟩
  omega

theorem parseFmt_ok {b : List Byte} {f : Fmt} (h : IsFmt b f) : parseFmt b = .ok f := by
  obtain ⟨hs, hch, hr, hr2, hal, hal2, tag, ps, ext, htag, rfl, hps, hext⟩ := h
  obtain ⟨hmem, hb0, hb8, hb16⟩ := supported_bits hs
  have hch2 : f.channels < 2 ^ 16 := by
    have : 1 ≤ f.bits / 8 := by omega
    have := Nat.mul_le_mul_left f.channels this
    omega
  have e0 : at16 (le 2 tag ++ le 2 f.channels ++ le 4 f.rate ++ ps ++ le 2 f.align ++ le 2 f.bits ++ ext) 0 = tag := by
    unfold at16
    simp only [List.append_assoc, List.drop_zero]
    rw [take_left (le_length ..), le_at _ _ htag]
  have e2 : at16 (le 2 tag ++ le 2 f.channels ++ le 4 f.rate ++ ps ++ le 2 f.align ++ le 2 f.bits ++ ext) 2 = f.channels := by
    unfold at16
    simp only [List.append_assoc]
    rw [drop_left (le_length ..), take_left (le_length ..), le_at _ _ hch2]
  have e4 : at32 (le 2 tag ++ le 2 f.channels ++ le 4 f.rate ++ ps ++ le 2 f.align ++ le 2 f.bits ++ ext) 4 = f.rate := by
    unfold at32
    simp only [List.append_assoc]
    rw [show 4 = 2 + 2 from rfl, drop_left' 2 (le_length ..), drop_left (le_length ..), show 2 + 2 = 4 from rfl, take_left (le_length ..), le_at _ _ hr2]
  have e12 : at16 (le 2 tag ++ le 2 f.channels ++ le 4 f.rate ++ ps ++ le 2 f.align ++ le 2 f.bits ++ ext) 12 = f.align := by
    unfold at16
    rw [show le 2 tag ++ le 2 f.channels ++ le 4 f.rate ++ ps ++ le 2 f.align ++ le 2 f.bits ++ ext =
      (le 2 tag ++ le 2 f.channels ++ le 4 f.rate ++ ps) ++ (le 2 f.align ++ (le 2 f.bits ++ ext)) by simp only [List.append_assoc]]
    rw [drop_left (by simp [hps]), take_left (le_length ..), le_at _ _ hal2]
  have e14 : at16 (le 2 tag ++ le 2 f.channels ++ le 4 f.rate ++ ps ++ le 2 f.align ++ le 2 f.bits ++ ext) 14 = f.bits := by
    unfold at16
    rw [show le 2 tag ++ le 2 f.channels ++ le 4 f.rate ++ ps ++ le 2 f.align ++ le 2 f.bits ++ ext =
      (le 2 tag ++ le 2 f.channels ++ le 4 f.rate ++ ps ++ le 2 f.align) ++ (le 2 f.bits ++ ext) by simp only [List.append_assoc]]
    rw [drop_left (by simp [hps]), take_left (le_length ..), le_at _ _ hb16]
  have e24 : at16 (le 2 tag ++ le 2 f.channels ++ le 4 f.rate ++ ps ++ le 2 f.align ++ le 2 f.bits ++ ext) 24 = leNat ((ext.drop 8).take 2) := by
    unfold at16
    rw [show 24 = 16 + 8 from rfl, drop_left' 8 (by simp [hps])]
  have hl : (le 2 tag ++ le 2 f.channels ++ le 4 f.rate ++ ps ++ le 2 f.align ++ le 2 f.bits ++ ext).length = 16 + ext.length := by simp [hps]; omega
  unfold parseFmt
  rw [if_neg (by rw [hl]; omega), e0, e2, e4, e12, e14, e24]
  dsimp only
  rw [if_neg (by omega), if_neg (by omega)]
  have htagv : (if tag = 0xFFFE then leNat ((ext.drop 8).take 2) else tag) = f.tag := by
    rcases hext with ⟨h1, h2⟩ | ⟨h1, _, h3⟩
    · rw [if_neg h2, h1]
    · rw [if_pos h1, h3]
      apply le_at
      rcases hs with ⟨h, _⟩ | ⟨h, _⟩ <;> omega
  have hsmall : ¬ (tag = 0xFFFE ∧ (le 2 tag ++ le 2 f.channels ++ le 4 f.rate ++ ps ++ le 2 f.align ++ le 2 f.bits ++ ext).length < 40) := by
    rw [hl]
    rcases hext with ⟨_, h2⟩ | ⟨_, h, _⟩ <;> omega
  rw [if_neg hsmall, htagv]
  have hal0 : ¬ (f.align = 0 ∨ f.align ≠ f.channels * (f.bits / 8)) := by
    have : 1 ≤ f.bits / 8 := by omega
    have := Nat.mul_le_mul hch this
    omega
  rw [if_neg hal0, if_pos]
  rcases hs with ⟨h, h'⟩ | h
  · exact .inl ⟨h, by simpa using h'⟩
  · exact .inr h

theorem le_take (n i : Nat) (b : List Byte) (h : i + n ≤ b.length) : le n (leNat ((b.drop i).take n)) = (b.drop i).take n := by
  have hl : ((b.drop i).take n).length = n := by rw [List.length_take, List.length_drop]; omega
  have := le_leNat ((b.drop i).take n)
  rwa [hl] at this

theorem leNat_take_lt (n i : Nat) (b : List Byte) : leNat ((b.drop i).take n) < 256 ^ n := by
  refine Nat.lt_of_lt_of_le (leNat_lt _) (Nat.pow_le_pow_right (by omega) ?_)
  rw [List.length_take]; omega

theorem parseFmt_sound {b : List Byte} {f : Fmt} (h : parseFmt b = .ok f) : IsFmt b f := by
  unfold parseFmt at h
  split at h
  · cases h
  rename_i h16
  dsimp only at h
  split at h
  · cases h
  rename_i h0
  split at h
  · cases h
  rename_i h8
  split at h
  · cases h
  rename_i hx
  split at h
  · cases h
  rename_i hal
  generalize htag : (if at16 b 0 = 0xFFFE then at16 b 24 else at16 b 0) = tag at h
  by_cases hs : (tag = 1 ∧ (at16 b 14 = 8 ∨ at16 b 14 = 16 ∨ at16 b 14 = 24 ∨ at16 b 14 = 32)) ∨ (tag = 3 ∧ at16 b 14 = 32)
  case neg => rw [if_neg hs] at h; cases h
  rw [if_pos hs] at h
  injection h with h
  subst h
  refine ⟨?_, by simp only; omega, by simp only; omega, leNat_take_lt 4 4 b, by simp only; omega, leNat_take_lt 2 12 b, at16 b 0, (b.drop 8).take 4, b.drop 16,
    leNat_take_lt 2 0 b, ?_, by rw [List.length_take, List.length_drop]; omega, ?_⟩
  · rcases hs with ⟨h1, h2⟩ | h1
    · exact .inl ⟨h1, by simpa using h2⟩
    · exact .inr h1
  · simp only
    unfold at16 at32
    rw [le_take 2 0 b (by omega), le_take 2 2 b (by omega), le_take 4 4 b (by omega), le_take 2 12 b (by omega), le_take 2 14 b (by omega)]
    rw [List.drop_zero]
    rw [← List.take_add, show (2 : Nat) + 2 = 4 from rfl, ← List.take_add, ← List.take_add, ← List.take_add, ← List.take_add]
    exact (List.take_append_drop 16 b).symm
  · simp only
    by_cases hf : at16 b 0 = 0xFFFE
    · right
      rw [if_pos hf] at htag
      rw [← htag]
      refine ⟨hf, by rw [List.length_drop]; omega, ?_⟩
      rw [List.drop_drop]
      exact (le_take 2 24 b (by omega)).symm
    · left
      rw [if_neg hf] at htag
      exact ⟨htag, hf⟩

theorem Chunk.Ok.size {x : Chunk} (h : x.Ok) (t : List Byte) :
    ¬ (x.bytes ++ t).length < 8 ∧ (x.bytes ++ t).take 4 = x.id ∧ at32 (x.bytes ++ t) 4 = x.body.length ∧ (x.bytes ++ t).drop 8 = x.body ++ (x.pad ++ t) := by
  obtain ⟨h1, _, h3, _⟩ := h
  unfold Chunk.bytes at32
  simp only [List.append_assoc]
  refine ⟨by simp [h1]; omega, take_left h1, by rw [drop_left h1, take_left (le_length ..), le_at _ _ h3], ?_⟩
  rw [show 8 = 4 + 4 from rfl, drop_left' 4 h1, drop_left (le_length ..)]

theorem step_other (c : Cfg) (n : Nat) (f : Option Fmt) {x : Chunk} (h : x.Ok) (hx : x.id ≠ FMT) (t : List Byte) :
    chunks c (n + 1) f (x.bytes ++ t) = chunks c n f t := by
  obtain ⟨e1, e2, e3, e4⟩ := h.size t
  have hp := h.2.2.2
  rw [chunks, if_neg e1, e2, e3, e4]
  dsimp only
  rw [if_neg h.2.1, if_neg (by simp; omega), if_neg hx, ← List.append_assoc, drop_left (by simp [hp])]

theorem step_fmt (c : Cfg) (n : Nat) (f : Option Fmt) {x : Chunk} (h : x.Ok) (hx : x.id = FMT) {g : Fmt} (hg : IsFmt x.body g) (t : List Byte) :
    chunks c (n + 1) f (x.bytes ++ t) = chunks c n (some g) t := by
  obtain ⟨e1, e2, e3, e4⟩ := h.size t
  have hp := h.2.2.2
  rw [chunks, if_neg e1, e2, e3, e4]
  dsimp only
  rw [if_neg h.2.1, if_neg (by simp; omega), if_pos hx, take_left rfl, parseFmt_ok hg]
  dsimp only
  rw [← List.append_assoc, drop_left (by simp [hp])]

theorem step_data (c : Cfg) (n : Nat) (f : Fmt) {size : Nat} (hs : size < 2 ^ 32) (hd : size % f.align = 0) (rest : List Byte) :
    chunks c (n + 1) (some f) (DATA ++ le 4 size ++ rest) = .ok (some (dataChunk c f size rest)) := by
  rw [chunks, if_neg (by simp [DATA])]
  have h4 : DATA.length = 4 := rfl
  rw [List.append_assoc]
  have e2 : (DATA ++ (le 4 size ++ rest)).take 4 = DATA := take_left h4
  have e3 : at32 (DATA ++ (le 4 size ++ rest)) 4 = size := by unfold at32; rw [drop_left h4, take_left (le_length ..), le_at _ _ hs]
  have e4 : (DATA ++ (le 4 size ++ rest)).drop 8 = rest := by rw [show 8 = 4 + 4 from rfl, drop_left' 4 h4, drop_left (le_length ..)]
  rw [e2, e3, e4]
  dsimp only
  rw [if_pos rfl, if_neg (by omega)]

/-- The format after chunks. -/
inductive Last : Option Fmt → List Chunk → Option Fmt → Prop where
  | nil (f : Option Fmt) : Last f [] f
  | other {f g : Option Fmt} {x : Chunk} {xs : List Chunk} : x.Ok → x.id ≠ FMT → Last f xs g → Last f (x :: xs) g
  | fmt {f g : Option Fmt} {x : Chunk} {xs : List Chunk} {k : Fmt} : x.Ok → x.id = FMT → IsFmt x.body k → Last (some k) xs g → Last f (x :: xs) g

theorem chunk_bytes_length {x : Chunk} (h : x.Ok) : x.bytes.length = 8 + x.body.length + x.body.length % 2 := by
  unfold Chunk.bytes
  simp [h.1, h.2.2.2]
  omega

theorem chunks_last (c : Cfg) {f g : Option Fmt} {xs : List Chunk} (h : Last f xs g) (n : Nat) (t : List Byte) (hn : (xs.flatMap Chunk.bytes).length ≤ n) :
    ∃ m, n ≤ m + (xs.flatMap Chunk.bytes).length ∧ chunks c n f (xs.flatMap Chunk.bytes ++ t) = chunks c m g t := by
  induction h generalizing n with
  | nil f => exact ⟨n, by simp, rfl⟩
  | other hx h _ ih =>
    rw [List.flatMap_cons, List.length_append] at hn
    have hb := chunk_bytes_length hx
    obtain ⟨k, rfl⟩ : ∃ k, n = k + 1 := ⟨n - 1, by omega⟩
    obtain ⟨m, h1, h2⟩ := ih k (by omega)
    refine ⟨m, by rw [List.flatMap_cons, List.length_append]; omega, ?_⟩
    rw [List.flatMap_cons, List.append_assoc, step_other c k _ hx h]
    exact h2
  | fmt hx h hf _ ih =>
    rw [List.flatMap_cons, List.length_append] at hn
    have hb := chunk_bytes_length hx
    obtain ⟨k, rfl⟩ : ∃ k, n = k + 1 := ⟨n - 1, by omega⟩
    obtain ⟨m, h1, h2⟩ := ih k (by omega)
    refine ⟨m, by rw [List.flatMap_cons, List.length_append]; omega, ?_⟩
    rw [List.flatMap_cons, List.append_assoc, step_fmt c k _ hx h hf]
    exact h2

/-- Chunks that are not complete. -/
theorem chunks_prefix (c : Cfg) {f g : Option Fmt} {xs : List Chunk} (h : Last f xs g) (n : Nat) {size : Nat} (p q : List Byte) (hq : q ≠ [])
    (hp : p ++ q = xs.flatMap Chunk.bytes ++ (DATA ++ le 4 size)) : chunks c n f p = .ok none := by
  have hql := List.length_pos_iff.2 hq
  have step : ∀ {f : Option Fmt} {x : Chunk} {xs : List Chunk} (n : Nat) (p : List Byte), x.Ok → p ++ q = (x :: xs).flatMap Chunk.bytes ++ (DATA ++ le 4 size) →
      (chunks c (n + 1) f p = .ok none) ∨ ∃ p', p = x.bytes ++ p' ∧ p' ++ q = xs.flatMap Chunk.bytes ++ (DATA ++ le 4 size) := by
    intro f x xs n p hx he
    rw [List.flatMap_cons, List.append_assoc] at he
    by_cases hl : x.bytes.length ≤ p.length
    · right
      obtain ⟨p', h1, h2⟩ | ⟨p', h1, h2⟩ := List.append_eq_append_iff.1 he
      · have : p' = [] := by
          have := congrArg List.length h1
          rw [List.length_append] at this
          exact List.length_eq_zero_iff.1 (by omega)
        rw [this, List.append_nil] at h1
        rw [this, List.nil_append] at h2
        exact ⟨[], by rw [h1, List.append_nil], by rw [List.nil_append]; exact h2⟩
      · exact ⟨p', h1, h2.symm⟩
    · left
      rw [chunks]
      split
      · rfl
      · rename_i h8
        obtain ⟨p', h1, h2⟩ | ⟨p', h1, h2⟩ := List.append_eq_append_iff.1 he
        · have hpl : p.length + p'.length = x.bytes.length := by rw [h1, List.length_append]
          obtain ⟨_, e2, e3, e4⟩ := hx.size []
          rw [List.append_nil] at e2 e3 e4
          rw [h1] at e2 e3 e4
          have e2' : p.take 4 = x.id := by rw [← e2, List.take_append_of_le_length (by omega)]
          have e3' : at32 p 4 = x.body.length := by
            rw [← e3]
            unfold at32
            rw [List.drop_append_of_le_length (by omega), List.take_append_of_le_length (by rw [List.length_drop]; omega)]
          have hb := chunk_bytes_length hx
          rw [e2', e3']
          dsimp only
          rw [if_neg hx.2.1, if_pos (by rw [List.length_drop]; omega)]
        · exfalso
          rw [h1, List.length_append] at hl
          omega
  induction h generalizing n p with
  | nil f =>
    cases n with
    | zero => rfl
    | succ n =>
      rw [chunks, if_pos]
      have := congrArg List.length hp
      simp [DATA] at this
      omega
  | other hx h _ ih =>
    cases n with
    | zero => rfl
    | succ n =>
      rcases step n p hx hp with e | ⟨p', rfl, e⟩
      · exact e
      · rw [step_other c n _ hx h]
        exact ih n p' e
  | fmt hx h hf _ ih =>
    cases n with
    | zero => rfl
    | succ n =>
      rcases step n p hx hp with e | ⟨p', rfl, e⟩
      · exact e
      · rw [step_fmt c n _ hx h hf]
        exact ih n p' e

theorem chunks_sound (c : Cfg) (n : Nat) (f : Option Fmt) (b : List Byte) (h : Head) (e : chunks c n f b = .ok (some h)) :
    ∃ xs g size rest, Last f xs (some g) ∧ size < 2 ^ 32 ∧ size % g.align = 0 ∧ b = xs.flatMap Chunk.bytes ++ (DATA ++ le 4 size) ++ rest ∧ h = dataChunk c g size rest := by
  induction n generalizing f b with
  | zero => cases e
  | succ n ih =>
    rw [chunks] at e
    split at e
    · cases e
    rename_i h8
    have hid : b = b.take 4 ++ (le 4 (at32 b 4) ++ b.drop 8) := by
      unfold at32
      rw [le_take 4 4 b (by omega), ← List.append_assoc, ← List.take_add]
      exact (List.take_append_drop 8 b).symm
    have hsz : at32 b 4 < 2 ^ 32 := leNat_take_lt 4 4 b
    dsimp only at e
    split at e
    · rename_i hd
      cases f with
      | none => cases e
      | some g =>
        dsimp only at e
        split at e
        · cases e
        rename_i hm
        injection e with e
        injection e with e
        refine ⟨[], g, at32 b 4, b.drop 8, .nil _, hsz, by omega, ?_, e.symm⟩
        rw [List.flatMap_nil, List.nil_append, List.append_assoc, ← hd]
        exact hid
    · rename_i hd
      split at e
      · cases e
      rename_i hpad
      let x : Chunk := ⟨b.take 4, (b.drop 8).take (at32 b 4), ((b.drop 8).drop (at32 b 4)).take (at32 b 4 % 2)⟩
      have hbl : ((b.drop 8).take (at32 b 4)).length = at32 b 4 := by rw [List.length_take]; omega
      have hx : x.Ok := ⟨by show (b.take 4).length = 4; rw [List.length_take]; omega, hd, by show ((b.drop 8).take (at32 b 4)).length < _; rw [hbl]; exact hsz,
        by show (((b.drop 8).drop (at32 b 4)).take (at32 b 4 % 2)).length = ((b.drop 8).take (at32 b 4)).length % 2
           rw [hbl, List.length_take, List.length_drop]; omega⟩
      have hb : b = x.bytes ++ (b.drop 8).drop (at32 b 4 + at32 b 4 % 2) := by
        show b = b.take 4 ++ le 4 ((b.drop 8).take (at32 b 4)).length ++ (b.drop 8).take (at32 b 4) ++ ((b.drop 8).drop (at32 b 4)).take (at32 b 4 % 2) ++ _
        rw [hbl]
        conv => lhs; rw [hid]
        simp only [List.append_assoc]
        congr 2
        rw [← List.drop_drop, List.take_append_drop, List.take_append_drop]
      split at e
      · rename_i hf
        split at e
        · cases e
        rename_i g hg
        obtain ⟨xs, k, size, rest, h1, h2, h3, h4, h5⟩ := ih _ _ e
        refine ⟨x :: xs, k, size, rest, .fmt hx hf (parseFmt_sound hg) h1, h2, h3, ?_, h5⟩
        rw [List.flatMap_cons, List.append_assoc, List.append_assoc, ← List.append_assoc (xs.flatMap Chunk.bytes), ← h4]
        exact hb
      · rename_i hf
        obtain ⟨xs, k, size, rest, h1, h2, h3, h4, h5⟩ := ih _ _ e
        refine ⟨x :: xs, k, size, rest, .other hx hf h1, h2, h3, ?_, h5⟩
        rw [List.flatMap_cons, List.append_assoc, List.append_assoc, ← List.append_assoc (xs.flatMap Chunk.bytes), ← h4]
        exact hb

theorem last_of_other {xs : List Chunk} (f : Option Fmt) (h : ∀ y ∈ xs, y.Ok) (hn : ∀ y ∈ xs, y.id ≠ FMT) : Last f xs f := by
  induction xs with
  | nil => exact .nil _
  | cons x xs ih => exact .other (h x (.head _)) (hn x (.head _)) (ih (fun y hy => h y (.tail _ hy)) (fun y hy => hn y (.tail _ hy)))

theorem last_of {before after : List Chunk} {x : Chunk} {f : Fmt} (f0 : Option Fmt) (h : ∀ y ∈ before ++ x :: after, y.Ok) (hx : x.id = FMT) (hf : IsFmt x.body f)
    (hb : ∀ y ∈ before, y.id = FMT → ∃ g, IsFmt y.body g) (ha : ∀ y ∈ after, y.id ≠ FMT) : Last f0 (before ++ x :: after) (some f) := by
  induction before generalizing f0 with
  | nil => exact .fmt (h x (.head _)) hx hf (last_of_other _ (fun y hy => h y (.tail _ hy)) ha)
  | cons z zs ih =>
    have ih := fun f0 => ih f0 (fun y hy => h y (.tail _ hy)) (fun y hy => hb y (.tail _ hy))
    by_cases hz : z.id = FMT
    · obtain ⟨g, hg⟩ := hb z (.head _) hz
      exact .fmt (h z (.head _)) hz hg (ih _)
    · exact .other (h z (.head _)) hz (ih _)

theorem last_split {f0 : Option Fmt} {xs : List Chunk} {g : Option Fmt} (h : Last f0 xs g) :
    (∀ y ∈ xs, y.Ok) ∧ ((g = f0 ∧ ∀ y ∈ xs, y.id ≠ FMT) ∨ ∃ before x after f, xs = before ++ x :: after ∧ g = some f ∧ x.id = FMT ∧ IsFmt x.body f ∧
      (∀ y ∈ before, y.id = FMT → ∃ g, IsFmt y.body g) ∧ (∀ y ∈ after, y.id ≠ FMT)) := by
  induction h with
  | nil f => exact ⟨nofun, .inl ⟨rfl, nofun⟩⟩
  | @other f g x xs hx hn _ ih =>
    refine ⟨fun y hy => ?_, ?_⟩
    · rcases List.mem_cons.1 hy with rfl | hy
      · exact hx
      · exact ih.1 y hy
    · rcases ih.2 with ⟨h1, h2⟩ | ⟨b, z, a, k, h1, h2, h3, h4, h5, h6⟩
      · refine .inl ⟨h1, fun y hy => ?_⟩
        rcases List.mem_cons.1 hy with rfl | hy
        · exact hn
        · exact h2 y hy
      · refine .inr ⟨x :: b, z, a, k, by rw [h1]; rfl, h2, h3, h4, fun y hy => ?_, h6⟩
        rcases List.mem_cons.1 hy with rfl | hy
        · exact fun e => absurd e hn
        · exact h5 y hy
  | @fmt f g x xs k hx hn hk _ ih =>
    refine ⟨fun y hy => ?_, ?_⟩
    · rcases List.mem_cons.1 hy with rfl | hy
      · exact hx
      · exact ih.1 y hy
    · rcases ih.2 with ⟨h1, h2⟩ | ⟨b, z, a, k', h1, h2, h3, h4, h5, h6⟩
      · exact .inr ⟨[], x, xs, k, rfl, h1, hn, hk, nofun, h2⟩
      · refine .inr ⟨x :: b, z, a, k', by rw [h1]; rfl, h2, h3, h4, fun y hy => ?_, h6⟩
        rcases List.mem_cons.1 hy with rfl | hy
        · exact fun _ => ⟨k, hk⟩
        · exact h5 y hy

theorem header_last {head : List Byte} {f : Fmt} {size : Nat} (h : Header head f size) :
    ∃ len xs, head = RIFF ++ len ++ WAVE ++ xs.flatMap Chunk.bytes ++ DATA ++ le 4 size ∧ len.length = 4 ∧ size < 2 ^ 32 ∧ Last none xs (some f) ∧ size % f.align = 0 := by
  obtain ⟨len, b, x, a, h1, h2, h3, h4, h5, h6, h7, h8, h9⟩ := h
  exact ⟨len, b ++ x :: a, h1, h2, h3, last_of none h4 h5 h6 h7 h8, h9⟩

theorem wave_parts {len : List Byte} (h : len.length = 4) (t : List Byte) : ¬ (RIFF ++ len ++ WAVE ++ t).length < 12 ∧ (RIFF ++ len ++ WAVE ++ t).take 4 = RIFF ∧
    ((RIFF ++ len ++ WAVE ++ t).drop 8).take 4 = WAVE ∧ (RIFF ++ len ++ WAVE ++ t).drop 12 = t := by
  refine ⟨by simp [RIFF, WAVE, h]; omega, ?_, ?_, ?_⟩
  · simp only [List.append_assoc]
    exact take_left rfl
  · rw [List.append_assoc, drop_left (by simp [RIFF, h])]
    exact take_left rfl
  · exact drop_left (by simp [RIFF, WAVE, h])

/-- A header is found, whatever follows it. -/
theorem tryParse_header (c : Cfg) {head : List Byte} {f : Fmt} {size : Nat} (h : Header head f size) (rest : List Byte) :
    tryParse c (head ++ rest) = .ok (some (dataChunk c f size rest)) := by
  obtain ⟨len, xs, rfl, hl, hs, hx, hd⟩ := header_last h
  have e : RIFF ++ len ++ WAVE ++ xs.flatMap Chunk.bytes ++ DATA ++ le 4 size ++ rest = RIFF ++ len ++ WAVE ++ (xs.flatMap Chunk.bytes ++ (DATA ++ le 4 size ++ rest)) := by
    simp only [List.append_assoc]
  rw [e]
  obtain ⟨e1, e2, e3, e4⟩ := wave_parts hl (xs.flatMap Chunk.bytes ++ (DATA ++ le 4 size ++ rest))
  unfold tryParse
  rw [if_neg e1, if_neg (by rw [e2, e3]; simp), e4]
  obtain ⟨m, h1, h2⟩ := chunks_last c hx (RIFF ++ len ++ WAVE ++ (xs.flatMap Chunk.bytes ++ (DATA ++ le 4 size ++ rest))).length (DATA ++ le 4 size ++ rest) (by simp; omega)
  rw [h2]
  have : 1 ≤ m := by
    simp [RIFF] at h1
    omega
  obtain ⟨k, rfl⟩ : ∃ k, m = k + 1 := ⟨m - 1, by omega⟩
  exact step_data c k f hs hd rest

/-- Before the end of the header, none is found. -/
theorem tryParse_prefix (c : Cfg) {head : List Byte} {f : Fmt} {size : Nat} (h : Header head f size) {p q : List Byte} (hq : q ≠ []) (hp : p ++ q = head) :
    tryParse c p = .ok none := by
  obtain ⟨len, xs, rfl, hl, hs, hx, hd⟩ := header_last h
  unfold tryParse
  split
  · rfl
  rename_i h12
  have hp' : p ++ q = (RIFF ++ len ++ WAVE) ++ (xs.flatMap Chunk.bytes ++ (DATA ++ le 4 size)) := by
    rw [hp]; simp only [List.append_assoc]
  have hpl : (RIFF ++ len ++ WAVE).length = 12 := by simp [RIFF, WAVE, hl]
  obtain ⟨p', rfl, he⟩ : ∃ p', p = (RIFF ++ len ++ WAVE) ++ p' ∧ p' ++ q = xs.flatMap Chunk.bytes ++ (DATA ++ le 4 size) := by
    obtain ⟨p', h1, h2⟩ | ⟨p', h1, h2⟩ := List.append_eq_append_iff.1 hp'
    · have : p' = [] := by
        have := congrArg List.length h1
        rw [hpl, List.length_append] at this
        exact List.length_eq_zero_iff.1 (by omega)
      rw [this, List.append_nil] at h1
      rw [this, List.nil_append] at h2
      exact ⟨[], by rw [← h1, List.append_nil], by rw [List.nil_append]; exact h2⟩
    · exact ⟨p', h1, h2.symm⟩
  obtain ⟨e1, e2, e3, e4⟩ := wave_parts hl p'
  rw [if_neg (by rw [e2, e3]; simp), e4]
  exact chunks_prefix c hx _ p' q hq he

/-- What is found is a header. -/
theorem tryParse_sound (c : Cfg) {b : List Byte} {h : Head} (e : tryParse c b = .ok (some h)) :
    ∃ head f size rest, b = head ++ rest ∧ Header head f size ∧ h = dataChunk c f size rest := by
  unfold tryParse at e
  split at e
  · cases e
  rename_i h12
  split at e
  · cases e
  rename_i hw
  obtain ⟨xs, g, size, rest, h1, h2, h3, h4, h5⟩ := chunks_sound c _ _ _ _ e
  obtain ⟨hall, hsp⟩ := last_split h1
  rcases hsp with ⟨h, _⟩ | ⟨bf, x, af, k, rfl, hk, hx, hf, hb, ha⟩
  · cases h
  injection hk with hk
  subst hk
  refine ⟨_, g, size, rest, ?_, ⟨(b.drop 4).take 4, bf, x, af, rfl, by rw [List.length_take, List.length_drop]; omega, h2, hall, hx, hf, hb, ha, h3⟩, h5⟩
  have h6 : b.take 4 = RIFF := Classical.byContradiction fun h => hw (.inl h)
  have h7 : (b.drop 8).take 4 = WAVE := Classical.byContradiction fun h => hw (.inr h)
  have h8 : RIFF ++ (b.drop 4).take 4 ++ WAVE = b.take 12 := by
    rw [← h6, ← h7, ← List.take_add, show 4 + 4 = 8 from rfl, ← List.take_add]
  rw [h8]
  conv => lhs; rw [← List.take_append_drop 12 b, h4]
  simp only [List.append_assoc]

end Verif.Wav
