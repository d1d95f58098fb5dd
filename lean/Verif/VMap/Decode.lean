import Verif.VMap.Alloc
/-! Lemmas about reading records. -/
namespace Verif.VMap
open Verif.Bytes

theorem bytesAt_eq_some {bs x : List Byte} {off n : Nat} : bytesAt bs off n = some x ↔ off + n ≤ bs.length ∧ (bs.drop off).take n = x := by
  unfold bytesAt
  by_cases h : off + n ≤ bs.length
  · rw [if_pos h]; simp only [Option.some.injEq, h, true_and]
  · rw [if_neg h]; simp only [reduceCtorEq, h, false_and]

theorem bytesAt_append {bs x : List Byte} {off n : Nat} (r : List Byte) (h : bytesAt bs off n = some x) : bytesAt (bs ++ r) off n = some x := by
  obtain ⟨h1, h2⟩ := bytesAt_eq_some.1 h
  refine bytesAt_eq_some.2 ⟨by rw [List.length_append]; omega, ?_⟩
  rw [List.drop_append_of_le_length (by omega), List.take_append_of_le_length (by rw [List.length_drop]; omega)]
  exact h2

theorem bytesAt_skip (h c : List Byte) (off n : Nat) : bytesAt (h ++ c) (h.length + off) n = bytesAt c off n := by
  unfold bytesAt
  have : ((h ++ c).drop (h.length + off)) = c.drop off := by rw [← List.drop_drop]; simp
  rw [this, List.length_append]
  by_cases hc : off + n ≤ c.length
  · rw [if_pos hc, if_pos (by omega)]
  · rw [if_neg hc, if_neg (by omega)]

theorem takeWhile_append_of_found {p : Byte → Bool} : ∀ {a : List Byte} (b : List Byte), (a.takeWhile p).length < a.length →
    (a ++ b).takeWhile p = a.takeWhile p
  | [], _, h => by simp at h
  | x :: a, b, h => by
    rw [List.cons_append, List.takeWhile_cons, List.takeWhile_cons]
    by_cases hx : p x
    · rw [if_pos hx, if_pos hx]
      rw [List.takeWhile_cons, if_pos hx] at h
      rw [takeWhile_append_of_found b (by simpa using h)]
    · rw [if_neg hx, if_neg hx]

theorem textAt_append {bs x : List Byte} {off cap : Nat} (r : List Byte) (h : textAt bs off cap = some x) : textAt (bs ++ r) off cap = some x := by
  unfold textAt at h ⊢
  dsimp only at h ⊢
  split at h
  · rename_i hc
    simp only [Option.some.injEq] at h
    by_cases hoff : off ≤ bs.length
    · rw [List.drop_append_of_le_length hoff, List.take_append]
      rcases hc with hc | hc
      · rw [takeWhile_append_of_found _ hc, if_pos (.inl (by rw [List.length_append]; omega)), h]
      · have hr : cap - (bs.drop off).length = 0 := by
          rw [List.length_take] at hc; omega
        rw [hr, List.take_zero, List.append_nil, if_pos (.inr hc), h]
    · have hz : bs.drop off = [] := List.drop_eq_nil_iff.2 (by omega)
      rw [hz] at hc h
      simp at hc h
      rw [← hc, h]
      simp
  · simp at h

theorem textAt_skip (h c : List Byte) (cap : Nat) : textAt (h ++ c) h.length cap = textAt c 0 cap := by
  unfold textAt
  simp

theorem tensorAt_append {bs : List Byte} {off vt : Nat} {v : Val} (r : List Byte) (h : tensorAt bs off vt = some v) : tensorAt (bs ++ r) off vt = some v := by
  unfold tensorAt at h ⊢
  dsimp only [Option.bind_eq_bind] at h ⊢
  obtain ⟨head, h1, h2⟩ := Option.bind_eq_some_iff.1 h
  rw [bytesAt_append r h1, Option.bind_some]
  split at h2
  · rename_i hc; rw [if_pos hc]; exact h2
  · rename_i hc
    rw [if_neg hc]
    obtain ⟨ext, h3, h4⟩ := Option.bind_eq_some_iff.1 h2
    rw [bytesAt_append r h3, Option.bind_some]
    obtain ⟨data, h5, h6⟩ := Option.bind_eq_some_iff.1 h4
    rw [bytesAt_append r h5, Option.bind_some]
    exact h6

theorem tensorAt_skip (h c : List Byte) (vt : Nat) : tensorAt (h ++ c) h.length vt = tensorAt c 0 vt := by
  unfold tensorAt
  have h0 := bytesAt_skip h c 0
  rw [Nat.add_zero] at h0
  simp only [Nat.add_assoc, bytesAt_skip, h0, Nat.zero_add]

/-- a record read on its own is the same record with other bytes behind it -/
theorem decode_append {bs : List Byte} {v : Val} (r : List Byte) (h : decode bs = some v) : decode (bs ++ r) = some v := by
  unfold decode at h ⊢
  dsimp only [Option.bind_eq_bind] at h ⊢
  obtain ⟨head, h1, h2⟩ := Option.bind_eq_some_iff.1 h
  rw [bytesAt_append r h1, Option.bind_some]
  split at h2
  · rename_i hc; rw [if_pos hc]
    obtain ⟨t, h3, h4⟩ := Option.map_eq_some_iff.1 h2
    rw [textAt_append r h3, Option.map_some, h4]
  · rename_i hc; rw [if_neg hc]
    split at h2
    · rename_i hc; rw [if_pos hc]
      split at h2
      · rename_i hc; rw [if_pos hc]; exact h2
      · rename_i hc; rw [if_neg hc]; exact tensorAt_append r h2
    · rename_i hc; rw [if_neg hc]
      split at h2
      · rename_i hc; rw [if_pos hc]
        split at h2
        · rename_i hc; rw [if_pos hc]; exact h2
        · rename_i hc; rw [if_neg hc]
          obtain ⟨t, h3, h4⟩ := Option.bind_eq_some_iff.1 h2
          obtain ⟨b, h5, h6⟩ := Option.bind_eq_some_iff.1 h4
          rw [bytesAt_append r h3, Option.bind_some, bytesAt_append r h5, Option.bind_some]
          exact h6
      · rename_i hc; rw [if_neg hc]
        split at h2
        · rename_i hc; rw [if_pos hc]; exact h2
        · rename_i hc; rw [if_neg hc]
          split at h2
          · rename_i hc; rw [if_pos hc]; exact h2
          · rename_i hc; rw [if_neg hc]
            obtain ⟨t, h3, h4⟩ := Option.map_eq_some_iff.1 h2
            rw [bytesAt_append r h3, Option.map_some, h4]

/-- the part of `decode` behind the header -/
def body (size vt ct : Nat) (c : List Byte) : Option Val :=
  if ct = 2 then (textAt c 0 (size - 8)).map .text
  else if ct = 3 then
    if scalarSize vt = 0 ∨ size - 8 < 8 then some .other else tensorAt c 0 vt
  else if ct = 4 then
    if size - 8 < 32 then some (.map [])
    else (bytesAt c 12 4).bind fun total => (bytesAt c 0 (leNat total)).bind fun blob => some (.map blob)
  else if vt = 0 then some .unset
  else if scalarSize vt = 0 ∨ ct ≠ containerOf vt then some .other
  else (bytesAt c 0 (scalarSize vt)).map (.scalar vt)

theorem leNat_one (n : Nat) (h : n < 256) : leNat (le 1 n) = n := by rw [leNat_le]; omega
theorem leNat_four (n : Nat) (h : n < 2 ^ 32) : leNat (le 4 n) = n := by rw [leNat_le]; omega

theorem recHeader_fields {s vt ct fl : Nat} (hs : s < 2 ^ 32) (hv : vt < 256) (hc : ct < 256) :
    leNat ((recHeader s vt ct fl).take 4) = s ∧ leNat (((recHeader s vt ct fl).drop 4).take 1) = vt ∧
    leNat (((recHeader s vt ct fl).drop 5).take 1) = ct ∧ leNat (((recHeader s vt ct fl).drop 7).take 1) = 8 := by
  have h4 : ∀ n, ∃ a b c d, le 4 n = [a, b, c, d] := fun n => ⟨_, _, _, _, rfl⟩
  have h1 : ∀ n, ∃ a, le 1 n = [a] := fun n => ⟨_, rfl⟩
  obtain ⟨a, b, c, d, hs4⟩ := h4 s
  obtain ⟨v, hv1⟩ := h1 vt
  obtain ⟨w, hc1⟩ := h1 ct
  obtain ⟨x, hf1⟩ := h1 fl
  obtain ⟨y, hp1⟩ := h1 8
  have e : recHeader s vt ct fl = [a, b, c, d, v, w, x, y] := by rw [recHeader, hs4, hv1, hc1, hf1, hp1]; rfl
  rw [e]
  refine ⟨?_, ?_, ?_, ?_⟩
  · show leNat [a, b, c, d] = s
    rw [← hs4]; exact leNat_four s hs
  · show leNat [v] = vt
    rw [← hv1]; exact leNat_one vt hv
  · show leNat [w] = ct
    rw [← hc1]; exact leNat_one ct hc
  · show leNat [y] = 8
    rw [← hp1]; exact leNat_one 8 (by decide)

theorem decode_rec {s vt ct fl : Nat} {c : List Byte} (hs : s < 2 ^ 32) (hv : vt < 256) (hc : ct < 256) :
    decode (recHeader s vt ct fl ++ c) = body s vt ct c := by
  obtain ⟨f1, f2, f3, f4⟩ := recHeader_fields (fl := fl) hs hv hc
  have hl := recHeader_length s vt ct fl
  have hb : bytesAt (recHeader s vt ct fl ++ c) 0 8 = some (recHeader s vt ct fl) :=
    bytesAt_eq_some.2 ⟨by rw [List.length_append]; omega, by rw [List.drop_zero]; exact List.take_left' hl⟩
  have h8 : ∀ off n, bytesAt (recHeader s vt ct fl ++ c) (8 + off) n = bytesAt c off n := fun off n => by rw [← hl]; exact bytesAt_skip ..
  have ht : ∀ cap, textAt (recHeader s vt ct fl ++ c) 8 cap = textAt c 0 cap := fun cap => by
    have := textAt_skip (recHeader s vt ct fl) c cap; rw [hl] at this; exact this
  have hx : ∀ vt', tensorAt (recHeader s vt ct fl ++ c) 8 vt' = tensorAt c 0 vt' := fun vt' => by
    have := tensorAt_skip (recHeader s vt ct fl) c vt'; rw [hl] at this; exact this
  unfold decode body
  dsimp only [Option.bind_eq_bind]
  rw [hb, Option.bind_some, f1, f2, f3, f4, ht, hx, h8 12 4]
  have h80 : ∀ n, bytesAt (recHeader s vt ct fl ++ c) 8 n = bytesAt c 0 n := fun n => h8 0 n
  simp only [h80]

/-- zeros behind the content do not change what is read -/
theorem body_pad {vt ct : Nat} {c : List Byte} {v : Val} {s k : Nat} (h : body (8 + c.length) vt ct c = some v) (hk : s = 8 + c.length + k) (ho : v ≠ .other)
    (hm : v ≠ .map []) : body s vt ct (c ++ List.replicate k 0#8) = some v := by
  unfold body at h ⊢
  split at h
  · rename_i hc; rw [if_pos hc]
    obtain ⟨t, h3, h4⟩ := Option.map_eq_some_iff.1 h
    rw [← h4]
    suffices hh : textAt (c ++ List.replicate k 0#8) 0 (s - 8) = some t by rw [hh]; rfl
    rw [show s - 8 = c.length + k by omega]
    unfold textAt at h3 ⊢
    dsimp only at h3 ⊢
    rw [List.drop_zero, List.take_of_length_le (by omega)] at h3
    rw [List.drop_zero, List.take_of_length_le (by simp)]
    rw [if_pos (.inr (by omega))] at h3
    rw [if_pos (.inr (by simp))]
    simp only [Option.some.injEq] at h3 ⊢
    rw [← h3]
    by_cases hf : (c.takeWhile ((· != 0#8))).length < c.length
    · exact takeWhile_append_of_found _ hf
    · have hsub := List.takeWhile_sublist (l := c) (· != 0#8)
      have hall : c.takeWhile (· != 0#8) = c := hsub.eq_of_length (Nat.le_antisymm hsub.length_le (Nat.le_of_not_lt hf))
      have hall' : ∀ x ∈ c, (x != 0#8) = true := by
        intro x hx
        rw [← hall] at hx
        exact List.all_eq_true.1 (List.all_takeWhile (l := c) (p := (· != 0#8))) x hx
      rw [hall, List.takeWhile_append_of_pos hall']
      cases k with
      | zero => simp
      | succ k => rw [List.replicate_succ, List.takeWhile_cons]; simp
  · rename_i hc; rw [if_neg hc]
    split at h
    · rename_i hc; rw [if_pos hc]
      split at h
      · simp only [Option.some.injEq] at h; exact absurd h.symm ho
      · rename_i hc; rw [if_neg (by omega)]; exact tensorAt_append _ h
    · rename_i hc; rw [if_neg hc]
      split at h
      · rename_i hc; rw [if_pos hc]
        split at h
        · simp only [Option.some.injEq] at h; exact absurd h.symm hm
        · rename_i hc; rw [if_neg (by omega)]
          obtain ⟨t, h3, h4⟩ := Option.bind_eq_some_iff.1 h
          obtain ⟨b, h5, h6⟩ := Option.bind_eq_some_iff.1 h4
          rw [bytesAt_append _ h3, Option.bind_some, bytesAt_append _ h5, Option.bind_some]
          exact h6
      · rename_i hc; rw [if_neg hc]
        split at h
        · rename_i hc; rw [if_pos hc]; exact h
        · rename_i hc; rw [if_neg hc]
          split at h
          · simp only [Option.some.injEq] at h; exact absurd h.symm ho
          · rename_i hc; rw [if_neg hc]
            obtain ⟨t, h3, h4⟩ := Option.map_eq_some_iff.1 h
            rw [bytesAt_append _ h3, Option.map_some, h4]

/-- reading a stored record -/
theorem decode_recordBytes {vt ct fl : Nat} {c : List Byte} {v : Val} (hv : vt < 256) (hc : ct < 256) (hs : align (8 + c.length) < 2 ^ 32)
    (h : body (8 + c.length) vt ct c = some v) (ho : v ≠ .other) (hm : v ≠ .map []) : decode (recordBytes vt ct fl c) = some v := by
  have := align_ge (8 + c.length)
  rw [recordBytes, List.append_assoc, decode_rec hs hv hc]
  exact body_pad h (by omega) ho hm

/-- the size in the header may count padding that is not there -/
theorem body_short {vt ct : Nat} {c : List Byte} {v : Val} {s : Nat} (h : body (8 + c.length) vt ct c = some v) (hk : 8 + c.length ≤ s) (ho : v ≠ .other)
    (hm : v ≠ .map []) (hz : ct = 2 → 0#8 ∈ c) : body s vt ct c = some v := by
  unfold body at h ⊢
  split at h
  · rename_i hc; rw [if_pos hc]
    obtain ⟨t, h3, h4⟩ := Option.map_eq_some_iff.1 h
    rw [← h4]
    suffices hh : textAt c 0 (s - 8) = some t by rw [hh]; rfl
    unfold textAt at h3 ⊢
    dsimp only at h3 ⊢
    rw [List.drop_zero, List.take_of_length_le (by omega)] at h3
    rw [List.drop_zero, List.take_of_length_le (by omega)]
    rw [if_pos (.inr (by omega))] at h3
    rw [if_pos, h3]
    left
    have hsub := List.takeWhile_sublist (l := c) (· != 0#8)
    apply Decidable.byContradiction
    intro hn
    have hall : c.takeWhile (· != 0#8) = c := hsub.eq_of_length (Nat.le_antisymm hsub.length_le (Nat.le_of_not_lt hn))
    have hx := hz hc
    rw [← hall] at hx
    exact absurd (List.all_eq_true.1 (List.all_takeWhile (l := c) (p := (· != 0#8))) _ hx) (by decide)
  · rename_i hc; rw [if_neg hc]
    split at h
    · rename_i hc; rw [if_pos hc]
      split at h
      · simp only [Option.some.injEq] at h; exact absurd h.symm ho
      · rename_i hc; rw [if_neg (by omega)]; exact h
    · rename_i hc; rw [if_neg hc]
      split at h
      · rename_i hc; rw [if_pos hc]
        split at h
        · simp only [Option.some.injEq] at h; exact absurd h.symm hm
        · rename_i hc; rw [if_neg (by omega)]; exact h
      · rename_i hc; rw [if_neg hc]; exact h

/-- reading a stored record without its padding -/
theorem decode_cut {vt ct fl : Nat} {c : List Byte} {v : Val} (hv : vt < 256) (hc : ct < 256) (hs : align (8 + c.length) < 2 ^ 32)
    (h : body (8 + c.length) vt ct c = some v) (ho : v ≠ .other) (hm : v ≠ .map []) (hz : ct = 2 → 0#8 ∈ c) :
    decode ((recordBytes vt ct fl c).take (8 + c.length)) = some v := by
  have := align_ge (8 + c.length)
  rw [recordBytes, List.take_left' (by rw [List.length_append, recHeader_length]), decode_rec hs hv hc]
  exact body_short h (by omega) ho hm hz

/-! ### The kinds of content -/

theorem scalarSize_cases {vt : Nat} (h : scalarSize vt ≠ 0) : 1 ≤ vt ∧ vt ≤ 13 ∧ scalarSize vt ≤ 16 ∧ (vt ≤ 12 → scalarSize vt ≤ 8) := by
  have : vt < 14 := by
    apply Decidable.byContradiction
    intro hn
    apply h
    unfold scalarSize
    rw [List.getD_eq_getElem?_getD, List.getElem?_eq_none (by simp; omega)]
    rfl
  have : vt = 0 ∨ vt = 1 ∨ vt = 2 ∨ vt = 3 ∨ vt = 4 ∨ vt = 5 ∨ vt = 6 ∨ vt = 7 ∨ vt = 8 ∨ vt = 9 ∨ vt = 10 ∨ vt = 11 ∨ vt = 12 ∨ vt = 13 := by omega
  rcases this with rfl | rfl | rfl | rfl | rfl | rfl | rfl | rfl | rfl | rfl | rfl | rfl | rfl | rfl <;> revert h <;> decide

theorem body_scalar {vt : Nat} {bytes : List Byte} (h1 : scalarSize vt ≠ 0) (hl : bytes.length = scalarSize vt) (size : Nat) (rest : List Byte) (h12 : vt ≤ 12) :
    body size vt (scalarCt vt) (bytes ++ rest) = some (.scalar vt bytes) := by
  have hc := scalarSize_cases h1
  unfold body scalarCt containerOf
  have : bytesAt (bytes ++ rest) 0 (scalarSize vt) = some bytes :=
    bytesAt_eq_some.2 ⟨by rw [List.length_append]; omega, by rw [List.drop_zero]; exact List.take_left' hl⟩
  rw [this]
  unfold vtComplex32 vtComplex64
  by_cases h : vt = 12
  · subst h; simp [h1]
  · rw [if_neg h, if_neg (by omega), if_neg (by omega), if_neg (by omega), if_neg (by omega), if_neg]
    · rfl
    · rw [if_neg (by omega)]; omega

theorem body_big {bytes : List Byte} (hl : bytes.length = 16) (size : Nat) : body size vtComplex64 1 bytes = some (.scalar 13 bytes) := by
  unfold body
  have : bytesAt bytes 0 16 = some bytes := bytesAt_eq_some.2 ⟨by omega, by rw [List.drop_zero, List.take_of_length_le (by omega)]⟩
  simp [vtComplex64, scalarSize, containerOf, this]

theorem takeWhile_text {s : List Byte} (h : 0#8 ∉ s) (rest : List Byte) : (s ++ 0#8 :: rest).takeWhile ((· != 0#8)) = s := by
  rw [List.takeWhile_append_of_pos]
  · simp
  · intro x hx
    rw [bne_iff_ne]
    intro he
    exact h (he ▸ hx)

theorem body_text {s : List Byte} (h : 0#8 ∉ s) {rest : List Byte} {size : Nat} (hs : size = 8 + (s ++ 0#8 :: rest).length) :
    body size vtString 2 (s ++ 0#8 :: rest) = some (.text s) := by
  unfold body
  rw [if_pos rfl]
  suffices hh : textAt (s ++ 0#8 :: rest) 0 (size - 8) = some s by rw [hh]; rfl
  unfold textAt
  dsimp only
  rw [List.drop_zero, List.take_of_length_le (by omega), takeWhile_text h, if_pos (.inl (by simp))]

theorem body_map {blob : List Byte} (h1 : 32 ≤ blob.length) (h2 : leNat ((blob.drop 12).take 4) = blob.length) {size : Nat} (hs : size = 8 + blob.length) :
    body size vtValue 4 blob = some (.map blob) := by
  unfold body
  have b1 : bytesAt blob 12 4 = some ((blob.drop 12).take 4) := bytesAt_eq_some.2 ⟨by omega, rfl⟩
  have b2 : bytesAt blob 0 blob.length = some blob := bytesAt_eq_some.2 ⟨by omega, by simp⟩
  rw [if_neg (by decide), if_neg (by decide), if_pos rfl, if_neg (by omega), b1, Option.bind_some, h2, b2]
  rfl

theorem flatMap_le_length (xs : List Nat) : (xs.flatMap (le 4)).length = 4 * xs.length := by
  induction xs with
  | nil => rfl
  | cons x xs ih => rw [List.flatMap_cons, List.length_append, ih, le_length, List.length_cons]; omega

theorem flatMap_le_get : ∀ (xs : List Nat), (∀ x ∈ xs, x < 2 ^ 32) →
    (List.range xs.length).map (fun i => leNat (((xs.flatMap (le 4)).drop (4 * i)).take 4)) = xs
  | [], _ => rfl
  | x :: xs, h => by
    rw [List.length_cons, List.range_succ_eq_map, List.map_cons, List.map_map]
    congr 1
    · rw [List.flatMap_cons, Nat.mul_zero, List.drop_zero, List.take_left' (le_length 4 x)]
      exact leNat_four x (h x (by simp))
    · conv => rhs; rw [← flatMap_le_get xs fun y hy => h y (by simp [hy])]
      refine List.map_congr_left fun i _ => ?_
      rw [Function.comp, List.flatMap_cons, show 4 * (i + 1) = (le 4 x).length + 4 * i by rw [le_length]; omega, ← List.drop_drop]
      simp

theorem body_tensor {vt : Nat} {extents : List Nat} {data : List Byte} (h1 : scalarSize vt ≠ 0) (h2 : extents.length ≤ 8) (h3 : ∀ x ∈ extents, x < 2 ^ 32)
    (h4 : data.length % scalarSize vt = 0) (h5 : data.length / scalarSize vt < 2 ^ 32) {size : Nat} (hs : size = 8 + (tensorBlob vt extents data).length) :
    body size vt 3 (tensorBlob vt extents data) = some (.tensor vt extents data) := by
  have hlen : (tensorBlob vt extents data).length = 8 + (4 * extents.length + 7) / 8 * 8 + data.length := by
    simp only [tensorBlob, List.length_append, le_length, flatMap_le_length, List.length_replicate]; omega
  unfold body
  rw [if_neg (by decide), if_pos rfl, if_neg (by omega)]
  generalize hhead : le 1 vt ++ le 1 extents.length ++ le 1 0 ++ le 1 0 ++ le 4 (data.length / scalarSize vt) = head
  have hhl : head.length = 8 := by rw [← hhead]; simp
  generalize hpad : List.replicate ((4 * extents.length + 7) / 8 * 8 - 4 * extents.length) 0#8 = pad
  have hpl : pad.length = (4 * extents.length + 7) / 8 * 8 - 4 * extents.length := by rw [← hpad]; simp
  have hblob : tensorBlob vt extents data = head ++ (extents.flatMap (le 4) ++ (pad ++ data)) := by
    rw [tensorBlob, hhead, hpad]; simp only [List.append_assoc]
  have e1 : bytesAt (tensorBlob vt extents data) 0 8 = some head :=
    bytesAt_eq_some.2 ⟨by omega, by rw [hblob, List.drop_zero]; exact List.take_left' hhl⟩
  have e2 : bytesAt (tensorBlob vt extents data) (0 + 8) (4 * extents.length) = some (extents.flatMap (le 4)) := by
    refine bytesAt_eq_some.2 ⟨by omega, ?_⟩
    rw [hblob, Nat.zero_add, List.drop_left' hhl]
    exact List.take_left' (flatMap_le_length extents)
  have e3 : bytesAt (tensorBlob vt extents data) (0 + 8 + (4 * extents.length + 7) / 8 * 8) (data.length / scalarSize vt * scalarSize vt) = some data := by
    have hd : data.length / scalarSize vt * scalarSize vt = data.length := Nat.div_mul_cancel (Nat.dvd_of_mod_eq_zero h4)
    refine bytesAt_eq_some.2 ⟨by omega, ?_⟩
    have : tensorBlob vt extents data = (head ++ (extents.flatMap (le 4) ++ pad)) ++ data := by rw [hblob]; simp only [List.append_assoc]
    rw [this, List.drop_left' (by simp only [List.length_append, flatMap_le_length]; omega), hd, List.take_of_length_le (Nat.le_refl _)]
  have f1 : leNat ((head.drop 1).take 1) = extents.length := by
    rw [← hhead]
    show leNat (le 1 extents.length) = _
    exact leNat_one _ (by omega)
  have f2 : leNat ((head.drop 2).take 1) = 0 := by rw [← hhead]; rfl
  have f3 : leNat (head.drop 4) = data.length / scalarSize vt := by
    rw [← hhead]
    show leNat (le 4 _) = _
    exact leNat_four _ h5
  unfold tensorAt
  dsimp only [Option.bind_eq_bind]
  rw [e1, Option.bind_some, f1, f2, f3, if_neg (by omega), e2, Option.bind_some, e3, Option.bind_some, flatMap_le_get extents h3]

end Verif.VMap
