import Verif.VMap.Lemmas
/-! Lemmas: storing each kind of argument in a row. -/
namespace Verif.VMap
open Verif.Bytes

theorem peek_append {m : VMap} {off a b : Nat} {x y : List Byte} (hx : m.peek off a = some x) (hy : m.peek (off + a) b = some y) :
    m.peek off (a + b) = some (x ++ y) := by
  obtain ⟨h1, h2⟩ := peek_eq_some.1 hx
  obtain ⟨h3, h4⟩ := peek_eq_some.1 hy
  refine peek_eq_some.2 ⟨⟨h1.1, by omega⟩, ?_⟩
  rw [List.take_add, h2, List.drop_drop, ← h4]
  congr 3
  omega

theorem Fits.mono {m : VMap} {a b : Nat} (h : Fits m b) (hab : a ≤ b) : Fits m a := by
  rcases h with h | h
  · exact .inl h
  · exact .inr (by omega)

theorem Step.mono {m m' : VMap} {a b : Nat} (h : Step m m' a) (hab : a ≤ b) : Step m m' b := ⟨h.fixed, by have := h.bound; omega⟩

/-- overwriting (part of) the record of a row -/
theorem inPlace_ok {m : VMap} {d : Dict} {i off L : Nat} {k : Key} {v v0 : Val} {r : Row} {bs : List Byte} (h : Inv m d) (hri : m.rows[i]? = some r)
    (hd : d[i]? = some (k, v0)) (hh : r.hasRec = true) (h1 : r.off ≤ off) (h2 : off + bs.length ≤ r.off + align r.len) (hL : align L = align r.len)
    (hv : ∀ m', Stored m m' off bs → ValIs m' { r with len := L } v) (n : Nat) :
    ∃ m', m.poke off bs = some m' ∧ Step m { m' with rows := m'.rows.set i { r with len := L } } n ∧
      Put m { m' with rows := m'.rows.set i { r with len := L } } true d (d.set i (k, v)) := by
  obtain ⟨cs, hmem⟩ := h.mem
  obtain ⟨pre, post, hsp, rfl⟩ := split_at hri
  have hrr : r.regs = (r.off, align r.len) :: r.key.regs := by simp [Row.regs, hh]
  have hmem2 : Mem m ((r.off, align r.len) :: (pre.flatMap Row.regs ++ (r.key.regs ++ post.flatMap Row.regs))) cs := by
    refine hmem.perm ?_
    rw [hsp, List.flatMap_append, List.flatMap_cons, hrr]
    exact List.perm_middle
  have hin := hmem2.inside (r.off, align r.len) (by simp)
  have hu := hmem.used
  dsimp only at hin
  obtain ⟨m', g1, hs⟩ := poke_stored (m := m) (off := off) (bs := bs) (by omega) (by omega)
  have hmem3 := hmem2.pokeIn hs h1 (by dsimp only; omega)
  have hdj := hmem2.disj
  rw [List.cons_append, List.pairwise_cons] at hdj
  refine ⟨m', g1, ⟨hs.fixed, ?_⟩, .inl ⟨rfl, ?_⟩⟩
  · show m'.base + m'.pool.length ≤ _
    unfold VMap.total; rw [hs.base, hs.len]; omega
  · have hset : m'.rows.set pre.length { r with len := L } = pre ++ { r with len := L } :: post := by rw [hs.rows, hsp, set_split]
    refine h.update (r' := { r with len := L }) hsp hd hset hs.base hs.cap ⟨cs, ?_⟩ rfl ?_ ?_
    · refine Mem.rows (m := m') ?_ _ rfl rfl rfl rfl
      refine hmem3.perm ?_
      dsimp only
      rw [hset, List.flatMap_append, List.flatMap_cons]
      have : Row.regs { r with len := L } = (r.off, align r.len) :: r.key.regs := by simp [Row.regs, hh, hL]
      rw [this]
      exact List.perm_middle.symm
    · intro g hg
      refine hs.kept (l := [g]) (fun g' hg' => ?_) |>.data g (by simp)
      rw [List.mem_singleton] at hg'
      subst hg'
      have hd2 := hdj.1 g' (by
        simp only [List.mem_append] at hg ⊢
        rcases hg with (hg | hg) | hg
        · exact .inl (.inl hg)
        · exact .inl (.inr (.inr hg))
        · exact .inl (.inr (.inl hg)))
      unfold Disj at hd2 ⊢
      dsimp only at hd2 ⊢
      omega
    · have := hv m' hs
      rcases this with hx | ⟨x1, x2, ct, fl, c, x3⟩
      · exact .inl hx
      · exact .inr ⟨x1, x2, ct, fl, c, x3⟩

def Src.len : Src → Nat
  | .given x => x.length
  | .inside _ _ n => n

theorem Src.get_length {m : VMap} {s : Src} {bs : List Byte} (h : s.get m = some bs) : s.len = bs.length := by
  cases s with
  | given x => simp only [Src.get, Option.some.injEq] at h; rw [← h]; rfl
  | inside g o n =>
    unfold Src.get at h
    dsimp only at h
    split at h
    · exact (peek_length h).symm
    · exact absurd h (by simp)

theorem assignAt_ok {m : VMap} {d : Dict} {i : Nat} {k : Key} {v v0 : Val} {a : Arg} (h : Inv m d) (hd : d[i]? = some (k, v0)) (ha : Means m a v)
    (hfit : Fits m (a.size + 32)) :
    ∃ m' ok, m.assignAt i a = some (m', ok) ∧ Step m m' (a.size + 32) ∧ Put m m' ok d (d.set i (k, v)) := by
  have hil : i < m.rows.length := by rw [h.len]; exact (List.getElem?_eq_some_iff.1 hd).1
  obtain ⟨r, hri⟩ : ∃ r, m.rows[i]? = some r := ⟨_, List.getElem?_eq_getElem hil⟩
  have hroom := h.room
  have hrep : ∀ {vt ct flags len : Nat} {content : List Byte}, align (8 + content.length) ≤ a.size + 32 →
      len = 8 + content.length → vt < 256 → ct < 256 →
      (align (8 + content.length) < 2 ^ 32 → body (8 + content.length) vt ct content = some v) → v ≠ .other → v ≠ .map [] → (ct = 2 → 0#8 ∈ content) →
      (align (8 + content.length) < 2 ^ 32 → scalarSize vt ≠ 0 → vt ≤ 12 → ct ≠ 3 → ct = scalarCt vt) →
      (align (8 + content.length) < 2 ^ 32 → vt ≤ 15 ∧ (ct = 4 → vt = 15) ∧ (ct = 3 → content.take 1 = le 1 vt)) →
      ∃ m' ok, m.replaceRecord i vt ct flags content len = some (m', ok) ∧ Step m m' (a.size + 32) ∧ Put m m' ok d (d.set i (k, v)) := by
    intro vt ct flags len content h1 h2 h4 h5 h6 ho hm hz h7 h8
    obtain ⟨m', ok, g1, g2, g3⟩ := replaceRecord_ok (flags := flags) (len := len) h hd (hfit.mono h1) (by rw [h2]) (by omega) h4 h5
      (fun hs => decode_recordBytes h4 h5 hs (h6 (by have := align_ge (8 + content.length); omega)) ho hm)
      (fun hs => by rw [h2]; exact decode_cut h4 h5 hs (h6 (by have := align_ge (8 + content.length); omega)) ho hm hz) h7 h8
    exact ⟨m', ok, g1, g2.mono h1, g3⟩
  have hold := h.val i r _ hri hd
  cases ha with
  | @scalar vt bytes h1 h2 h3 =>
    have hs0 : scalarSize vt ≠ 0 := by
      have : ∀ x < 13, 1 ≤ x → scalarSize x ≠ 0 := by decide
      exact this vt (by omega) h1
    have hsz := scalarSize_cases hs0
    have hlen : (bytes ++ List.replicate (8 - bytes.length) 0#8).length = 8 := by simp; omega
    have hct : scalarCt vt < 256 := by unfold scalarCt; split <;> decide
    unfold VMap.assignAt
    rw [hri]
    dsimp only [Option.bind_eq_bind, Option.bind_some]
    split
    · rename_i hc
      simp only [Bool.and_eq_true, decide_eq_true_eq, Bool.not_eq_true'] at hc
      obtain ⟨⟨⟨⟨⟨c1, c2⟩, c3⟩, c4⟩, c5⟩, c6⟩ := hc
      rcases hold with hx | ⟨_, hp, ct, fl, c, h4, h5, h6, h7, h8, h9, h10, h11⟩
      · rw [c1] at hx; exact absurd hx.1 (by decide)
      · obtain ⟨m', g1, g2⟩ := inPlace_ok h hri hd c1 (off := r.off + 8) (bs := bytes ++ List.replicate (8 - bytes.length) 0#8) (L := 16) (v := .scalar vt bytes)
          (by omega) (by rw [hlen, c6]; omega) (by rw [c6]; decide) (by
            intro m' hs
            refine .inr ⟨c1, Nat.zero_lt_succ _, ct, fl, bytes ++ List.replicate (8 - bytes.length) 0#8, ?_⟩
            dsimp only
            rw [show align 16 = 16 from by decide]
            rw [c6] at h4 h5
            have hct3 : ct ≠ 3 := by rw [c3] at h8; simpa using h8.symm
            have hcts := h9 (by rw [c5]; exact hs0) (by omega) hct3
            have hb : 32 ≤ r.off := by
              have := (peek_eq_some.1 h4).1; omega
            have hdec : decode (recHeader 16 r.vt ct fl ++ (bytes ++ List.replicate (8 - bytes.length) 0#8)) = some (.scalar vt bytes) := by
              rw [decode_rec (by decide) h6 h7, c5, hcts, c5]
              exact body_scalar hs0 h3 _ _ (by omega)
            refine ⟨?_, hdec, h6, h7, h8, h9, by rw [List.take_of_length_le (by rw [List.length_append, recHeader_length, hlen]; omega)]; exact hdec, h11.1, h11.2.1, fun hx => absurd hx hct3⟩
            · have hh : m.peek r.off 8 = some (recHeader 16 r.vt ct fl) := by
                have := peek_sub h4 0 8 (by omega)
                rw [Nat.add_zero, List.drop_zero, List.take_left' (recHeader_length _ _ _ _)] at this
                exact this
              have h8' : m'.peek r.off 8 = some (recHeader 16 r.vt ct fl) := by
                rw [← hh]; exact hs.frame _ _ (.inl (by omega))
              have h9' := hs.same
              rw [hlen] at h9'
              exact peek_append h8' h9') (8 + 32)
        rw [g1]
        exact ⟨_, true, rfl, g2⟩
    · refine hrep (by rw [hlen]; show 16 ≤ 8 + 32; omega) (by rw [hlen]) (by omega) hct (fun _ => body_scalar hs0 h3 _ _ (by omega)) (by simp) (by simp)
        (fun hx => ?_) (fun _ _ _ _ => rfl) (fun _ => ⟨by omega, fun hx => ?_, fun hx => ?_⟩) <;>
      (unfold scalarCt at hx; split at hx <;> exact absurd hx (by decide))
  | @big bytes h1 =>
    unfold VMap.assignAt
    exact hrep (by rw [h1]; show 32 ≤ 16 + 32; omega) rfl (by decide) (by decide) (fun _ => body_big h1 _) (by simp) (by simp)
      (fun hx => absurd hx (by decide)) (fun _ _ hx => absurd hx (by decide)) (fun _ => ⟨by decide, fun hx => absurd hx (by decide), fun hx => absurd hx (by decide)⟩)
  | @text s bytes h1 h2 =>
    have hl := Src.get_length h1
    have hsize : (Arg.text s).size = bytes.length := by rw [← hl]; cases s <;> rfl
    unfold VMap.assignAt
    rw [hri]
    dsimp only [Option.bind_eq_bind, Option.bind_some]
    rw [h1]
    dsimp only [Option.bind_some]
    split
    · rename_i hc
      simp only [Bool.and_eq_true, decide_eq_true_eq, Bool.not_eq_true'] at hc
      obtain ⟨⟨⟨⟨⟨⟨c1, c2⟩, c3⟩, c4⟩, c5⟩, c6⟩, c7⟩ := hc
      have hal := align_ge r.len
      rcases hold with hx | ⟨_, hp, ct, fl, c, h4, h5, h6, h7, h8, h9, h10, h11⟩
      · rw [c1] at hx; exact absurd hx.1 (by decide)
      · have hsz : align r.len < 2 ^ 32 := by
          have h12 := peek_eq_some.1 h4
          unfold VMap.total at hroom
          omega
        have hbl : (recHeader (align r.len) vtString 2 0 ++ bytes ++ List.replicate (align r.len - 8 - bytes.length) 0#8).length = align r.len := by
          simp [recHeader_length]; omega
        have haa : align (align r.len) = align r.len := by unfold align; omega
        obtain ⟨m', g1, g2⟩ := inPlace_ok h hri hd c1 (off := r.off)
          (bs := recHeader (align r.len) vtString 2 0 ++ bytes ++ List.replicate (align r.len - 8 - bytes.length) 0#8) (L := align r.len) (v := .text bytes)
          (by omega) (by rw [hbl]; omega) haa (by
            intro m' hs
            refine .inr ⟨c1, by dsimp only; omega, 2, 0, bytes ++ List.replicate (align r.len - 8 - bytes.length) 0#8, ?_⟩
            dsimp only
            rw [haa, c5]
            have hdec : decode (recHeader (align r.len) vtString 2 0 ++ (bytes ++ List.replicate (align r.len - 8 - bytes.length) 0#8)) = some (.text bytes) := by
              rw [decode_rec hsz (by decide) (by decide)]
              have hrep' : List.replicate (align r.len - 8 - bytes.length) 0#8 = 0#8 :: List.replicate (align r.len - 8 - bytes.length - 1) 0#8 := by
                rw [← List.replicate_succ]; congr 1; omega
              rw [hrep']
              refine body_text h2 ?_
              simp; omega
            refine ⟨?_, hdec, by decide, by decide, by rw [c3]; decide, fun hx => absurd hx (by decide), ?_, by decide, by rw [c4]; rfl, fun hx => absurd hx (by decide)⟩
            · have := hs.same
              rw [hbl] at this
              rw [← List.append_assoc]; exact this
            · rw [List.take_of_length_le (by rw [← List.append_assoc, hbl]; omega)]; exact hdec) ((Arg.text s).size + 32)
        rw [g1]
        exact ⟨_, true, rfl, g2⟩
    · have hl2 : (bytes ++ [0#8]).length = bytes.length + 1 := by simp
      have hal := align_ge (8 + (bytes ++ [0#8]).length)
      exact hrep (content := bytes ++ [0#8]) (by rw [hsize]; omega) (by rw [hl2]; rfl) (by decide) (by decide) (fun _ => body_text h2 rfl) (by simp) (by simp)
        (fun _ => by simp) (fun _ hx => absurd hx (by decide)) (fun _ => ⟨by decide, fun hx => absurd hx (by decide), fun hx => absurd hx (by decide)⟩)
  | @map blob h1 h2 =>
    unfold VMap.assignAt
    have hal := align_ge (8 + blob.length)
    refine hrep (by simp only [Arg.size]; omega) rfl (by decide) (by decide) (fun _ => body_map h1 h2 rfl) (by simp) ?_
      (fun hx => absurd hx (by decide)) (fun _ hx => absurd hx (by decide)) (fun _ => ⟨by decide, fun _ => rfl, fun hx => absurd hx (by decide)⟩)
    intro he
    simp only [Val.map.injEq] at he
    rw [he] at h1; simp at h1
  | @tensor vt extents data h1 h2 h3 h4 =>
    unfold VMap.assignAt
    have hal := align_ge (8 + (tensorBlob vt extents data).length)
    have hbl : (tensorBlob vt extents data).length = 8 + (4 * extents.length + 7) / 8 * 8 + data.length := by
      simp only [tensorBlob, List.length_append, le_length, flatMap_le_length, List.length_replicate]; omega
    have hsz := scalarSize_cases h1
    refine hrep (by simp only [Arg.size]; omega) rfl (by omega) (by decide) (fun hs => body_tensor h1 h2 h3 h4 ?_ rfl) (by simp) (by simp)
      (fun hx => absurd hx (by decide)) (fun _ _ _ hx => absurd rfl hx) (fun _ => ⟨by omega, fun hx => absurd hx (by decide), fun _ => rfl⟩)
    have := Nat.div_le_self data.length (scalarSize vt)
    omega
  | @value s record _ h1 h2 =>
    obtain ⟨vt, ct, fl, content, he, g1, g2, g3, g4, g5, g10, g6, g7, g8, g9⟩ := h2
    have hl := Src.get_length h1
    have hsize : (Arg.value s).size = record.length := by rw [← hl]; cases s <;> rfl
    have he' : record = recHeader (8 + content.length) vt ct fl ++ content := he
    have hrl : record.length = 8 + content.length := by rw [he', List.length_append, recHeader_length]
    have hal := align_ge (8 + content.length)
    unfold VMap.assignAt
    dsimp only [Option.bind_eq_bind]
    rw [h1]
    dsimp only [Option.bind_some]
    have f1 : leNat ((record.drop 4).take 1) = vt := by
      rw [he]
      have : (le 4 (8 + content.length) ++ le 1 vt ++ le 1 ct ++ le 1 fl ++ le 1 8 ++ content).drop 4 = le 1 vt ++ (le 1 ct ++ le 1 fl ++ le 1 8 ++ content) := by
        simp only [List.append_assoc]; exact List.drop_left' (le_length _ _)
      rw [this, List.take_left' (le_length _ _), leNat_one vt g2]
    have f2 : leNat ((record.drop 5).take 1) = ct := by
      rw [he]
      have : (le 4 (8 + content.length) ++ le 1 vt ++ le 1 ct ++ le 1 fl ++ le 1 8 ++ content).drop 5 = le 1 ct ++ (le 1 fl ++ le 1 8 ++ content) := by
        rw [show le 4 (8 + content.length) ++ le 1 vt ++ le 1 ct ++ le 1 fl ++ le 1 8 ++ content =
          (le 4 (8 + content.length) ++ le 1 vt) ++ (le 1 ct ++ (le 1 fl ++ le 1 8 ++ content)) by simp only [List.append_assoc]]
        exact List.drop_left' (by simp [le_length])
      rw [this, List.take_left' (le_length _ _), leNat_one ct g3]
    have f3 : leNat ((record.drop 6).take 1) = fl := by
      rw [he]
      have : (le 4 (8 + content.length) ++ le 1 vt ++ le 1 ct ++ le 1 fl ++ le 1 8 ++ content).drop 6 = le 1 fl ++ (le 1 8 ++ content) := by
        rw [show le 4 (8 + content.length) ++ le 1 vt ++ le 1 ct ++ le 1 fl ++ le 1 8 ++ content =
          (le 4 (8 + content.length) ++ le 1 vt ++ le 1 ct) ++ (le 1 fl ++ (le 1 8 ++ content)) by simp only [List.append_assoc]]
        exact List.drop_left' (by simp [le_length])
      rw [this, List.take_left' (le_length _ _), leNat_one fl g4]
    have f4 : record.drop 8 = content := by rw [he', List.drop_left' (recHeader_length _ _ _ _)]
    rw [f1, f2, f3, f4, if_neg (by omega), hrl]
    have hbody : 8 + content.length < 2 ^ 32 → body (8 + content.length) vt ct content = some v := by
      intro hlt
      rw [← decode_rec (fl := fl) hlt g2 g3, ← he']; exact g9
    refine hrep (by rw [hsize, hrl]; omega) rfl g2 g3 (fun hs => hbody (by omega)) g7 g8 (fun hx => (g5 hx).2) (fun hs x1 x2 x3 => ?_) (fun hs => ⟨?_, g6, g10⟩)
    · have hb := hbody (by omega)
      unfold body at hb
      rw [if_neg (by omega), if_neg x3, if_neg (by omega), if_neg (by omega)] at hb
      split at hb
      · simp only [Option.some.injEq] at hb
        exact absurd hb.symm g7
      · rename_i hc
        have : ct = containerOf vt := by
          apply Decidable.byContradiction
          intro hn
          exact hc (.inr hn)
        rw [this]
        unfold containerOf scalarCt vtComplex64
        split <;> split <;> first | rfl | omega
    · have hb := hbody (by omega)
      unfold body at hb
      by_cases x2 : ct = 2
      · have := (g5 x2).1; omega
      by_cases x4 : ct = 4
      · have := g6 x4; omega
      have hs0 : scalarSize vt ≠ 0 := by
        intro h0
        rw [if_neg x2] at hb
        split at hb
        · rw [if_pos (.inl h0)] at hb
          simp only [Option.some.injEq] at hb
          exact g7 hb.symm
        · rw [if_neg (by omega), if_pos (.inl h0)] at hb
          simp only [Option.some.injEq] at hb
          exact g7 hb.symm
      have := scalarSize_cases hs0
      omega

end Verif.VMap
