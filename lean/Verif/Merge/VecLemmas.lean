import Verif.Merge.VecSpec
import Verif.Merge.Lemmas

/- Lemmas on vector calls; the properties are in `VecProps`. -/
namespace Verif.Merge

variable {K S V : Type}

theorem isVec_step (L : VLib K S V) : ∀ (m : Blk K S V) xs, isVec L (step L.toLib m xs).1 = isVec L m
  | .leaf k s, xs => by simp only [step, isVec]
  | .merge l o r i, xs => by simp only [step, isVec, isVec_step L l, isVec_step L r]
  | .fan signs ps, xs => by simp only [step, isVec]
  | .feedback f g i z tap, xs => by simp only [step, isVec]
  | .monitored f mon g i z tap, xs => by simp only [step, isVec]

theorem isWide_step (L : VLib K S V) : ∀ (m : Blk K S V) xs, isWide L (step L.toLib m xs).1 = isWide L m
  | .leaf k s, xs => by simp only [step, isWide]
  | .merge l o r i, xs => by simp only [step, isWide, isVec_step L r, nIn_step, isWide_step L l]
  | .fan signs ps, xs => by simp only [step, isWide]
  | .feedback f g i z tap, xs => by simp only [step, isWide]
  | .monitored f mon g i z tap, xs => by simp only [step, isWide]

theorem VecCompiles_step (L : VLib K S V) : ∀ (m : Blk K S V) xs, VecCompiles L m →
    VecCompiles L (step L.toLib m xs).1
  | .leaf k s, xs, h => by simp only [step, VecCompiles]
  | .merge l o r i, xs, h => by
    have e1 := isVec_step L (.merge l o r i) xs
    have e2 := isWide_step L (.merge l o r i) xs
    simp only [VecCompiles] at h
    simp only [step] at e1 e2 ⊢
    simp only [VecCompiles, e1, e2, nOut_step]
    exact ⟨VecCompiles_step L l _ h.1, VecCompiles_step L r _ h.2.1, h.2.2⟩
  | .fan signs ps, xs, h => by simp only [step, VecCompiles]
  | .feedback f g i z tap, xs, h => by simp only [step, VecCompiles]
  | .monitored f mon g i z tap, xs, h => by simp only [step, VecCompiles]

theorem paths_length_step (L : Lib K S V) : ∀ (ps : Paths K S V) x, (stepPaths L ps x).1.length = ps.length
  | .nil, x => by simp only [stepPaths]
  | .cons p rest, x => by simp only [stepPaths, Paths.length, paths_length_step L rest]

mutual
theorem Compiles_step (L : Lib K S V) : ∀ (m : Blk K S V) xs, Compiles L m → Compiles L (step L m xs).1
  | .leaf k s, xs, h => by simp only [step, Compiles]
  | .merge l o r i, xs, h => by
    simp only [Compiles] at h
    simp only [step, Compiles, nIn_step, nOut_step]
    exact ⟨Compiles_step L l _ h.1, Compiles_step L r _ h.2.1, h.2.2⟩
  | .fan signs ps, xs, h => by
    simp only [Compiles] at h
    simp only [step, Compiles, paths_length_step]
    exact ⟨CompilesPaths_step L ps _ h.1, h.2⟩
  | .feedback f g i z tap, xs, h => by
    simp only [Compiles] at h
    simp only [step, Compiles, nIn_step, nOut_step]
    exact ⟨Compiles_step L f _ h.1, Compiles_step L g _ h.2.1, h.2.2⟩
  | .monitored f mon g i z tap, xs, h => by
    simp only [Compiles] at h
    simp only [step, Compiles, nIn_step, nOut_step]
    exact ⟨Compiles_step L f _ h.1, Compiles_step L mon _ h.2.1, Compiles_step L g _ h.2.2.1, h.2.2.2⟩
theorem CompilesPaths_step (L : Lib K S V) : ∀ (ps : Paths K S V) x, CompilesPaths L ps →
    CompilesPaths L (stepPaths L ps x).1
  | .nil, x, h => by simp only [stepPaths, CompilesPaths]
  | .cons p rest, x, h => by
    simp only [CompilesPaths] at h
    simp only [stepPaths, CompilesPaths, nIn_step, nOut_step]
    exact ⟨Compiles_step L p _ h.1, h.2.1, h.2.2.1, CompilesPaths_step L rest _ h.2.2.2⟩
end

/-- The block may be called with vectors. -/
structure Good (L : VLib K S V) (m : Blk K S V) : Prop where
  compiles : Compiles L.toLib m
  vecCompiles : VecCompiles L m
  form : isVec L m = true ∨ (nIn L.toLib m = 0 ∧ isWide L m = true)

theorem Good.step {L : VLib K S V} {m : Blk K S V} (h : Good L m) (xs : List V) :
    Good L (step L.toLib m xs).1 :=
  ⟨Compiles_step _ m xs h.compiles, VecCompiles_step L m xs h.vecCompiles, by
    rw [isVec_step, nIn_step, isWide_step]; exact h.form⟩

theorem Good.runAll {L : VLib K S V} (rs : List (List V)) : ∀ {m : Blk K S V}, Good L m →
    Good L (runAll L.toLib m rs).1 := by
  induction rs with
  | nil => intro m h; exact h
  | cons x rs ih => intro m h; exact ih (h.step x)

theorem nIn_runAll (L : Lib K S V) (rs : List (List V)) : ∀ (m : Blk K S V), nIn L (runAll L m rs).1 = nIn L m := by
  induction rs with
  | nil => intro m; rfl
  | cons x rs ih => intro m; simp only [runAll, ih, nIn_step]

theorem runAll_length (L : Lib K S V) (rs : List (List V)) : ∀ (m : Blk K S V),
    (runAll L m rs).2.length = rs.length := by
  induction rs with
  | nil => intro m; rfl
  | cons x rs ih => intro m; simp only [runAll, List.length_cons, ih]

/-- Lane `j` of a list of vectors. -/
def lane (L : Lib K S V) (cs : List (List V)) (j : Nat) : List V := cs.map (fun c => pick L c j)

theorem pick_lane (L : Lib K S V) (cs : List (List V)) (j p : Nat) (h : p < cs.length) :
    pick L (lane L cs j) p = pick L (pickVec cs p) j := by
  simp [pick, lane, pickVec, h]

theorem lane_length (L : Lib K S V) (cs : List (List V)) (j : Nat) : (lane L cs j).length = cs.length :=
  List.length_map ..

theorem lane_leftVecs (L : Lib K S V) (nl : Nat) (cs : List (List V)) (j : Nat) (h : nl ≤ cs.length) :
    lane L (leftVecs nl cs) j = leftArgs L nl (lane L cs j) := by
  simp only [leftArgs, leftVecs]
  rw [lane, List.map_map]
  apply List.map_congr_left
  intro p hp
  rw [List.mem_range] at hp
  exact (pick_lane L cs j p (by omega)).symm

theorem lane_rightVecs (L : Lib K S V) (nl nr i : Nat) (cs : List (List V)) (tmp : List V) (j : Nat)
    (hi : i < nr) (h : nl + (nr - 1) ≤ cs.length) :
    lane L (rightVecs nl nr i cs tmp) j = rightArgs L nl nr i (lane L cs j) (pick L tmp j) := by
  simp only [rightArgs, rightVecs]
  rw [lane, List.map_append, List.map_append, List.map_map, List.map_map]
  congr 1
  · congr 1
    apply List.map_congr_left
    intro p hp
    rw [List.mem_range] at hp
    exact (pick_lane L cs j (nl + p) (by omega)).symm
  · apply List.map_congr_left
    intro p hp
    rw [List.mem_range] at hp
    exact (pick_lane L cs j (nl + i + p) (by omega)).symm

theorem pickVec_length {cs : List (List V)} {w p : Nat} (hc : ∀ c ∈ cs, c.length = w) (h : p < cs.length) :
    (pickVec cs p).length = w := by
  simp only [pickVec, List.getElem?_eq_getElem h, Option.getD_some]
  exact hc _ (List.getElem_mem h)

theorem isVec_pos (L : VLib K S V) : ∀ (m : Blk K S V), isVec L m = true → 0 < nIn L.toLib m
  | .leaf k s, h => by simp only [isVec, Bool.and_eq_true, decide_eq_true_eq] at h; simp only [nIn]; exact h.2
  | .merge l o r i, h => by
    simp only [isVec, Bool.and_eq_true] at h
    have := isVec_pos L l h.1
    simp only [nIn]; omega
  | .fan signs ps, h => by simp [isVec] at h
  | .feedback f g i z tap, h => by simp [isVec] at h
  | .monitored f mon g i z tap, h => by simp [isVec] at h

/-- A vector call with inputs: every lane is a single call, and the block does not change. -/
theorem vec_lanes (L : VLib K S V) (hL : L.Lawful) : ∀ (m : Blk K S V), Compiles L.toLib m → VecCompiles L m →
    isVec L m = true → ∀ (w : Nat) (cs : List (List V)), cs.length = nIn L.toLib m → (∀ c ∈ cs, c.length = w) →
    (vecStep L m w cs).1 = m ∧ (vecStep L m w cs).2.length = nOut L.toLib m ∧
    (∀ c ∈ (vecStep L m w cs).2, c.length = w) ∧
    ∀ j, j < w → step L.toLib m (lane L.toLib cs j) = (m, lane L.toLib (vecStep L m w cs).2 j)
  | .leaf k s, _, _, hv, w, cs, hl, hc => by
    simp only [isVec, Bool.and_eq_true, decide_eq_true_eq] at hv
    simp only [nIn] at hl
    obtain ⟨h1, h2, h3⟩ := hL.vec k s w cs hv.1 hv.2 hl hc
    have e : vecStep L (.leaf k s) w cs = (.leaf k s, L.vec k s cs) := by
      simp only [vecStep]; rw [if_neg (by omega)]
    rw [e]
    refine ⟨rfl, h1, h2, fun j hj => ?_⟩
    simp only [step]
    rw [lane, h3 j hj]
    rfl
  | .merge l o r i, hm, hvc, hv, w, cs, hl, hc => by
    have hone := hvc
    simp only [VecCompiles] at hone
    have one := hone.2.2 (.inl hv)
    simp only [isVec, Bool.and_eq_true] at hv
    simp only [Compiles] at hm
    obtain ⟨cl, cr, ho, hi, _⟩ := hm
    simp only [nIn] at hl
    have pl := isVec_pos L l hv.1
    obtain ⟨l1, l2, l3, l4⟩ := vec_lanes L hL l cl hone.1 hv.1 w (leftVecs (nIn L.toLib l) cs)
      (by simp [leftVecs]) (by
        intro c hcm
        simp only [leftVecs, List.mem_map, List.mem_range] at hcm
        obtain ⟨p, hp, rfl⟩ := hcm
        exact pickVec_length hc (by omega))
    have htmp : (pickVec (vecStep L l w (leftVecs (nIn L.toLib l) cs)).2 0).length = w :=
      pickVec_length l3 (by omega)
    obtain ⟨r1, r2, r3, r4⟩ := vec_lanes L hL r cr hone.2.1 hv.2 w
      (rightVecs (nIn L.toLib l) (nIn L.toLib r) i cs (pickVec (vecStep L l w (leftVecs (nIn L.toLib l) cs)).2 0))
      (by simp [rightVecs]; omega) (by
        intro c hcm
        simp only [rightVecs, List.mem_append, List.mem_map, List.mem_range, List.mem_singleton] at hcm
        rcases hcm with (⟨p, hp, rfl⟩ | rfl) | ⟨p, hp, rfl⟩
        · exact pickVec_length hc (by omega)
        · exact htmp
        · exact pickVec_length hc (by omega))
    have e : vecStep L (.merge l o r i) w cs = (.merge l o r i,
        (vecStep L r w (rightVecs (nIn L.toLib l) (nIn L.toLib r) i cs
          (pickVec (vecStep L l w (leftVecs (nIn L.toLib l) cs)).2 0))).2) := by
      simp only [vecStep]
      rw [if_neg (by omega), l1, r1]
    rw [e]
    refine ⟨rfl, by rw [r2]; simp only [nOut]; omega, r3, fun j hj => ?_⟩
    simp only [step]
    have a1 := l4 j hj
    rw [lane_leftVecs _ _ _ _ (by omega)] at a1
    have a2 := r4 j hj
    rw [lane_rightVecs _ _ _ _ _ _ _ hi (by omega), ← pick_lane _ _ _ _ (by omega)] at a2
    have o0 : o = 0 := by omega
    subst o0
    rw [a1]
    simp only []
    rw [a2]
    simp only [joinOuts, one, if_true]
  | .fan signs ps, _, _, h, _, _, _, _ => by simp [isVec] at h
  | .feedback f g i z tap, _, _, h, _, _, _, _ => by simp [isVec] at h
  | .monitored f mon g i z tap, _, _, h, _, _, _, _ => by simp [isVec] at h

theorem runAll_fixed (L : Lib K S V) (m : Blk K S V) (a b : Nat → List V) (ns : List Nat)
    (h : ∀ j ∈ ns, step L m (a j) = (m, b j)) : runAll L m (ns.map a) = (m, ns.map b) := by
  induction ns with
  | nil => rfl
  | cons n ns ih =>
    have h1 := h n (List.mem_cons_self ..)
    have h2 := ih (fun j hj => h j (List.mem_cons_of_mem _ hj))
    simp only [List.map_cons, runAll, h1, h2]

theorem rows_lane (L : Lib K S V) (w : Nat) (cs : List (List V)) :
    rows L w cs = (List.range w).map (lane L cs) := rfl

theorem vec_rows (L : VLib K S V) (hL : L.Lawful) (m : Blk K S V) (hm : Compiles L.toLib m)
    (hvc : VecCompiles L m) (hv : isVec L m = true) (w : Nat) (cs : List (List V))
    (hl : cs.length = nIn L.toLib m) (hc : ∀ c ∈ cs, c.length = w) :
    runAll L.toLib m (rows L.toLib w cs) = ((vecStep L m w cs).1, rows L.toLib w (vecStep L m w cs).2) := by
  obtain ⟨h1, _, _, h4⟩ := vec_lanes L hL m hm hvc hv w cs hl hc
  rw [rows_lane, rows_lane, h1]
  exact runAll_fixed _ _ _ _ _ (fun j hj => h4 j (List.mem_range.1 hj))

/-- Calls without inputs of a merged source. -/
theorem merge_source_run (L : Lib K S V) (o i : Nat) : ∀ (w : Nat) (l r : Blk K S V), nIn L l = 0 → nIn L r = 1 →
    i = 0 → nOut L l = 1 →
    runAll L (.merge l o r i) (List.replicate w []) =
      (.merge (runAll L l (List.replicate w [])).1 o
        (runAll L r ((runAll L l (List.replicate w [])).2.map (fun y => [pick L y o]))).1 i,
       (runAll L r ((runAll L l (List.replicate w [])).2.map (fun y => [pick L y o]))).2)
  | 0, l, r, _, _, _, _ => rfl
  | w + 1, l, r, h1, h2, h3, h4 => by
    subst h3
    have el : leftArgs L 0 ([] : List V) = [] := rfl
    have er : ∀ y, rightArgs L 0 1 0 ([] : List V) y = [y] := fun y => rfl
    have ej : ∀ a b, joinOuts L 1 o a b = b := fun a b => by simp [joinOuts]
    have es : step L (.merge l o r 0) [] = (.merge (step L l []).1 o (step L r [pick L (step L l []).2 o]).1 0,
        (step L r [pick L (step L l []).2 o]).2) := by
      simp only [step, h1, h2, h4, el, er, ej]
    have ih := merge_source_run L o 0 w (step L l []).1 (step L r [pick L (step L l []).2 o]).1
      (by rw [nIn_step]; exact h1) (by rw [nIn_step]; exact h2) rfl (by rw [nOut_step]; exact h4)
    simp only [List.replicate_succ, runAll, List.map_cons, es, ih]

theorem rows_single (L : Lib K S V) (c : List V) : rows L c.length [c] = c.map (fun y => [y]) := by
  apply List.ext_getElem
  · simp [rows]
  · intro j h1 h2
    simp only [List.length_map] at h2
    simp [rows, pick, h2]

/-- `processOne(N)` is `N` single calls. -/
theorem wide_rows (L : VLib K S V) (hL : L.Lawful) : ∀ (m : Blk K S V), Compiles L.toLib m → VecCompiles L m →
    nIn L.toLib m = 0 → isWide L m = true → ∀ w,
    (vecStep L m w []).2.length = nOut L.toLib m ∧ (∀ c ∈ (vecStep L m w []).2, c.length = w) ∧
    runAll L.toLib m (List.replicate w []) = ((vecStep L m w []).1, rows L.toLib w (vecStep L m w []).2)
  | .leaf k s, _, _, h0, hw, w => by
    simp only [isWide] at hw
    simp only [nIn] at h0
    obtain ⟨h1, h2, h3⟩ := hL.gen k s w hw h0
    have e : vecStep L (.leaf k s) w [] = (.leaf k (L.gen k s w).1, (L.gen k s w).2) := by
      simp only [vecStep]; rw [if_pos h0]
    rw [e]
    exact ⟨h1, h2, h3⟩
  | .merge l o r i, hm, hvc, h0, hw, w => by
    have hone := hvc
    simp only [VecCompiles] at hone
    have one := hone.2.2 (.inr hw)
    simp only [isWide, Bool.and_eq_true] at hw
    simp only [Compiles] at hm
    obtain ⟨cl, cr, ho, hi, _⟩ := hm
    simp only [nIn] at h0
    have pr := isVec_pos L r hw.1
    have l0 : nIn L.toLib l = 0 := by omega
    have r1 : nIn L.toLib r = 1 := by omega
    have i0 : i = 0 := by omega
    have o0 : o = 0 := by omega
    subst o0
    rw [merge_source_run L.toLib 0 i w l r l0 r1 i0 one]
    by_cases hwl : isWide L l = true
    · obtain ⟨q1, q2, q3⟩ := wide_rows L hL l cl hone.1 l0 hwl w
      have e : vecStep L (.merge l 0 r i) w [] = (.merge (vecStep L l w []).1 0
          (vecStep L r w [pickVec (vecStep L l w []).2 0]).1 i, (vecStep L r w [pickVec (vecStep L l w []).2 0]).2) := by
        simp only [vecStep]; rw [if_pos l0, if_pos hwl]
      have htmp : (pickVec (vecStep L l w []).2 0).length = w := pickVec_length q2 (by omega)
      have hrow : (rows L.toLib w (vecStep L l w []).2).map (fun y => [pick L.toLib y 0])
          = rows L.toLib w [pickVec (vecStep L l w []).2 0] := by
        rw [rows, rows, List.map_map]
        apply List.map_congr_left
        intro j _
        have := pick_lane L.toLib (vecStep L l w []).2 j 0 (by omega)
        simp only [lane] at this
        simp only [Function.comp, this, List.map_cons, List.map_nil]
      obtain ⟨v1, v2, v3, _⟩ := vec_lanes L hL r cr hone.2.1 hw.1 w [pickVec (vecStep L l w []).2 0]
        (by rw [r1]; rfl) (by intro c hc; rw [List.mem_singleton.1 hc]; exact htmp)
      have vr := vec_rows L hL r cr hone.2.1 hw.1 w [pickVec (vecStep L l w []).2 0]
        (by rw [r1]; rfl) (by intro c hc; rw [List.mem_singleton.1 hc]; exact htmp)
      rw [e, q3]
      simp only [hrow, vr]
      exact ⟨by rw [v2]; simp only [nOut]; omega, v3, trivial⟩
    · let tmp := (runAll L.toLib l (List.replicate w [])).2.map (fun y => pick L.toLib y 0)
      have e : vecStep L (.merge l 0 r i) w [] = (.merge (runAll L.toLib l (List.replicate w [])).1 0
          (vecStep L r w [tmp]).1 i, (vecStep L r w [tmp]).2) := by
        simp only [vecStep]; rw [if_pos l0, if_neg hwl]
      have htmp : tmp.length = w := by simp [tmp, runAll_length]
      have hrow : (runAll L.toLib l (List.replicate w [])).2.map (fun y => [pick L.toLib y 0])
          = rows L.toLib w [tmp] := by
        have := rows_single L.toLib tmp
        rw [htmp] at this
        rw [this]
        simp [tmp]
      obtain ⟨v1, v2, v3, _⟩ := vec_lanes L hL r cr hone.2.1 hw.1 w [tmp]
        (by rw [r1]; rfl) (by intro c hc; rw [List.mem_singleton.1 hc]; exact htmp)
      have vr := vec_rows L hL r cr hone.2.1 hw.1 w [tmp]
        (by rw [r1]; rfl) (by intro c hc; rw [List.mem_singleton.1 hc]; exact htmp)
      rw [e]
      simp only [hrow, vr]
      exact ⟨by rw [v2]; simp only [nOut]; omega, v3, trivial⟩
  | .fan signs ps, _, _, _, h, _ => by simp [isWide] at h
  | .feedback f g i z tap, _, _, _, h, _ => by simp [isWide] at h
  | .monitored f mon g i z tap, _, _, _, h, _ => by simp [isWide] at h

theorem rows_columns (L : Lib K S V) (n : Nat) (rs : List (List V)) (h : ∀ r ∈ rs, r.length = n) :
    rows L rs.length (columns L n rs) = rs := by
  apply List.ext_getElem
  · simp [rows]
  · intro j h1 h2
    have hr := h _ (List.getElem_mem h2)
    simp only [rows, List.getElem_map, List.getElem_range, columns, List.map_map]
    apply List.ext_getElem
    · simp [hr]
    · intro p q1 q2
      simp [pick, h2, q2]

theorem columns_length (L : Lib K S V) (n : Nat) (rs : List (List V)) :
    (columns L n rs).length = n ∧ ∀ c ∈ columns L n rs, c.length = rs.length := by
  refine ⟨by simp [columns], ?_⟩
  intro c hc
  simp only [columns, List.mem_map] at hc
  obtain ⟨p, _, rfl⟩ := hc
  simp

/-- One vector call is as many single calls. -/
theorem vecCall_eq (L : VLib K S V) (hL : L.Lawful) {m : Blk K S V} (hg : Good L m) (w : Nat)
    (rs : List (List V)) (hr : ∀ r ∈ rs, r.length = nIn L.toLib m) (hw : w ≤ rs.length) :
    vecCall L m w rs = runAll L.toLib m (rs.take w) := by
  have hlen : (rs.take w).length = w := by simp; omega
  have hr' : ∀ r ∈ rs.take w, r.length = nIn L.toLib m := fun r h => hr r (List.mem_of_mem_take h)
  obtain ⟨c1, c2⟩ := columns_length L.toLib (nIn L.toLib m) (rs.take w)
  rw [hlen] at c2
  have hrc := rows_columns L.toLib _ _ hr'
  rw [hlen] at hrc
  simp only [vecCall]
  rcases hg.form with hv | ⟨h0, hv⟩
  · rw [← vec_rows L hL m hg.compiles hg.vecCompiles hv w _ c1 c2, hrc]
  · obtain ⟨_, _, q⟩ := wide_rows L hL m hg.compiles hg.vecCompiles h0 hv w
    have e : columns L.toLib (nIn L.toLib m) (rs.take w) = [] := by rw [h0]; rfl
    have e' : rs.take w = List.replicate w [] := by
      rw [← hrc, e, rows]
      simp [List.map_const']
    rw [e, ← q, e']

theorem fullLoop_eq (L : VLib K S V) (hL : L.Lawful) (w : Nat) (hw : 0 < w) : ∀ (fuel : Nat) (m : Blk K S V)
    (rs : List (List V)), Good L m → (∀ r ∈ rs, r.length = nIn L.toLib m) →
    ∃ a, rs = a ++ (fullLoop L w fuel m rs).2.2 ∧
      runAll L.toLib m a = ((fullLoop L w fuel m rs).1, (fullLoop L w fuel m rs).2.1) ∧
      (rs.length ≤ fuel → (fullLoop L w fuel m rs).2.2.length < w)
  | 0, m, rs, _, _ => ⟨[], rfl, rfl, fun h => by simp only [fullLoop]; omega⟩
  | fuel + 1, m, rs, hg, hr => by
    by_cases h : w ≤ rs.length
    · have hc := vecCall_eq L hL hg w rs hr h
      obtain ⟨a, q1, q2, q3⟩ := fullLoop_eq L hL w hw fuel (runAll L.toLib m (rs.take w)).1 (rs.drop w)
        (hg.runAll _) (by rw [nIn_runAll]; exact fun r hm => hr r (List.mem_of_mem_drop hm))
      simp only [fullLoop]
      rw [if_pos h, hc]
      refine ⟨rs.take w ++ a, ?_, ?_, ?_⟩
      · rw [List.append_assoc, ← q1, List.take_append_drop]
      · rw [runAll_append, q2]
      · intro hf
        exact q3 (by simp; omega)
    · simp only [fullLoop]
      rw [if_neg h]
      exact ⟨[], rfl, rfl, fun _ => by show rs.length < w; omega⟩

theorem epilogue_eq (L : VLib K S V) (hL : L.Lawful) : ∀ (fuel k : Nat) (m : Blk K S V)
    (rs : List (List V)), k < fuel → rs.length < 2 ^ k → Good L m → (∀ r ∈ rs, r.length = nIn L.toLib m) →
    epilogue L fuel (2 ^ k) m rs = ((runAll L.toLib m rs).1, (runAll L.toLib m rs).2, [])
  | 0, k, m, rs, h, _, _, _ => by omega
  | fuel + 1, 0, m, rs, _, h, _, _ => by
    have : rs = [] := List.eq_nil_of_length_eq_zero (Nat.lt_one_iff.1 h)
    subst this
    rfl
  | fuel + 1, k + 1, m, rs, hk, h, hg, hr => by
    have e : 2 ^ (k + 1) / 2 = 2 ^ k := by rw [Nat.pow_succ]; omega
    have hp : 0 < 2 ^ k := Nat.two_pow_pos k
    have h' : rs.length < 2 * 2 ^ k := by rw [Nat.pow_succ] at h; omega
    simp only [epilogue]
    rw [e, if_pos hp]
    by_cases hle : 2 ^ k ≤ rs.length
    · have hc := vecCall_eq L hL hg (2 ^ k) rs hr hle
      have ih := epilogue_eq L hL fuel k (runAll L.toLib m (rs.take (2 ^ k))).1 (rs.drop (2 ^ k)) (by omega)
        (by simp; omega) (hg.runAll _) (by rw [nIn_runAll]; exact fun r hm => hr r (List.mem_of_mem_drop hm))
      rw [if_pos hle, hc, ih]
      have := runAll_append L.toLib (rs.take (2 ^ k)) (rs.drop (2 ^ k)) m
      rw [List.take_append_drop] at this
      rw [this]
    · rw [if_neg hle]
      exact epilogue_eq L hL fuel k m rs (by omega) (by omega) hg hr

theorem simdRun_eq (L : VLib K S V) (hL : L.Lawful) (k : Nat) (m : Blk K S V) (rs : List (List V))
    (hg : Good L m) (hr : ∀ r ∈ rs, r.length = nIn L.toLib m) :
    simdRun L (2 ^ k) m rs = ((runAll L.toLib m rs).1, (runAll L.toLib m rs).2, []) := by
  obtain ⟨a, q1, q2, q3⟩ := fullLoop_eq L hL (2 ^ k) (Nat.two_pow_pos k) rs.length m rs hg hr
  have q3 := q3 (Nat.le_refl _)
  simp only [simdRun]
  generalize fullLoop L (2 ^ k) rs.length m rs = f at q1 q2 q3
  obtain ⟨m', out, rest⟩ := f
  simp only at q1 q2 q3 ⊢
  have hm' : m' = (runAll L.toLib m a).1 := by rw [q2]
  have hg' : Good L m' := by rw [hm']; exact hg.runAll a
  have hr' : ∀ r ∈ rest, r.length = nIn L.toLib m' := by
    intro r hm
    rw [hm', nIn_runAll]
    exact hr r (by rw [q1]; exact List.mem_append_right _ hm)
  rw [epilogue_eq L hL (2 ^ k) k m' rest Nat.lt_two_pow_self q3 hg' hr', q1, runAll_append, q2]

end Verif.Merge
