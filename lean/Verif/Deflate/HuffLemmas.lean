import Verif.Deflate.CanonLemmas
/-! # Lemmas on `makeCodeLengths`: the widths it chooses fill the code space exactly -/
namespace Verif.Deflate

/-- sum over a list -/
def wsum {α : Type} (g : α → Nat) : List α → Nat
  | [] => 0
  | x :: r => g x + wsum g r

theorem wsum_perm {α : Type} (g : α → Nat) {p q : List α} (h : p.Perm q) : wsum g p = wsum g q := by
  induction h with
  | nil => rfl
  | cons x _ ih => simp only [wsum, ih]
  | swap x y l => simp only [wsum]; omega
  | trans _ _ h1 h2 => exact h1.trans h2

theorem wsum_mono {α : Type} {g h : α → Nat} (l : List α) (H : ∀ x ∈ l, g x ≤ h x) : wsum g l ≤ wsum h l := by
  induction l with
  | nil => exact Nat.le_refl _
  | cons x l ih =>
    have h1 := H x (by simp)
    have h2 := ih (fun y hy => H y (by simp [hy]))
    simp only [wsum]; omega

theorem wsum_mul {α : Type} (g : α → Nat) (k : Nat) (l : List α) : wsum (fun x => k * g x) l = k * wsum g l := by
  induction l with
  | nil => rfl
  | cons x l ih => simp only [wsum, ih, Nat.mul_add]

theorem wsum_add {α : Type} (g h : α → Nat) (l : List α) : wsum (fun x => g x + h x) l = wsum g l + wsum h l := by
  induction l with
  | nil => rfl
  | cons x l ih => simp only [wsum, ih]; omega

theorem wsum_congr {α : Type} {g h : α → Nat} (l : List α) (H : ∀ x ∈ l, g x = h x) : wsum g l = wsum h l := by
  induction l with
  | nil => rfl
  | cons x l ih => simp only [wsum, H x (by simp), ih (fun y hy => H y (by simp [hy]))]

theorem wsum_mem_le {α : Type} (g : α → Nat) {l : List α} {x : α} (h : x ∈ l) : g x ≤ wsum g l := by
  induction l with
  | nil => simp at h
  | cons y l ih =>
    simp only [wsum]
    rcases List.mem_cons.1 h with rfl | h
    · omega
    · have := ih h; omega

theorem wsum_map {α β : Type} (g : β → Nat) (f : α → β) (l : List α) : wsum g (l.map f) = wsum (fun x => g (f x)) l := by
  induction l with
  | nil => rfl
  | cons x l ih => simp only [List.map_cons, wsum, ih]

/-! ## merging -/

theorem least_mem (h : List Node) : ∀ x, least x h ∈ x :: h := by
  induction h with
  | nil => intro x; simp [least]
  | cons y h ih =>
    intro x
    simp only [least]
    split
    · have := ih y; simp at this ⊢; rcases this with h | h <;> simp [h]
    · have := ih x; simp at this ⊢; rcases this with h | h <;> simp [h]

theorem pop_perm (x : Node) (h : List Node) : (x :: h).Perm ((pop x h).1 :: (pop x h).2) := List.perm_cons_erase (least_mem h x)

/-- the forest while it is merged -/
structure MergeOk (heap : List Node) (count : Nat) (parent : Nat → Option Nat) : Prop where
  nodup : (heap.map (·.2)).Nodup
  root : ∀ x ∈ heap, x.2 < count ∧ parent x.2 = none
  up : ∀ j p, parent j = some p → j < p ∧ p < count

/-- depths in a forest -/
structure DepthOk (P : Nat → Option Nat) (D : Nat → Nat) : Prop where
  root : ∀ j, P j = none → D j = 0
  node : ∀ j p, P j = some p → D j = D p + 1

theorem mergeGo_spec (n : Nat) : ∀ (heap : List Node) (count : Nat) (parent : Nat → Option Nat), heap ≠ [] → heap.length ≤ n → MergeOk heap count parent →
    (mergeGo n heap count parent).2 = count + heap.length - 1 ∧
    (∀ j p, (mergeGo n heap count parent).1 j = some p → j < p ∧ p < (mergeGo n heap count parent).2) ∧
    (∀ j, j < count → j ∉ heap.map (·.2) → (mergeGo n heap count parent).1 j = parent j) ∧
    (∀ D K, DepthOk (mergeGo n heap count parent).1 D → (∀ j, D j ≤ K) → wsum (fun x => 2 ^ (K - D x.2)) heap = 2 ^ K) := by
  induction n with
  | zero => intro heap count parent hne hl; exact absurd (List.length_eq_zero_iff.1 (by omega)) hne
  | succ n ih =>
    intro heap count parent hne hl hok
    match heap, hne, hl, hok with
    | [x], _, _, hok =>
      simp only [mergeGo]
      refine ⟨by simp, fun j p h => hok.up j p h, fun _ _ _ => trivial, fun D K hD hK => ?_⟩
      have := hD.root _ (hok.root x (by simp)).2
      simp [wsum, this]
    | x :: y :: r, _, hl, hok =>
      have hp := pop_perm x (y :: r)
      have hlen := hp.length_eq
      simp only [List.length_cons] at hlen hl
      generalize hpe : pop x (y :: r) = p at hp hlen
      obtain ⟨p1, p2⟩ := p
      match p2, hp, hlen, hpe with
      | [], _, hlen, _ => simp at hlen
      | z :: r', hp, hlen, hpe =>
        have hq := pop_perm z r'
        have hlen2 := hq.length_eq
        generalize hqe : pop z r' = q at hq hlen2
        obtain ⟨q1, q2⟩ := q
        simp only [List.length_cons] at hlen hlen2
        simp only [mergeGo, hpe, hqe]
        have hperm : (x :: y :: r).Perm (p1 :: q1 :: q2) := hp.trans (hq.cons p1)
        have hnd : ((p1 :: q1 :: q2).map (·.2)).Nodup := (hperm.map _).nodup_iff.1 hok.nodup
        have hroot : ∀ v ∈ p1 :: q1 :: q2, v.2 < count ∧ parent v.2 = none := fun v hv => hok.root v (hperm.mem_iff.2 hv)
        have hp1 := hroot p1 (by simp)
        have hq1 := hroot q1 (by simp)
        simp only [List.map_cons, List.nodup_cons, List.mem_cons, not_or] at hnd
        have hok' : MergeOk ((p1.1 + q1.1, count) :: q2) (count + 1) (upd (upd parent p1.2 (some count)) q1.2 (some count)) := by
          refine ⟨?_, ?_, ?_⟩
          · simp only [List.map_cons, List.nodup_cons]
            refine ⟨fun hm => ?_, hnd.2.2⟩
            obtain ⟨v, hv, he⟩ := List.mem_map.1 hm
            have := (hroot v (by simp [hv])).1
            omega
          · intro v hv
            rcases List.mem_cons.1 hv with rfl | hv
            · refine ⟨by show count < count + 1; omega, ?_⟩
              show upd _ _ _ count = none
              rw [upd, if_neg (by omega), upd, if_neg (by omega)]
              cases h : parent count with
              | none => rfl
              | some p => have := hok.up _ _ h; omega
            · have hv' := hroot v (by simp [hv])
              have hm : v.2 ∈ q2.map (·.2) := List.mem_map_of_mem hv
              refine ⟨by omega, ?_⟩
              have e1 : ¬ v.2 = q1.2 := fun e => hnd.2.1 (by rw [← e]; exact hm)
              have e2 : ¬ v.2 = p1.2 := fun e => hnd.1.2 (by rw [← e]; exact hm)
              rw [upd, if_neg e1, upd, if_neg e2]
              exact hv'.2
          · intro j p h
            rw [upd] at h
            by_cases e1 : j = q1.2
            · rw [if_pos e1] at h; injection h with h; omega
            · rw [if_neg e1, upd] at h
              by_cases e2 : j = p1.2
              · rw [if_pos e2] at h; injection h with h; omega
              · rw [if_neg e2] at h; have := hok.up j p h; omega
        have := ih _ (count + 1) _ (by simp) (by simp only [List.length_cons]; omega) hok'
        obtain ⟨h1, h2, h3, h4⟩ := this
        refine ⟨?_, h2, ?_, ?_⟩
        · rw [h1]; simp only [List.length_cons]; omega
        · intro j hj hnm
          have hnm' : j ∉ (p1 :: q1 :: q2).map (·.2) := fun hm => hnm ((hperm.map _).mem_iff.2 hm)
          simp only [List.map_cons, List.mem_cons, not_or] at hnm'
          rw [h3 j (by omega) (by simp only [List.map_cons, List.mem_cons, not_or]; exact ⟨by omega, hnm'.2.2⟩)]
          rw [upd, if_neg hnm'.2.1, upd, if_neg hnm'.1]
        · intro D K hD hK
          have hs := h4 D K hD hK
          have hP1 : (mergeGo n ((p1.1 + q1.1, count) :: q2) (count + 1) (upd (upd parent p1.2 (some count)) q1.2 (some count))).1 p1.2 = some count := by
            rw [h3 p1.2 (by omega) (by simp only [List.map_cons, List.mem_cons, not_or]; exact ⟨by omega, hnd.1.2⟩)]
            rw [upd, if_neg hnd.1.1, upd, if_pos rfl]
          have hQ1 : (mergeGo n ((p1.1 + q1.1, count) :: q2) (count + 1) (upd (upd parent p1.2 (some count)) q1.2 (some count))).1 q1.2 = some count := by
            rw [h3 q1.2 (by omega) (by simp only [List.map_cons, List.mem_cons, not_or]; exact ⟨by omega, hnd.2.1⟩)]
            rw [upd, if_pos rfl]
          have d1 := hD.node _ _ hP1
          have d2 := hD.node _ _ hQ1
          have hk := hK p1.2
          rw [wsum_perm _ hperm]
          simp only [wsum] at hs ⊢
          rw [d1, d2, ← hs]
          have e : 2 ^ (K - D count) = 2 ^ (K - (D count + 1)) + 2 ^ (K - (D count + 1)) := by
            rw [show K - D count = K - (D count + 1) + 1 by omega, Nat.pow_succ]; omega
          omega

/-! ## depths -/

theorem depthGo_length (P : Nat → Option Nat) : ∀ n d, (depthGo P n d).length = d.length
  | 0, _ => rfl
  | n + 1, d => by
    simp only [depthGo]
    cases P n <;> simp [depthGo_length P n]

theorem getD_set_self {l : List Nat} {i v : Nat} (h : i < l.length) : (l.set i v).getD i 0 = v := by
  simp [List.getD_eq_getElem?_getD, h]

theorem getD_set_ne {l : List Nat} {i j v : Nat} (h : i ≠ j) : (l.set i v).getD j 0 = l.getD j 0 := by
  simp [List.getD_eq_getElem?_getD, List.getElem?_set_ne h]

theorem depthGo_spec (P : Nat → Option Nat) (hP : ∀ j p, P j = some p → j < p) : ∀ n (d : List Nat), n ≤ d.length →
    (∀ j, n ≤ j → (depthGo P n d).getD j 0 = d.getD j 0) ∧ (∀ j, P j = none → (depthGo P n d).getD j 0 = d.getD j 0) ∧
    (∀ j p, j < n → P j = some p → (depthGo P n d).getD j 0 = (depthGo P n d).getD p 0 + 1)
  | 0, d, _ => ⟨fun _ _ => rfl, fun _ _ => rfl, fun j p h => by omega⟩
  | n + 1, d, hn => by
    simp only [depthGo]
    cases h : P n with
    | none =>
      have ⟨h1, h2, h3⟩ := depthGo_spec P hP n d (by omega)
      refine ⟨fun j hj => h1 j (by omega), h2, fun j p hj hp => h3 j p ?_ hp⟩
      by_cases e : j = n
      · subst e; rw [h] at hp; cases hp
      · omega
    | some q =>
      have ⟨h1, h2, h3⟩ := depthGo_spec P hP n (d.set n (d.getD q 0 + 1)) (by simp; omega)
      have hq := hP _ _ h
      dsimp only
      refine ⟨fun j hj => ?_, fun j hj => ?_, fun j p hj hp => ?_⟩
      · rw [h1 j (by omega), getD_set_ne (by omega)]
      · rw [h2 j hj, getD_set_ne (fun e => by subst e; rw [h] at hj; cases hj)]
      · by_cases e : j = n
        · subst e
          rw [h] at hp; injection hp with hp; subst hp
          rw [h1 j (by omega), h1 q (by omega), getD_set_self (by omega), getD_set_ne (by omega)]
        · exact h3 j p (by omega) hp

theorem leaves_snd_nodup (f : List Nat) : ((leaves f).map (·.2)).Nodup := by
  have h : (f.zipIdx.map (·.2)).Nodup := by
    rw [show (f.zipIdx.map (·.2)) = f.zipIdx.map Prod.snd from rfl, List.zipIdx_map_snd]; exact List.nodup_range'
  exact h.sublist (List.filter_sublist.map _)

theorem mem_leaves {f : List Nat} {x : Node} : x ∈ leaves f ↔ f[x.2]? = some x.1 ∧ x.1 ≠ 0 := by
  simp only [leaves, List.mem_filter, List.mem_zipIdx_iff_getElem?, decide_eq_true_eq]

theorem leaves_lt {f : List Nat} {x : Node} (h : x ∈ leaves f) : x.2 < f.length := by
  have := (mem_leaves.1 h).1
  apply Classical.byContradiction
  intro hc
  rw [List.getElem?_eq_none (by omega)] at this
  cases this

theorem leaves_length (f : List Nat) : (leaves f).length = f.countP (fun x => decide (x ≠ 0)) := by
  have : f = f.zipIdx.map (·.1) := by
    rw [show (f.zipIdx.map (·.1)) = f.zipIdx.map Prod.fst from rfl, List.zipIdx_map_fst]
  conv => rhs; rw [this, List.countP_map]
  rw [leaves, ← List.countP_eq_length_filter]
  rfl

/-- the depths of a forest with at least two leaves -/
theorem treeDepths_spec (f : List Nat) (hf : 2 ≤ (leaves f).length) :
    wsum (fun x => 2 ^ (2 * f.length - (treeDepths f).getD x.2 0)) (leaves f) = 2 ^ (2 * f.length) ∧
    (∀ x ∈ leaves f, 1 ≤ (treeDepths f).getD x.2 0) ∧ ∀ j, (treeDepths f).getD j 0 ≤ 2 * f.length := by
  have hne : leaves f ≠ [] := by intro e; rw [e] at hf; simp at hf
  have hok : MergeOk (leaves f) f.length (fun _ => none) :=
    ⟨leaves_snd_nodup f, fun x hx => ⟨leaves_lt hx, rfl⟩, fun j p h => by cases h⟩
  have ⟨h1, h2, _, h4⟩ := mergeGo_spec (leaves f).length (leaves f) f.length (fun _ => none) hne (Nat.le_refl _) hok
  have hle : (leaves f).length ≤ f.length := by rw [leaves_length]; exact List.countP_le_length
  generalize hm : mergeGo (leaves f).length (leaves f) f.length (fun _ => none) = m at h1 h2 h4
  have hC : m.2 ≤ 2 * f.length := by omega
  have ⟨g1, g2, g3⟩ := depthGo_spec m.1 (fun j p h => (h2 j p h).1) m.2 (List.replicate (2 * f.length) 0) (by simpa using hC)
  have hT : treeDepths f = depthGo m.1 m.2 (List.replicate (2 * f.length) 0) := by simp only [treeDepths, hm]
  rw [hT]
  generalize hR : depthGo m.1 m.2 (List.replicate (2 * f.length) 0) = R at g1 g2 g3
  have hz : ∀ j, (List.replicate (2 * f.length) 0).getD j 0 = 0 := fun j => by
    simp only [List.getD_eq_getElem?_getD, List.getElem?_replicate]; split <;> rfl
  have hD : DepthOk m.1 (fun j => R.getD j 0) :=
    ⟨fun j hj => (g2 j hj).trans (hz j), fun j p hp => g3 j p (by have := h2 j p hp; omega) hp⟩
  have hb : ∀ k j, m.2 - j ≤ k → R.getD j 0 ≤ k := by
    intro k
    induction k with
    | zero => intro j hj; rw [g1 j (by omega), hz]; exact Nat.le_refl _
    | succ k ih =>
      intro j hj
      cases hp : m.1 j with
      | none => rw [g2 j hp, hz]; omega
      | some p =>
        have hjp := h2 j p hp
        have := ih p (by omega)
        rw [g3 j p (by omega) hp]; omega
  have hb' : ∀ j, R.getD j 0 ≤ 2 * f.length := fun j => Nat.le_trans (hb m.2 j (by omega)) hC
  have hsum := h4 (fun j => R.getD j 0) (2 * f.length) hD hb'
  refine ⟨hsum, fun x hx => ?_, hb'⟩
  apply Classical.byContradiction
  intro hc
  have h0 : R.getD x.2 0 = 0 := by omega
  have hp := List.perm_cons_erase hx
  rw [wsum_perm _ hp] at hsum
  simp only [wsum, h0, Nat.sub_zero] at hsum
  have hl := hp.length_eq
  simp only [List.length_cons] at hl
  match he : (leaves f).erase x with
  | [] => rw [he] at hl; simp at hl; omega
  | y :: r =>
    rw [he] at hsum
    simp only [wsum] at hsum
    have := Nat.two_pow_pos (2 * f.length - R.getD y.2 0)
    omega

/-! ## counts of widths -/

/-- number of codes of the widths 1 to `m` -/
def totalCount (c : Nat → Nat) : Nat → Nat
  | 0 => 0
  | m + 1 => totalCount c m + c (m + 1)

theorem wsum_width_succ (gs : List Nat) (M m : Nat) : wsum (fun g => if 1 ≤ g ∧ g ≤ m + 1 then 2 ^ (M - g) else 0) gs =
    wsum (fun g => if 1 ≤ g ∧ g ≤ m then 2 ^ (M - g) else 0) gs + gs.count (m + 1) * 2 ^ (M - (m + 1)) := by
  induction gs with
  | nil => simp [wsum]
  | cons g gs ih =>
    simp only [wsum, List.count_cons, Nat.add_mul]
    rw [ih]
    by_cases h : g = m + 1
    · subst h
      simp only [BEq.rfl, if_true]
      rw [if_pos (by omega), if_neg (by omega), Nat.one_mul]
      omega
    · simp only [beq_eq_false_iff_ne.2 h, Bool.false_eq_true, if_false, Nat.zero_mul, Nat.add_zero]
      by_cases h' : 1 ≤ g ∧ g ≤ m
      · rw [if_pos h', if_pos (by omega)]; omega
      · rw [if_neg h', if_neg (by omega)]; omega

theorem codeSpace_count (gs : List Nat) (M : Nat) : ∀ m,
    codeSpace (fun w => gs.count w) M m = wsum (fun g => if 1 ≤ g ∧ g ≤ m then 2 ^ (M - g) else 0) gs
  | 0 => by
    induction gs with
    | nil => rfl
    | cons g gs ih => simp only [codeSpace, wsum] at ih ⊢; rw [if_neg (by omega), ← ih]
  | m + 1 => by rw [codeSpace, codeSpace_count gs M m, wsum_width_succ, Nat.shiftLeft_eq]

theorem totalCount_count (gs : List Nat) (m : Nat) (h : ∀ g ∈ gs, 1 ≤ g ∧ g ≤ m) : totalCount (fun w => gs.count w) m = gs.length := by
  have H : ∀ m, totalCount (fun w => gs.count w) m = gs.countP (fun g => decide (1 ≤ g ∧ g ≤ m)) := by
    intro m
    induction m with
    | zero =>
      rw [totalCount, List.countP_eq_zero.2 (fun a _ => by simp; omega)]
    | succ m ih =>
      rw [totalCount, ih]
      clear ih h
      induction gs with
      | nil => rfl
      | cons g gs ih =>
        simp only [List.countP_cons, List.count_cons, decide_eq_true_eq]
        rw [← ih]
        by_cases h : g = m + 1
        · subst h
          have n1 : ¬ (1 ≤ m + 1 ∧ m + 1 ≤ m) := by omega
          have n2 : 1 ≤ m + 1 ∧ m + 1 ≤ m + 1 := by omega
          simp only [BEq.rfl, if_true, if_neg n1, if_pos n2]; omega
        · simp only [beq_eq_false_iff_ne.2 h, Bool.false_eq_true, if_false]
          by_cases h' : 1 ≤ g ∧ g ≤ m
          · rw [if_pos h', if_pos (by omega)]; omega
          · rw [if_neg h', if_neg (by omega)]; omega
  rw [H, List.countP_eq_length.2 (fun g hg => by simp [h g hg])]

/-- clamping the depths to `M` uses too much code space, but not more than one unit per clamped code -/
theorem clamp_spec (Ds : List Nat) (K M : Nat) (hM : M ≤ K) (hK : ∀ d ∈ Ds, d ≤ K) (h1 : ∀ d ∈ Ds, 1 ≤ d) (hM1 : 1 ≤ M)
    (hs : wsum (fun d => 2 ^ (K - d)) Ds = 2 ^ K) :
    2 ^ M ≤ codeSpace (fun w => (Ds.map (min · M)).count w) M M ∧
    codeSpace (fun w => (Ds.map (min · M)).count w) M M ≤ 2 ^ M + (Ds.map (min · M)).count M := by
  have e : codeSpace (fun w => (Ds.map (min · M)).count w) M M = wsum (fun d => 2 ^ (M - min d M)) Ds := by
    rw [codeSpace_count, wsum_map]
    exact wsum_congr _ (fun d hd => by have := h1 d hd; rw [if_pos (by omega)])
  have hpos := Nat.two_pow_pos (K - M)
  have hKM : 2 ^ K = 2 ^ (K - M) * 2 ^ M := by rw [← Nat.pow_add, show K - M + M = K by omega]
  rw [e]
  constructor
  · apply Nat.le_of_mul_le_mul_left _ hpos
    rw [← hKM, ← hs, ← wsum_mul]
    apply wsum_mono
    intro d hd
    rw [← Nat.pow_add]
    exact Nat.pow_le_pow_right (by omega) (by omega)
  · have hc : (Ds.map (min · M)).count M = wsum (fun d => if min d M = M then 1 else 0) Ds := by
      clear hs hK h1 e
      induction Ds with
      | nil => rfl
      | cons d Ds ih =>
        simp only [List.map_cons, List.count_cons, wsum, ih]
        by_cases h : min d M = M
        · rw [h]; simp; omega
        · simp [h]
    rw [hc]
    apply Nat.le_of_mul_le_mul_left _ hpos
    rw [Nat.mul_add, ← hKM, ← hs, ← wsum_mul, ← wsum_mul, ← wsum_add]
    apply wsum_mono
    intro d hd
    have := hK d hd
    rw [← Nat.pow_add]
    by_cases h : min d M = M
    · rw [if_pos h, h, show K - M + (M - M) = K - M by omega, Nat.mul_one]; exact Nat.le_add_left _ _
    · rw [if_neg h, show K - M + (M - min d M) = K - d by omega]; omega

theorem codeSpace_upd (c : Nat → Nat) (M w v : Nat) (hw : 1 ≤ w) : ∀ m,
    codeSpace (upd c w v) M m + (if w ≤ m then c w * 2 ^ (M - w) else 0) = codeSpace c M m + (if w ≤ m then v * 2 ^ (M - w) else 0)
  | 0 => by rw [if_neg (by omega), if_neg (by omega)]; rfl
  | m + 1 => by
    have ih := codeSpace_upd c M w v hw m
    simp only [codeSpace, Nat.shiftLeft_eq]
    by_cases h : w = m + 1
    · subst h
      rw [if_neg (by omega), if_neg (by omega)] at ih
      rw [if_pos (Nat.le_refl _), if_pos (Nat.le_refl _), show upd c (m + 1) v (m + 1) = v from if_pos rfl]
      omega
    · rw [show upd c w v (m + 1) = c (m + 1) from if_neg (fun e => h e.symm)]
      by_cases h' : w ≤ m
      · rw [if_pos h', if_pos h'] at ih; rw [if_pos (by omega), if_pos (by omega)]; omega
      · rw [if_neg h', if_neg h'] at ih; rw [if_neg (by omega), if_neg (by omega)]; omega

theorem totalCount_upd (c : Nat → Nat) (w v : Nat) (hw : 1 ≤ w) : ∀ m,
    totalCount (upd c w v) m + (if w ≤ m then c w else 0) = totalCount c m + (if w ≤ m then v else 0)
  | 0 => by rw [if_neg (by omega), if_neg (by omega)]; rfl
  | m + 1 => by
    have ih := totalCount_upd c w v hw m
    simp only [totalCount]
    by_cases h : w = m + 1
    · subst h
      rw [if_neg (by omega), if_neg (by omega)] at ih
      rw [if_pos (Nat.le_refl _), if_pos (Nat.le_refl _), show upd c (m + 1) v (m + 1) = v from if_pos rfl]
      omega
    · rw [show upd c w v (m + 1) = c (m + 1) from if_neg (fun e => h e.symm)]
      by_cases h' : w ≤ m
      · rw [if_pos h', if_pos h'] at ih; rw [if_pos (by omega), if_pos (by omega)]; omega
      · rw [if_neg h', if_neg h'] at ih; rw [if_neg (by omega), if_neg (by omega)]; omega

theorem splitWidth_spec (c : Nat → Nat) : ∀ m, splitWidth c m ≤ m ∧ (splitWidth c m = 0 → ∀ w, 1 ≤ w → w ≤ m → c w = 0) ∧
    (splitWidth c m ≠ 0 → c (splitWidth c m) ≠ 0)
  | 0 => ⟨Nat.le_refl _, fun _ w _ _ => by omega, fun h => absurd rfl h⟩
  | m + 1 => by
    have ⟨h1, h2, h3⟩ := splitWidth_spec c m
    simp only [splitWidth]
    by_cases h : c (m + 1) = 0
    · rw [if_pos h]
      refine ⟨by omega, fun e w hw hwm => ?_, h3⟩
      by_cases e' : w = m + 1
      · subst e'; exact h
      · exact h2 e w hw (by omega)
    · rw [if_neg h]; exact ⟨by omega, fun e => by omega, fun _ => h⟩

theorem codeSpace_zero {c : Nat → Nat} {M : Nat} : ∀ {m}, (∀ w, 1 ≤ w → w ≤ m → c w = 0) → codeSpace c M m = 0 ∧ totalCount c m = 0
  | 0, _ => ⟨rfl, rfl⟩
  | m + 1, h => by
    have := codeSpace_zero (c := c) (M := M) (m := m) (fun w h1 h2 => h w h1 (by omega))
    simp [codeSpace, totalCount, this, h (m + 1) (by omega) (by omega)]

theorem count_le_total (c : Nat → Nat) : ∀ {m w}, 1 ≤ w → w ≤ m → c w ≤ totalCount c m
  | 0, w, h1, h2 => by omega
  | m + 1, w, h1, h2 => by
    simp only [totalCount]
    by_cases h : w = m + 1
    · subst h; omega
    · have := count_le_total c (m := m) h1 (by omega); omega

theorem dec32_eq {n : Nat} (h : n ≠ 0) (h2 : n < 2 ^ 32) : dec32 n = n - 1 := by simp only [dec32]; omega

/-- counts during the repair: `e` units too many are in use -/
structure RepairOk (M N e : Nat) (c : Nat → Nat) : Prop where
  total : totalCount c M = N
  space : codeSpace c M M = 2 ^ M + e
  last : e ≤ c M

theorem repairStep_ok {M N e : Nat} {c : Nat → Nat} (hM : 1 ≤ M) (hN : N ≤ 2 ^ M) (hN' : N < 2 ^ 31) (h : RepairOk M N (e + 1) c) :
    RepairOk M N e (repairStep M c) := by
  obtain ⟨m, rfl⟩ : ∃ m, M = m + 1 := ⟨M - 1, by omega⟩
  have ⟨s1, s2, s3⟩ := splitWidth_spec c m
  have hlast := h.last
  have htot := h.total
  have hspace := h.space
  have hw0 : splitWidth c m ≠ 0 := by
    intro e0
    have hz := codeSpace_zero (M := m + 1) (s2 e0)
    simp only [codeSpace, totalCount, hz.1, hz.2, Nat.sub_self, Nat.shiftLeft_zero] at htot hspace
    omega
  have hcw := s3 hw0
  simp only [repairStep, Nat.add_sub_cancel]
  generalize splitWidth c m = w at s1 hw0 hcw
  have hcwN : c w ≤ N := by rw [← htot]; exact count_le_total c (by omega) (by omega)
  have hcMN : c (m + 1) ≤ N := by rw [← htot]; exact count_le_total c (by omega) (by omega)
  have hcw1 : c (w + 1) ≤ N := by rw [← htot]; exact count_le_total c (by omega) (by omega)
  have hpow : 2 ^ (m + 1 - w) = 2 * 2 ^ (m + 1 - (w + 1)) := by
    rw [show m + 1 - w = (m + 1 - (w + 1)) + 1 by omega, Nat.pow_succ]; omega
  rw [dec32_eq hcw (by omega)]
  have e1 : upd c w (c w - 1) (w + 1) = c (w + 1) := if_neg (by omega)
  rw [e1, Nat.mod_eq_of_lt (by omega)]
  have a1 := codeSpace_upd c (m + 1) w (c w - 1) (by omega) (m + 1)
  have a2 := codeSpace_upd (upd c w (c w - 1)) (m + 1) (w + 1) (c (w + 1) + 2) (by omega) (m + 1)
  have b1 := totalCount_upd c w (c w - 1) (by omega) (m + 1)
  have b2 := totalCount_upd (upd c w (c w - 1)) (w + 1) (c (w + 1) + 2) (by omega) (m + 1)
  rw [if_pos (by omega), if_pos (by omega)] at a1 a2 b1 b2
  rw [e1] at a2 b2
  generalize hc2 : upd (upd c w (c w - 1)) (w + 1) (c (w + 1) + 2) = c2 at a2 b2
  have hM2 : c2 (m + 1) ≠ 0 ∧ e + 1 ≤ c2 (m + 1) ∧ c2 (m + 1) < 2 ^ 32 := by
    rw [← hc2]
    by_cases hwm : w + 1 = m + 1
    · rw [upd, if_pos hwm.symm, hwm]; omega
    · rw [upd, if_neg (fun x => hwm x.symm), upd, if_neg (by omega)]; omega
  rw [dec32_eq hM2.1 hM2.2.2]
  have a3 := codeSpace_upd c2 (m + 1) (m + 1) (c2 (m + 1) - 1) (by omega) (m + 1)
  have b3 := totalCount_upd c2 (m + 1) (c2 (m + 1) - 1) (by omega) (m + 1)
  rw [if_pos (by omega), if_pos (by omega)] at a3 b3
  rw [Nat.sub_self, Nat.pow_zero, Nat.mul_one, Nat.mul_one] at a3
  rw [hpow] at a1
  have m1 : (c w - 1) * (2 * 2 ^ (m + 1 - (w + 1))) + 2 * 2 ^ (m + 1 - (w + 1)) = c w * (2 * 2 ^ (m + 1 - (w + 1))) := by
    rw [← Nat.succ_mul]; congr 1; omega
  have m2 : (c (w + 1) + 2) * 2 ^ (m + 1 - (w + 1)) = c (w + 1) * 2 ^ (m + 1 - (w + 1)) + 2 * 2 ^ (m + 1 - (w + 1)) := Nat.add_mul _ _ _
  rw [m2] at a2
  refine ⟨by omega, by omega, ?_⟩
  rw [upd, if_pos rfl]; omega

theorem repair_ok {M N : Nat} (hM : 1 ≤ M) (hN : N ≤ 2 ^ M) (hN' : N < 2 ^ 31) : ∀ (e : Nat) {c : Nat → Nat}, RepairOk M N e c →
    RepairOk M N 0 (repair M e c)
  | 0, _, h => h
  | e + 1, _, h => repair_ok hM hN hN' e (repairStep_ok hM hN hN' h)

/-! ## assignment of widths -/

theorem widthsDown_count (c : Nat → Nat) : ∀ (m w : Nat), (widthsDown c m).count w = if 1 ≤ w ∧ w ≤ m then c w else 0
  | 0, w => by rw [if_neg (by omega)]; rfl
  | m + 1, w => by
    rw [widthsDown, List.count_append, widthsDown_count c m w, List.count_replicate]
    by_cases h : m + 1 = w
    · subst h
      have n1 : ¬ (1 ≤ m + 1 ∧ m + 1 ≤ m) := by omega
      have n2 : 1 ≤ m + 1 ∧ m + 1 ≤ m + 1 := by omega
      simp only [BEq.rfl, if_true, if_neg n1, if_pos n2, Nat.add_zero]
    · simp only [beq_eq_false_iff_ne.2 h, Bool.false_eq_true, if_false]
      by_cases h' : 1 ≤ w ∧ w ≤ m
      · rw [if_pos h', if_pos (by omega)]; omega
      · rw [if_neg h', if_neg (by omega)]

theorem widthsDown_length (c : Nat → Nat) : ∀ m, (widthsDown c m).length = totalCount c m
  | 0 => rfl
  | m + 1 => by simp only [widthsDown, List.length_append, List.length_replicate, widthsDown_length c m, totalCount]; omega

theorem widthsDown_mem (c : Nat → Nat) (m w : Nat) (h : w ∈ widthsDown c m) : 1 ≤ w ∧ w ≤ m := by
  have := List.count_pos_iff.2 h
  rw [widthsDown_count] at this
  by_cases h' : 1 ≤ w ∧ w ≤ m
  · exact h'
  · rw [if_neg h'] at this; omega

theorem assignWidths_spec : ∀ (syms ws lens : List Nat), syms.length = ws.length → syms.Nodup → (∀ s ∈ syms, s < lens.length ∧ lens.getD s 0 = 0) →
    (∀ w ∈ ws, w ≠ 0) →
    (assignWidths syms ws lens).length = lens.length ∧
    (∀ w, w ≠ 0 → (assignWidths syms ws lens).count w = lens.count w + ws.count w) ∧
    (∀ s ∈ syms, (assignWidths syms ws lens).getD s 0 ∈ ws) ∧
    (∀ s, s ∉ syms → (assignWidths syms ws lens).getD s 0 = lens.getD s 0)
  | [], [], lens, _, _, _, _ => by simp [assignWidths]
  | [], _ :: _, _, h, _, _, _ => by simp at h
  | _ :: _, [], _, h, _, _, _ => by simp at h
  | s :: syms, v :: ws, lens, hl, hn, hs, hw => by
    have hs0 := hs s (by simp)
    have hv := hw v (by simp)
    rw [List.nodup_cons] at hn
    have ⟨h1, h2, h3, h4⟩ := assignWidths_spec syms ws (lens.set s v) (by simpa using hl) hn.2 (fun t ht => by
      have hne : s ≠ t := fun e => hn.1 (e ▸ ht)
      have := hs t (by simp [ht])
      rw [getD_set_ne hne, List.length_set]; exact this) (fun w h => hw w (by simp [h]))
    simp only [assignWidths]
    refine ⟨by rw [h1, List.length_set], fun w hw0 => ?_, fun t ht => ?_, fun t ht => ?_⟩
    · rw [h2 w hw0, List.count_set hs0.1, List.count_cons]
      have e0 : lens[s]'hs0.1 = 0 := by
        have := hs0.2
        rwa [List.getD_eq_getElem?_getD, List.getElem?_eq_getElem hs0.1] at this
      rw [e0]
      have : ¬ (0 == w) = true := by simp; omega
      simp only [this]
      split <;> simp_all <;> omega
    · rcases List.mem_cons.1 ht with rfl | ht
      · rw [h4 t hn.1, getD_set_self hs0.1]; simp
      · exact List.mem_cons_of_mem _ (h3 t ht)
    · rw [List.mem_cons, not_or] at ht
      rw [h4 t ht.2, getD_set_ne (fun e => ht.1 e.symm)]

theorem activate_length : ∀ (k : Nat) (f : List Nat), (activate k f).length = f.length
  | _, [] => rfl
  | k, x :: f => by
    simp only [activate]
    split <;> simp [activate_length _ f]

theorem activate_getD : ∀ (k : Nat) (f : List Nat) (s : Nat), f.getD s 0 ≠ 0 → (activate k f).getD s 0 ≠ 0
  | _, [], s, h => by simp at h
  | k, x :: f, 0, h => by
    have h' : x ≠ 0 := by simpa using h
    simp only [activate]
    rw [if_neg (by omega)]
    simpa using h
  | k, x :: f, s + 1, h => by
    simp only [activate]
    rw [List.getD_cons_succ] at h
    split
    · rw [List.getD_cons_succ]; exact activate_getD _ f s h
    · rw [List.getD_cons_succ]; exact activate_getD _ f s h

theorem activate_count : ∀ (k : Nat) (f : List Nat), (activate k f).countP (fun x => decide (x ≠ 0)) =
    f.countP (fun x => decide (x ≠ 0)) + min (f.length - f.countP (fun x => decide (x ≠ 0))) (2 - k)
  | _, [] => by simp [activate]
  | k, x :: f => by
    have hle : f.countP (fun x => decide (x ≠ 0)) ≤ f.length := List.countP_le_length
    simp only [activate]
    by_cases h : k < 2 ∧ x = 0
    · rw [if_pos h]
      have ih := activate_count (k + 1) f
      simp only [List.countP_cons, List.length_cons, h.2] at ih ⊢
      simp at ih hle ⊢
      rw [ih]; omega
    · rw [if_neg h]
      have ih := activate_count k f
      simp only [List.countP_cons, List.length_cons] at ih ⊢
      rw [ih]
      by_cases hx : x = 0
      · simp [hx] at hle ⊢; omega
      · simp [hx] at hle ⊢; omega

theorem codeSpace_first (c : Nat → Nat) (hc : c 0 = 0) (M : Nat) : ∀ m, m ≤ M → codeSpace c M m = (firstCode c m + c m) * 2 ^ (M - m)
  | 0, _ => by simp [codeSpace, firstCode, hc]
  | m + 1, h => by
    rw [codeSpace, codeSpace_first c hc M m (by omega), firstCode, Nat.shiftLeft_eq, show M - m = (M - (m + 1)) + 1 by omega, Nat.pow_succ,
      Nat.add_mul (2 * _), Nat.mul_comm 2 (firstCode c m + c m), Nat.mul_assoc _ 2, Nat.mul_comm 2]

theorem codeSpace_congr {c c' : Nat → Nat} (M : Nat) : ∀ m, (∀ w, 1 ≤ w → w ≤ m → c w = c' w) → codeSpace c M m = codeSpace c' M m
  | 0, _ => rfl
  | m + 1, h => by rw [codeSpace, codeSpace, codeSpace_congr M m (fun w h1 h2 => h w h1 (by omega)), h (m + 1) (by omega) (by omega)]

theorem insert_perm (a : Node) : ∀ l : List Node, (Node.insert a l).Perm (a :: l)
  | [] => List.Perm.refl _
  | b :: r => by
    rw [Node.insert]
    split
    · exact ((insert_perm a r).cons b).trans (List.Perm.swap a b r)
    · exact List.Perm.refl _

theorem ordered_perm (f : List Nat) : (ordered f).Perm ((leaves f).map (·.2)) := by
  refine List.Perm.map _ ?_
  induction leaves f with
  | nil => exact List.Perm.refl _
  | cons a l ih => exact (insert_perm a _).trans (ih.cons a)

/-- the widths of the symbols: within the limit, filling the code space, and not zero for every symbol in use -/
theorem makeCodeLengths_spec {M : Nat} {f : List Nat} (hM : 1 ≤ M) (hf2 : 2 ≤ f.length) (hfM : f.length ≤ 2 ^ M) (hf31 : f.length < 2 ^ 31)
    (hMf : M ≤ 2 * f.length) :
    (makeCodeLengths M f).length = f.length ∧ (∀ w ∈ makeCodeLengths M f, w ≤ M) ∧
    firstCode (widthCount (makeCodeLengths M f)) M + widthCount (makeCodeLengths M f) M = 2 ^ M ∧
    (∀ s, f.getD s 0 ≠ 0 → (makeCodeLengths M f).getD s 0 ≠ 0) ∧ ∃ w ∈ makeCodeLengths M f, w ≠ 0 := by
  simp only [makeCodeLengths]
  have hfl := activate_length (f.countP (fun x => decide (x ≠ 0))) f
  have hfa := activate_getD (f.countP (fun x => decide (x ≠ 0))) f
  have hfc := activate_count (f.countP (fun x => decide (x ≠ 0))) f
  have hle : f.countP (fun x => decide (x ≠ 0)) ≤ f.length := List.countP_le_length
  generalize activate (f.countP (fun x => decide (x ≠ 0))) f = g at hfl hfa hfc
  rw [← leaves_length] at hfc
  have hL2 : 2 ≤ (leaves g).length := by omega
  have hLle : (leaves g).length ≤ g.length := by rw [leaves_length]; exact List.countP_le_length
  have ⟨t1, t2, t3⟩ := treeDepths_spec g hL2
  generalize treeDepths g = T at t1 t2 t3
  have hdc : ∀ w, depthCount T g M w = (((leaves g).map (fun x => T.getD x.2 0)).map (min · M)).count w := by
    intro w
    rw [depthCount, ← List.countP_eq_length_filter, List.map_map, List.count_eq_countP, List.countP_map]
    congr 1
  have hdc' : depthCount T g M = fun w => (((leaves g).map (fun x => T.getD x.2 0)).map (min · M)).count w := funext hdc
  have hcl := clamp_spec ((leaves g).map (fun x => T.getD x.2 0)) (2 * g.length) M (by omega)
    (fun d hd => by obtain ⟨x, _, rfl⟩ := List.mem_map.1 hd; exact t3 _)
    (fun d hd => by obtain ⟨x, hx, rfl⟩ := List.mem_map.1 hd; exact t2 x hx) hM (by rw [wsum_map]; exact t1)
  have htc := totalCount_count (((leaves g).map (fun x => T.getD x.2 0)).map (min · M)) M (fun w hw => by
    obtain ⟨d, hd, rfl⟩ := List.mem_map.1 hw
    obtain ⟨x, hx, rfl⟩ := List.mem_map.1 hd
    have := t2 x hx
    omega)
  rw [← hdc'] at hcl htc
  simp only [List.length_map] at htc
  rw [← hdc] at hcl
  have hrep := repair_ok (M := M) (N := (leaves g).length) hM (by omega) (by omega) (codeSpace (depthCount T g M) M M - 2 ^ M)
    ⟨htc, by omega, by omega⟩
  generalize repair M (codeSpace (depthCount T g M) M M - 2 ^ M) (depthCount T g M) = c at hrep
  have hop := ordered_perm g
  have hol : (ordered g).length = (leaves g).length := by rw [hop.length_eq, List.length_map]
  have ⟨a1, a2, a3, a4⟩ := assignWidths_spec (ordered g) (widthsDown c M) (List.replicate g.length 0)
    (by rw [hol, widthsDown_length, hrep.total]) (hop.nodup_iff.2 (leaves_snd_nodup g))
    (fun s hs => by
      obtain ⟨x, hx, rfl⟩ := List.mem_map.1 (hop.mem_iff.1 hs)
      have := leaves_lt hx
      refine ⟨by simpa using this, ?_⟩
      simp only [List.getD_eq_getElem?_getD, List.getElem?_replicate]; split <;> rfl)
    (fun w hw => by have := widthsDown_mem c M w hw; omega)
  generalize assignWidths (ordered g) (widthsDown c M) (List.replicate g.length 0) = l at a1 a2 a3 a4
  have hcount : ∀ w, 1 ≤ w → w ≤ M → widthCount l w = c w := by
    intro w h1 h2
    rw [widthCount_pos l (by omega), a2 w (by omega), widthsDown_count, if_pos ⟨h1, h2⟩, List.count_replicate]
    have : ¬ (0 == w) = true := by simp; omega
    rw [if_neg this]; omega
  have hspace : codeSpace (widthCount l) M M = 2 ^ M := by rw [codeSpace_congr M M hcount]; exact hrep.space
  have hused : ∀ s, g.getD s 0 ≠ 0 → s ∈ ordered g := by
    intro s hs
    have hlen := lt_of_getD hs
    refine hop.mem_iff.2 (List.mem_map.2 ⟨(g.getD s 0, s), mem_leaves.2 ⟨?_, hs⟩, rfl⟩)
    simp [List.getD_eq_getElem?_getD, hlen]
  refine ⟨by rw [a1]; simpa using hfl, ?_, ?_, ?_, ?_⟩
  · intro w hw
    by_cases h0 : w = 0
    · omega
    · have := List.count_pos_iff.2 hw
      rw [a2 w h0, List.count_replicate] at this
      have h' : ¬ (0 == w) = true := by simp; omega
      rw [if_neg h', Nat.zero_add] at this
      exact (widthsDown_mem c M w (List.count_pos_iff.1 this)).2
  · rw [codeSpace_first _ rfl M M (Nat.le_refl _)] at hspace
    simpa using hspace
  · intro s hs
    have := widthsDown_mem c M _ (a3 s (hused s (hfa s hs)))
    omega
  · match hLc : leaves g with
    | [] => rw [hLc] at hL2; simp at hL2
    | x :: r =>
      have hx : x ∈ leaves g := by rw [hLc]; simp
      have hm := widthsDown_mem c M _ (a3 x.2 (hop.mem_iff.2 (List.mem_map_of_mem hx)))
      refine ⟨l.getD x.2 0, ?_, by omega⟩
      have hlen := lt_of_getD (l := l) (s := x.2) (by omega)
      rw [show l.getD x.2 0 = l[x.2] by simp [List.getD_eq_getElem?_getD, hlen]]
      exact List.getElem_mem hlen

end Verif.Deflate
