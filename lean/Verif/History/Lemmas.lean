import Verif.History.Spec
/-!
# Simulation relation between the mirrored ring and the bounded list
-/
namespace Verif.History
variable {α : Type}

theorem modw {w i rc : Nat} (hw : w < rc) (hi : i ≤ rc) :
    (w + i) % rc = if w + i < rc then w + i else w + i - rc := by
  split
  · exact Nat.mod_eq_of_lt ‹_›
  · rw [Nat.mod_eq_sub_mod (by omega), Nat.mod_eq_of_lt (by omega)]

theorem bitCeil_pow (n : Nat) : ∃ k, bitCeil n = 2 ^ k := by
  unfold bitCeil; split
  · exact ⟨0, rfl⟩
  · exact ⟨_, rfl⟩

theorem le_bitCeil (n : Nat) : n ≤ bitCeil n := by
  unfold bitCeil; split
  · assumption
  · have := @Nat.lt_log2_self (n - 1); omega

theorem singleBit_pow {n : Nat} (h : hasSingleBit n = true) : ∃ k, n = 2 ^ k := by
  simp only [hasSingleBit, Bool.and_eq_true, bne_iff_ne, ne_eq, beq_iff_eq] at h
  obtain ⟨h0, h1⟩ := h
  refine ⟨Nat.log2 n, ?_⟩
  have hle := Nat.log2_self_le h0
  by_cases he : n = 2 ^ Nat.log2 n
  · exact he
  · exfalso
    have hlt := @Nat.lt_log2_self n
    have hb : n.testBit (Nat.log2 n) = true := by
      rw [Nat.testBit_eq_decide_div_mod_eq, ]
      have : n / 2 ^ Nat.log2 n = 1 := by
        apply Nat.div_eq_of_lt_le <;> omega
      simp [this]
    have hb' : (n - 1).testBit (Nat.log2 n) = true := by
      rw [Nat.testBit_eq_decide_div_mod_eq]
      have : (n - 1) / 2 ^ Nat.log2 n = 1 := by
        apply Nat.div_eq_of_lt_le <;> omega
      simp [this]
    have := congrArg (fun x => x.testBit (Nat.log2 n)) h1
    simp [Nat.testBit_and, hb, hb'] at this

/-- well-formed geometry. -/
structure GeoOk (g : Geo) : Prop where
  pow : g.dyn = true → ∃ k, g.mask + 1 = 2 ^ k
  capPos : 0 < g.cap
  capRing : g.cap ≤ g.ring

theorem GeoOk.map {g : Geo} (hs : GeoOk g) (w i : Nat) : g.map w i = (w + i) % g.ring := by
  unfold Geo.map Geo.ring
  split
  · next hd =>
    obtain ⟨k, hk⟩ := hs.pow hd
    rw [hk, show g.mask = 2 ^ k - 1 by omega, Nat.and_two_pow_sub_one_eq_mod]
  · split
    · next hb =>
      obtain ⟨k, hk⟩ := singleBit_pow hb
      rw [hk, Nat.and_two_pow_sub_one_eq_mod]
    · rfl

/-- The numeric core of the simulation relation. -/
structure Core (rc cap w size dirty : Nat) (buf : Nat → α) (items : List α) : Prop where
  capPos : 0 < cap
  capRing : cap ≤ rc
  wpos : w < rc
  len : size = items.length
  sizeCap : size ≤ cap
  dirtyLe : dirty ≤ rc
  elem : ∀ i, i < size → items[i]? = some (buf ((w + i) % rc))
  mirror : ∀ i, dirty ≤ i → i < size → buf ((w + i) % rc + rc) = buf ((w + i) % rc)

/-- The simulation relation. -/
structure Sim (h : H α) (s : S α) : Prop where
  geo : GeoOk h.g
  dyn : s.dyn = h.g.dyn
  cap : s.cap = h.g.cap
  oob : h.oob = false
  core : Core h.g.ring h.g.cap h.wpos h.size h.dirty h.buf s.items

theorem core_pushFront {rc cap w size dirty : Nat} {buf : Nat → α} {items : List α}
    (c : Core rc cap w size dirty buf items) (v : α) :
    Core rc cap ((w + (rc - 1)) % rc) (if size < cap then size + 1 else size) (if dirty < rc then dirty + 1 else dirty)
      (fun j => if j = (w + (rc - 1)) % rc then v else buf j) ((v :: items).take cap) := by
  obtain ⟨c1, c2, hw, hlen, hsz, hd, hel, hmi⟩ := c
  have hr : 0 < rc := by omega
  generalize hp : (w + (rc - 1)) % rc = p
  have hpl : p < rc := by rw [← hp]; exact Nat.mod_lt _ hr
  have hsucc : ∀ i, i < rc → (p + (i + 1)) % rc = (w + i) % rc := by
    intro i hi
    rw [modw hpl (by omega), modw hw (by omega)]
    rw [modw hw (by omega)] at hp
    split at hp <;> split <;> split <;> omega
  have hne : ∀ i, i + 1 < rc → (w + i) % rc ≠ p := by
    intro i hi
    rw [modw hw (by omega)]
    rw [modw hw (by omega)] at hp
    split at hp <;> split <;> omega
  have hp0 : (p + 0) % rc = p := Nat.mod_eq_of_lt (by omega)
  refine ⟨c1, c2, hpl, ?_, ?_, ?_, ?_, ?_⟩
  · simp only [List.length_take, List.length_cons]; split <;> omega
  · split <;> omega
  · split <;> omega
  · intro i hi
    have hic : i < cap := by split at hi <;> omega
    rw [List.getElem?_take_of_lt (by omega)]
    cases i with
    | zero => simp only [hp0, ↓reduceIte]; rfl
    | succ j =>
      have hj : j < size := by split at hi <;> omega
      rw [hsucc j (by omega), if_neg (hne j (by omega))]
      simpa using hel j hj
  · intro i hdi hi
    have hic : i < cap := by split at hi <;> omega
    cases i with
    | zero => split at hdi <;> omega
    | succ j =>
      have hj : j < size := by split at hi <;> omega
      have hdj : dirty ≤ j := by split at hdi <;> omega
      have := Nat.mod_lt (w + j) hr
      rw [hsucc j (by omega), if_neg (hne j (by omega)), if_neg (by omega)]
      exact hmi j hdj hj

/-- dropping `k ≤ size` elements at the front. -/
theorem core_drop {rc cap w size dirty : Nat} {buf : Nat → α} {items : List α}
    (c : Core rc cap w size dirty buf items) (k : Nat) (hk : k ≤ size) :
    Core rc cap ((w + k) % rc) (size - k) (dirty - k) buf (items.drop k) := by
  obtain ⟨c1, c2, hw, hlen, hsz, hd, hel, hmi⟩ := c
  have e : ∀ i, ((w + k) % rc + i) % rc = (w + (k + i)) % rc := by
    intro i; rw [Nat.mod_add_mod]; congr 1; omega
  refine ⟨c1, c2, Nat.mod_lt _ (by omega), by simp; omega, by omega, by omega, ?_, ?_⟩
  · intro i hi; rw [List.getElem?_drop, hel (k + i) (by omega), e]
  · intro i h1 h2; rw [e]; exact hmi (k + i) (by omega) (by omega)

/-- weakening the dirty count. -/
theorem core_dirty {rc cap w size dirty d : Nat} {buf : Nat → α} {items : List α}
    (c : Core rc cap w size dirty buf items) (h1 : dirty ≤ d) (h2 : d ≤ rc) : Core rc cap w size d buf items :=
  ⟨c.capPos, c.capRing, c.wpos, c.len, c.sizeCap, h2, c.elem, fun i a b => c.mirror i (by omega) b⟩

/-- appending `xs`, written to both halves; `buf'` is any storage that shows `xs` behind the current content. -/
theorem core_append {rc cap w size dirty : Nat} {buf buf' : Nat → α} {items xs : List α}
    (c : Core rc cap w size dirty buf items) (hfit : size + xs.length ≤ cap)
    (hold : ∀ i, i < size → buf' ((w + i) % rc) = buf ((w + i) % rc) ∧ buf' ((w + i) % rc + rc) = buf ((w + i) % rc + rc))
    (hnew : ∀ i, i < xs.length → xs[i]? = some (buf' ((w + (size + i)) % rc)) ∧
      buf' ((w + (size + i)) % rc + rc) = buf' ((w + (size + i)) % rc)) :
    Core rc cap w (size + xs.length) dirty buf' (items ++ xs) := by
  obtain ⟨c1, c2, hw, hlen, hsz, hd, hel, hmi⟩ := c
  refine ⟨c1, c2, hw, by simp; omega, hfit, hd, ?_, ?_⟩
  · intro i hi
    by_cases h : i < size
    · rw [List.getElem?_append_left (by omega), (hold i h).1]; exact hel i h
    · rw [List.getElem?_append_right (by omega), ← hlen, (hnew (i - size) (by omega)).1]
      congr 3; omega
  · intro i h1 h2
    by_cases h : i < size
    · rw [(hold i h).1, (hold i h).2]; exact hmi i h1 h
    · have := (hnew (i - size) (by omega)).2
      rwa [show size + (i - size) = i by omega] at this

/-- two different logical indices below the ring size use different slots. -/
theorem slot_ne {rc w i j : Nat} (hw : w < rc) (hi : i < rc) (hj : j < rc) (hne : i ≠ j) : (w + i) % rc ≠ (w + j) % rc := by
  rw [modw hw (by omega), modw hw (by omega)]; split <;> split <;> omega

theorem core_sync {rc cap w size dirty : Nat} {buf : Nat → α} {items : List α}
    (c : Core rc cap w size dirty buf items) (buf' : Nat → α)
    (hlow : ∀ j, j < rc → buf' j = buf j)
    (hcopy : ∀ i, i < rc → buf' ((w + i) % rc + rc) = if i < dirty then buf ((w + i) % rc) else buf ((w + i) % rc + rc)) :
    Core rc cap w size 0 buf' items := by
  obtain ⟨c1, c2, hw, hlen, hsz, hd, hel, hmi⟩ := c
  have hlt := fun i => Nat.mod_lt (w + i) (y := rc) (by omega)
  refine ⟨c1, c2, hw, hlen, hsz, by omega, ?_, ?_⟩
  · intro i hi; rw [hlow _ (hlt i)]; exact hel i hi
  · intro i _ hi
    rw [hlow _ (hlt i), hcopy i (by omega)]
    split
    · rfl
    · exact hmi i (by omega) hi

/-- after `syncMirror` any window starting at a logical index is contiguous in storage. -/
theorem core_view {rc cap w size : Nat} {buf : Nat → α} {items : List α}
    (c : Core rc cap w size 0 buf items) (i len : Nat) (hl : i + len ≤ size) :
    (List.range len).map (fun j => buf ((w + i) % rc + j)) = (items.drop i).take len := by
  obtain ⟨c1, c2, hw, hlen, hsz, hd, hel, hmi⟩ := c
  have hlt := Nat.mod_lt (w + i) (y := rc) (by omega)
  apply List.ext_getElem?
  intro j
  by_cases hj : j < len
  · rw [List.getElem?_take_of_lt hj, List.getElem?_drop, hel (i + j) (by omega)]
    simp only [List.getElem?_map, List.getElem?_range hj, Option.map_some]
    have e1 := modw (i := i) hw (by omega)
    have e2 := modw (i := i + j) hw (by omega)
    have hm := hmi (i + j) (by omega) (by omega)
    generalize (w + i) % rc = p at *
    generalize (w + (i + j)) % rc = q at *
    by_cases hpq : p + j = q
    · rw [hpq]
    · have : p + j = q + rc := by split at e1 <;> split at e2 <;> omega
      rw [this, hm]
  · simp only [List.getElem?_map, List.getElem?_take]
    rw [List.getElem?_eq_none (by simp; omega)]; simp [hj]

/-! ### the member functions -/

theorem sim_pushFront {h : H α} {s : S α} (hs : Sim h s) (v : α) :
    Sim (h.pushFront v) { s with items := (v :: s.items).take s.cap } := by
  have hc := core_pushFront hs.core v
  have hlt : (h.wpos + (h.g.ring - 1)) % h.g.ring < h.g.ring :=
    Nat.mod_lt _ (Nat.lt_of_lt_of_le hs.geo.capPos hs.geo.capRing)
  unfold H.pushFront
  by_cases h1 : h.size < h.g.cap <;> by_cases h2 : h.dirty < h.g.ring
  all_goals
    simp only [h1, h2, ↓reduceIte, H.wr, hs.geo.map] at hc ⊢
    exact ⟨hs.geo, hs.dyn, hs.cap, by simp [hs.oob]; omega, by rw [hs.cap]; exact hc⟩

theorem sim_foldl {h : H α} {s : S α} (hs : Sim h s) (xs : List α) :
    Sim (xs.foldl H.pushFront h) { s with items := (xs.reverse ++ s.items).take s.cap } := by
  induction xs generalizing h s with
  | nil =>
    have : s.items.take s.cap = s.items := List.take_of_length_le (by rw [← hs.core.len, hs.cap]; exact hs.core.sizeCap)
    simpa [this] using hs
  | cons x xs ih =>
    have := ih (sim_pushFront hs x)
    simp only [List.foldl_cons]
    have e : ((xs.reverse ++ (x :: s.items).take s.cap).take s.cap) = (((x :: xs).reverse ++ s.items).take s.cap) := by
      simp only [List.reverse_cons, List.append_assoc, List.cons_append, List.nil_append, List.take_append, List.take_take]
      congr 2; omega
    rw [← e]; exact this

theorem sim_pushFrontRange {h : H α} {s : S α} (hs : Sim h s) (xs : List α) :
    Sim (h.pushFrontRange xs) { s with items := (xs.reverse ++ s.items).take s.cap } := by
  unfold H.pushFrontRange
  by_cases hl : xs.length > h.g.cap
  · have := sim_foldl hs (xs.drop (xs.length - h.g.cap))
    have e : (((xs.drop (xs.length - h.g.cap)).reverse ++ s.items).take s.cap) = ((xs.reverse ++ s.items).take s.cap) := by
      rw [hs.cap, List.reverse_drop, show xs.length - (xs.length - h.g.cap) = h.g.cap by omega]
      rw [List.take_append, List.take_append]
      simp only [List.take_take, List.length_take, List.length_reverse, Nat.min_self]
      rw [show h.g.cap - min h.g.cap xs.length = 0 by omega, show h.g.cap - xs.length = 0 by omega]
    rw [if_pos hl, ← e]; exact this
  · rw [if_neg hl]; exact sim_foldl hs xs

theorem sim_sync {h : H α} {s : S α} (hs : Sim h s) :
    Sim h.sync s ∧ h.sync.dirty = 0 ∧ h.sync.wpos = h.wpos ∧ h.sync.size = h.size ∧ h.sync.g = h.g := by
  have c := hs.core
  have hr : 0 < h.g.ring := Nat.lt_of_lt_of_le hs.geo.capPos hs.geo.capRing
  have hw := c.wpos; have hd := c.dirtyLe
  unfold H.sync
  split
  · next h0 => exact ⟨hs, h0, rfl, rfl, rfl⟩
  · next h0 =>
    simp only [H.copyN]
    split
    · next hc =>
      refine ⟨⟨hs.geo, hs.dyn, hs.cap, ?_, ?_⟩, by simp⟩
      · simp only [hs.oob, Bool.false_or, decide_eq_false_iff_not]; omega
      · apply core_sync c
        · intro j hj; exact if_neg (by omega)
        · intro i hi
          have e := modw (i := i) hw (by omega)
          dsimp only
          generalize hq : (h.wpos + i) % h.g.ring = q at *
          by_cases h1 : i < h.dirty
          · rw [if_pos h1, if_pos (by split at e <;> omega)]; congr 1; split at e <;> omega
          · rw [if_neg h1, if_neg (by split at e <;> omega)]
    · next hc =>
      refine ⟨⟨hs.geo, hs.dyn, hs.cap, ?_, ?_⟩, by simp⟩
      · rw [Bool.or_eq_false_iff, Bool.or_eq_false_iff]
        refine ⟨⟨hs.oob, decide_eq_false ?_⟩, decide_eq_false ?_⟩
        · omega
        · show ¬ (0 < h.dirty - (h.g.ring - h.wpos) ∧ (2 * h.g.ring < 0 + (h.dirty - (h.g.ring - h.wpos)) ∨
            2 * h.g.ring < h.g.ring + (h.dirty - (h.g.ring - h.wpos))))
          omega
      · apply core_sync c
        · intro j hj
          simp only []
          rw [if_neg (by omega), if_neg (by omega)]
        · intro i hi
          have e := modw (i := i) hw (by omega)
          have hlt := Nat.mod_lt (h.wpos + i) hr
          simp only []
          generalize hq : (h.wpos + i) % h.g.ring = q at *
          by_cases h1 : h.g.ring ≤ q + h.g.ring ∧ q + h.g.ring < h.g.ring + (h.dirty - (h.g.ring - h.wpos))
          · rw [if_pos h1, if_neg (by omega)]
            rw [if_pos (by split at e <;> omega)]; congr 1; split at e <;> omega
          · rw [if_neg h1]
            by_cases h2 : h.wpos + h.g.ring ≤ q + h.g.ring ∧ q + h.g.ring < h.wpos + h.g.ring + (h.g.ring - h.wpos)
            · rw [if_pos h2, if_pos (by split at e <;> omega)]; congr 1; split at e <;> omega
            · rw [if_neg h2, if_neg (by split at e <;> omega)]

theorem lastN_append_one {c : Nat} {l : List α} (v : α) (hl : l.length ≤ c) (hc : 0 < c) :
    lastN c (l ++ [v]) = (if l.length = c then l.drop 1 else l) ++ [v] := by
  unfold lastN
  simp only [List.length_append, List.length_singleton]
  split
  · rw [show l.length + 1 - c = 1 by omega, List.drop_append_of_le_length (by omega)]
  · rw [show l.length + 1 - c = 0 by omega, List.drop_zero]

theorem sim_pushBack {h : H α} {s : S α} (hs : Sim h s) (v : α) :
    Sim (h.pushBack v) { s with items := lastN s.cap (s.items ++ [v]) } := by
  have c := hs.core
  have hr : 0 < h.g.ring := Nat.lt_of_lt_of_le hs.geo.capPos hs.geo.capRing
  have e : lastN s.cap (s.items ++ [v]) = (if h.size = h.g.cap then s.items.drop 1 else s.items) ++ [v] := by
    rw [lastN_append_one v (by rw [hs.cap, ← c.len]; exact c.sizeCap) (by rw [hs.cap]; exact c.capPos), hs.cap, ← c.len]
  rw [e]
  -- the state after making room
  have key : ∀ (w size dirty : Nat) (items : List α), Core h.g.ring h.g.cap w size dirty h.buf items → size < h.g.cap →
      Core h.g.ring h.g.cap w (size + 1) dirty (fun j => if j = (w + size) % h.g.ring + h.g.ring then v else
        if j = (w + size) % h.g.ring then v else h.buf j) (items ++ [v]) := by
    intro w size dirty items c' hlt
    have hcr := c'.capRing
    have := core_append (xs := [v]) (buf' := fun j => if j = (w + size) % h.g.ring + h.g.ring then v else
        if j = (w + size) % h.g.ring then v else h.buf j) c' (by simp; omega) ?_ ?_
    · exact this
    · intro i hi
      have h1 := slot_ne (i := i) (j := size) c'.wpos (by omega) (by omega) (by omega)
      have h2 := Nat.mod_lt (w + i) hr
      have h3 := Nat.mod_lt (w + size) hr
      constructor
      · rw [if_neg (by omega), if_neg h1]
      · rw [if_neg (by omega), if_neg (by omega)]
    · intro i hi
      simp only [List.length_singleton, Nat.lt_one_iff] at hi
      subst hi
      simp
  have hlt := fun w => Nat.mod_lt w hr
  unfold H.pushBack
  by_cases h1 : h.size = h.g.cap
  · have hc := c.capPos
    have k := key _ _ _ _ (core_drop c 1 (by omega)) (by omega)
    have hp := hlt (h.wpos + 1 + (h.size - 1))
    rw [show h.size - 1 + 1 = h.size by omega] at k
    by_cases h2 : h.dirty > 0
    · simp only [h1, h2, ↓reduceIte, H.wr, hs.geo.map] at k ⊢
      have hp := hlt ((h.wpos + 1) % h.g.ring + (h.g.cap - 1))
      exact ⟨hs.geo, hs.dyn, hs.cap, by simp only [hs.oob, Bool.false_or, Bool.or_eq_false_iff, decide_eq_false_iff_not]; omega, k⟩
    · have h0 : h.dirty = 0 := by omega
      simp only [h1, h0, Nat.lt_irrefl, gt_iff_lt, ↓reduceIte, H.wr, hs.geo.map, Nat.zero_sub] at k ⊢
      have hp := hlt ((h.wpos + 1) % h.g.ring + (h.g.cap - 1))
      exact ⟨hs.geo, hs.dyn, hs.cap, by simp only [hs.oob, Bool.false_or, Bool.or_eq_false_iff, decide_eq_false_iff_not]; omega, k⟩
  · have hsz := c.sizeCap
    have k := key _ _ _ _ c (by omega)
    have hp := hlt (h.wpos + h.size)
    simp only [h1, ↓reduceIte, H.wr, hs.geo.map, Nat.add_sub_cancel] at k ⊢
    exact ⟨hs.geo, hs.dyn, hs.cap, by simp only [hs.oob, Bool.false_or, Bool.or_eq_false_iff, decide_eq_false_iff_not]; omega, k⟩

theorem sim_popFront {h : H α} {s : S α} (hs : Sim h s) :
    match h.popFront, s.items with
    | none, [] => True
    | some h', _ :: t => Sim h' { s with items := t }
    | _, _ => False := by
  have c := hs.core
  have hl := c.len
  unfold H.popFront
  cases hi : s.items with
  | nil => rw [hi] at hl; simp at hl; simp [hl]
  | cons x t =>
    rw [hi] at hl; simp at hl
    have k := core_drop c 1 (by omega)
    rw [hi] at k
    simp only [hl, Nat.add_eq_zero_iff, Nat.succ_ne_self, and_false, ↓reduceIte, hs.geo.map] at k ⊢
    split
    · exact ⟨hs.geo, hs.dyn, hs.cap, hs.oob, k⟩
    · next h2 =>
      have h0 : h.dirty - 1 = h.dirty := by omega
      rw [h0] at k
      exact ⟨hs.geo, hs.dyn, hs.cap, hs.oob, k⟩

theorem sim_popBack {h : H α} {s : S α} (hs : Sim h s) :
    match h.popBack, s.items with
    | none, [] => True
    | some h', _ :: _ => Sim h' { s with items := s.items.dropLast }
    | _, _ => False := by
  have c := hs.core
  have hl := c.len; have hsz := c.sizeCap
  unfold H.popBack
  cases hi : s.items with
  | nil => rw [hi] at hl; simp at hl; simp [hl]
  | cons x t =>
    have hl' : h.size ≠ 0 := by rw [hl, hi]; simp
    simp only [hl', ↓reduceIte]
    rw [← hi]
    refine ⟨hs.geo, hs.dyn, hs.cap, hs.oob, c.capPos, c.capRing, c.wpos, ?_, ?_, c.dirtyLe, ?_, ?_⟩
    · simp [hl]
    · show h.size - 1 ≤ h.g.cap; omega
    · intro i hi'
      have hi' : i < h.size - 1 := hi'
      rw [List.getElem?_dropLast, if_pos (by omega)]
      exact c.elem i (by omega)
    · intro i h1 h2
      have h2 : i < h.size - 1 := h2
      exact c.mirror i h1 (by omega)

theorem sim_reset {h : H α} {s : S α} (hs : Sim h s) (d : α) : Sim (h.reset d) { s with items := [] } := by
  have hr : 0 < h.g.ring := Nat.lt_of_lt_of_le hs.geo.capPos hs.geo.capRing
  refine ⟨hs.geo, hs.dyn, hs.cap, hs.oob, hs.core.capPos, hs.core.capRing, hr, rfl, ?_, ?_, ?_, ?_⟩
  · simp [H.reset]
  · simp [H.reset]
  · intro i hi; simp [H.reset] at hi
  · intro i _ hi; simp [H.reset] at hi

theorem sim_view {h : H α} {s : S α} (hs : Sim h s) (i len : Nat) (hl : i + len ≤ h.size) :
    h.sync.view (h.sync.g.map h.sync.wpos i) len = ((s.items.drop i).take len, false) := by
  obtain ⟨h1, h2, h3, h4, h5⟩ := sim_sync hs
  rw [h5, hs.geo.map, h3]
  have c := h1.core
  rw [h2, h3, h4, h5] at c
  have hlt := Nat.mod_lt (h.wpos + i) (Nat.lt_of_lt_of_le hs.geo.capPos hs.geo.capRing)
  have hs1 := c.sizeCap; have hs2 := c.capRing
  unfold H.view
  rw [core_view c i len hl, h5]
  refine Prod.ext rfl (decide_eq_false ?_)
  omega

theorem sim_span {h : H α} {s : S α} (hs : Sim h s) (i len : Nat) (hi : i ≤ s.items.length) (hb : h.g.cap < 2 ^ 64) :
    Sim (h.span i len).1 s ∧ (h.span i len).2 = (s.items.drop i).take len := by
  obtain ⟨h1, h2, h3, h4, h5⟩ := sim_sync hs
  have hsz := hs.core.sizeCap; have hlen := hs.core.len
  have hmin : min ((h.sync.size + (2 ^ 64 - i % 2 ^ 64)) % 2 ^ 64) len = min (h.size - i) len := by
    rw [h4, Nat.mod_eq_of_lt (a := i) (by omega)]
    congr 1
    by_cases h0 : i = 0
    · subst h0; omega
    · omega
  have hv := sim_view hs i (min (h.size - i) len) (by omega)
  unfold H.span
  simp only [hmin, hv, Bool.or_false]
  refine ⟨h1, ?_⟩
  apply List.ext_getElem?
  intro j
  simp only [List.getElem?_take]
  by_cases hj : j < len
  · by_cases hj2 : j < h.size - i
    · rw [if_pos (by omega), if_pos hj]
    · rw [if_neg (by omega), if_pos hj, List.getElem?_eq_none (by simp; omega)]
  · rw [if_neg (by omega), if_neg hj]

theorem sim_iter {h : H α} {s : S α} (hs : Sim h s) :
    Sim h.iter.1 s ∧ h.iter.2 = s.items := by
  obtain ⟨h1, h2, h3, h4, h5⟩ := sim_sync hs
  have hv := sim_view hs 0 h.sync.size (by omega)
  rw [h1.geo.map, Nat.add_zero, Nat.mod_eq_of_lt h1.core.wpos] at hv
  unfold H.iter
  simp only [hv, Bool.or_false]
  exact ⟨h1, by rw [List.drop_zero, List.take_of_length_le (by rw [h4, hs.core.len]; exact Nat.le_refl _)]⟩

theorem sim_resize {h : H α} {s : S α} (hs : Sim h s) (hd : h.g.dyn = true) (dflt : α) (n : Nat) (hn : n ≠ 0) :
    ∃ h', h.resize dflt n = some h' ∧ Sim h' { s with cap := n, items := s.items.take n } ∧ h'.g.cap = n := by
  obtain ⟨h1, h2, h3, h4, h5⟩ := sim_sync hs
  have hlen := hs.core.len
  have hv := sim_view hs 0 (min h.sync.size n) (by omega)
  rw [h1.geo.map, Nat.add_zero, Nat.mod_eq_of_lt h1.core.wpos, List.drop_zero] at hv
  have hle := le_bitCeil n
  obtain ⟨k, hk⟩ := bitCeil_pow n
  have htake : s.items.take (min h.size n) = s.items.take n := by
    rw [hlen]; conv => rhs; rw [List.take_eq_take_min]
    rw [Nat.min_comm]
  have hpos : 0 < bitCeil n := by omega
  unfold H.resize
  rw [if_neg hn]
  simp only [hv, Bool.or_false]
  rw [h4]
  refine ⟨_, rfl, ?_, by simp [H.put]⟩
  have hring : Geo.ring ⟨true, h.g.fixedN, bitCeil n - 1, n⟩ = bitCeil n := by simp [Geo.ring]; omega
  have hg : ({ h.sync.g with mask := bitCeil n - 1, cap := n } : Geo) = ⟨true, h.g.fixedN, bitCeil n - 1, n⟩ := by
    rw [h5]; simp only [hd]
  have hlt : (s.items.take n).length = min h.size n := by simp; omega
  simp only [H.put, hg, hring, htake, hlt]
  refine ⟨⟨fun _ => ⟨k, ?_⟩, Nat.pos_of_ne_zero hn, ?_⟩, by rw [hs.dyn, hd], rfl, ?_, ?_⟩
  · show bitCeil n - 1 + 1 = 2 ^ k; omega
  · rw [hring]; exact hle
  · simp only [h1.oob, Bool.false_or, Bool.or_eq_false_iff, decide_eq_false_iff_not]; omega
  · simp only [hring]
    have hget : ∀ i, i < min h.size n → ∃ v, (s.items.take n)[i]? = some v := by
      intro i hi; exact ⟨_, List.getElem?_eq_getElem (by omega)⟩
    refine ⟨by omega, hle, hpos, by omega, by omega, by omega, ?_, ?_⟩
    · intro i hi
      rw [Nat.zero_add, Nat.mod_eq_of_lt (by omega)]
      obtain ⟨v, hv⟩ := hget i hi
      simp only [Nat.not_le.mpr (show i < bitCeil n by omega), ↓reduceIte, Nat.zero_le, Nat.sub_zero, hv, Option.getD_some]
    · intro i _ hi
      rw [Nat.zero_add, Nat.mod_eq_of_lt (by omega)]
      obtain ⟨v, hv⟩ := hget i hi
      simp only [Nat.not_le.mpr (show i < bitCeil n by omega), ↓reduceIte, Nat.zero_le, Nat.sub_zero, hv, Option.getD_some,
        Nat.le_add_left, Nat.add_sub_cancel]

theorem put_in {h : H α} {d j : Nat} {xs : List α} (h1 : d ≤ j) (h2 : j < d + xs.length) :
    xs[j - d]? = some ((h.put d xs).buf j) := by
  simp only [H.put, h1, ↓reduceIte]
  rw [List.getElem?_eq_getElem (by omega)]; rfl

theorem put_out {h : H α} {d j : Nat} {xs : List α} (h1 : j < d ∨ d + xs.length ≤ j) : (h.put d xs).buf j = h.buf j := by
  simp only [H.put]
  split
  · rw [List.getElem?_eq_none (by omega)]; rfl
  · rfl

/-- writing `xs` behind logical index `size` in both halves, in one or two chunks. -/
def writeBoth (h : H α) (start : Nat) (xs : List α) : H α :=
  let chunk1 := min xs.length (h.g.ring - start)
  let h1 := (h.put start (xs.take chunk1)).put (start + h.g.ring) (xs.take chunk1)
  if xs.length - chunk1 > 0 then (h1.put 0 (xs.drop chunk1)).put h.g.ring (xs.drop chunk1) else h1

theorem writeBoth_fields (h : H α) (start : Nat) (xs : List α) :
    (writeBoth h start xs).g = h.g ∧ (writeBoth h start xs).wpos = h.wpos ∧ (writeBoth h start xs).size = h.size ∧
    (writeBoth h start xs).dirty = h.dirty := by
  unfold writeBoth; dsimp only; split <;> simp [H.put]

theorem writeBoth_oob (h : H α) (start : Nat) (xs : List α) (hs : start < h.g.ring) (hx : xs.length ≤ h.g.ring) (ho : h.oob = false) :
    (writeBoth h start xs).oob = false := by
  unfold writeBoth; dsimp only; split
  · simp only [H.put, ho, Bool.false_or, Bool.or_eq_false_iff, decide_eq_false_iff_not, List.length_take, List.length_drop]
    omega
  · simp only [H.put, ho, Bool.false_or, Bool.or_eq_false_iff, decide_eq_false_iff_not, List.length_take]
    omega

theorem writeBoth_new (h : H α) (start : Nat) (xs : List α) (hs : start < h.g.ring) (hx : xs.length ≤ h.g.ring) (i : Nat)
    (hi : i < xs.length) :
    xs[i]? = some ((writeBoth h start xs).buf ((start + i) % h.g.ring)) ∧
    xs[i]? = some ((writeBoth h start xs).buf ((start + i) % h.g.ring + h.g.ring)) := by
  have e := modw (i := i) hs (by omega)
  generalize hq : (start + i) % h.g.ring = q at *
  unfold writeBoth; dsimp only
  by_cases hc : i < h.g.ring - start
  · have hq' : q = start + i := by split at e <;> omega
    have hlt : i < min xs.length (h.g.ring - start) := by omega
    have l1 : (List.take (min xs.length (h.g.ring - start)) xs)[i]? = xs[i]? := List.getElem?_take_of_lt hlt
    have a1 : xs[i]? = some (((h.put start (xs.take (min xs.length (h.g.ring - start)))).put (start + h.g.ring) (xs.take (min xs.length (h.g.ring - start)))).buf q) := by
      rw [put_out (by omega), ← put_in (by omega) (by simp; omega), show q - start = i by omega, l1]
    have a2 : xs[i]? = some (((h.put start (xs.take (min xs.length (h.g.ring - start)))).put (start + h.g.ring) (xs.take (min xs.length (h.g.ring - start)))).buf (q + h.g.ring)) := by
      rw [← put_in (by omega) (by simp; omega), show q + h.g.ring - (start + h.g.ring) = i by omega, l1]
    split
    · constructor
      · rw [put_out (by omega), put_out (by simp; omega)]; exact a1
      · rw [put_out (by simp; omega), put_out (by simp; omega)]; exact a2
    · exact ⟨a1, a2⟩
  · have hq' : q = start + i - h.g.ring := by split at e <;> omega
    have hc1 : min xs.length (h.g.ring - start) = h.g.ring - start := by omega
    rw [hc1, if_pos (by omega)]
    have l1 : (List.drop (h.g.ring - start) xs)[q]? = xs[i]? := by
      rw [List.getElem?_drop]; congr 1; omega
    constructor
    · rw [put_out (by omega), ← put_in (by omega) (by simp; omega), Nat.sub_zero, l1]
    · rw [← put_in (by omega) (by simp; omega), Nat.add_sub_cancel, l1]

theorem writeBoth_old (h : H α) (start : Nat) (xs : List α) (hs : start < h.g.ring) (hx : xs.length ≤ h.g.ring) (q : Nat) (hq : q < h.g.ring)
    (hne : ∀ i, i < xs.length → (start + i) % h.g.ring ≠ q) :
    (writeBoth h start xs).buf q = h.buf q ∧ (writeBoth h start xs).buf (q + h.g.ring) = h.buf (q + h.g.ring) := by
  have h1 : ¬ (start ≤ q ∧ q < start + min xs.length (h.g.ring - start)) := by
    intro hh
    have := hne (q - start) (by omega)
    rw [modw hs (by omega)] at this
    split at this <;> omega
  have h2 : h.g.ring - start < xs.length → ¬ q < xs.length - (h.g.ring - start) := by
    intro hl hh
    have := hne (q + (h.g.ring - start)) (by omega)
    rw [modw hs (by omega)] at this
    split at this <;> omega
  have b : ((h.put start (xs.take (min xs.length (h.g.ring - start)))).put (start + h.g.ring) (xs.take (min xs.length (h.g.ring - start)))).buf q = h.buf q := by
    rw [put_out (by simp; omega), put_out (by simp; omega)]
  have b' : ((h.put start (xs.take (min xs.length (h.g.ring - start)))).put (start + h.g.ring) (xs.take (min xs.length (h.g.ring - start)))).buf (q + h.g.ring) = h.buf (q + h.g.ring) := by
    rw [put_out (by simp; omega), put_out (by simp; omega)]
  unfold writeBoth; dsimp only
  split
  · rw [put_out (by simp; omega), put_out (by simp; omega), put_out (j := q + h.g.ring) (by simp; omega), put_out (j := q + h.g.ring) (by simp; omega)]
    exact ⟨b, b'⟩
  · exact ⟨b, b'⟩

theorem lastN_append {c : Nat} {l xs : List α} (hl : l.length ≤ c) :
    lastN c (l ++ xs) = l.drop (l.length + (lastN c xs).length - c) ++ lastN c xs := by
  unfold lastN
  simp only [List.length_append, List.length_drop, List.drop_append]
  congr 1
  · by_cases h : xs.length ≤ c
    · congr 1; omega
    · rw [List.drop_of_length_le (by omega), List.drop_of_length_le (by omega)]
  · congr 1; omega

theorem sim_pushBackRange {h : H α} {s : S α} (hs : Sim h s) (xs : List α) :
    Sim (h.pushBackRange xs) { s with items := lastN s.cap (s.items ++ xs) } := by
  have c := hs.core
  have hr : 0 < h.g.ring := Nat.lt_of_lt_of_le hs.geo.capPos hs.geo.capRing
  have hsz := c.sizeCap; have hcr := c.capRing; have hlen := c.len; have hcp := c.capPos
  by_cases h0 : xs.length = 0
  · have : xs = [] := List.eq_nil_of_length_eq_zero h0
    subst this
    have e : lastN s.cap (s.items ++ []) = s.items := by
      unfold lastN; rw [List.append_nil, hs.cap, show s.items.length - h.g.cap = 0 by omega, List.drop_zero]
    rw [e]; simpa [H.pushBackRange] using hs
  · have e := lastN_append (c := s.cap) (xs := xs) (l := s.items) (by rw [hs.cap]; omega)
    rw [e, hs.cap]
    -- the kept input
    have hx : (if xs.length ≥ h.g.cap then xs.drop (xs.length - h.g.cap) else xs) = lastN h.g.cap xs := by
      unfold lastN; split
      · rfl
      · rw [show xs.length - h.g.cap = 0 by omega, List.drop_zero]
    have hxl : (lastN h.g.cap xs).length ≤ h.g.cap := by simp [lastN]; omega
    generalize hX : lastN h.g.cap xs = ys at *
    rw [← hlen]
    generalize hk : h.size + ys.length - h.g.cap = k
    have hkle : k ≤ h.size := by omega
    -- make room
    have c1 := core_drop c k hkle
    -- the final state
    have main : ∀ (h1 : H α), h1.g = h.g → h1.wpos = (h.wpos + k) % h.g.ring → h1.size = h.size - k + ys.length →
        h1.dirty = h.dirty - k → h1.oob = false → h1.buf = h.buf →
        Sim (writeBoth h1 ((h1.wpos + (h.size - k)) % h.g.ring) ys)
          { dyn := s.dyn, cap := h.g.cap, items := s.items.drop k ++ ys } := by
      intro h1 eg ew esz ed eo eb
      obtain ⟨f1, f2, f3, f4⟩ := writeBoth_fields h1 ((h1.wpos + (h.size - k)) % h.g.ring) ys
      have hst : (h1.wpos + (h.size - k)) % h.g.ring < h1.g.ring := by rw [eg]; exact Nat.mod_lt _ hr
      refine ⟨by rw [f1, eg]; exact hs.geo, by rw [f1, eg]; exact hs.dyn, by rw [f1, eg], ?_, ?_⟩
      · exact writeBoth_oob _ _ _ hst (by rw [eg]; omega) eo
      · rw [f1, f2, f3, f4, eg, ew, esz, ed]
        have hww := c1.wpos
        rw [ew] at hst
        have em : ∀ i, (((h.wpos + k) % h.g.ring + (h.size - k)) % h.g.ring + i) % h.g.ring = ((h.wpos + k) % h.g.ring + (h.size - k + i)) % h.g.ring := by
          intro i; rw [Nat.mod_add_mod]; congr 1; omega
        refine core_append c1 (by omega) ?_ ?_
        · intro i hi
          have := writeBoth_old h1 (((h.wpos + k) % h.g.ring + (h.size - k)) % h.g.ring) ys hst (by rw [eg]; omega)
            (((h.wpos + k) % h.g.ring + i) % h.g.ring) (by rw [eg]; exact Nat.mod_lt _ hr) (by
              intro j hj; rw [eg, em]; exact slot_ne hww (by omega) (by omega) (by omega))
          rw [eg, eb] at this
          exact this
        · intro i hi
          have := writeBoth_new h1 (((h.wpos + k) % h.g.ring + (h.size - k)) % h.g.ring) ys hst (by rw [eg]; omega) i hi
          rw [eg, em] at this
          exact ⟨this.1, Option.some.inj (this.2.symm.trans this.1)⟩
    unfold H.pushBackRange
    simp only [h0, ↓reduceIte, hx]
    by_cases h1 : h.size + ys.length > h.g.cap
    · simp only [h1, ↓reduceIte, hk, hs.geo.map]
      by_cases h2 : h.dirty > 0
      · simp only [h2, ↓reduceIte, hs.geo.map]
        have := main ⟨h.g, h.buf, (h.wpos + k) % h.g.ring, h.size - k + ys.length, h.dirty - min h.dirty k, h.oob⟩ rfl rfl rfl (by simp only []; omega) hs.oob rfl
        simpa only [writeBoth, Nat.add_sub_cancel] using this
      · have hd0 : h.dirty = 0 := by omega
        simp only [h2, ↓reduceIte, hs.geo.map]
        have := main ⟨h.g, h.buf, (h.wpos + k) % h.g.ring, h.size - k + ys.length, h.dirty, h.oob⟩ rfl rfl rfl (by simp only []; omega) hs.oob rfl
        simpa only [writeBoth, Nat.add_sub_cancel] using this
    · have hk0 : k = 0 := by omega
      subst hk0
      simp only [h1, ↓reduceIte, hs.geo.map]
      have := main ⟨h.g, h.buf, h.wpos, h.size + ys.length, h.dirty, h.oob⟩ rfl (by rw [Nat.add_zero, Nat.mod_eq_of_lt c.wpos]) rfl rfl hs.oob rfl
      simpa only [writeBoth, Nat.add_sub_cancel, Nat.sub_zero] using this

theorem sim_at {h : H α} {s : S α} (hs : Sim h s) (i : Nat) :
    (i ≥ h.size → s.items[i]? = none) ∧ (i < h.size → s.items[i]? = some (h.get i)) := by
  have hl := hs.core.len
  refine ⟨fun h1 => List.getElem?_eq_none (by omega), fun h1 => ?_⟩
  rw [hs.core.elem i h1, H.get, hs.geo.map]

theorem sim_mkDyn (dflt : α) (cap : Nat) (h : H α) (hh : H.mkDyn dflt cap = some h) : Sim h ⟨true, cap, []⟩ := by
  unfold H.mkDyn at hh
  split at hh
  · cases hh
  · next h0 =>
    cases hh
    have hle := le_bitCeil cap
    obtain ⟨k, hk⟩ := bitCeil_pow cap
    have hr : Geo.ring ⟨true, 0, bitCeil cap - 1, cap⟩ = bitCeil cap := by simp [Geo.ring]; omega
    refine ⟨⟨fun _ => ⟨k, ?_⟩, Nat.pos_of_ne_zero h0, by rw [hr]; exact hle⟩, rfl, rfl, rfl, Nat.pos_of_ne_zero h0, by rw [hr]; exact hle, by show 0 < Geo.ring _; rw [hr]; omega, rfl,
      Nat.zero_le _, Nat.zero_le _, ?_, ?_⟩
    · show bitCeil cap - 1 + 1 = 2 ^ k; omega
    · intro i hi; exact absurd hi (Nat.not_lt_zero _)
    · intro i _ hi; exact absurd hi (Nat.not_lt_zero _)

theorem sim_mkFixed (dflt : α) (n : Nat) (hn : 0 < n) : Sim (H.mkFixed dflt n) ⟨false, n, []⟩ := by
  refine ⟨⟨fun h => by simp [H.mkFixed] at h, hn, by simp [H.mkFixed, Geo.ring]⟩, rfl, rfl, rfl, hn, by simp [H.mkFixed, Geo.ring], by simpa [H.mkFixed, Geo.ring] using hn, rfl,
    Nat.zero_le _, Nat.zero_le _, ?_, ?_⟩
  · intro i hi; exact absurd hi (Nat.not_lt_zero _)
  · intro i _ hi; exact absurd hi (Nat.not_lt_zero _)

end Verif.History
