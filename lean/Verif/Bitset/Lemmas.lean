import Verif.Bitset.Spec
namespace Verif.Bitset

/-- bit `p` of the memory. -/
def bitOf (m : Mem) (p : Nat) : Bool := (m (p / 64)).getLsbD (p % 64)

theorem low_mask (n i : Nat) (hn : n < 64) : ((1#64 <<< n) - 1#64).getLsbD i = decide (i < n) := by
  have h1 : ((1#64 <<< n) - 1#64).toNat = 2 ^ n - 1 := by
    have hp : 0 < 2 ^ n := Nat.two_pow_pos n
    have h2 : 2 ^ n < 2 ^ 64 := Nat.pow_lt_pow_right (by omega) hn
    have h3 : (1#64 <<< n).toNat = 2 ^ n := by
      rw [BitVec.toNat_shiftLeft, Nat.shiftLeft_eq]; simp; omega
    rw [BitVec.toNat_sub, h3]
    simp only [BitVec.toNat_ofNat]
    omega
  rw [BitVec.getLsbD, h1, Nat.testBit_two_pow_sub_one]

theorem rangeMask_bit (b e i : Nat) (hbe : b < e) (he : e ≤ 64) (hi : i < 64) :
    (rangeMask b e).getLsbD i = decide (b ≤ i ∧ i < e) := by
  unfold rangeMask
  split
  · subst e
    rw [BitVec.getLsbD_not, low_mask b i hbe]
    rw [Bool.eq_iff_iff]; simp [hi]
  · rw [BitVec.getLsbD_and, BitVec.getLsbD_not, low_mask b i (by omega), low_mask e i (by omega)]
    rw [Bool.eq_iff_iff]; simp [hi]; omega

theorem one_shift_bit (n i : Nat) (hi : i < 64) : (1#64 <<< n).getLsbD i = decide (i = n) := by
  rw [BitVec.getLsbD_shiftLeft]
  simp [BitVec.getLsbD_one, hi]
  by_cases h : i = n
  · subst h; simp
  · simp [h]; omega

/-- an access covers bit `p`. -/
def WOp.covers (p : Nat) : WOp → Bool
  | .rmw w mask _ => w == p / 64 && mask.getLsbD (p % 64)
  | .store w _ => w == p / 64

def WOp.val : WOp → Bool
  | .rmw _ _ v => v
  | .store _ v => v

theorem newBits_bit (old mask : BitVec 64) (v : Bool) (i : Nat) (hi : i < 64) :
    (newBits old mask v).getLsbD i = if mask.getLsbD i then v else old.getLsbD i := by
  unfold newBits
  cases v
  · simp only [Bool.false_eq_true, ↓reduceIte, BitVec.getLsbD_and, BitVec.getLsbD_not, hi, decide_true, Bool.true_and]
    cases mask.getLsbD i <;> simp
  · simp only [↓reduceIte, BitVec.getLsbD_or]
    cases mask.getLsbD i <;> simp

theorem apply_bit (m : Mem) (o : WOp) (p : Nat) : bitOf (apply m o) p = if o.covers p then o.val else bitOf m p := by
  have hp : p % 64 < 64 := Nat.mod_lt _ (by omega)
  cases o with
  | rmw w mask v =>
    simp only [apply, bitOf, WOp.covers, WOp.val]
    by_cases h : p / 64 = w
    · rw [if_pos h, newBits_bit _ _ _ _ hp]; subst h; simp
    · rw [if_neg h]
      have : (w == p / 64) = false := by simp; omega
      simp [this]
  | store w v =>
    simp only [apply, bitOf, WOp.covers, WOp.val]
    by_cases h : p / 64 = w
    · subst h
      cases v
      · simp
      · simp only [↓reduceIte, beq_self_eq_true, BitVec.getLsbD_not, hp, decide_true, BitVec.getLsbD_zero]; rfl
    · rw [if_neg h]
      have : (w == p / 64) = false := by simp; omega
      simp [this]

theorem fold_bit_none (l : List WOp) (m : Mem) (p : Nat) (h : ∀ o ∈ l, o.covers p = false) :
    bitOf (l.foldl apply m) p = bitOf m p := by
  induction l generalizing m with
  | nil => rfl
  | cons o l ih =>
    rw [List.foldl_cons, ih _ (fun x hx => h x (by simp [hx])), apply_bit, h o (by simp)]; simp

theorem fold_bit_val (l : List WOp) (m : Mem) (p : Nat) (v : Bool) (hv : ∀ o ∈ l, o.val = v) :
    bitOf (l.foldl apply m) p = if l.any (WOp.covers p) then v else bitOf m p := by
  induction l generalizing m with
  | nil => rfl
  | cons o l ih =>
    rw [List.foldl_cons, ih _ (fun x hx => hv x (by simp [hx])), apply_bit, hv o (by simp)]
    cases h : o.covers p <;> simp [h]

theorem test_eq (m : Mem) (p : Nat) : test m p = bitOf m p := by
  have hp : p % 64 < 64 := Nat.mod_lt _ (by omega)
  unfold test bitOf
  cases h : (m (p / 64)).getLsbD (p % 64) with
  | true =>
    rw [bne_iff_ne]
    intro h0
    have := congrArg (fun x => x.getLsbD (p % 64)) h0
    simp only [BitVec.getLsbD_and, h, one_shift_bit _ _ hp] at this
    simp at this
  | false =>
    have : m (p / 64) &&& 1#64 <<< (p % 64) = 0#64 := by
      apply BitVec.eq_of_getLsbD_eq
      intro i hi
      rw [BitVec.getLsbD_and, one_shift_bit _ _ hi]
      by_cases hh : i = p % 64
      · rw [hh, h]; simp
      · simp [hh]
    rw [this]; rfl

theorem setRange_val (b e : Nat) (v : Bool) : ∀ o ∈ setRange b e v, o.val = v := by
  intro o ho
  simp only [setRange] at ho
  split at ho
  · simp at ho
  · split at ho
    · simp at ho; subst ho; rfl
    · simp only [List.mem_append, List.mem_map] at ho
      rcases ho with (ho | ho) | ⟨w, _, rfl⟩
      · split at ho <;> simp at ho; subst ho; rfl
      · split at ho <;> simp at ho; subst ho; rfl
      · rfl

theorem setRange_covers (b e : Nat) (v : Bool) (hbe : b ≤ e) (p : Nat) :
    (setRange b e v).any (WOp.covers p) = decide (b ≤ p ∧ p < e) := by
  have hp : p % 64 < 64 := Nat.mod_lt _ (by omega)
  have hb : b % 64 < 64 := Nat.mod_lt _ (by omega)
  have he : e % 64 < 64 := Nat.mod_lt _ (by omega)
  rw [Bool.eq_iff_iff]
  simp only [setRange]
  split
  · simp; omega
  · split
    · next h1 h2 =>
      simp only [List.any_cons, List.any_nil, Bool.or_false, WOp.covers]
      rw [rangeMask_bit _ _ _ (by omega) (by omega) hp]
      simp; omega
    · next h1 h2 =>
      simp only [List.any_append, Bool.or_eq_true, decide_eq_true_eq, List.any_map, List.any_eq_true, Function.comp]
      constructor
      · rintro ((h | h) | ⟨w, hw, h⟩)
        · obtain ⟨o, ho, h⟩ := h
          split at ho
          · simp at ho; subst ho
            simp only [WOp.covers] at h
            rw [rangeMask_bit _ _ _ (by omega) (by omega) hp] at h
            simp at h; omega
          · simp at ho
        · obtain ⟨o, ho, h⟩ := h
          split at ho
          · simp at ho; subst ho
            simp only [WOp.covers] at h
            rw [rangeMask_bit _ _ _ (by omega) (by omega) hp] at h
            simp at h; omega
          · simp at ho
        · rw [List.mem_range'_1] at hw
          simp [WOp.covers] at h
          split at hw <;> omega
      · intro h
        by_cases hf : p / 64 = b / 64 ∧ b % 64 ≠ 0
        · left; left
          rw [if_pos hf.2]
          refine ⟨_, List.mem_singleton.mpr rfl, ?_⟩
          simp only [WOp.covers]
          rw [rangeMask_bit _ _ _ (by omega) (by omega) hp]
          simp; omega
        · by_cases hl : p / 64 = e / 64
          · left; right
            rw [if_pos (by omega)]
            refine ⟨_, List.mem_singleton.mpr rfl, ?_⟩
            simp only [WOp.covers]
            rw [rangeMask_bit _ _ _ (by omega) (by omega) hp]
            simp; omega
          · right
            refine ⟨p / 64, ?_, by simp [WOp.covers]⟩
            rw [List.mem_range'_1]
            split <;> omega

theorem setRange_words (b e size : Nat) (v : Bool) (hbe : b ≤ e) (hs : e ≤ size) : ∀ o ∈ setRange b e v, o.word < nWords size := by
  intro o ho
  simp only [setRange] at ho
  unfold nWords
  split at ho
  · simp at ho
  · split at ho
    · simp at ho; subst ho; simp [WOp.word]; omega
    · simp only [List.mem_append, List.mem_map] at ho
      rcases ho with (ho | ho) | ⟨w, hw, rfl⟩
      · split at ho <;> simp at ho; subst ho; simp [WOp.word]; omega
      · split at ho <;> simp at ho; subst ho; simp [WOp.word]; omega
      · rw [List.mem_range'_1] at hw; simp [WOp.word]; split at hw <;> omega

theorem ops_val (c : Call) : ∀ o ∈ c.ops, o.val = c.value := by
  cases c with
  | bit p v => intro o ho; simp [Call.ops, setBit] at ho; subst ho; rfl
  | range b e v => exact setRange_val b e v

theorem ops_covers (c : Call) (size : Nat) (hc : c.valid size) (p : Nat) : c.ops.any (WOp.covers p) = decide (c.touches p) := by
  have hp : p % 64 < 64 := Nat.mod_lt _ (by omega)
  cases c with
  | bit q v =>
    simp only [Call.ops, setBit, List.any_cons, List.any_nil, Bool.or_false, WOp.covers, Call.touches]
    rw [one_shift_bit _ _ hp, Bool.eq_iff_iff]
    simp only [Bool.and_eq_true, beq_iff_eq, decide_eq_true_eq]
    constructor
    · rintro ⟨h1, h2⟩; exact decide_eq_true (by show p = q; omega)
    · intro h; have h : p = q := of_decide_eq_true h; subst h; exact ⟨rfl, rfl⟩
  | range b e v => exact setRange_covers b e v hc.1 p

theorem call_bit (c : Call) (size : Nat) (hc : c.valid size) (m : Mem) (p : Nat) :
    bitOf (c.ops.foldl apply m) p = specCall (bitOf m) c p := by
  rw [fold_bit_val _ _ _ _ (ops_val c), ops_covers c size hc]
  simp [specCall]

/-- the accesses completed by thread `t`. -/
def logOf (c : Conf) (t : Nat) : List WOp := (c.log.filter (fun x => x.1 == t)).map (·.2)

/-- every interleaving is equivalent to performing the completed accesses one after the other in completion order, and
each thread performs its own accesses in program order. -/
structure Inv (m0 : Mem) (progs : List (List WOp)) (c : Conf) : Prop where
  mem : c.mem = (c.log.map (·.2)).foldl apply m0
  len : c.threads.length = progs.length
  own : ∀ y ∈ c.log, y.1 < c.threads.length
  prog : ∀ t th, c.threads[t]? = some th → progs[t]? = some (logOf c t ++ th.todo)

theorem inv_step {m0 : Mem} {progs : List (List WOp)} {c : Conf} (h : Inv m0 progs c) (t : Nat) : Inv m0 progs (step c t) := by
  have hown : ∀ (th : Thread), c.threads[t]? = some th → ∀ (o : WOp), ∀ y ∈ c.log ++ [(t, o)], y.1 < c.threads.length := by
    intro th hth o y hy
    simp only [List.mem_append, List.mem_singleton] at hy
    rcases hy with hy | rfl
    · exact h.own y hy
    · rcases Nat.lt_or_ge t c.threads.length with h | h
      · exact h
      · rw [List.getElem?_eq_none h] at hth; cases hth
  have hprog : ∀ (th : Thread) (o : WOp) (rest : List WOp), c.threads[t]? = some th → th.todo = o :: rest → ∀ (mem' : Mem) (t' : Nat) (th' : Thread),
      (c.threads.set t ⟨rest, none⟩)[t']? = some th' →
      progs[t']? = some (logOf ⟨mem', c.threads.set t ⟨rest, none⟩, c.log ++ [(t, o)]⟩ t' ++ th'.todo) := by
    intro th o rest h1 h2 mem' t' th' h3
    by_cases ht : t = t'
    · subst ht
      have hlt : t < c.threads.length := by
        rcases Nat.lt_or_ge t c.threads.length with h | h
        · exact h
        · rw [List.getElem?_eq_none h] at h1; cases h1
      rw [List.getElem?_set_self hlt] at h3
      cases h3
      rw [h.prog t th h1, h2]
      simp [logOf]
    · rw [List.getElem?_set_ne ht] at h3
      rw [h.prog t' th' h3]
      have : (t == t') = false := by simpa using ht
      simp [logOf, this]
  unfold step
  split
  · exact h
  · next th hth =>
    split
    · exact h
    · next w v rest hr =>
      refine ⟨?_, by simp [h.len], by simpa using hown th hth _, hprog th _ rest hth hr _⟩
      simp only [List.map_append, List.map_cons, List.map_nil, List.foldl_append, List.foldl_cons, List.foldl_nil]
      rw [← h.mem]
    · next w mask v rest hr =>
      have hset : ∀ x, Inv m0 progs { c with threads := c.threads.set t ⟨th.todo, x⟩ } := by
        intro x
        refine ⟨h.mem, by simp [h.len], by simpa using h.own, ?_⟩
        intro t' th' h3
        by_cases ht : t = t'
        · subst ht
          have hlt : t < c.threads.length := by
            rcases Nat.lt_or_ge t c.threads.length with h | h
            · exact h
            · rw [List.getElem?_eq_none h] at hth; cases hth
          simp only [List.getElem?_set_self hlt] at h3
          cases h3
          exact h.prog t th hth
        · simp only [List.getElem?_set_ne ht] at h3
          exact h.prog t' th' h3
      split
      · exact hset _
      · next old ho =>
        split
        · next heq =>
          refine ⟨?_, by simp [h.len], by simpa using hown th hth _, hprog th _ rest hth hr _⟩
          simp only [List.map_append, List.map_cons, List.map_nil, List.foldl_append, List.foldl_cons, List.foldl_nil]
          rw [← h.mem, ← heq]; rfl
        · exact hset _

theorem inv_start (m : Mem) (programs : List (List Call)) :
    Inv m (programs.map (fun p => p.flatMap Call.ops)) (start m programs) := by
  refine ⟨rfl, by simp [start], by simp [start], ?_⟩
  intro t th h
  simp only [start, List.getElem?_map] at h ⊢
  cases hp : programs[t]? with
  | none => simp [hp] at h
  | some p => simp [hp] at h; subst h; simp [logOf]

theorem inv_run {m0 : Mem} {progs : List (List WOp)} {c : Conf} (h : Inv m0 progs c) (ts : List Nat) : Inv m0 progs (ts.foldl step c) := by
  induction ts generalizing c with
  | nil => exact h
  | cons t ts ih => exact ih (inv_step h t)

/-- a bit only one thread's accesses cover: the interleaved log acts like that thread's accesses alone. -/
theorem fold_only (t p : Nat) (l : List (Nat × WOp)) (m : Mem) (h : ∀ x ∈ l, x.1 ≠ t → x.2.covers p = false) :
    bitOf ((l.map (·.2)).foldl apply m) p = bitOf (((l.filter (fun x => x.1 == t)).map (·.2)).foldl apply m) p := by
  have gen : ∀ (l : List (Nat × WOp)) (m m' : Mem), (∀ x ∈ l, x.1 ≠ t → x.2.covers p = false) → bitOf m p = bitOf m' p →
      bitOf ((l.map (·.2)).foldl apply m) p = bitOf (((l.filter (fun x => x.1 == t)).map (·.2)).foldl apply m') p := by
    intro l
    induction l with
    | nil => intro m m' _ hb; exact hb
    | cons x l ih =>
      intro m m' h hb
      simp only [List.map_cons, List.foldl_cons]
      by_cases hx : x.1 = t
      · have : (x.1 == t) = true := by simpa using hx
        simp only [List.filter_cons, this, ↓reduceIte, List.map_cons, List.foldl_cons]
        apply ih _ _ (fun y hy => h y (by simp [hy]))
        rw [apply_bit, apply_bit, hb]
      · have : (x.1 == t) = false := by simpa using hx
        simp only [List.filter_cons, this, Bool.false_eq_true, ↓reduceIte]
        apply ih _ _ (fun y hy => h y (by simp [hy]))
        rw [apply_bit, h x (by simp) hx]; simpa using hb
  exact gen l m m h rfl

theorem seq_bit (cs : List Call) (size : Nat) (hc : ∀ c ∈ cs, c.valid size) (m : Mem) (p : Nat) :
    bitOf ((cs.flatMap Call.ops).foldl apply m) p = (cs.foldl specCall (bitOf m)) p := by
  induction cs generalizing m with
  | nil => rfl
  | cons c cs ih =>
    simp only [List.flatMap_cons, List.foldl_append, List.foldl_cons]
    rw [ih (fun x hx => hc x (by simp [hx]))]
    have : bitOf (c.ops.foldl apply m) = specCall (bitOf m) c := funext (call_bit c size (hc c (by simp)) m)
    rw [this]

end Verif.Bitset
