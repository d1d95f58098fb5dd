import Verif.Graph.EditSpec
import Verif.Util
namespace Verif.Graph.Edit

theorem same_iff (a b : E) : a.same b = true ↔ (a.src = b.src ∧ a.sp = b.sp ∧ a.dst = b.dst ∧ a.dp = b.dp) := by
  simp only [E.same, Bool.and_eq_true, beq_iff_eq]
  constructor
  · rintro ⟨⟨⟨h1, h2⟩, h3⟩, h4⟩; exact ⟨h1, h3, h2, h4⟩
  · rintro ⟨h1, h3, h2, h4⟩; exact ⟨⟨⟨h1, h2⟩, h3⟩, h4⟩

theorem containsEdge_iff (es : List E) (e : E) : containsEdge es e = true ↔ ∃ x ∈ es, x.same e = true := by
  simp only [containsEdge, List.any_eq_true]

/-! ## export names -/

/-- the `k`-th candidate for an exported name -/
def cand (base : String) : Nat → String
  | 0 => base
  | k + 1 => base ++ "_" ++ toString (k + 1)

theorem toString_inj {a b : Nat} (h : toString a = toString b) : a = b := by
  have h1 : Nat.toDigits 10 a = Nat.toDigits 10 b := by
    have := congrArg String.toList h
    simpa [toString, Nat.repr] using this
  have h2 := Nat.ofDigitChars_toDigits (b := 10) (n := a) (by decide) (by decide)
  rw [h1, Nat.ofDigitChars_toDigits (by decide) (by decide)] at h2
  exact h2.symm

theorem cand_inj {base : String} {a b : Nat} (h : cand base a = cand base b) : a = b := by
  have key : ∀ k : Nat, base ≠ base ++ "_" ++ toString (k + 1) := by
    intro k h
    have := congrArg String.length h
    simp only [String.length_append] at this
    have h1 : "_".length = 1 := rfl
    omega
  cases a with
  | zero =>
    cases b with
    | zero => rfl
    | succ b => exact absurd h (key b)
  | succ a =>
    cases b with
    | zero => exact absurd h.symm (key a)
    | succ b =>
      simp only [cand] at h
      exact toString_inj ((String.append_right_inj _).1 h)

theorem freeName_spec (ops : List Export) (d : Dir) (base : String) : ∀ (fuel j : Nat),
    (∀ n, freeName ops d base fuel (j + 1) (cand base j) = some n → isTaken ops d n = false ∧ ∃ k, n = cand base k) ∧
    (freeName ops d base fuel (j + 1) (cand base j) = none → ∀ i, i < fuel → isTaken ops d (cand base (j + i)) = true) := by
  intro fuel
  induction fuel with
  | zero => intro j; simp [freeName]
  | succ fuel ih =>
    intro j
    have hs : base ++ "_" ++ toString (j + 1) = cand base (j + 1) := rfl
    by_cases ht : isTaken ops d (cand base j) = true
    · have he : freeName ops d base (fuel + 1) (j + 1) (cand base j) = freeName ops d base fuel (j + 1 + 1) (cand base (j + 1)) := by
        rw [freeName, if_pos ht, hs]
      rw [he]
      refine ⟨(ih (j + 1)).1, fun h i hi => ?_⟩
      cases i with
      | zero => exact ht
      | succ i =>
        have := (ih (j + 1)).2 h i (by omega)
        rw [show j + (i + 1) = j + 1 + i by omega]; exact this
    · have he : freeName ops d base (fuel + 1) (j + 1) (cand base j) = some (cand base j) := by
        rw [freeName, if_neg ht]
      rw [he]
      refine ⟨fun n h => ?_, fun h => by cases h⟩
      cases h
      exact ⟨by simpa using ht, j, rfl⟩

theorem freeName_total (ops : List Export) (d : Dir) (base : String) :
    ∃ n, freeName ops d base (ops.length + 1) 1 base = some n ∧ isTaken ops d n = false ∧ ∃ k, n = cand base k := by
  have hsp := freeName_spec ops d base (ops.length + 1) 0
  simp only [cand, Nat.zero_add] at hsp
  cases hf : freeName ops d base (ops.length + 1) 1 base with
  | some n => exact ⟨n, rfl, hsp.1 n hf⟩
  | none =>
    exfalso
    have h := hsp.2 hf
    have hsub : ((List.range (ops.length + 1)).map (cand base)).length ≤ (ops.map (·.exported)).length := by
      apply nodup_length_le
      · rw [List.nodup_iff_pairwise_ne, List.pairwise_map]
        exact (List.nodup_range (n := ops.length + 1)).imp fun hab h => hab (cand_inj h)
      · intro x hx
        obtain ⟨i, hi, rfl⟩ := List.mem_map.1 hx
        have := h i (List.mem_range.1 hi)
        simp only [isTaken, List.any_eq_true, Bool.and_eq_true, beq_iff_eq] at this
        obtain ⟨y, hy, _, h2⟩ := this
        exact List.mem_map.2 ⟨y, hy, h2⟩
    simp at hsub
    omega

/-- no two ports of one direction are exported under the same name, no name is empty -/
def Unique (ops : List Export) : Prop :=
  ops.Pairwise (fun a b => ¬ (a.dir = b.dir ∧ a.exported = b.exported)) ∧ ∀ x ∈ ops, x.exported ≠ ""

theorem base_ne_empty (a b : String) (k : Nat) : cand (a ++ "." ++ b) k ≠ "" := by
  intro h
  have := congrArg String.length h
  have h1 : ".".length = 1 := rfl
  have h2 : "".length = 0 := rfl
  cases k <;> simp only [cand, String.length_append] at this <;> omega

theorem export_spec (nameOf : Nat → String) (ops : List Export) (b : Nat) (d : Dir) (n : String) (hu : Unique ops) :
    ∃ ops' ex, findOrCreateExport nameOf ops b d n = some (ops', ex) ∧ Unique ops' ∧ (∀ x ∈ ops, x ∈ ops') ∧
      (⟨b, d, n, ex⟩ : Export) ∈ ops' ∧ ∀ x ∈ ops', x ∈ ops ∨ x.block = b := by
  unfold findOrCreateExport
  split
  · rename_i x hx
    have hm := List.mem_of_find?_eq_some hx
    have hp := List.find?_some hx
    simp only [Bool.and_eq_true, beq_iff_eq] at hp
    obtain ⟨⟨h1, h2⟩, h3⟩ := hp
    refine ⟨ops, x.exported, rfl, hu, fun _ h => h, ?_, fun _ h => Or.inl h⟩
    subst h1 h2 h3
    exact hm
  · obtain ⟨m, hm, ht, k, hk⟩ := freeName_total ops d (nameOf b ++ "." ++ n)
    refine ⟨ops ++ [⟨b, d, n, m⟩], m, by simp [hm], ?_, fun x h => List.mem_append_left _ h, by simp, ?_⟩
    · refine ⟨?_, ?_⟩
      · rw [List.pairwise_append]
        refine ⟨hu.1, List.pairwise_singleton _ _, ?_⟩
        intro x hx y hy h
        cases List.mem_singleton.1 hy
        have : isTaken ops d m = true := by
          simp only [isTaken, List.any_eq_true, Bool.and_eq_true, beq_iff_eq]
          exact ⟨x, hx, h.1, h.2⟩
        rw [this] at ht; cases ht
      · intro x hx
        rcases List.mem_append.1 hx with hx | hx
        · exact hu.2 x hx
        · cases List.mem_singleton.1 hx
          show m ≠ ""
          rw [hk]; exact base_ne_empty _ _ _
    · intro x hx
      rcases List.mem_append.1 hx with hx | hx
      · exact Or.inl hx
      · cases List.mem_singleton.1 hx; exact Or.inr rfl

theorem lookup_of_mem {ops : List Export} (hu : Unique ops) {x : Export} (hx : x ∈ ops) (bs : List Nat) (es : List E) :
    lookupExport ⟨bs, es, ops⟩ x.dir x.exported = some x := by
  show ops.find? _ = some x
  cases hf : ops.find? (fun y => y.dir == x.dir && y.exported == x.exported && !(y.exported == "")) with
  | none =>
    have := List.find?_eq_none.1 hf x hx
    simp [hu.2 x hx] at this
  | some y =>
    have hm := List.mem_of_find?_eq_some hf
    have hp := List.find?_some hf
    simp only [Bool.and_eq_true, beq_iff_eq] at hp
    obtain ⟨i, hi, hi2⟩ := List.mem_iff_getElem.1 hm
    obtain ⟨j, hj, hj2⟩ := List.mem_iff_getElem.1 hx
    have hpw := List.pairwise_iff_getElem.1 hu.1
    rcases Nat.lt_trichotomy i j with h | h | h
    · exact absurd ⟨by rw [hi2, hj2]; exact hp.1.1, by rw [hi2, hj2]; exact hp.1.2⟩ (hpw i j hi hj h)
    · subst h; rw [← hi2, ← hj2]
    · exact absurd ⟨by rw [hi2, hj2]; exact hp.1.1.symm, by rw [hi2, hj2]; exact hp.1.2.symm⟩ (hpw j i hj hi h)

/-! ## classification -/

/-- the edge crosses the boundary -/
def crosses (targets : List Nat) (e : E) : Bool := targets.contains e.src != targets.contains e.dst

/-- a crossing entry describes its edge -/
def CrossOk (portNames : Nat → Dir → Nat → Option String) (targets : List Nat) (ops : List Export) (c : Crossing) : Prop :=
  (c.srcInside = true → c.edge.src ∈ targets ∧ c.edge.dst ∉ targets ∧
    ∃ n, definedPortName portNames c.edge.src .output c.edge.sp = some n ∧ (⟨c.edge.src, .output, n, c.newPort⟩ : Export) ∈ ops) ∧
  (c.srcInside = false → c.edge.src ∉ targets ∧ c.edge.dst ∈ targets ∧
    ∃ n, definedPortName portNames c.edge.dst .input c.edge.dp = some n ∧ (⟨c.edge.dst, .input, n, c.newPort⟩ : Export) ∈ ops)

theorem CrossOk.mono {pn : Nat → Dir → Nat → Option String} {ts : List Nat} {ops ops' : List Export} {c : Crossing}
    (h : CrossOk pn ts ops c) (hs : ∀ x ∈ ops, x ∈ ops') : CrossOk pn ts ops' c := by
  refine ⟨fun hc => ?_, fun hc => ?_⟩
  · obtain ⟨h1, h2, n, h3, h4⟩ := h.1 hc
    exact ⟨h1, h2, n, h3, hs _ h4⟩
  · obtain ⟨h1, h2, n, h3, h4⟩ := h.2 hc
    exact ⟨h1, h2, n, h3, hs _ h4⟩

theorem classify_spec (nameOf : Nat → String) (pn : Nat → Dir → Nat → Option String) (ts : List Nat) :
    ∀ (es I : List E) (C : List Crossing) (ops : List Export), Unique ops → (∀ x ∈ ops, x.block ∈ ts) → (∀ c ∈ C, CrossOk pn ts ops c) →
    (PortsExist pn ts es → (classify nameOf pn ts es (I, C, ops)).isSome) ∧
    ∀ I' C' ops', classify nameOf pn ts es (I, C, ops) = some (I', C', ops') →
      I' = I ++ es.filter (fun e => ts.contains e.src && ts.contains e.dst) ∧
      C'.map (·.edge) = C.map (·.edge) ++ es.filter (crosses ts) ∧
      Unique ops' ∧ (∀ x ∈ ops', x.block ∈ ts) ∧ (∀ c ∈ C', CrossOk pn ts ops' c) := by
  intro es
  induction es with
  | nil =>
    intro I C ops hu hb hc
    refine ⟨fun _ => rfl, fun I' C' ops' h => ?_⟩
    simp only [classify, Option.some.injEq, Prod.mk.injEq] at h
    obtain ⟨rfl, rfl, rfl⟩ := h
    exact ⟨by simp, by simp, hu, hb, hc⟩
  | cons e es ih =>
    intro I C ops hu hb hc
    have hpe : PortsExist pn ts (e :: es) → PortsExist pn ts es := fun h x hx => h x (List.mem_cons_of_mem _ hx)
    by_cases hs : ts.contains e.src = true <;> by_cases hd : ts.contains e.dst = true
    · have he : classify nameOf pn ts (e :: es) (I, C, ops) = classify nameOf pn ts es (I ++ [e], C, ops) := by
        simp only [classify, hs, hd, Bool.and_self, if_true]
      obtain ⟨h1, h2⟩ := ih (I ++ [e]) C ops hu hb hc
      rw [he]
      refine ⟨fun h => h1 (hpe h), fun I' C' ops' h => ?_⟩
      obtain ⟨r1, r2, r3⟩ := h2 I' C' ops' h
      refine ⟨?_, ?_, r3⟩
      · rw [r1, List.filter_cons, if_pos (by rw [hs, hd]; rfl)]; simp
      · rw [r2, List.filter_cons, if_neg (by rw [crosses, hs, hd]; decide)]
    · have hs' : e.src ∈ ts := by simpa using hs
      have hd' : e.dst ∉ ts := by simpa using hd
      have he : classify nameOf pn ts (e :: es) (I, C, ops) = (definedPortName pn e.src .output e.sp).bind fun n =>
          (findOrCreateExport nameOf ops e.src .output n).bind fun r =>
            classify nameOf pn ts es (I, C ++ [⟨e, r.2, true⟩], r.1) := by
        simp [classify, hs', hd']
      rw [he]
      cases hn : definedPortName pn e.src .output e.sp with
      | none =>
        refine ⟨fun h => ?_, fun _ _ _ h => by cases h⟩
        have := (h e (List.mem_cons_self ..)).1 hs' hd'
        rw [hn] at this; cases this
      | some n =>
        obtain ⟨ops1, ex, hx, hu1, hm1, hx1, hb1⟩ := export_spec nameOf ops e.src .output n hu
        have hc1 : ∀ c ∈ C ++ [⟨e, ex, true⟩], CrossOk pn ts ops1 c := by
          intro c hcm
          rcases List.mem_append.1 hcm with h | h
          · exact (hc c h).mono hm1
          · cases List.mem_singleton.1 h
            refine ⟨fun _ => ⟨hs', hd', n, hn, hx1⟩, fun h => by cases h⟩
        have hbs : ∀ x ∈ ops1, x.block ∈ ts := by
          intro x hxm
          rcases hb1 x hxm with h | h
          · exact hb x h
          · rw [h]; exact hs'
        obtain ⟨h1, h2⟩ := ih I (C ++ [⟨e, ex, true⟩]) ops1 hu1 hbs hc1
        simp only [Option.bind_some, hx]
        refine ⟨fun h => h1 (hpe h), fun I' C' ops' h => ?_⟩
        obtain ⟨r1, r2, r3⟩ := h2 I' C' ops' h
        refine ⟨?_, ?_, r3⟩
        · rw [r1, List.filter_cons, if_neg (by simp [hs', hd'])]
        · rw [r2, List.filter_cons, if_pos (by simp [crosses, hs', hd'])]; simp
    · have hs' : e.src ∉ ts := by simpa using hs
      have hd' : e.dst ∈ ts := by simpa using hd
      have he : classify nameOf pn ts (e :: es) (I, C, ops) = (definedPortName pn e.dst .input e.dp).bind fun n =>
          (findOrCreateExport nameOf ops e.dst .input n).bind fun r =>
            classify nameOf pn ts es (I, C ++ [⟨e, r.2, false⟩], r.1) := by
        simp [classify, hs', hd']
      rw [he]
      cases hn : definedPortName pn e.dst .input e.dp with
      | none =>
        refine ⟨fun h => ?_, fun _ _ _ h => by cases h⟩
        have := (h e (List.mem_cons_self ..)).2 hs' hd'
        rw [hn] at this; cases this
      | some n =>
        obtain ⟨ops1, ex, hx, hu1, hm1, hx1, hb1⟩ := export_spec nameOf ops e.dst .input n hu
        have hc1 : ∀ c ∈ C ++ [⟨e, ex, false⟩], CrossOk pn ts ops1 c := by
          intro c hcm
          rcases List.mem_append.1 hcm with h | h
          · exact (hc c h).mono hm1
          · cases List.mem_singleton.1 h
            exact ⟨fun h => (by cases h), fun _ => ⟨hs', hd', n, hn, hx1⟩⟩
        have hbs : ∀ x ∈ ops1, x.block ∈ ts := by
          intro x hxm
          rcases hb1 x hxm with h | h
          · exact hb x h
          · rw [h]; exact hd'
        obtain ⟨h1, h2⟩ := ih I (C ++ [⟨e, ex, false⟩]) ops1 hu1 hbs hc1
        simp only [Option.bind_some, hx]
        refine ⟨fun h => h1 (hpe h), fun I' C' ops' h => ?_⟩
        obtain ⟨r1, r2, r3⟩ := h2 I' C' ops' h
        refine ⟨?_, ?_, r3⟩
        · rw [r1, List.filter_cons, if_neg (by simp [hs', hd'])]
        · rw [r2, List.filter_cons, if_pos (by simp [crosses, hs', hd'])]; simp
    · have hs' : e.src ∉ ts := by simpa using hs
      have hd' : e.dst ∉ ts := by simpa using hd
      have he : classify nameOf pn ts (e :: es) (I, C, ops) = classify nameOf pn ts es (I, C, ops) := by
        simp [classify, hs', hd']
      obtain ⟨h1, h2⟩ := ih I C ops hu hb hc
      rw [he]
      refine ⟨fun h => h1 (hpe h), fun I' C' ops' h => ?_⟩
      obtain ⟨r1, r2, r3⟩ := h2 I' C' ops' h
      refine ⟨?_, ?_, r3⟩
      · rw [r1, List.filter_cons, if_neg (by simp [hs'])]
      · rw [r2, List.filter_cons, if_neg (by simp [crosses, hs', hd'])]

/-! ## adding edges -/

theorem addAll_fresh : ∀ (new es : List E), (es ++ new).Pairwise (fun a b => ¬ (a.same b = true)) → addAll es new = es ++ new := by
  intro new
  induction new with
  | nil => intro es _; simp [addAll]
  | cons e new ih =>
    intro es h
    have hc : containsEdge es e = false := by
      cases hh : containsEdge es e
      · rfl
      · obtain ⟨x, hx, hs⟩ := (containsEdge_iff _ _).1 hh
        exact absurd hs ((List.pairwise_append.1 h).2.2 x hx e (List.mem_cons_self ..))
    have : addAll es (e :: new) = addAll (es ++ [e]) new := by
      simp [addAll, hc]
    rw [this, ih (es ++ [e]) (by simpa using h)]
    simp

theorem addAll_mem : ∀ (new es : List E) (x : E), x ∈ addAll es new → x ∈ es ∨ x ∈ new := by
  intro new
  induction new with
  | nil => intro es x h; exact Or.inl h
  | cons e new ih =>
    intro es x h
    have : addAll es (e :: new) = addAll (if containsEdge es e then es else es ++ [e]) new := rfl
    rw [this] at h
    rcases ih _ x h with h | h
    · split at h
      · exact Or.inl h
      · rcases List.mem_append.1 h with h | h
        · exact Or.inl h
        · cases List.mem_singleton.1 h; exact Or.inr (List.mem_cons_self ..)
    · exact Or.inr (List.mem_cons_of_mem _ h)

theorem addAll_prefix : ∀ (new es : List E), ∃ t, addAll es new = es ++ t ∧ ∀ x ∈ t, x ∈ new := by
  intro new
  induction new with
  | nil => intro es; exact ⟨[], by simp [addAll], by simp⟩
  | cons e new ih =>
    intro es
    have : addAll es (e :: new) = addAll (if containsEdge es e then es else es ++ [e]) new := rfl
    rw [this]
    split
    · obtain ⟨t, h1, h2⟩ := ih es
      exact ⟨t, h1, fun x hx => List.mem_cons_of_mem _ (h2 x hx)⟩
    · obtain ⟨t, h1, h2⟩ := ih (es ++ [e])
      refine ⟨e :: t, by rw [h1]; simp, ?_⟩
      intro x hx
      rcases List.mem_cons.1 hx with rfl | hx
      · exact List.mem_cons_self ..
      · exact List.mem_cons_of_mem _ (h2 x hx)

theorem foldl_addBlock (bs : List Nat) : ∀ g : G, (bs.foldl addBlock g).blocks = g.blocks ++ bs ∧ (bs.foldl addBlock g).edges = g.edges := by
  induction bs with
  | nil => intro g; simp
  | cons b bs ih =>
    intro g
    have := ih (addBlock g b)
    simp only [List.foldl_cons]
    rw [this.1, this.2]
    exact ⟨by simp [addBlock], rfl⟩

theorem mapM_some_of {f : E → Option E} : ∀ (es : List E) (h : E → E), (∀ e ∈ es, f e = some (h e)) → es.mapM f = some (es.map h) := by
  intro es
  induction es with
  | nil => intro h _; rfl
  | cons e es ih =>
    intro h hh
    rw [List.mapM_cons, hh e (List.mem_cons_self ..), ih h fun x hx => hh x (List.mem_cons_of_mem _ hx)]
    rfl

theorem mapM_some_mem {f : E → Option E} : ∀ (es r : List E), es.mapM f = some r → ∀ x ∈ r, ∃ e ∈ es, f e = some x := by
  intro es
  induction es with
  | nil => intro r h x hx; simp at h; subst h; cases hx
  | cons e es ih =>
    intro r h x hx
    rw [List.mapM_cons] at h
    cases he : f e with
    | none => rw [he] at h; cases h
    | some y =>
      cases hr : es.mapM f with
      | none => rw [he, hr] at h; cases h
      | some r' =>
        rw [he, hr] at h
        cases h
        rcases List.mem_cons.1 hx with rfl | hx
        · exact ⟨e, List.mem_cons_self .., he⟩
        · obtain ⟨e', h1, h2⟩ := ih r' hr x hx
          exact ⟨e', List.mem_cons_of_mem _ h1, h2⟩

theorem filter_perm_append {α : Type} (p : α → Bool) : ∀ l : List α, (l.filter p ++ l.filter (fun x => !p x)).Perm l := by
  intro l
  induction l with
  | nil => exact List.Perm.refl _
  | cons a l ih =>
    cases h : p a
    · simp only [List.filter_cons, h, Bool.false_eq_true, if_false, Bool.not_false, if_true]
      exact (List.perm_middle).trans (ih.cons a)
    · simp only [List.filter_cons, h, if_true, Bool.not_true, Bool.false_eq_true, if_false, List.cons_append]
      exact ih.cons a

end Verif.Graph.Edit
