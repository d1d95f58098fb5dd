import Verif.Conv.PolicyElems

/- C80: what the policies keep. -/
namespace Verif.Conv

/-- C80: an accepted conversion has as many elements as the array, in the same order and of the asked type; every number that
the type has arrives unchanged, under every policy. (An array without dimensions is left out for tensors, see
`scalar_lost`.) -/
theorem elements_kept_partial {p : Policy} {rp : RankPolicy} {tg : Target} {t : Ty} {src : Stored} {sh : List Nat} {ws : List Val}
    (hs : src.Ok) (h : convertTo p rp tg t src = .ok sh ws) (h0 : tg ≠ .dyn ∨ src.shape ≠ []) :
    ws.length = src.elems.length ∧ ∀ (k : Nat) v w, src.elems[k]? = some v → ws[k]? = some w →
      w.ty = t ∧ w.Ok ∧ ∀ n, v.number = some n → Fits t n → w.number = some n := by
  obtain ⟨hl, hk⟩ := convert_steps hs h h0
  refine ⟨hl, fun k v w hv hw => ?_⟩
  have hvo : v.Ok := by
    cases src with
    | typed s shape vs => exact (hs v (List.mem_of_getElem? hv)).1
    | values shape vs => exact hs v (List.mem_of_getElem? hv)
    | map es => cases hv
    | single x => cases hv
  have hcast : cast t v = .ok w → w.ty = t ∧ w.Ok ∧ ∀ n, v.number = some n → Fits t n → w.number = some n := by
    intro hc
    refine ⟨(cast_typed hc).1, (cast_typed hc).2, fun n hn hf => ?_⟩
    obtain ⟨w', h1, h2⟩ := cast_fits hn hf (cast_castable hc)
    rw [hc] at h1
    cases h1
    exact h2
  rcases hk k v w hv hw with ⟨h1, rfl⟩ | ⟨-, -, h1⟩ | ⟨-, h1⟩
  · exact ⟨h1, hvo, fun n hn _ => hn⟩
  · exact hcast h1
  · exact hcast h1

example : convertTo .narrowing .strict .vector (.int true .w16) (.typed (.int true .w64) [3] [.int true .w64 7, .int true .w64 (-32768), .int true .w64 0])
    = .ok [3] [.int true .w16 7, .int true .w16 (-32768), .int true .w16 0] := by decide

/-- C80: the policy `Safe` accepts only elements of the asked type and changes nothing. -/
theorem safe_keeps {rp : RankPolicy} {tg : Target} {t : Ty} {src : Stored} {sh : List Nat} {ws : List Val}
    (hs : src.Ok) (h : convertTo .safe rp tg t src = .ok sh ws) (h0 : tg ≠ .dyn ∨ src.shape ≠ []) :
    ws = src.elems ∧ ∀ v ∈ src.elems, v.ty = t := by
  obtain ⟨hl, hk⟩ := convert_steps hs h h0
  have key : ∀ (k : Nat) v w, src.elems[k]? = some v → ws[k]? = some w → v.ty = t ∧ w = v := by
    intro k v w hv hw
    rcases hk k v w hv hw with h | ⟨h, -⟩ | ⟨h, -⟩
    · exact h
    · simp [Policy.rank] at h
    · simp [Policy.rank] at h
  constructor
  · apply List.ext_getElem? 
    intro k
    by_cases hlt : k < src.elems.length
    · have h1 : src.elems[k]? = some src.elems[k] := List.getElem?_eq_getElem hlt
      have h2 : ws[k]? = some (ws[k]'(by omega)) := List.getElem?_eq_getElem (by omega)
      rw [h1, h2, (key k _ _ h1 h2).2]
    · rw [List.getElem?_eq_none (by omega), List.getElem?_eq_none (by omega)]
  · intro v hv
    obtain ⟨k, hk', rfl⟩ := List.mem_iff_getElem.1 hv
    exact (key k _ _ (List.getElem?_eq_getElem hk') (List.getElem?_eq_getElem (by omega))).1

example : convertTo .safe .strict (.array 2) (.flt true) (.values [2] [.flt true (.fin 3), .flt true .nan])
    = .ok [2] [.flt true (.fin 3), .flt true .nan] := by decide

/-- C80: with the policy `Widening` every number arrives unchanged, infinities and NaN included; integers for a floating-point
type of as many bits, which has fewer digits, arrive as the nearest number. -/
theorem widening_keeps_partial {rp : RankPolicy} {tg : Target} {t : Ty} {src : Stored} {sh : List Nat} {ws : List Val}
    (hs : src.Ok) (h : convertTo .widening rp tg t src = .ok sh ws) (h0 : tg ≠ .dyn ∨ src.shape ≠ []) :
    ∀ (k : Nat) v w, src.elems[k]? = some v → ws[k]? = some w →
      (v.ty = t ∧ w = v) ∨
      (Wider v.ty t ∧ w.number = v.number ∧
        (v.number = none → (∃ f, v = .flt false f ∧ w = .flt true f) ∨ ∃ a b, v = .cpx false a b ∧ w = .cpx true a b)) ∨
      (FewerDigits v.ty t ∧ ∃ d r n, t = .flt d ∧ w = .flt d (.fin r) ∧ v.number = some (n, 0) ∧ Nearest d r n) := by
  obtain ⟨hl, hk⟩ := convert_steps hs h h0
  intro k v w hv hw
  have hvo : v.Ok := by
    cases src with
    | typed s shape vs => exact (hs v (List.mem_of_getElem? hv)).1
    | values shape vs => exact hs v (List.mem_of_getElem? hv)
    | map es => cases hv
    | single x => cases hv
  rcases hk k v w hv hw with h1 | ⟨-, hw', hc⟩ | ⟨h1, -⟩
  · exact .inl h1
  · obtain ⟨w', h2, h3⟩ := cast_wider hvo hw'
    rw [hc] at h2
    cases h2
    rcases h3 with h3 | h3
    · exact .inr (.inl ⟨hw', h3⟩)
    · exact .inr (.inr h3)
  · simp [Policy.rank] at h1

theorem typed_vector {p : Policy} {s t : Ty} (ha : allowed p s t = true) (n : Nat) (vs : List Val) :
    convertTo p .strict .vector t (.typed s [n] vs) = finish [vs.length] (convAll (cast t) 0 vs) := by
  simp [convertTo, fromTyped, ha, checkShape, fillTarget]

/-- Against the full claim: 16777217 becomes 16777216 with the policy `Widening`. -/
theorem widening_rounds :
    ∃ r, convertTo .widening .strict .vector (.flt false) (.typed (.int true .w32) [1] [.int true .w32 16777217]) = .ok [1] [.flt false (.fin r)] ∧
      r = 16777216 * 2 ^ 1074 := by
  have h : (16777217 * one : Int).natAbs ≤ maxFin false := by
    rw [mul_one_natAbs]; exact le_maxFin (by decide)
  refine ⟨16777216 * one, ?_, by rw [one_int]⟩
  have e : round false (16777217 * one) = .fin (16777216 * one) := by
    rw [round_fin h]
    have hm : roundMag (prec false) (tiny false) (16777217 * one : Int).natAbs = 16777216 * one := by
      rw [mul_one_natAbs]
      have hb : bitWidth (16777217 * one) = 1099 := by
        apply Nat.le_antisymm
        · apply bitWidth_le
          rw [one_def, show 1099 = 25 + 1074 from rfl, Nat.pow_add]
          exact Nat.mul_lt_mul_of_pos_right (by decide) (Nat.two_pow_pos _)
        · apply Nat.le_of_not_lt
          intro hlt
          have := lt_of_bitWidth (Nat.le_of_lt_succ hlt)
          have h2 : 2 ^ 1098 ≤ 16777217 * one := by
            rw [one_def, show 1098 = 24 + 1074 from rfl, Nat.pow_add]
            exact Nat.mul_le_mul_right _ (by decide)
          omega
      have hst : 2 ^ max (tiny false) (bitWidth (16777217 * one) - prec false) = 2 * one := by
        rw [hb, one_def]
        show 2 ^ max 925 (1099 - 24) = _
        rw [show max 925 (1099 - 24) = 1 + 1074 from rfl, Nat.pow_add]
      have h1 := one_pos
      have hdiv : 16777217 * one / (2 * one) = 8388608 := by
        rw [Nat.mul_div_mul_right _ _ h1]
      have hmod : 16777217 * one % (2 * one) = one := by
        rw [Nat.mul_mod_mul_right]; simp
      simp only [roundMag]
      rw [show Int.natAbs 16777217 = 16777217 from rfl, hst, hdiv, hmod, if_neg (by omega), if_neg (by omega), if_pos (by decide)]
      omega
    rw [hm, if_neg (by have := one_int_pos; omega)]
    simp
  rw [typed_vector (by decide)]
  simp only [convAll, cast, e, finish, List.length_singleton]

theorem try_mono {p q : Policy} (hpq : p.le q) {t : Ty} {v : Val} (h : tryElement p t v ≠ .refused) :
    tryElement q t v = tryElement p t v := by
  have hr : p.rank ≤ q.rank := by cases p <;> cases q <;> simp_all [Policy.le, Policy.rank]
  have hu : p = .unchecked → q = .unchecked := by rintro rfl; exact hpq
  revert h
  simp only [tryElement]
  by_cases h1 : tyOf v = t
  · simp [h1]
  · by_cases h2 : tyOf v ∈ wideningTable t
    · by_cases hp : 1 ≤ p.rank
      · have hq : 1 ≤ q.rank := by omega
        simp [h1, h2, hp, hq]
      · have hps : p = .safe := by cases p <;> simp [Policy.rank] at hp ⊢
        subst hps
        simp [h1, Policy.rank]
    · by_cases h3 : tyOf v ∈ narrowingTable t
      · by_cases hp : 2 ≤ p.rank
        · have hq : 2 ≤ q.rank := by omega
          simp [h1, h2, h3, hp, hq]
        · have hps : p ≠ .unchecked := by rintro rfl; simp [Policy.rank] at hp
          simp [h1, h2, hp, hps]
      · by_cases hp : p = .unchecked
        · simp [h1, h2, h3, hp, hu hp]
        · simp [h1, h2, h3, hp]

theorem fill_mono {typed same : Bool} {f g : Val → Out} (hfg : ∀ v, f v ≠ .refused → g v = f v) {tg : Target} {shape : List Nat} {vs : List Val}
    (h : ∀ k i, fillTarget typed same f tg shape vs ≠ .error k i) :
    fillTarget typed same g tg shape vs = fillTarget typed same f tg shape vs := by
  have hfin : ∀ (sh us), (∀ k i, finish sh (convAll f 0 us) ≠ .error k i) → finish sh (convAll g 0 us) = finish sh (convAll f 0 us) := by
    intro sh us hh
    rw [convAll_mono hfg fun k j he => hh k j (by rw [he]; rfl)]
  cases tg with
  | vector => exact hfin _ _ h
  | array n => exact hfin _ _ h
  | dyn =>
    simp only [fillTarget] at h ⊢
    by_cases hts : typed = true ∧ same = true
    · simp only [if_pos hts]
    · simp only [if_neg hts] at h ⊢
      simp only [intoDyn] at h ⊢
      by_cases hsh : shape = []
      · simp only [if_pos hsh] at h ⊢
        by_cases hw : typed = true ∨ vs = []
        · simp only [if_pos hw]
        · simp only [if_neg hw] at h ⊢
          rw [convAll_mono hfg fun k j he => h k j (by rw [he])]
      · simp only [if_neg hsh] at h ⊢
        exact hfin _ _ h
  | ranked r =>
    simp only [fillTarget] at h ⊢
    by_cases hr : shape.length ≠ r
    · simp only [if_pos hr]
    · simp only [if_neg hr] at h ⊢
      exact hfin _ _ h
  | fixed es => exact hfin _ _ h

/-- C80: what a policy accepts, every less strict policy accepts with the same result. -/
theorem policies_ordered {p q : Policy} (hpq : p.le q) {rp : RankPolicy} {tg : Target} {t : Ty} {src : Stored}
    (h : ∀ k i, convertTo p rp tg t src ≠ .error k i) : convertTo q rp tg t src = convertTo p rp tg t src := by
  have hr : p.rank ≤ q.rank := by cases p <;> cases q <;> simp_all [Policy.le, Policy.rank]
  cases src with
  | typed s shape vs =>
    have ha : allowed p s t = true := by
      cases hx : allowed p s t with
      | true => rfl
      | false =>
        exfalso
        simp only [convertTo, fromTyped, hx, if_true] at h
        split at h
        · exact h _ _ rfl
        · split at h
          · exact h _ _ rfl
          · exact h _ _ rfl
    have hb : allowed q s t = true := by
      simp only [allowed, Bool.or_eq_true, decide_eq_true_eq, Bool.and_eq_true] at ha ⊢
      rcases ha with ((h | h) | h) | h
      · exact .inl (.inl (.inl h))
      · exact .inl (.inl (.inr ⟨by omega, h.2⟩))
      · exact .inl (.inr ⟨by omega, h.2⟩)
      · exact .inr ⟨by rw [h.1] at hpq; exact hpq, h.2⟩
    simp only [convertTo, fromTyped, ha, hb]
  | values shape vs =>
    simp only [convertTo, fromValues] at h ⊢
    cases hc : checkShape false rp tg shape vs.length with
    | some e => rfl
    | none =>
      simp only [hc] at h ⊢
      exact fill_mono (fun v hv => try_mono hpq hv) h
  | map es => exact absurd rfl (h _ _)
  | single v => exact absurd rfl (h _ _)

/-- With a stricter policy the array is refused. -/
example : convertTo .narrowing .strict .vector (.int false .w8) (.values [2] [.int false .w8 1, .int false .w16 258])
      = .ok [2] [.int false .w8 1, .int false .w8 2] ∧
    convertTo .unchecked .strict .vector (.int false .w8) (.values [2] [.int false .w8 1, .int false .w16 258])
      = .ok [2] [.int false .w8 1, .int false .w8 2] ∧
    convertTo .widening .strict .vector (.int false .w8) (.values [2] [.int false .w8 1, .int false .w16 258])
      = .error .elementTypeMismatch (some 1) := by decide

theorem suits_check {typed : Bool} {rp : RankPolicy} {tg : Target} {shape : List Nat} {n : Nat} (h : Suits rp shape n tg) :
    checkShape typed rp tg shape n = none := by
  cases tg with
  | vector => simp only [checkShape, Suits] at *; rw [if_neg (fun hh => hh.2 (h hh.1))]
  | array m => simp only [checkShape, Suits] at *; rw [if_neg (fun hh => hh.2 (h.1 hh.1)), if_neg (fun hh => hh h.2)]
  | dyn => rfl
  | ranked r => simp only [checkShape, Suits] at *; rw [if_neg (fun hh => hh.2 h)]
  | fixed es =>
    simp only [checkShape, Suits] at *
    rw [if_neg (fun hh => hh.2 (by rw [h.1 hh.1])), if_neg (fun hh => hh.2.2 (h.1 hh.1)), if_neg (fun hh => hh h.2)]

/-- C80: elements of the asked type are accepted by every policy, as an array of that type or of values, for every target the shape
suits. -/
theorem own_type_accepted (p : Policy) {rp : RankPolicy} {tg : Target} {t : Ty} {shape : List Nat} {vs : List Val}
    (hv : ∀ v ∈ vs, v.Ok ∧ v.ty = t) (h0 : shape ≠ []) (hn : vs ≠ []) (hs : Suits rp shape vs.length tg) :
    ∃ sh, convertTo p rp tg t (.typed t shape vs) = .ok sh vs ∧ convertTo p rp tg t (.values shape vs) = .ok sh vs := by
  have ha : allowed p t t = true := by simp [allowed]
  have hc : convAll (cast t) 0 vs = .ok vs := by
    have := convAll_map (f := cast t) (g := id) (vs := vs) (i := 0) fun v h => by
      have := cast_same (hv v h).1
      rwa [(hv v h).2] at this
    simpa using this
  have ht : convAll (tryElement p t) 0 vs = .ok vs := by
    have := convAll_map (f := tryElement p t) (g := id) (vs := vs) (i := 0) fun v h => by
      simp [tryElement, tyOf_eq, (hv v h).2]
    simpa using this
  simp only [convertTo, fromTyped, fromValues, ha, suits_check hs]
  cases tg with
  | vector => exact ⟨_, by simp only [fillTarget, hc]; rfl, by simp only [fillTarget, ht]; rfl⟩
  | array m => exact ⟨_, by simp only [fillTarget, hc]; rfl, by simp only [fillTarget, ht]; rfl⟩
  | dyn =>
    refine ⟨shape, ?_, ?_⟩
    · simp [fillTarget, owned, hn]
    · simp [fillTarget, intoDyn, h0, ht, finish]
  | ranked r =>
    refine ⟨shape, ?_, ?_⟩
    · simp [fillTarget, show shape.length = r from hs, hc, finish]
    · simp [fillTarget, show shape.length = r from hs, ht, finish]
  | fixed es => exact ⟨_, by simp only [fillTarget, hc]; rfl, by simp only [fillTarget, ht]; rfl⟩

example : convertTo .safe .reshape (.fixed [3, 2]) .bool (.typed .bool [6] (List.replicate 6 (.bool true)))
    = .ok [3, 2] (List.replicate 6 (.bool true)) := by decide

/-- C80: an array of a narrower type is accepted with the policy `Widening`, for every target the shape suits. -/
theorem wider_accepted {p : Policy} (hp : Policy.le .widening p) {rp : RankPolicy} {tg : Target} {s t : Ty} {shape : List Nat} {vs : List Val}
    (hv : ∀ v ∈ vs, v.Ok ∧ v.ty = s) (hw : Wider s t) (h0 : shape ≠ []) (hs : Suits rp shape vs.length tg) :
    ∃ sh ws, convertTo p rp tg t (.typed s shape vs) = .ok sh ws := by
  have ha : allowed p s t = true := by
    have h1 : 1 ≤ p.rank := by cases p <;> simp_all [Policy.le, Policy.rank]
    simp [allowed, h1, (isWidening_iff s t).2 hw]
  have hst : s ≠ t := by
    rintro rfl
    cases s with
    | int a w => exact absurd hw.2 (Nat.lt_irrefl _)
    | flt d => cases d <;> exact hw
    | cpx d => cases d <;> exact hw
    | _ => exact hw
  have hex : ∃ ws, convAll (cast t) 0 vs = .ok ws := by
    cases hc : convAll (cast t) 0 vs with
    | ok ws => exact ⟨ws, rfl⟩
    | error e =>
      exfalso
      have hok : ∀ v ∈ vs, ∃ w, cast t v = .ok w := fun v hm => by
        obtain ⟨h1, h2⟩ := hv v hm
        obtain ⟨w, h3, -⟩ := cast_wider h1 (by rw [h2]; exact hw)
        exact ⟨w, h3⟩
      rcases convAll_error hc with ⟨-, v, hm, hf⟩ | ⟨j, v, -, hm, hf, -⟩
      · obtain ⟨w, h3⟩ := hok v hm; rw [hf] at h3; cases h3
      · obtain ⟨w, h3⟩ := hok v (List.mem_of_getElem? hm); rw [hf] at h3; cases h3
  obtain ⟨ws, hc⟩ := hex
  simp only [convertTo, fromTyped, ha, suits_check hs]
  cases tg with
  | vector => exact ⟨_, ws, by simp only [fillTarget, hc]; rfl⟩
  | array m => exact ⟨_, ws, by simp only [fillTarget, hc]; rfl⟩
  | dyn => exact ⟨shape, ws, by simp [fillTarget, hst, intoDyn, h0, hc, finish]⟩
  | ranked r => exact ⟨shape, ws, by simp [fillTarget, show shape.length = r from hs, hc, finish]⟩
  | fixed es => exact ⟨_, ws, by simp only [fillTarget, hc]; rfl⟩

example : convertTo .widening .strict (.ranked 2) (.int false .w64) (.typed (.int false .w8) [1, 2] [.int false .w8 255, .int false .w8 0])
    = .ok [1, 2] [.int false .w64 255, .int false .w64 0] := by decide

/-- Against the full claim: the same numbers as an array of values are refused. -/
theorem values_refused :
    (convertTo .widening .strict .vector (.flt false) (.typed (.int false .w8) [1] [.int false .w8 0])
      = .ok [1] [.flt false (.fin 0)]) ∧
    (convertTo .widening .strict .vector (.flt false) (.values [1] [.int false .w8 0]) = .error .elementTypeMismatch (some 0)) ∧
    (convertTo .narrowing .strict .vector (.int true .w8) (.typed (.int true .w64) [1] [.int true .w64 5]) = .ok [1] [.int true .w8 5]) ∧
    (convertTo .narrowing .strict .vector (.int true .w8) (.values [1] [.int true .w64 5]) = .error .elementTypeMismatch (some 0)) := by
  refine ⟨?_, by decide, by decide, by decide⟩
  rw [typed_vector (by decide)]
  have : round false (0 * one) = .fin 0 := by rw [Int.zero_mul]; exact round_exact (rep_zero false)
  simp only [convAll, cast, this, finish, List.length_singleton]

theorem try_cast {p : Policy} {s t : Ty} {v w : Val} (hv : v.Ok) (hs : v.ty = s) (h : tryElement p t v = .ok w) :
    cast t v = .ok w ∧ allowed p s t = true := by
  subst hs
  have hcast : ∀ {w}, 2 ≤ p.rank → cast t v = .ok w → allowed p v.ty t = true := by
    intro w h2 hc
    simp only [allowed, isNarrowing, Bool.or_eq_true, decide_eq_true_eq, Bool.and_eq_true, Bool.not_eq_true']
    have hcs := cast_castable hc
    by_cases h1 : v.ty = t
    · exact .inl (.inl (.inl h1))
    · cases hw : isWidening v.ty t with
      | true => exact .inl (.inl (.inr ⟨by omega, rfl⟩))
      | false => exact .inl (.inr ⟨h2, ⟨h1, rfl⟩, hcs⟩)
  simp only [tryElement, tyOf_eq] at h
  split at h
  · rename_i e
    cases h
    have := cast_same hv
    rw [e] at this
    exact ⟨this, by simp [allowed, e]⟩
  · split at h
    · rename_i hw
      exact ⟨h, by simp [allowed, hw.1, (isWidening_iff _ _).2 (table_wider hw.2)]⟩
    · split at h
      · rename_i hw; exact ⟨h, hcast hw.1 h⟩
      · split at h
        · rename_i hw; exact ⟨h, hcast (by rw [hw.1]; decide) h⟩
        · cases h

/-- C80: what is accepted as an array of values is accepted as an array of the type, with the same result. -/
theorem values_as_typed {p : Policy} {rp : RankPolicy} {tg : Target} {s t : Ty} {shape sh : List Nat} {vs ws : List Val}
    (hv : ∀ v ∈ vs, v.Ok ∧ v.ty = s) (h0 : shape ≠ []) (hn : vs ≠ []) (hf : ∀ es, tg = .fixed es → rp ≠ .strict)
    (h : convertTo p rp tg t (.values shape vs) = .ok sh ws) : convertTo p rp tg t (.typed s shape vs) = .ok sh ws := by
  obtain ⟨hc, hfill⟩ := fromValues_ok h
  have hc' : checkShape true rp tg shape vs.length = none := by
    cases tg with
    | fixed es =>
      have hr : rp ≠ .strict := hf es rfl
      simp only [checkShape] at hc ⊢
      simp [hr] at hc ⊢
      exact hc
    | _ => exact hc
  rcases fill_ok hfill (.inr h0) with ⟨hx, -⟩ | ⟨hca, hsh⟩
  · cases hx
  · obtain ⟨h1, h2⟩ := convAll_ok hca
    have hcast : convAll (cast t) 0 vs = .ok ws := convAll_all h1 fun k v w hk hw =>
      (try_cast (hv v (List.mem_of_getElem? hk)).1 (hv v (List.mem_of_getElem? hk)).2 (h2 k v w hk hw)).1
    have ha : allowed p s t = true := by
      cases vs with
      | nil => exact absurd rfl hn
      | cons v vs =>
        cases ws with
        | nil => simp at h1
        | cons w ws =>
          have := hv v (by simp)
          exact (try_cast this.1 this.2 (h2 0 v w rfl rfl)).2
    simp only [convertTo, fromTyped, ha, hc']
    cases tg with
    | vector => simp only [fillTarget, hcast, hsh]; rfl
    | array m => simp only [fillTarget, hcast, hsh]; rfl
    | dyn =>
      by_cases hst : s = t
      · have : ws = vs := by
          subst hst
          have := convAll_map (f := cast s) (g := id) (vs := vs) (i := 0) fun v h => by
            have := cast_same (hv v h).1
            rwa [(hv v h).2] at this
          rw [hcast] at this
          simpa using this
        simp [fillTarget, owned, hn, hsh, this, hst]
      · simp [fillTarget, intoDyn, h0, hcast, finish, hst, hsh]
    | ranked r =>
      simp only [fillTarget] at hfill
      split at hfill
      · cases hfill
      · rename_i hr
        simp [fillTarget, hr, hcast, finish, hsh]
    | fixed es => simp only [fillTarget, hcast, hsh]; rfl

example : convertTo .unchecked .flatten .vector .bool (.values [2, 1] [.flt true .nan, .flt true (.fin 0)]) = .ok [2] [.bool true, .bool false] ∧
    convertTo .unchecked .flatten .vector .bool (.typed (.flt true) [2, 1] [.flt true .nan, .flt true (.fin 0)])
      = .ok [2] [.bool true, .bool false] := by decide

/-- C80: the result has a shape of the target. -/
theorem target_shape {p : Policy} {rp : RankPolicy} {tg : Target} {t : Ty} {src : Stored} {sh : List Nat} {ws : List Val}
    (hs : src.Ok) (h : convertTo p rp tg t src = .ok sh ws) : tg.Has sh ws := by
  by_cases h0 : tg ≠ .dyn ∨ src.shape ≠ []
  · have hl := (convert_steps hs h h0).1
    have key : ∀ {typed same : Bool} {f shape vs}, checkShape typed rp tg shape vs.length = none → fillTarget typed same f tg shape vs = .ok sh ws →
        (tg ≠ .dyn ∨ shape ≠ []) → ws.length = vs.length → tg.Has sh ws := by
      intro typed same f shape vs hc hfill h0 hl
      cases tg with
      | vector =>
        rcases fill_ok hfill h0 with ⟨-, -, hx, -⟩ | ⟨-, hsh⟩
        · cases hx
        · simp only at hsh; rw [hsh, ← hl]; rfl
      | array n =>
        rcases fill_ok hfill h0 with ⟨-, -, hx, -⟩ | ⟨-, hsh⟩
        · cases hx
        · simp only at hsh
          simp only [checkShape] at hc
          split at hc
          · cases hc
          · split at hc
            · cases hc
            · rename_i hn
              have hn : vs.length = n := Decidable.not_not.1 hn
              rw [hsh]
              exact ⟨by rw [hn], by rw [hl, hn]⟩
      | dyn => trivial
      | ranked r =>
        have hf := hfill
        simp only [fillTarget] at hf
        split at hf
        · cases hf
        · rename_i hr
          have := (finish_convAll hf).1
          rw [this]
          exact (Decidable.not_not.1 hr : shape.length = r)
      | fixed es =>
        have hsh := (finish_convAll hfill).1
        simp only [checkShape] at hc
        split at hc
        · cases hc
        · split at hc
          · cases hc
          · split at hc
            · cases hc
            · rename_i hn
              have hn : vs.length = extentsProduct es := Decidable.not_not.1 hn
              exact ⟨hsh, by rw [hl, hn]; rfl⟩
    cases src with
    | typed s shape vs =>
      obtain ⟨-, hc, hfill⟩ := fromTyped_ok h
      exact key hc hfill h0 hl
    | values shape vs =>
      obtain ⟨hc, hfill⟩ := fromValues_ok h
      exact key hc hfill h0 hl
    | map es => cases h
    | single v => cases h
  · have : tg = .dyn := Decidable.not_not.1 (fun h => h0 (.inl h))
    subst this
    trivial

/-- C80: with the policy `Strict` the shape is that of the array; a vector or `std::array` is made of an array of one dimension only.
(Left out: arrays of values for a tensor of static extents, see `strict_ignores_extents`, and tensors without
elements, see `empty_shape_lost`.) -/
theorem strict_shape_partial {p : Policy} {tg : Target} {t : Ty} {src : Stored} {sh : List Nat} {ws : List Val}
    (h : convertTo p .strict tg t src = .ok sh ws) (hn : tg = .dyn → src.shape ≠ [] ∧ src.elems ≠ [])
    (hf : ∀ es shape vs, tg = .fixed es → src ≠ .values shape vs) :
    SameShape tg sh src.shape := by
  have hd : tg ≠ .dyn ∨ src.shape ≠ [] := by
    by_cases h : tg = .dyn
    · exact .inr (hn h).1
    · exact .inl h
  have key : ∀ {typed same : Bool} {f shape vs}, checkShape typed .strict tg shape vs.length = none →
      fillTarget typed same f tg shape vs = .ok sh ws → (tg ≠ .dyn ∨ shape ≠ []) → (tg = .dyn → vs ≠ []) →
      (∀ es, tg = .fixed es → typed = true) → SameShape tg sh shape := by
    intro typed same f shape vs hc hfill h0 hv ht
    cases tg with
    | vector =>
      simp only [checkShape, true_and, SameShape] at hc ⊢
      split at hc
      · cases hc
      · rename_i h; exact Decidable.not_not.1 h
    | array n =>
      simp only [checkShape, true_and, SameShape] at hc ⊢
      split at hc
      · cases hc
      · rename_i h; exact Decidable.not_not.1 h
    | dyn =>
      rcases fill_ok hfill h0 with ⟨-, -, -, -, hx⟩ | ⟨-, hx⟩
      · rwa [if_neg (hv rfl)] at hx
      · exact hx
    | ranked r =>
      simp only [fillTarget] at hfill
      split at hfill
      · cases hfill
      · exact (finish_convAll hfill).1
    | fixed es =>
      have hsh := (finish_convAll hfill).1
      have := ht es rfl
      subst this
      simp only [checkShape, true_and] at hc
      split at hc
      · cases hc
      · split at hc
        · cases hc
        · rename_i h
          have : shape = es := Decidable.not_not.1 h
          rw [hsh, this]; rfl
  cases src with
  | typed s shape vs =>
    obtain ⟨-, hc, hfill⟩ := fromTyped_ok h
    exact key hc hfill hd (fun e => (hn e).2) (fun _ _ => rfl)
  | values shape vs =>
    obtain ⟨hc, hfill⟩ := fromValues_ok h
    exact key hc hfill hd (fun e => (hn e).2) (fun es e => absurd rfl (hf es shape vs e))
  | map es => cases h
  | single v => cases h

example : convertTo .safe .strict (.fixed [1, 2]) .bool (.typed .bool [1, 2] [.bool true, .bool false]) = .ok [1, 2] [.bool true, .bool false] ∧
    convertTo .safe .strict (.fixed [2, 1]) .bool (.typed .bool [1, 2] [.bool true, .bool false]) = .error .sizeMismatch none := by decide

/-- Against the full claim: a 1 x 2 array of values is taken for a tensor of 2 x 1, by the policy `Strict`. -/
theorem strict_ignores_extents :
    convertTo .safe .strict (.fixed [2, 1]) .bool (.values [1, 2] [.bool true, .bool false]) = .ok [2, 1] [.bool true, .bool false] := by decide

/-- An array of 0 x 3 becomes one without dimensions if the type is the same, and keeps its shape otherwise. -/
theorem empty_shape_lost :
    convertTo .safe .strict .dyn (.flt true) (.typed (.flt true) [0, 3] []) = .ok [] [] ∧
    convertTo .widening .strict .dyn (.flt true) (.typed (.flt false) [0, 3] []) = .ok [0, 3] [] := by decide

/-- The element of an array without dimensions is lost if the type is another one; in an array of values it is written
to where there is no element. -/
theorem scalar_lost :
    convertTo .widening .strict .dyn (.int true .w32) (.typed (.int true .w16) [] [.int true .w16 7]) = .ok [] [] ∧
    convertTo .safe .strict .dyn (.int true .w32) (.typed (.int true .w32) [] [.int true .w32 7]) = .ok [] [.int true .w32 7] ∧
    convertTo .safe .strict .dyn (.int true .w32) (.values [] [.int true .w32 7]) = .undefined := by decide

/-- `Flatten` does not make one dimension of several for a tensor of dynamic rank, and for a tensor of given rank the
conversion throws instead of returning an error. -/
theorem flatten_ignored :
    convertTo .safe .flatten .dyn .bool (.typed .bool [1, 2] [.bool true, .bool false]) = .ok [1, 2] [.bool true, .bool false] ∧
    convertTo .safe .flatten (.ranked 1) .bool (.typed .bool [1, 2] [.bool true, .bool false]) = .threw := by decide

/-- `Narrowing` does not look at the value: 300 becomes 44. A number too large for the type is undefined behaviour. -/
theorem narrowing_unchecked :
    convertTo .narrowing .strict .vector (.int false .w8) (.typed (.int true .w32) [1] [.int true .w32 300]) = .ok [1] [.int false .w8 44] ∧
    convertTo .narrowing .strict .vector (.int true .w32) (.typed (.flt true) [1] [.flt true (.fin (2 ^ 31 * 2 ^ 1074))]) = .undefined := by
  refine ⟨by decide, ?_⟩
  have e : truncTo true .w32 (2 ^ 31 * one) = .undefined := by
    simp only [truncTo]
    rw [Int.mul_tdiv_cancel _ (by have := one_int_pos; omega), if_neg (by simp [highest, digits, W.bits])]
  rw [← one_int, typed_vector (by decide)]
  simp only [convAll, cast, e, finish]

theorem wrap_mod (s : Bool) (w : W) (x : Int) : (wrap s w x - x) % (2 ^ w.bits : Nat) = 0 := by
  have h : ∃ k : Int, wrap s w x - x = k * ((2 ^ w.bits : Nat) : Int) := by
    have hd := Int.emod_add_mul_ediv x ((2 ^ w.bits : Nat) : Int)
    have hc := Int.mul_comm ((2 ^ w.bits : Nat) : Int) (x / ((2 ^ w.bits : Nat) : Int))
    simp only [wrap]
    split
    · refine ⟨-(x / ((2 ^ w.bits : Nat) : Int)) - 1, ?_⟩
      rw [Int.sub_mul, Int.neg_mul, Int.one_mul]
      omega
    · refine ⟨-(x / ((2 ^ w.bits : Nat) : Int)), ?_⟩
      rw [Int.neg_mul]
      omega
  obtain ⟨k, hk⟩ := h
  rw [hk]
  exact Int.mul_emod_left _ _

theorem round_beyond {d : Bool} {n : Int} (h : maxFin d < n.natAbs) :
    round d n = .inf (decide (n < 0)) ∨ round d n = .fin (if n < 0 then -(maxFin d : Int) else maxFin d) := by
  have hn := roundMag_nearest (prec d) (tiny d) n.natAbs (maxFin d) (prec_pos d) (maxFin_rep d)
  simp only [round]
  split
  · exact .inl rfl
  · have e : roundMag (prec d) (tiny d) n.natAbs = maxFin d := by omega
    rw [e]
    exact .inr rfl

/-- C80: what becomes of an element under any policy. -/
theorem elements_become {p : Policy} {rp : RankPolicy} {tg : Target} {t : Ty} {src : Stored} {sh : List Nat} {ws : List Val}
    (hs : src.Ok) (h : convertTo p rp tg t src = .ok sh ws) (h0 : tg ≠ .dyn ∨ src.shape ≠ []) :
    ∀ (k : Nat) v w, src.elems[k]? = some v → ws[k]? = some w → w = v ∨ Becomes v w := by
  obtain ⟨hl, hk⟩ := convert_steps hs h h0
  intro k v w hv hw
  have hvo : v.Ok := by
    cases src with
    | typed s shape vs => exact (hs v (List.mem_of_getElem? hv)).1
    | values shape vs => exact hs v (List.mem_of_getElem? hv)
    | map es => cases hv
    | single x => cases hv
  have hcast : cast t v = .ok w → Becomes v w := by
    intro hc
    cases v with
    | bool b => cases t <;> simp only [cast, Out.ok.injEq, reduceCtorEq] at hc <;> subst hc <;> simp [Becomes]
    | int s u x =>
      cases t <;> simp only [cast, Out.ok.injEq, reduceCtorEq] at hc <;> subst hc
      · simp [Becomes]
      · exact ⟨inRange_wrap _ _ _, wrap_mod _ _ _⟩
      · rename_i d
        have hle : (x * one).natAbs ≤ maxFin d := by
          rw [mul_one_natAbs]
          exact le_maxFin (Nat.le_trans (natAbs_lt_digits hvo) (Nat.pow_le_pow_right (by omega) (digits_le s u).2))
        simp only [Becomes]
        rw [← one_int]
        exact round_nearest hle
      · simp [Becomes]
    | flt d f =>
      cases t with
      | bool => simp only [cast, Out.ok.injEq] at hc; subst hc; simp [Becomes]
      | int s u =>
        cases f with
        | fin n =>
          simp only [cast, truncTo] at hc
          split at hc
          · rename_i hr
            cases hc
            refine ⟨inRange_iff.2 hr, n, rfl, ?_⟩
            rw [← one_int]
          · cases hc
        | nan => simp only [cast] at hc; cases hc
        | inf b => simp only [cast] at hc; cases hc
      | flt e =>
        simp only [cast, Out.ok.injEq] at hc
        subst hc
        cases f with
        | fin n =>
          simp only [Becomes, castFlt]
          split
          · rename_i hle; exact round_nearest hle
          · rename_i hle
            exact round_beyond (by omega)
        | nan => simp [Becomes, castFlt]
        | inf b => simp [Becomes, castFlt]
      | cpx e => simp only [cast, Out.ok.injEq] at hc; subst hc; cases f <;> simp [Becomes]
      | str => simp only [cast] at hc; cases hc
    | cpx d a b =>
      cases t <;> simp only [cast, Out.ok.injEq, reduceCtorEq] at hc
      subst hc
      simp [Becomes]
    | str s =>
      cases t <;> simp only [cast, Out.ok.injEq, reduceCtorEq] at hc
      subst hc
      simp [Becomes]
  rcases hk k v w hv hw with ⟨-, rfl⟩ | ⟨-, -, h1⟩ | ⟨-, h1⟩
  · exact .inl rfl
  · exact .inr (hcast h1)
  · exact .inr (hcast h1)

example : convertTo .narrowing .strict .vector .bool (.typed (.int true .w8) [3] [.int true .w8 2, .int true .w8 0, .int true .w8 (-1)])
    = .ok [3] [.bool true, .bool false, .bool true] := by decide

/-- C80: the error tells whether a less strict policy would do. -/
theorem refusal_kind {p : Policy} {rp : RankPolicy} {tg : Target} {s t : Ty} {shape : List Nat} {vs : List Val} :
    (Wider s t → convertTo .safe rp tg t (.typed s shape vs) = .error .wideningNotAllowed none) ∧
    (convertTo p rp tg t (.typed s shape vs) = .error .wideningNotAllowed none → p = .safe ∧ Wider s t) ∧
    (convertTo p rp tg t (.typed s shape vs) = .error .narrowingNotAllowed none →
      s ≠ t ∧ ¬ Wider s t ∧ ∀ (q : Policy) k, Policy.le .narrowing q → convertTo q rp tg t (.typed s shape vs) ≠ .error .narrowingNotAllowed k ∧
        convertTo q rp tg t (.typed s shape vs) ≠ .error .typeMismatch k) := by
  have hw := isWidening_iff s t
  have hsome : ∀ {e}, checkShape true rp tg shape vs.length = some e → e = .error .rankMismatch none ∨ e = .error .sizeMismatch none := by
    intro e he
    cases tg <;> simp only [checkShape] at he
    all_goals repeat' split at he
    all_goals first | (cases he; first | exact .inl rfl | exact .inr rfl) | cases he
  have hfill : ∀ {same f} {k : Kind} {i}, fillTarget true same f tg shape vs = .error k i → k = .elementTypeMismatch := by
    intro same f k i h
    have hfin : ∀ sh, finish sh (convAll f 0 vs) = .error k i → k = .elementTypeMismatch := by
      intro sh h
      cases hc : convAll f 0 vs with
      | ok ws => rw [hc] at h; cases h
      | error e =>
        rw [hc] at h
        have h : e = .error k i := h
        subst h
        rcases convAll_error hc with ⟨hx, -⟩ | ⟨j, v, hx, -⟩
        · cases hx
        · cases hx; rfl
    cases tg with
    | vector => exact hfin _ h
    | array n => exact hfin _ h
    | dyn =>
      simp only [fillTarget] at h
      split at h
      · simp only [owned] at h; split at h <;> cases h
      · simp only [intoDyn, true_or, if_true] at h
        split at h
        · cases h
        · exact hfin _ h
    | ranked r =>
      simp only [fillTarget] at h
      split at h
      · cases h
      · exact hfin _ h
    | fixed es => exact hfin _ h
  have hallowed : ∀ {q : Policy} {k i}, allowed q s t = true → convertTo q rp tg t (.typed s shape vs) = .error k i →
      k = .rankMismatch ∨ k = .sizeMismatch ∨ k = .elementTypeMismatch := by
    intro q k i ha h
    simp only [convertTo, fromTyped, ha, Bool.true_eq_false, if_false] at h
    split at h
    · rename_i e he
      rcases hsome he with rfl | rfl <;> cases h <;> simp
    · exact .inr (.inr (hfill h))
  have hirr : Wider s t → s ≠ t := by
    rintro hw rfl
    cases s with
    | int a w => exact absurd hw.2 (Nat.lt_irrefl _)
    | flt d => cases d <;> exact hw
    | cpx d => cases d <;> exact hw
    | _ => exact hw
  refine ⟨fun h => ?_, fun h => ?_, fun h => ?_⟩
  · have ha : allowed .safe s t = false := by
      simp [allowed, Policy.rank, hirr h]
    simp only [convertTo, fromTyped, ha, hw.2 h, if_true]
  · cases ha : allowed p s t with
    | true => rcases hallowed ha h with h | h | h <;> cases h
    | false =>
      have hwt : isWidening s t = true := by
        cases hx : isWidening s t with
        | true => rfl
        | false =>
          simp only [convertTo, fromTyped, ha, hx, if_true, Bool.false_eq_true, if_false] at h
          split at h <;> cases h
      refine ⟨?_, hw.1 hwt⟩
      cases p with
      | safe => rfl
      | _ => simp [allowed, Policy.rank, hwt] at ha
  · cases ha : allowed p s t with
    | true => rcases hallowed ha h with h | h | h <;> cases h
    | false =>
      have hwf : isWidening s t = false := by
        cases hx : isWidening s t with
        | false => rfl
        | true => simp only [convertTo, fromTyped, ha, hx, if_true] at h; cases h
      have hcs : castable s t = true := by
        cases hx : castable s t with
        | true => rfl
        | false => simp only [convertTo, fromTyped, ha, hx, hwf, if_true, Bool.false_eq_true, if_false] at h; cases h
      have hst : s ≠ t := by
        rintro rfl
        simp [allowed] at ha
      refine ⟨hst, fun hw' => ?_, fun q k hq => ?_⟩
      · rw [hw.2 hw'] at hwf; cases hwf
      · have h2 : 2 ≤ q.rank := by cases q <;> simp_all [Policy.le, Policy.rank]
        have haq : allowed q s t = true := by simp [allowed, isNarrowing, h2, hst, hwf, hcs]
        constructor
        · intro hx; rcases hallowed haq hx with h | h | h <;> cases h
        · intro hx; rcases hallowed haq hx with h | h | h <;> cases h

example : convertTo .safe .strict .vector (.flt true) (.typed (.flt false) [1] [.flt false (.fin 0)]) = .error .wideningNotAllowed none ∧
    convertTo .widening .strict .vector (.flt false) (.typed (.flt true) [1] [.flt true (.fin 0)]) = .error .narrowingNotAllowed none ∧
    convertTo .unchecked .strict .vector (.flt false) (.typed (.cpx false) [1] [.cpx false (.fin 0) (.fin 0)]) = .error .typeMismatch none := by decide

/-- C80: with the policies `Safe` and `Widening` nothing is undefined. -/
theorem widening_defined {p : Policy} (hp : p.le .widening) {rp : RankPolicy} {tg : Target} {t : Ty} {src : Stored} (hs : src.Ok)
    (h0 : tg ≠ .dyn ∨ src.shape ≠ []) : convertTo p rp tg t src ≠ .undefined := by
  have hr : p.rank ≤ 1 := by cases p <;> simp_all [Policy.le, Policy.rank]
  have key : ∀ {typed same : Bool} {f : Val → Out} {shape vs}, (∀ v ∈ vs, f v ≠ .undefined) → (tg ≠ .dyn ∨ shape ≠ []) →
      fillTarget typed same f tg shape vs ≠ .undefined := by
    intro typed same f shape vs hf h0
    have hfin : ∀ sh, finish sh (convAll f 0 vs) ≠ .undefined := by
      intro sh
      cases hc : convAll f 0 vs with
      | ok ws => exact fun h => by cases h
      | error e =>
        rcases convAll_error hc with ⟨-, v, hv, hu⟩ | ⟨j, v, he, -⟩
        · exact absurd hu (hf v hv)
        · rw [he]; exact fun h => by cases h
    cases tg with
    | vector => exact hfin _
    | array n => exact hfin _
    | dyn =>
      have h0 : shape ≠ [] := h0.resolve_left (by simp)
      simp only [fillTarget]
      split
      · simp only [owned]; split <;> exact fun h => by cases h
      · simp only [intoDyn, if_neg h0]; exact hfin _
    | ranked r =>
      simp only [fillTarget]
      split
      · exact fun h => by cases h
      · exact hfin _
    | fixed es => exact hfin _
  have hsome : ∀ {typed n shape e}, checkShape typed rp tg shape n = some e → e ≠ .undefined := by
    intro typed n shape e he
    cases tg <;> simp only [checkShape] at he
    all_goals repeat' split at he
    all_goals first | (cases he; exact fun h => by cases h) | cases he
  cases src with
  | typed s shape vs =>
    simp only [convertTo, fromTyped]
    cases ha : allowed p s t with
    | false =>
      simp only [if_true]
      split
      · exact fun h => by cases h
      · split <;> exact fun h => by cases h
    | true =>
      simp only [Bool.true_eq_false, if_false]
      split
      · rename_i e he; exact hsome he
      · apply key _ h0
        intro v hv
        have hvo := hs v hv
        have hw : v.ty = t ∨ Wider v.ty t := by
          rw [hvo.2]
          simp only [allowed, Bool.or_eq_true, decide_eq_true_eq, Bool.and_eq_true] at ha
          rcases ha with ((h | h) | h) | h
          · exact .inl h
          · exact .inr ((isWidening_iff _ _).1 h.2)
          · omega
          · rw [h.1] at hr; simp [Policy.rank] at hr
        rcases hw with h | h
        · have := cast_same hvo.1
          rw [h] at this
          rw [this]; exact fun h => by cases h
        · obtain ⟨w, h1, -⟩ := cast_wider hvo.1 h
          rw [h1]; exact fun h => by cases h
  | values shape vs =>
    simp only [convertTo, fromValues]
    split
    · rename_i e he; exact hsome he
    · apply key _ h0
      intro v hv
      simp only [tryElement, tyOf_eq]
      split
      · exact fun h => by cases h
      · split
        · rename_i h
          obtain ⟨w, h1, -⟩ := cast_wider (hs v hv) (table_wider h.2)
          rw [h1]; exact fun h => by cases h
        · split
          · rename_i h; exact absurd h.1 (by omega)
          · split
            · rename_i h; rw [h.1] at hr; simp [Policy.rank] at hr
            · exact fun h => by cases h
  | map es => exact fun h => by cases h
  | single v => exact fun h => by cases h

/-- C80: the index in the error is that of the first element that is refused on its own. -/
theorem error_index {p : Policy} {rp : RankPolicy} {tg : Target} {t : Ty} {shape : List Nat} {vs : List Val} {k : Kind} {i : Nat}
    (h0 : tg ≠ .dyn ∨ shape ≠ []) (h : convertTo p rp tg t (.values shape vs) = .error k (some i)) :
    ∃ v, vs[i]? = some v ∧ convertTo p .flatten .vector t (.values [1] [v]) = .error .elementTypeMismatch (some 0) ∧
      ∀ (j : Nat) u, j < i → vs[j]? = some u → ∃ w, convertTo p .flatten .vector t (.values [1] [u]) = .ok [1] [w] := by
  have hsome : ∀ {e}, checkShape false rp tg shape vs.length = some e → ∃ k, e = .error k none := by
    intro e he
    cases tg <;> simp only [checkShape] at he
    all_goals repeat' split at he
    all_goals first | (cases he; exact ⟨_, rfl⟩) | cases he
  have hfin : ∀ sh, finish sh (convAll (tryElement p t) 0 vs) = .error k (some i) →
      ∃ v, vs[i]? = some v ∧ tryElement p t v = .refused ∧ ∀ (j : Nat) u, j < i → vs[j]? = some u → ∃ w, tryElement p t u = .ok w := by
    intro sh h
    cases hc : convAll (tryElement p t) 0 vs with
    | ok ws => rw [hc] at h; cases h
    | error e =>
      rw [hc] at h
      have h : e = .error k (some i) := h
      subst h
      rcases convAll_error hc with ⟨hx, -⟩ | ⟨j, v, hx, h1, h2, h3⟩
      · cases hx
      · simp only [Conv.error.injEq, Option.some.injEq] at hx
        have : i = j := by omega
        subst this
        exact ⟨v, h1, h2, h3⟩
  have main : ∃ v, vs[i]? = some v ∧ tryElement p t v = .refused ∧ ∀ (j : Nat) u, j < i → vs[j]? = some u → ∃ w, tryElement p t u = .ok w := by
    simp only [convertTo, fromValues] at h
    split at h
    · rename_i e he
      obtain ⟨k', rfl⟩ := hsome he
      cases h
    · cases tg with
      | vector => exact hfin _ h
      | array n => exact hfin _ h
      | dyn =>
        have h0 : shape ≠ [] := h0.resolve_left (by simp)
        simp only [fillTarget, intoDyn, if_neg h0] at h
        exact hfin _ h
      | ranked r =>
        simp only [fillTarget] at h
        split at h
        · cases h
        · exact hfin _ h
      | fixed es => exact hfin _ h
  obtain ⟨v, h1, h2, h3⟩ := main
  refine ⟨v, h1, ?_, fun j u hj hu => ?_⟩
  · show finish _ (convAll _ _ _) = _
    simp only [convAll, h2, finish]
  · obtain ⟨w, hw⟩ := h3 j u hj hu
    refine ⟨w, ?_⟩
    show finish _ (convAll _ _ _) = _
    simp only [convAll, hw, finish, List.length_singleton]

example : convertTo .safe .strict .vector .bool (.values [3] [.bool true, .str "x", .str "y"]) = .error .elementTypeMismatch (some 1) := by decide

/-- C80: a conversion to a map keeps the keys, and each value as an array of values with the same policy would. -/
theorem map_kept {p : Policy} {t : Ty} {es fs : List (String × Val)} (h : convertMap p t (.map es) = .ok fs) :
    fs.map (·.1) = es.map (·.1) ∧ convertTo p .strict .vector t (.values [es.length] (es.map (·.2))) = .ok [es.length] (fs.map (·.2)) := by
  simp only [convertMap] at h
  split at h
  · rename_i ws hw
    cases h
    have hl := (convAll_ok hw).1
    simp only [List.length_map] at hl
    refine ⟨List.map_fst_zip (by simp [hl]), ?_⟩
    have hz := List.map_snd_zip (l₁ := es.map (·.1)) (l₂ := ws) (by simp [hl])
    simp only [convertTo, fromValues, checkShape, fillTarget, hw]
    rw [hz]
    simp [finish]
  · cases h

example : convertMap .narrowing (.int true .w16) (.map [("a", .int true .w8 3), ("b", .int true .w32 65537)])
    = .ok [("a", .int true .w16 3), ("b", .int true .w16 1)] := rfl

/-- C80: assigning to a vector or array gives what converting gives, and leaves the destination as it was on an error. -/
theorem assign_flat {p : Policy} {rp : RankPolicy} {tg : Target} {t : Ty} {dst : List Val} {v : Stored} :
    (∀ sh ws, convertTo p rp tg t v = .ok sh ws → assignFlat p rp tg t dst v = some (ws, none)) ∧
    (∀ k i, convertTo p rp tg t v = .error k i → assignFlat p rp tg t dst v = some (dst, some (.error k i))) := by
  constructor
  · intro sh ws h; simp only [assignFlat, h]
  · intro k i h; simp only [assignFlat, h]

/-- C80: assigning to a tensor gives what converting gives, whatever room it has, and leaves the destination as it was on an error
(arrays without dimensions or elements left out, see `assign_differs`). -/
theorem assign_tensor_partial {p : Policy} {rp : RankPolicy} {t : Ty} {cap : Nat} {dst : Array} {v : Stored} (h0 : v.shape ≠ [])
    (hn : v.elems ≠ []) :
    (∀ sh ws, convertTo p rp .dyn t v = .ok sh ws → assignDyn p rp t cap dst v = some (⟨sh, ws⟩, none)) ∧
    (∀ k i, convertTo p rp .dyn t v = .error k i → assignDyn p rp t cap dst v = some (dst, some (.error k i))) := by
  have hok : ∀ {sh ws}, convertTo p rp .dyn t v = .ok sh ws → sh = v.shape := by
    intro sh ws h
    cases v with
    | typed s shape vs =>
      have h' : fromTyped p rp .dyn t s shape vs = .ok sh ws := h
      obtain ⟨-, -, hf⟩ := fromTyped_ok h'
      rcases fill_ok hf (.inr h0) with ⟨-, -, -, -, hx⟩ | ⟨-, hx⟩
      · rw [if_neg (show vs ≠ [] from hn)] at hx; exact hx
      · exact hx
    | values shape vs =>
      have h' : fromValues p rp .dyn t shape vs = .ok sh ws := h
      obtain ⟨-, hf⟩ := fromValues_ok h'
      rcases fill_ok hf (.inr h0) with ⟨hx, -⟩ | ⟨-, hx⟩
      · cases hx
      · exact hx
    | map es => cases h
    | single x => cases h
  have hvia : ∀ sh ws, convertTo p rp .dyn t v = .ok sh ws → ¬ (sh = [] ∧ ws ≠ []) := fun sh ws h hh => h0 (by rw [← hok h]; exact hh.1)
  have hsame : ∀ {shape vs}, v = .typed t shape vs → convertTo p rp .dyn t v = .ok shape vs := by
    rintro shape vs rfl
    have hn' : vs ≠ [] := hn
    simp [convertTo, fromTyped, allowed, checkShape, fillTarget, owned, hn']
  constructor
  · intro sh ws h
    have hv := hvia sh ws h
    cases v with
    | typed s shape vs =>
      simp only [assignDyn, h, if_neg hv, ite_self]
      split
      · rename_i hc
        have := hsame (by rw [hc.1])
        rw [h] at this
        cases this
        rw [if_neg hv]
      · rfl
    | values shape vs => simp only [assignDyn, h, if_neg hv, ite_self]
    | map es => cases h
    | single x => cases h
  · intro k i h
    cases v with
    | typed s shape vs =>
      simp only [assignDyn, h]
      rw [if_neg]
      rintro ⟨rfl, -⟩
      rw [hsame rfl] at h
      cases h
    | values shape vs => simp only [assignDyn, h]
    | map es => simp only [assignDyn, h]
    | single x => simp only [assignDyn, h]

example : assignDyn .narrowing .strict (.int true .w8) 1 ⟨[1], [.int true .w8 9]⟩ (.values [2] [.int true .w8 1, .int true .w16 2])
      = some (⟨[2], [.int true .w8 1, .int true .w8 2]⟩, none) ∧
    assignDyn .safe .strict (.int true .w8) 5 ⟨[1], [.int true .w8 9]⟩ (.values [2] [.int true .w8 1, .int true .w16 2])
      = some (⟨[1], [.int true .w8 9]⟩, some (.error .elementTypeMismatch (some 1))) := by decide

/-- Assigning an array of 0 x 3 keeps the shape, converting it does not; an array without dimensions with one element is converted
if there is no room in the destination, and undefined behaviour if there is. -/
theorem assign_differs :
    assignDyn .safe .strict (.flt true) 0 ⟨[], []⟩ (.typed (.flt true) [0, 3] []) = some (⟨[0, 3], []⟩, none) ∧
    convertTo .safe .strict .dyn (.flt true) (.typed (.flt true) [0, 3] []) = .ok [] [] ∧
    assignDyn .safe .strict .bool 0 ⟨[], []⟩ (.typed .bool [] [.bool true]) = some (⟨[], [.bool true]⟩, none) ∧
    assignDyn .safe .strict .bool 1 ⟨[], []⟩ (.typed .bool [] [.bool true]) = none := by decide

/-- C80: a fallback is used exactly when there is an error. -/
theorem fallback_used {p : Policy} {rp : RankPolicy} {tg : Target} {t : Ty} {v : Stored} {fb : Array} :
    (∀ sh ws, convertTo p rp tg t v = .ok sh ws → convertOr p rp tg t v fb = some ⟨sh, ws⟩) ∧
    (∀ k i, convertTo p rp tg t v = .error k i → convertOr p rp tg t v fb = some fb) := by
  constructor
  · intro sh ws h; simp only [convertOr, h]
  · intro k i h; simp only [convertOr, h]

example : convertOr .safe .strict .vector .bool (.single (.bool true)) ⟨[1], [.bool false]⟩ = some ⟨[1], [.bool false]⟩ := by decide

end Verif.Conv
