import Verif.Conv.Ints
import Verif.Conv.PolicySpec

/- Lemmas about casts and about the loops over the elements. -/
namespace Verif.Conv

theorem tyOf_eq (v : Val) : tyOf v = v.ty := by cases v <;> rfl

theorem round_ok (d : Bool) (n : Int) : (round d n).Ok d := by
  simp only [round]
  split
  · trivial
  · rename_i h
    simp only [Fl.Ok]
    rw [rep_iff]
    have e : (if n < 0 then -(roundMag (prec d) (tiny d) n.natAbs : Int) else roundMag (prec d) (tiny d) n.natAbs).natAbs
        = roundMag (prec d) (tiny d) n.natAbs := by split <;> omega
    rw [e]
    exact ⟨roundMag_rep _ _ _ (prec_pos d), by omega⟩

theorem castFlt_ok (e : Bool) (f : Fl) : (castFlt e f).Ok e := by
  cases f with
  | fin n => exact round_ok e n
  | nan => trivial
  | inf b => trivial

theorem rep_zero (d : Bool) : Rep d 0 := by
  rw [rep_iff]; exact ⟨zero_rep d, Nat.zero_le _⟩

theorem rep_one (d : Bool) : Rep d one := by
  have := int_rep (d := d) (x := 1) (Nat.one_lt_two_pow (by have := prec_pos d; omega))
  rwa [Int.one_mul] at this

theorem inRange_bit (s : Bool) (w : W) (b : Bool) : InRange s w (if b then 1 else 0) := by
  rw [inRange_iff]
  cases s <;> cases w <;> cases b <;> simp [lowest, highest, digits, W.bits]

theorem cast_typed {t : Ty} {v w : Val} (h : cast t v = .ok w) : w.ty = t ∧ w.Ok := by
  cases v with
  | bool b =>
    cases t <;> simp only [cast, Out.ok.injEq, reduceCtorEq] at h <;> subst h <;> refine ⟨rfl, ?_⟩
    · trivial
    · exact inRange_bit _ _ b
    · cases b
      · exact rep_zero _
      · exact rep_one _
    · cases b
      · exact ⟨rep_zero _, rep_zero _⟩
      · exact ⟨rep_one _, rep_zero _⟩
  | int s u x =>
    cases t <;> simp only [cast, Out.ok.injEq, reduceCtorEq] at h <;> subst h <;> refine ⟨rfl, ?_⟩
    · trivial
    · exact inRange_wrap _ _ _
    · exact round_ok _ _
    · exact ⟨round_ok _ _, rep_zero _⟩
  | flt d f =>
    cases t with
    | bool => simp only [cast, Out.ok.injEq] at h; subst h; exact ⟨rfl, trivial⟩
    | int s u =>
      cases f with
      | fin n =>
        simp only [cast, truncTo] at h
        split at h
        · rename_i hr; cases h; exact ⟨rfl, inRange_iff.2 hr⟩
        · cases h
      | nan => simp only [cast] at h; cases h
      | inf b => simp only [cast] at h; cases h
    | flt e => simp only [cast, Out.ok.injEq] at h; subst h; exact ⟨rfl, castFlt_ok _ _⟩
    | cpx e => simp only [cast, Out.ok.injEq] at h; subst h; exact ⟨rfl, castFlt_ok _ _, rep_zero _⟩
    | str => simp only [cast] at h; cases h
  | cpx d a b =>
    cases t <;> simp only [cast, Out.ok.injEq, reduceCtorEq] at h
    subst h
    exact ⟨rfl, castFlt_ok _ _, castFlt_ok _ _⟩
  | str s =>
    cases t <;> simp only [cast, Out.ok.injEq, reduceCtorEq] at h
    subst h
    exact ⟨rfl, trivial⟩

theorem mul_one_inj {x y : Int} (h : x * one = y * one) : x = y :=
  Int.eq_of_mul_eq_mul_right (by have := one_int_pos; omega) h

theorem number_int (s : Bool) (w : W) (x : Int) : (Val.int s w x).number = some (x * one, 0) := by
  rw [Val.number, one_int]

theorem fits_int {s : Bool} {w : W} {a b : Int} : Fits (.int s w) (a, b) ↔ (∃ x, InRange s w x ∧ a = x * one) ∧ b = 0 := by
  rw [Fits, ← one_int]

theorem number_bool (b : Bool) : (Val.bool b).number = some (if b then (one : Int) else 0, 0) := by
  rw [Val.number, one_int]

theorem fits_bool {a b : Int} : Fits .bool (a, b) ↔ (a = 0 ∨ a = one) ∧ b = 0 := by
  rw [Fits, ← one_int]

/-- A number that the target type has is kept by the cast. -/
theorem cast_fits {t : Ty} {v : Val} {n : Int × Int} (hn : v.number = some n) (hf : Fits t n) (hc : castable v.ty t = true) :
    ∃ w, cast t v = .ok w ∧ w.number = some n := by
  have h1 := one_int_pos
  obtain ⟨a, b⟩ := n
  cases v with
  | bool c =>
    rw [number_bool] at hn
    cases t with
    | bool => exact ⟨_, rfl, by rw [number_bool]; exact hn⟩
    | int s w =>
      refine ⟨_, rfl, ?_⟩
      rw [number_int, ← hn]
      cases c <;> simp
    | flt d => exact ⟨_, rfl, by rw [← hn]; cases c <;> simp [Val.number]⟩
    | cpx d => exact ⟨_, rfl, by rw [← hn]; cases c <;> simp [Val.number]⟩
    | str => exact hf.elim
  | int s w x =>
    rw [number_int] at hn
    simp only [Option.some.injEq, Prod.mk.injEq] at hn
    obtain ⟨rfl, rfl⟩ := hn
    cases t with
    | bool =>
      refine ⟨_, rfl, ?_⟩
      rw [number_bool]
      rcases (fits_bool.1 hf).1 with h | h
      · have : x = 0 := mul_one_inj (by rw [h, Int.zero_mul])
        subst this; simp
      · have : x = 1 := mul_one_inj (by rw [h, Int.one_mul])
        subst this; simp
    | int s' w' =>
      obtain ⟨⟨y, hy, e⟩, -⟩ := fits_int.1 hf
      have := mul_one_inj e
      subst this
      exact ⟨_, rfl, by rw [wrap_of_inRange hy, number_int]⟩
    | flt d => exact ⟨_, rfl, by rw [round_exact hf.1]; rfl⟩
    | cpx d => exact ⟨_, rfl, by rw [round_exact hf.1]; rfl⟩
    | str => exact hf.elim
  | flt d f =>
    cases f with
    | fin m =>
      simp only [Val.number, Option.some.injEq, Prod.mk.injEq] at hn
      obtain ⟨rfl, rfl⟩ := hn
      cases t with
      | bool =>
        refine ⟨_, rfl, ?_⟩
        rw [number_bool]
        rcases (fits_bool.1 hf).1 with h | h
        · subst h; simp
        · subst h
          have h2 : (Fl.fin (one : Int)) ≠ .fin 0 := fun h => by simp only [Fl.fin.injEq] at h; omega
          rw [decide_eq_true h2, if_pos rfl]
      | int s' w' =>
        obtain ⟨⟨y, hy, rfl⟩, -⟩ := fits_int.1 hf
        refine ⟨.int s' w' y, ?_, number_int _ _ _⟩
        simp only [cast, truncTo]
        rw [Int.mul_tdiv_cancel _ (by omega), if_pos (inRange_iff.1 hy)]
      | flt e => exact ⟨_, rfl, by simp only [castFlt]; rw [round_exact hf.1]; rfl⟩
      | cpx e => exact ⟨_, rfl, by simp only [castFlt]; rw [round_exact hf.1]; rfl⟩
      | str => exact hf.elim
    | nan => cases hn
    | inf b => cases hn
  | cpx d p q =>
    cases t <;> first | cases hc | skip
    cases p <;> cases q <;> simp only [Val.number, Option.some.injEq, Prod.mk.injEq, reduceCtorEq] at hn
    obtain ⟨rfl, rfl⟩ := hn
    exact ⟨_, rfl, by simp only [castFlt]; rw [round_exact hf.1, round_exact hf.2]; rfl⟩
  | str s => cases hn

theorem cast_castable {t : Ty} {v w : Val} (h : cast t v = .ok w) : castable v.ty t = true := by
  cases v with
  | flt d f => cases t <;> simp_all [cast, castable, Val.ty]
  | _ => cases t <;> simp_all [cast, castable, Val.ty]

theorem cast_same {v : Val} (h : v.Ok) : cast v.ty v = .ok v := by
  cases v with
  | int s w x => simp only [Val.ty, cast]; rw [wrap_of_inRange h]
  | flt d f => cases f with
    | fin n => simp only [Val.ty, cast, castFlt]; rw [round_exact h]
    | nan => rfl
    | inf b => rfl
  | cpx d a b =>
    have e : ∀ f : Fl, f.Ok d → castFlt d f = f := by
      intro f hf
      cases f with
      | fin n => exact round_exact hf
      | nan => rfl
      | inf b => rfl
    simp only [Val.ty, cast]; rw [e a h.1, e b h.2]
  | _ => rfl

theorem isWidening_iff (s t : Ty) : isWidening s t = true ↔ Wider s t := by
  cases s with
  | int a v =>
    cases t with
    | int b w => cases a <;> cases b <;> cases v <;> cases w <;> simp [isWidening, Wider, size, W.bits]
    | flt d => cases d <;> cases v <;> simp [isWidening, Wider, size, W.bits]
    | _ => simp [isWidening, Wider]
  | flt d => cases t <;> first | (rename_i e; cases d <;> cases e <;> simp [isWidening, Wider]) | simp [isWidening, Wider] | (cases d <;> simp [isWidening, Wider])
  | cpx d => cases t <;> first | (rename_i e; cases d <;> cases e <;> simp [isWidening, Wider]) | simp [isWidening, Wider] | (cases d <;> simp [isWidening, Wider])
  | _ => cases t <;> simp [isWidening, Wider]

theorem rep_mono {n : Int} (h : Rep false n) : Rep true n := by
  rw [rep_iff] at *
  obtain ⟨⟨m, k, h1, h2, h3⟩, h4⟩ := h
  refine ⟨⟨m, k, Nat.zero_le _, Nat.lt_of_lt_of_le h2 (Nat.pow_le_pow_right (by omega) (by simp [prec])), h3⟩, ?_⟩
  refine Nat.le_trans h4 ?_
  unfold maxFin
  apply Nat.mul_le_mul
  · have : 2 ^ prec false ≤ 2 ^ prec true := Nat.pow_le_pow_right (by omega) (by simp [prec])
    omega
  · apply Nat.pow_le_pow_right (by omega)
    show 1178 ≤ 2045
    omega

theorem castFlt_wide {f : Fl} (h : f.Ok false) : castFlt true f = f := by
  cases f with
  | fin n =>
    have hr : Rep true n := rep_mono (by simpa only [Fl.Ok] using h)
    rw [castFlt, round_exact hr]
  | nan => rfl
  | inf b => rfl

/-- A cast to a wider type: the value is kept, or rounded to the nearest where there are fewer digits. -/
theorem cast_wider {t : Ty} {v : Val} (hv : v.Ok) (h : Wider v.ty t) :
    ∃ w, cast t v = .ok w ∧
      (w.number = v.number ∧ (v.number = none → (∃ f, v = .flt false f ∧ w = .flt true f) ∨ ∃ a b, v = .cpx false a b ∧ w = .cpx true a b) ∨
       FewerDigits v.ty t ∧ ∃ d r n, t = .flt d ∧ w = .flt d (.fin r) ∧ v.number = some (n, 0) ∧ Nearest d r n) := by
  cases v with
  | int a u x =>
    cases t with
    | int b w =>
      obtain ⟨rfl, hb⟩ := h
      refine ⟨_, rfl, .inl ⟨?_, fun h => by rw [number_int] at h; cases h⟩⟩
      have hr : InRange a w x := inRange_mono hv (by cases a <;> simp [digits] <;> omega) (by rintro ⟨h1, h2, -⟩; simp [h1] at h2)
      rw [wrap_of_inRange hr, number_int, number_int]
    | flt d =>
      refine ⟨_, rfl, ?_⟩
      have hd := natAbs_lt_digits hv
      by_cases hp : digits a u < prec d
      · left
        refine ⟨?_, fun h => by rw [number_int] at h; cases h⟩
        have : x.natAbs < 2 ^ prec d := Nat.lt_of_le_of_lt hd (Nat.pow_lt_pow_right (by omega) hp)
        rw [round_exact (int_rep this), number_int]; rfl
      · right
        have hle : (x * one).natAbs ≤ maxFin d := by
          rw [mul_one_natAbs]
          exact le_maxFin (Nat.le_trans hd (Nat.pow_le_pow_right (by omega) (digits_le a u).2))
        obtain ⟨r, h1, h2, h3⟩ := round_nearest hle
        refine ⟨?_, d, r, x * one, rfl, by rw [h1], number_int _ _ _, h2, h3⟩
        revert h hp
        cases a <;> cases u <;> cases d <;> simp [FewerDigits, Val.ty, Wider, digits, prec, W.bits]
    | _ => exact h.elim
  | flt d f =>
    cases d with
    | true => cases t <;> exact h.elim
    | false =>
      cases t with
      | flt e =>
        cases e with
        | false => exact h.elim
        | true =>
          refine ⟨_, rfl, .inl ⟨?_, fun _ => .inl ⟨f, rfl, by rw [castFlt_wide hv]⟩⟩⟩
          rw [castFlt_wide hv]; cases f <;> rfl
      | _ => exact h.elim
  | cpx d a b =>
    cases d with
    | true => cases t <;> exact h.elim
    | false =>
      cases t with
      | cpx e =>
        cases e with
        | false => exact h.elim
        | true =>
          refine ⟨_, rfl, .inl ⟨?_, fun _ => .inr ⟨a, b, rfl, by rw [castFlt_wide hv.1, castFlt_wide hv.2]⟩⟩⟩
          rw [castFlt_wide hv.1, castFlt_wide hv.2]; cases a <;> cases b <;> rfl
      | _ => exact h.elim
  | _ => cases t <;> exact h.elim

theorem table_wider {s t : Ty} (h : s ∈ wideningTable t) : Wider s t := by
  cases t with
  | int a w => cases a <;> cases w <;> simp [wideningTable] at h <;> rcases h with h | h | h <;> simp [Wider, W.bits, *]
  | flt d => cases d <;> simp [wideningTable] at h <;> rcases h with h | h | h <;> simp [Wider, W.bits, *]
  | cpx d => cases d <;> simp [wideningTable] at h; simp [Wider, *]
  | _ => simp [wideningTable] at h

end Verif.Conv
