import Verif.Conv.PolicyLemmas

/- The loops over the elements and the way from an accepted conversion to its elements. -/
namespace Verif.Conv

theorem convAll_ok {f : Val → Out} : ∀ {vs : List Val} {i : Nat} {ws : List Val}, convAll f i vs = .ok ws →
    ws.length = vs.length ∧ ∀ (k : Nat) v w, vs[k]? = some v → ws[k]? = some w → f v = .ok w
  | [], i, ws, h => by
    simp only [convAll, Except.ok.injEq] at h
    subst h
    exact ⟨rfl, fun k v w h => by simp at h⟩
  | v :: vs, i, ws, h => by
    simp only [convAll] at h
    split at h
    · rename_i w hw
      split at h
      · rename_i us hu
        cases h
        obtain ⟨h1, h2⟩ := convAll_ok hu
        refine ⟨by simp [h1], fun k x y hx hy => ?_⟩
        cases k with
        | zero => simp at hx hy; rw [← hx, ← hy]; exact hw
        | succ k => exact h2 k x y (by simpa using hx) (by simpa using hy)
      · cases h
    · cases h
    · cases h

theorem convAll_all {f : Val → Out} : ∀ {vs ws : List Val} {i : Nat}, ws.length = vs.length →
    (∀ (k : Nat) v w, vs[k]? = some v → ws[k]? = some w → f v = .ok w) → convAll f i vs = .ok ws
  | [], ws, i, hl, h => by
    have := List.length_eq_zero_iff.1 hl
    rw [this]; rfl
  | v :: vs, [], i, hl, h => by simp at hl
  | v :: vs, w :: ws, i, hl, h => by
    have h0 := h 0 v w rfl rfl
    have h1 := convAll_all (f := f) (vs := vs) (ws := ws) (i := i + 1) (by simpa using hl) fun k x y hx hy =>
      h (k + 1) x y (by simpa using hx) (by simpa using hy)
    simp only [convAll, h0, h1]

theorem convAll_map {f : Val → Out} {g : Val → Val} {vs : List Val} {i : Nat} (h : ∀ v ∈ vs, f v = .ok (g v)) :
    convAll f i vs = .ok (vs.map g) := by
  apply convAll_all (by simp)
  intro k v w hv hw
  rw [List.getElem?_map, hv, Option.map_some, Option.some.injEq] at hw
  rw [← hw]
  exact h v (List.mem_of_getElem? hv)

theorem convAll_error {f : Val → Out} : ∀ {vs : List Val} {i : Nat} {e : Conv}, convAll f i vs = .error e →
    (e = .undefined ∧ ∃ v ∈ vs, f v = .undefined) ∨
    ∃ (j : Nat) (v : Val), e = .error .elementTypeMismatch (some (i + j)) ∧ vs[j]? = some v ∧ f v = .refused ∧
      ∀ (l : Nat) u, l < j → vs[l]? = some u → ∃ w, f u = .ok w
  | [], i, e, h => by simp only [convAll] at h; cases h
  | v :: vs, i, e, h => by
    simp only [convAll] at h
    split at h
    · rename_i w hw
      split at h
      · cases h
      · rename_i e' he
        cases h
        rcases convAll_error he with ⟨h1, u, hu, hf⟩ | ⟨j, u, h1, h2, h3, h4⟩
        · exact .inl ⟨h1, u, by simp [hu], hf⟩
        · refine .inr ⟨j + 1, u, by rw [h1]; congr 2; omega, by simpa using h2, h3, fun l x hl hx => ?_⟩
          cases l with
          | zero => simp at hx; rw [← hx]; exact ⟨w, hw⟩
          | succ l => exact h4 l x (by omega) (by simpa using hx)
    · rename_i hv
      cases h
      exact .inr ⟨0, v, rfl, rfl, hv, fun l _ hl => by omega⟩
    · rename_i hv
      cases h
      exact .inl ⟨rfl, v, by simp, hv⟩

theorem convAll_mono {f g : Val → Out} (hfg : ∀ v, f v ≠ .refused → g v = f v) : ∀ {vs : List Val} {i : Nat},
    (∀ k j, convAll f i vs ≠ .error (.error k j)) → convAll g i vs = convAll f i vs
  | [], i, _ => rfl
  | v :: vs, i, h => by
    have hv : f v ≠ .refused := by
      intro hr
      apply h .elementTypeMismatch (some i)
      simp only [convAll, hr]
    have ih : (∃ w, f v = .ok w) → convAll g (i + 1) vs = convAll f (i + 1) vs := by
      rintro ⟨w, hw⟩
      apply convAll_mono hfg
      intro k j he
      apply h k j
      simp only [convAll, hw, he]
    simp only [convAll, hfg v hv]
    cases hf : f v with
    | ok w => rw [ih ⟨w, hf⟩]
    | refused => rfl
    | undefined => rfl

/-- How an element of an accepted array may have been converted. -/
def Step (p : Policy) (t : Ty) (v w : Val) : Prop :=
  (v.ty = t ∧ w = v) ∨ (1 ≤ p.rank ∧ Wider v.ty t ∧ cast t v = .ok w) ∨ (2 ≤ p.rank ∧ cast t v = .ok w)

theorem allowed_step {p : Policy} {s t : Ty} {v w : Val} (ha : allowed p s t = true) (hv : v.Ok) (hs : v.ty = s)
    (hc : cast t v = .ok w) : Step p t v w := by
  subst hs
  simp only [allowed, Bool.or_eq_true, decide_eq_true_eq, Bool.and_eq_true] at ha
  rcases ha with ((h | h) | h) | h
  · left
    rw [← h, cast_same hv] at hc
    cases hc
    exact ⟨h, rfl⟩
  · exact .inr (.inl ⟨h.1, (isWidening_iff _ _).1 h.2, hc⟩)
  · exact .inr (.inr ⟨h.1, hc⟩)
  · exact .inr (.inr ⟨by rw [h.1]; decide, hc⟩)

theorem try_step {p : Policy} {t : Ty} {v w : Val} (h : tryElement p t v = .ok w) : Step p t v w := by
  simp only [tryElement, tyOf_eq] at h
  split at h
  · cases h; rename_i e; exact .inl ⟨e, rfl⟩
  · split at h
    · rename_i hw
      exact .inr (.inl ⟨hw.1, table_wider hw.2, h⟩)
    · split at h
      · rename_i hw; exact .inr (.inr ⟨hw.1, h⟩)
      · split at h
        · rename_i hw; exact .inr (.inr ⟨by rw [hw.1]; decide, h⟩)
        · cases h

theorem finish_ok {shape sh : List Nat} {r : Except Conv (List Val)} {ws : List Val} (h : finish shape r = .ok sh ws) :
    (∃ e, r = .error e ∧ e = .ok sh ws) ∨ (sh = shape ∧ r = .ok ws) := by
  cases r with
  | ok us => simp only [finish, Conv.ok.injEq] at h; exact .inr ⟨h.1.symm, by rw [h.2]⟩
  | error e => exact .inl ⟨e, rfl, h⟩

theorem finish_convAll {f : Val → Out} {shape sh : List Nat} {vs ws : List Val} (h : finish shape (convAll f 0 vs) = .ok sh ws) :
    sh = shape ∧ convAll f 0 vs = .ok ws := by
  rcases finish_ok h with ⟨e, h1, h2⟩ | h
  · rcases convAll_error h1 with ⟨h3, -⟩ | ⟨j, v, h3, -⟩
    · rw [h3] at h2; cases h2
    · rw [h3] at h2; cases h2
  · exact h

/-- An accepted conversion that goes through the elements. -/
theorem fill_ok {typed same : Bool} {f : Val → Out} {tg : Target} {shape sh : List Nat} {vs ws : List Val}
    (h : fillTarget typed same f tg shape vs = .ok sh ws) (h0 : tg ≠ .dyn ∨ shape ≠ []) :
    (typed = true ∧ same = true ∧ tg = .dyn ∧ ws = vs ∧ sh = if vs = [] then [] else shape) ∨
    (convAll f 0 vs = .ok ws ∧ sh = match tg with
      | .vector | .array _ => [vs.length]
      | .dyn | .ranked _ => shape
      | .fixed es => es) := by
  cases tg with
  | vector => have := finish_convAll h; exact .inr ⟨this.2, this.1⟩
  | array n => have := finish_convAll h; exact .inr ⟨this.2, this.1⟩
  | dyn =>
    have h0 : shape ≠ [] := h0.resolve_left (by simp)
    simp only [fillTarget] at h
    split at h
    · rename_i hc
      simp only [owned] at h
      refine .inl ⟨hc.1, hc.2, rfl, ?_⟩
      split at h
      · rename_i hv; cases h; exact ⟨hv.symm, by rw [if_pos hv]⟩
      · rename_i hv; cases h; exact ⟨rfl, by rw [if_neg hv]⟩
    · simp only [intoDyn, if_neg h0] at h
      have := finish_convAll h; exact .inr ⟨this.2, this.1⟩
  | ranked r =>
    simp only [fillTarget] at h
    split at h
    · cases h
    · have := finish_convAll h; exact .inr ⟨this.2, this.1⟩
  | fixed es => have := finish_convAll h; exact .inr ⟨this.2, this.1⟩

theorem fromTyped_ok {p : Policy} {rp : RankPolicy} {tg : Target} {t s : Ty} {shape sh : List Nat} {vs ws : List Val}
    (h : fromTyped p rp tg t s shape vs = .ok sh ws) :
    allowed p s t = true ∧ checkShape true rp tg shape vs.length = none ∧ fillTarget true (decide (s = t)) (cast t) tg shape vs = .ok sh ws := by
  simp only [fromTyped] at h
  split at h
  · split at h
    · cases h
    · split at h <;> cases h
  · rename_i ha
    have hsome : ∀ e, checkShape true rp tg shape vs.length = some e → ∃ k i, e = .error k i := by
      intro e he
      cases tg <;> simp only [checkShape] at he
      all_goals repeat' split at he
      all_goals first | cases he; exact ⟨_, _, rfl⟩ | cases he
    split at h
    · rename_i e he
      obtain ⟨k, i, rfl⟩ := hsome e he
      cases h
    · rename_i he
      exact ⟨by simpa using ha, he, h⟩

theorem fromValues_ok {p : Policy} {rp : RankPolicy} {tg : Target} {t : Ty} {shape sh : List Nat} {vs ws : List Val}
    (h : fromValues p rp tg t shape vs = .ok sh ws) :
    checkShape false rp tg shape vs.length = none ∧ fillTarget false false (tryElement p t) tg shape vs = .ok sh ws := by
  simp only [fromValues] at h
  have hsome : ∀ e, checkShape false rp tg shape vs.length = some e → ∃ k i, e = .error k i := by
    intro e he
    cases tg <;> simp only [checkShape] at he
    all_goals repeat' split at he
    all_goals first | cases he; exact ⟨_, _, rfl⟩ | cases he
  split at h
  · rename_i e he
    obtain ⟨k, i, rfl⟩ := hsome e he
    cases h
  · rename_i he
    exact ⟨he, h⟩

theorem convert_steps {p : Policy} {rp : RankPolicy} {tg : Target} {t : Ty} {src : Stored} {sh : List Nat} {ws : List Val}
    (hs : src.Ok) (h : convertTo p rp tg t src = .ok sh ws) (h0 : tg ≠ .dyn ∨ src.shape ≠ []) :
    ws.length = src.elems.length ∧ ∀ (k : Nat) v w, src.elems[k]? = some v → ws[k]? = some w → Step p t v w := by
  cases src with
  | typed s shape vs =>
    obtain ⟨ha, -, hf⟩ := fromTyped_ok h
    rcases fill_ok hf h0 with ⟨-, hsame, -, rfl, -⟩ | ⟨hc, -⟩
    · refine ⟨rfl, fun k v w hv hw => ?_⟩
      have hv' : ws[k]? = some v := hv
      rw [hv'] at hw
      cases hw
      refine .inl ⟨?_, rfl⟩
      rw [(hs v (List.mem_of_getElem? hv)).2]
      exact of_decide_eq_true hsame
    · obtain ⟨h1, h2⟩ := convAll_ok hc
      refine ⟨h1, fun k v w hv hw => ?_⟩
      have := hs v (List.mem_of_getElem? hv)
      exact allowed_step ha this.1 this.2 (h2 k v w hv hw)
  | values shape vs =>
    obtain ⟨-, hf⟩ := fromValues_ok h
    rcases fill_ok hf h0 with ⟨hx, -⟩ | ⟨hc, -⟩
    · cases hx
    · obtain ⟨h1, h2⟩ := convAll_ok hc
      exact ⟨h1, fun k v w hv hw => try_step (h2 k v w hv hw)⟩
  | map es => cases h
  | single v => cases h

end Verif.Conv
