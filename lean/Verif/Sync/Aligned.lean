import Verif.Sync.Step

/-!
When the block takes its inputs for aligned.
-/
namespace Verif.Sync

theorem run_snoc {α} (c : Cfg) (s : Sys α) (calls : List (List (Nat × Nat))) (call : List (Nat × Nat)) :
    run c s (calls ++ [call]) = (run c s calls).step c call := by
  simp [run, List.foldl_append]

theorem step_synced {α} {c : Cfg} {streams : List (List α × List Tag)} {s : Sys α} (h : s.Ok streams) (hne : streams ≠ []) {call : List (Nat × Nat)}
    (hc : call.length = streams.length) :
    (s.step c call).st.synced = true ↔ CanSync c (s.views call) ∨ (s.st.synced = true ∧ ¬ Loses c s call) := by
  have hvl : (s.views call).length = streams.length := by rw [views_length (by rw [h.len, hc]), h.len]
  have hvne : s.views call ≠ [] := by
    intro he
    rw [he] at hvl
    exact hne (List.length_eq_zero_iff.1 hvl.symm)
  have hvo := views_ok h call
  have hdl : s.st.dropped.length = (s.views call).length := by rw [h.dlen, hvl]
  have hstep : (s.step c call).st = (processBulk c s.st (s.views call) (call.map (·.2))).1 := rfl
  by_cases hcan : CanSync c (s.views call)
  · obtain ⟨T, m, post, -, h1, -⟩ := bulk_sync (rooms := call.map (·.2)) hvo hvne hdl hcan
    rw [hstep, h1]
    simp [hcan]
  · have hat : ∀ (k : Nat) (p : Port α), s.ports[k]? = some p → ∃ x, call[k]? = some x ∧ (s.views call)[k]? = some (p.view x.1) ∧
        ∀ r, (processBulk c s.st (s.views call) (call.map (·.2))).2[k]? = some r → (s.step c call).ports[k]? = some (p.apply x.1 r) := by
      intro k p hp
      have hlt : k < call.length := by
        have := (List.getElem?_eq_some_iff.1 hp).1
        have := h.len
        omega
      have hx : call[k]? = some call[k] := List.getElem?_eq_getElem hlt
      refine ⟨_, hx, ?_, ?_⟩
      · simp only [Sys.views, List.getElem?_map, getElem?_zip hp hx, Option.map_some]
      · intro r hr
        simp only [Sys.step, List.getElem?_map, getElem?_zip (getElem?_zip hp hx) hr, Option.map_some]
    simp only [hcan, false_or]
    by_cases hs : s.st.synced = true ∧ 0 < copies c (s.views call) (call.map (·.2))
    · have hb := bulk_copy hvo hvne hcan hs.1 hs.2
      rw [hstep, hb]
      simp only [hs.1, true_and, true_iff]
      rintro ⟨-, k, p, p', hp, hp', ho, hpos⟩
      obtain ⟨x, hx, hv, hr⟩ := hat k p hp
      obtain ⟨d, hd, hok⟩ := h.each hp
      have hres : (processBulk c s.st (s.views call) (call.map (·.2))).2[k]? =
          some (emit (p.view x.1) d 0 (copies c (s.views call) (call.map (·.2)))) := by
        rw [hb]
        simp only [List.getElem?_map, getElem?_zip hv hd, Option.map_some]
      have := hr _ hres
      rw [hp'] at this
      cases this
      have hle := before_le (c := c) (rooms := call.map (·.2)) (List.mem_of_getElem? hv)
      have hle2 := (samplesBefore_ok (c := c) (hvo _ (List.mem_of_getElem? hv))).1
      have hl := congrArg List.length ho
      simp only [Port.apply, emit, List.length_append, List.length_take, List.length_drop] at hl
      omega
    · have hs' : s.st.synced = false ∨ copies c (s.views call) (call.map (·.2)) = 0 := by
        cases hx : s.st.synced with
        | false => exact .inl rfl
        | true => right; rw [hx] at hs; simp only [true_and] at hs; omega
      have hb := bulk_skip hvo hvne hcan hs'
      rw [hstep, hb]
      simp only [Bool.and_eq_true, List.all_eq_true, decide_eq_true_eq]
      have hport : ∀ (k : Nat) (p : Port α), s.ports[k]? = some p → ∃ x, (s.views call)[k]? = some (p.view x) ∧
          (s.step c call).ports[k]? = some (p.apply x ⟨excess c (p.view x), [], []⟩) := by
        intro k p hp
        obtain ⟨x, hx, hv, hr⟩ := hat k p hp
        refine ⟨x.1, hv, hr _ ?_⟩
        rw [hb]
        simp only [List.getElem?_map, hv, Option.map_some]
      constructor
      · rintro ⟨h1, h2⟩
        refine ⟨h1, ?_⟩
        rintro ⟨-, k, p, p', hp, hp', ho, hpos⟩
        obtain ⟨x, hv, hr⟩ := hport k p hp
        rw [hp'] at hr
        cases hr
        have := h2 _ (List.mem_of_getElem? hv)
        simp only [Port.apply, this] at hpos
        exact hpos rfl
      · rintro ⟨h1, h2⟩
        refine ⟨h1, ?_⟩
        intro i hi
        obtain ⟨k, hk⟩ := List.mem_iff_getElem?.1 hi
        have hlt : k < s.ports.length := by
          have := (List.getElem?_eq_some_iff.1 hk).1
          have := h.len
          omega
        have hp : s.ports[k]? = some s.ports[k] := List.getElem?_eq_getElem hlt
        obtain ⟨x, hv, hr⟩ := hport k _ hp
        rw [hk] at hv
        cases hv
        by_cases he : excess c ((s.ports[k]).view x) = 0
        · exact he
        · exfalso
          apply h2
          refine ⟨hcan, k, _, _, hp, hr, by simp [Port.apply], ?_⟩
          simp only [Port.apply]
          omega

theorem synced_iff {α} {c : Cfg} {streams : List (List α × List Tag)} (hs : StreamsOk streams) (hl : ∀ x ∈ streams, x.1.length < 2 ^ 32)
    (hne : streams ≠ []) (calls : List (List (Nat × Nat))) (hc : CallsOk streams.length calls) :
    (run c (Sys.init streams) calls).st.synced = true ↔ Aligned c (Sys.init streams) calls := by
  have hrev : ∀ rev : List (List (Nat × Nat)), CallsOk streams.length rev.reverse →
      ((run c (Sys.init streams) rev.reverse).st.synced = true ↔ Aligned c (Sys.init streams) rev.reverse) := by
    intro rev
    induction rev with
    | nil =>
      intro _
      constructor
      · intro h; cases h
      · rintro ⟨b, x, a, he, -⟩
        simp at he
    | cons call rev ih =>
      intro hc
      rw [List.reverse_cons] at hc ⊢
      have hc1 : CallsOk streams.length rev.reverse := fun x hx => hc x (List.mem_append_left _ hx)
      have hc2 := hc call (by simp)
      rw [run_snoc, step_synced (run_ok (init_ok hs hl) hne hc1) hne hc2, ih hc1]
      constructor
      · rintro (h | ⟨⟨b, x, a, he, h1, h2⟩, h3⟩)
        · exact ⟨rev.reverse, call, [], rfl, h, fun xs x ys he => by simp at he⟩
        · refine ⟨b, x, a ++ [call], by rw [he]; simp, h1, ?_⟩
          intro xs y ys hx
          rcases List.eq_nil_or_concat ys with rfl | ⟨ys', z, rfl⟩
          · have hx := List.append_inj_right' hx rfl
            have hx' : a = xs := by
              have h0 := ‹a ++ [call] = xs ++ y :: []›
              exact List.append_inj_left' h0 rfl
            cases hx
            subst hx'
            rw [← he]
            exact h3
          · have hx' : a ++ [call] = (xs ++ y :: ys') ++ [z] := by rw [hx]; simp
            have := List.append_inj_left' hx' rfl
            exact h2 xs y ys' this
      · rintro ⟨b, x, a, he, h1, h2⟩
        rcases List.eq_nil_or_concat a with rfl | ⟨a', z, rfl⟩
        · have e1 : rev.reverse = b := List.append_inj_left' he rfl
          have e2 : [call] = [x] := List.append_inj_right' he rfl
          cases e2
          subst e1
          exact .inl h1
        · have he' : rev.reverse ++ [call] = (b ++ x :: a') ++ [z] := by rw [he]; simp
          have e1 : rev.reverse = b ++ x :: a' := List.append_inj_left' he' rfl
          have e2 : [call] = [z] := List.append_inj_right' he' rfl
          cases e2
          right
          refine ⟨⟨b, x, a', e1, h1, fun xs y ys hx => ?_⟩, ?_⟩
          · exact h2 xs y (ys ++ [call]) (by rw [hx]; simp)
          · have := h2 a' call [] (by simp)
            rw [← e1] at this
            exact this
  have := hrev calls.reverse
  simp only [List.reverse_reverse] at this
  exact this hc

/-- The view of port number `k` in a call and what becomes of the port. -/
theorem step_at {α} {c : Cfg} {streams : List (List α × List Tag)} {s : Sys α} (h : s.Ok streams) {call : List (Nat × Nat)}
    (hc : call.length = streams.length) {k : Nat} {p : Port α} (hp : s.ports[k]? = some p) :
    ∃ x, call[k]? = some x ∧ (s.views call)[k]? = some (p.view x.1) ∧
      ∀ r, (processBulk c s.st (s.views call) (call.map (·.2))).2[k]? = some r → (s.step c call).ports[k]? = some (p.apply x.1 r) := by
  have hlt : k < call.length := by
    have := (List.getElem?_eq_some_iff.1 hp).1
    have := h.len
    omega
  have hx : call[k]? = some call[k] := List.getElem?_eq_getElem hlt
  refine ⟨_, hx, ?_, ?_⟩
  · simp only [Sys.views, List.getElem?_map, getElem?_zip hp hx, Option.map_some]
  · intro r hr
    simp only [Sys.step, List.getElem?_map, getElem?_zip (getElem?_zip hp hx) hr, Option.map_some]

end Verif.Sync
