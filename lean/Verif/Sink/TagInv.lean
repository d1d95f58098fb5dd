import Verif.Sink.Inv
/-!
# Helper lemmas: where the tags are between any two steps, if the user's functions take tags
-/
namespace Verif.Sink

variable {α γ : Type}

/-- tags published before their samples -/
def flight (q : Option (List γ)) (b : Nat) : WPos α γ → List (Nat × List γ)
  | .tagged c n k _ => if 0 < n then (onFirst q b c n).take k else []
  | _ => []

structure Tags (info : List γ) (s : St α γ) (ins : List (In α γ)) (ks : List Keep) : Prop where
  ring : gotTags 0 s.calls ++ s.poller.tags = keptTags (some info) 0 ins ks ++ flight (pend (some info) ins ks) s.published s.w
  between : Between 0 s.published (keptTags (some info) 0 ins ks)
  lower : ∀ t ∈ s.poller.tags, (got s.calls).length ≤ t.1
  upper : ∀ t ∈ gotTags 0 s.calls, t.1 < (got s.calls).length
  inside : Inside s.calls
  tk : ∀ n tk, s.r = .planned n tk → tk = true
  held : ∀ c, In.chunk c ∈ s.w.held → c.Ok

theorem tags_start (cap tagCap minReq maxReq : Nat) (blocking : Bool) (info : List γ) :
    Tags info (start cap tagCap minReq maxReq blocking info : St α γ) [] [] where
  ring := rfl
  between := .nil _ _
  lower := fun _ h => by cases h
  upper := fun _ h => by cases h
  inside := fun _ h => by cases h
  tk := fun _ _ h => by cases h
  held := fun _ h => by cases h

theorem flight_between {q : Option (List γ)} {b : Nat} {w : WPos α γ} (h : ∀ c, In.chunk c ∈ w.held → c.Ok) :
    ∃ hi, b ≤ hi ∧ Between b hi (flight q b w) := by
  cases w with
  | tagged c n k a =>
    simp only [flight]
    split
    · rename_i hn
      exact ⟨b + n, Nat.le_add_right .., between_onFirst q b c n k (h c (by simp [WPos.held])) hn⟩
    · exact ⟨b, Nat.le_refl _, .nil _ _⟩
  | _ => exact ⟨b, Nat.le_refl _, .nil _ _⟩

/-- what is in the ring is in order -/
theorem Tags.sorted {info : List γ} {s : St α γ} {ins : List (In α γ)} {ks : List Keep} (h : Tags info s ins ks) :
    s.poller.tags.Pairwise fun a b => a.1 ≤ b.1 := by
  obtain ⟨hi, h1, h2⟩ := flight_between (q := pend (some info) ins ks) (b := s.published) h.held
  have := (h.between.append h2 (Nat.zero_le _) h1).1
  rw [← h.ring] at this
  exact (List.pairwise_append.1 this).2.1

theorem tags_step {info : List γ} {s s' : St α γ} {ins : List (In α γ)} {ks : List Keep} (hc : Common info s ins ks)
    (h : Tags info s ins ks) (a : Act α γ) (hs : step s a = some s') (hok : ∀ c, a = .offer c → c.Ok)
    (htk : ∀ n tk, a = .poll n tk → tk = true) :
    Tags info s' (nextIns s.w ins a) (nextKeep s.w ks a) := by
  cases a with
  | meta' m =>
    cases hw : s.w with
    | idle =>
      simp only [step, hw, Option.some.injEq] at hs; subst hs
      obtain ⟨e1, e2, e3, e4, e5⟩ := snoc_meta hc.fits m
      have hr := h.ring; rw [hw] at hr
      show Tags info _ (ins ++ [.meta' m]) ks
      exact { h with ring := by rw [e2]; exact hr, between := by rw [e2]; exact h.between, held := fun c hc => by cases hc }
    | _ => simp only [step, hw] at hs; cases hs
  | offer c =>
    cases hw : s.w with
    | idle =>
      simp only [step, hw, Option.some.injEq] at hs; subst hs
      have hr := h.ring; rw [hw] at hr
      exact { h with ring := hr, held := fun c' hc' => (by
                simp only [WPos.held, List.mem_singleton, In.chunk.injEq] at hc'
                exact hc' ▸ hok c rfl) }
    | _ => simp only [step, hw] at hs; cases hs
  | planTags =>
    cases hw : s.w with
    | sized c n =>
      simp only [step, hw, Option.some.injEq] at hs; subst hs
      have hr := h.ring; rw [hw] at hr
      have hh := h.held; rw [hw] at hh
      exact { h with ring := hr, held := hh }
    | _ => simp only [step, hw] at hs; cases hs
  | pubTags =>
    cases hw : s.w with
    | planned c n k av =>
      have hp := hc.w; rw [hw] at hp
      have hr := h.ring; rw [hw] at hr
      have hh := h.held; rw [hw] at hh
      simp only [flight, List.append_nil] at hr
      simp only [step, hw] at hs
      by_cases hnk : 0 < n ∧ 0 < k
      · rw [if_pos hnk] at hs
        by_cases hroom : s.poller.tags.length + k ≤ s.poller.tagCap
        · rw [if_pos hroom] at hs
          simp only [Option.some.injEq] at hs; subst hs
          have hent : (tagEntries s c n).take k = (onFirst (pend (some info) ins ks) s.published c n).take k := by
            rw [tagEntries_eq, hp.1]
          have hge : ∀ t ∈ (tagEntries s c n).take k, s.published ≤ t.1 := by
            rw [hent]
            exact fun t ht => ((between_onFirst _ s.published c n k (hh c (by simp [WPos.held])) hnk.1).2 t ht).1
          show Tags info _ ins ks
          refine { h with ring := ?_, lower := ?_, held := hh }
          · simp only [flight, if_pos hnk.1, hent, ← List.append_assoc, hr]
          · intro t ht
            rcases List.mem_append.1 ht with ht | ht
            · exact h.lower t ht
            · have h1 := hge t ht
              have h2 := congrArg List.length hc.data
              have h3 := hc.pub
              simp only [List.length_append] at h2
              dsimp only
              omega
        · rw [if_neg hroom] at hs; cases hs
      · rw [if_neg hnk] at hs
        simp only [Option.some.injEq] at hs; subst hs
        show Tags info _ ins ks
        refine { h with ring := ?_, held := hh }
        have : flight (pend (some info) ins ks) s.published (.tagged c n k av) = [] := by
          simp only [flight]
          split
          · rename_i hn
            have : k = 0 := by omega
            rw [this]; rfl
          · rfl
        simp only [this, List.append_nil]; exact hr
    | _ => simp only [step, hw] at hs; cases hs
  | pubData =>
    cases hw : s.w with
    | tagged c n k av =>
      have hp := hc.w; rw [hw] at hp
      obtain ⟨h1, h2, h3, h4, h5, h6, h7⟩ := hp
      have hr := h.ring; rw [hw] at hr
      have hh := h.held; rw [hw] at hh
      simp only [step, hw] at hs
      by_cases hroom : s.poller.data.length + n ≤ s.poller.cap
      · rw [if_pos hroom] at hs
        simp only [Option.some.injEq] at hs; subst hs
        obtain ⟨e1, e2, e3, e4, e5⟩ := snoc_chunk hc.fits c ⟨n, k⟩ h2 (h5 ▸ h6)
        show Tags info _ (ins ++ [.chunk c]) (ks ++ [⟨n, k⟩])
        have hpub : 0 + (kept ins ks).length = s.published := by rw [Nat.zero_add, hc.pub]
        refine { h with ring := ?_, between := ?_, held := fun c hc => by cases hc }
        · rw [e2, hpub]
          simp only [flight, List.append_nil] at hr ⊢
          exact hr
        · rw [e2, hpub]
          dsimp only
          split
          · rename_i hn
            exact h.between.append (between_onFirst _ _ c n k (hh c (by simp [WPos.held])) hn) (Nat.zero_le _) (Nat.le_add_right ..)
          · rw [List.append_nil]
            exact ⟨h.between.1, fun t ht => ⟨Nat.zero_le _, by have := (h.between.2 t ht).2; omega⟩⟩
      · rw [if_neg hroom] at hs; cases hs
    | _ => simp only [step, hw] at hs; cases hs
  | stop =>
    cases hw : s.w with
    | idle =>
      simp only [step, hw, Option.some.injEq] at hs; subst hs
      have hr := h.ring; rw [hw] at hr
      exact { h with ring := hr, held := fun c hc => by cases hc }
    | _ => simp only [step, hw] at hs; cases hs
  | poll req tk =>
    cases hr : s.r with
    | idle =>
      simp only [step, hr] at hs
      split at hs
      · simp only [Option.some.injEq] at hs; subst hs
        exact h
      · simp only [Option.some.injEq] at hs; subst hs
        exact { h with tk := fun n tk' he => (by
                  simp only [RPos.planned.injEq] at he
                  rw [← he.2]; exact htk _ _ rfl) }
    | _ => simp only [step, hr] at hs; cases hs
  | call =>
    cases hr : s.r with
    | planned n tk =>
      have htrue := h.tk n tk hr
      subst htrue
      have hrd := hc.read; have hpl := hc.plan n _ hr
      rw [hr] at hrd
      simp only [RPos.out, Nat.add_zero] at hrd
      simp only [step, hr, if_true, Option.some.injEq] at hs; subst hs
      obtain ⟨f1, f2, f3⟩ := split_at (d := s.poller.read + n) h.sorted
      have hlen : ∀ ts : List (Tag γ), (got (s.calls ++ [⟨s.poller.data.take n, ts⟩])).length = s.poller.read + n := by
        intro ts
        rw [got_append]
        simp [got, Nat.min_eq_left hpl, hrd]
      have hlow : ∀ t ∈ relevant s.poller n, s.poller.read ≤ t.1 := fun t ht => by
        rw [hrd]; exact h.lower t ((List.takeWhile_sublist _).mem ht)
      have hnew : gotTags (0 + (got s.calls).length)
          [(⟨s.poller.data.take n, (relevant s.poller n).map fun t => ⟨t.1 - s.poller.read, t.2⟩⟩ : Call α γ)] = relevant s.poller n := by
        simp only [gotTags, List.append_nil, List.map_map, Nat.zero_add, ← hrd]
        conv => rhs; rw [← List.map_id (relevant s.poller n)]
        refine List.map_congr_left fun t ht => ?_
        have := hlow t ht
        simp only [Function.comp]
        show (s.poller.read + (t.1 - s.poller.read), t.2) = t
        rw [Nat.add_sub_of_le this]
      show Tags info _ ins ks
      refine { h with ring := ?_, lower := ?_, upper := ?_, inside := ?_, tk := fun _ _ he => by cases he }
      · rw [gotTags_append, hnew, List.append_assoc]
        show _ ++ (relevant s.poller n ++ s.poller.tags.drop (relevant s.poller n).length) = _
        rw [show relevant s.poller n ++ s.poller.tags.drop (relevant s.poller n).length = s.poller.tags from f3]
        exact h.ring
      · intro t ht
        rw [hlen]
        exact f2 t ht
      · intro t ht
        rw [hlen]
        rw [gotTags_append, hnew] at ht
        rcases List.mem_append.1 ht with ht | ht
        · have := h.upper t ht; omega
        · exact f1 t ht
      · intro c hc t ht
        rcases List.mem_append.1 hc with hc | hc
        · exact h.inside c hc t ht
        · simp only [List.mem_singleton] at hc
          subst hc
          obtain ⟨u, hu, rfl⟩ := List.mem_map.1 ht
          have h1 := f1 u hu
          have h2 := hlow u hu
          simp only [List.length_take, Nat.min_eq_left hpl]
          omega
    | _ => simp only [step, hr] at hs; cases hs
  | consume =>
    cases hr : s.r with
    | called n =>
      simp only [step, hr, Option.some.injEq] at hs; subst hs
      exact { h with tk := fun _ _ he => (by cases he) }
    | _ => simp only [step, hr] at hs; cases hs

theorem arrived_append (a b : List (Act α γ)) : arrived (a ++ b) = arrived a ++ arrived b := by
  induction a with
  | nil => rfl
  | cons x r ih => cases x <;> simp [arrived, ih]

/-- any interleaving -/
theorem run_common {info : List γ} {s s' : St α γ} {ins : List (In α γ)} {ks : List Keep} (as : List (Act α γ))
    (h : Common info s ins ks) (hs : run s as = some s') :
    ∃ ins' ks', Common info s' ins' ks' ∧ ins' ++ s'.w.held = ins ++ s.w.held ++ arrived as ∧ s'.blocking = s.blocking ∧
      (Tags info s ins ks → (∀ c, Act.offer c ∈ as → c.Ok) → TakesTags as → Tags info s' ins' ks') := by
  induction as generalizing s ins ks with
  | nil =>
    simp only [run, Option.some.injEq] at hs; subst hs
    exact ⟨ins, ks, h, by simp [arrived], rfl, fun ht _ _ => ht⟩
  | cons a r ih =>
    simp only [run] at hs
    cases ha : step s a with
    | none => rw [ha] at hs; cases hs
    | some s1 =>
      rw [ha] at hs
      obtain ⟨c1, c2, c3⟩ := common_step h a ha
      obtain ⟨ins', ks', d1, d2, d3, d4⟩ := ih c1 hs
      refine ⟨ins', ks', d1, ?_, d3.trans c3, ?_⟩
      · rw [d2, c2, List.append_assoc _ (arrived [a]), ← arrived_append]; rfl
      · intro ht hok htk
        exact d4 (tags_step h ht a ha (fun c e => hok c (e ▸ List.mem_cons_self)) fun n tk e => htk n tk (e ▸ List.mem_cons_self))
          (fun c hc => hok c (List.mem_cons_of_mem _ hc)) fun n tk hm => htk n tk (List.mem_cons_of_mem _ hm)

/-- the tags handed out are those of the samples handed out -/
theorem Tags.got {info : List γ} {s : St α γ} {ins : List (In α γ)} {ks : List Keep} (hc : Common info s ins ks)
    (h : Tags info s ins ks) :
    gotTags 0 s.calls = (keptTags (some info) 0 ins ks).filter fun t => t.1 < (got s.calls).length := by
  have hpub : (Verif.Sink.got s.calls).length ≤ s.published := by
    have h2 := congrArg List.length hc.data
    have h3 := hc.pub
    simp only [List.length_append] at h2
    omega
  obtain ⟨hi, h1, h2⟩ := flight_between (q := pend (some info) ins ks) (b := s.published) h.held
  have e := congrArg (List.filter fun t => decide (t.1 < (Verif.Sink.got s.calls).length)) h.ring
  rw [List.filter_append, List.filter_append] at e
  have e1 : (gotTags 0 s.calls).filter (fun t => decide (t.1 < (Verif.Sink.got s.calls).length)) = gotTags 0 s.calls :=
    List.filter_eq_self.2 fun t ht => by simpa using h.upper t ht
  have e2 : s.poller.tags.filter (fun t => decide (t.1 < (Verif.Sink.got s.calls).length)) = [] :=
    List.filter_eq_nil_iff.2 fun t ht => by simpa using h.lower t ht
  have e3 : (flight (pend (some info) ins ks) s.published s.w).filter (fun t => decide (t.1 < (Verif.Sink.got s.calls).length)) = [] :=
    List.filter_eq_nil_iff.2 fun t ht => by have := (h2.2 t ht).1; simp only [decide_eq_true_eq]; omega
  rw [e1, e2, e3, List.append_nil, List.append_nil] at e
  exact e

end Verif.Sink
