import Verif.Msg.Props
/-!
# C69 — who is notified of a property
-/
namespace Verif.Msg
variable {σ : Type} (n : Names) (o : Owner σ) (extra : List (String × Handler σ))

/-! ## what a message does to the subscriptions -/

/-- What a callback leaves of the subscriptions -/
def SubsEffect (b : Blk σ) (m : Msg) (b' : Blk σ) : Prop :=
  (m.endpoint ∈ subscribable ∧ m.cmd = .subscribe → b'.subs = (b.subscribe m.endpoint m.client).subs) ∧
  (m.endpoint ∈ subscribable ∧ m.cmd = .unsubscribe → b'.subs = (b.unsubscribe m.endpoint m.client).subs) ∧
  (¬ (m.endpoint ∈ subscribable ∧ (m.cmd = .subscribe ∨ m.cmd = .unsubscribe)) → b'.subs = b.subs)

variable {n o extra}

theorem subsEffect_same {b b' : Blk σ} {m : Msg} (h : b'.subs = b.subs) (hn : ¬ (m.endpoint ∈ subscribable ∧ (m.cmd = .subscribe ∨ m.cmd = .unsubscribe))) :
    SubsEffect b m b' :=
  ⟨fun h' => absurd ⟨h'.1, .inl h'.2⟩ hn, fun h' => absurd ⟨h'.1, .inr h'.2⟩ hn, fun _ => h⟩

theorem lifecycleSet_subs (b : Blk σ) (m : Msg) : (lifecycleSet o b m).1.subs = b.subs := by
  unfold lifecycleSet; repeat' split
  all_goals rfl

theorem stagedSet_subs (b : Blk σ) (m : Msg) : (stagedSet o b m).1.subs = b.subs := by
  unfold stagedSet; repeat' split
  all_goals rfl

theorem stageAndDrop_subs (b : Blk σ) (m : Msg) : (stageAndDrop o b m).1.subs = b.subs := by
  have h := stagedSet_subs (o := o) b m
  unfold stageAndDrop
  split
  · rfl
  · rcases hx : stagedSet o b m with ⟨b', r | _ | e⟩ <;> rw [hx] at h <;> exact h

theorem subsEffect {p : String} {h : Handler σ} {b : Blk σ} {m : Msg} (hp : p ∈ properties) (hm : m.endpoint = p) (hh : callback o p = some h) :
    SubsEffect b m (h b m).1 := by
  have sub : ∀ b' : Blk σ, m.cmd = .subscribe → m.endpoint ∈ subscribable → b'.subs = (b.subscribe m.endpoint m.client).subs → SubsEffect b m b' := by
    intro b' h1 h2 h3
    exact ⟨fun _ => h3, fun h => absurd (h1.symm.trans h.2) (by decide), fun h => absurd ⟨h2, .inl h1⟩ h⟩
  have unsub : ∀ b' : Blk σ, m.cmd = .unsubscribe → m.endpoint ∈ subscribable → b'.subs = (b.unsubscribe m.endpoint m.client).subs → SubsEffect b m b' := by
    intro b' h1 h2 h3
    exact ⟨fun h => absurd (h1.symm.trans h.2) (by decide), fun _ => h3, fun h => absurd ⟨h2, .inr h1⟩ h⟩
  have other : ∀ b' : Blk σ, m.cmd ≠ .subscribe → m.cmd ≠ .unsubscribe → b'.subs = b.subs → SubsEffect b m b' :=
    fun b' h1 h2 h3 => subsEffect_same h3 (fun h => h.2.elim h1 h2)
  have never : ∀ b' : Blk σ, p ∉ subscribable → b'.subs = b.subs → SubsEffect b m b' :=
    fun b' h1 h3 => subsEffect_same h3 (fun h => h1 (hm ▸ h.1))
  rcases callback_cases hp hh with ⟨e, rfl⟩ | ⟨e, rfl⟩ | ⟨e, rfl⟩ | ⟨e, rfl⟩ | ⟨e, rfl⟩ | ⟨e, rfl⟩ | ⟨e, rfl⟩ | ⟨e, rfl⟩ | ⟨e, rfl⟩ | ⟨e, rfl⟩ | ⟨e, rfl⟩ | ⟨e, rfl⟩ <;> subst e
  · unfold heartbeatCb
    split
    case h_3 hc => exact sub _ hc (by rw [hm]; decide) (by rw [hm])
    case h_4 hc => exact unsub _ hc (by rw [hm]; decide) (by rw [hm])
    case h_1 hc => exact other _ (by rw [hc]; decide) (by rw [hc]; decide) rfl
    case h_2 hc => exact other _ (by rw [hc]; decide) (by rw [hc]; decide) rfl
    case h_5 h1 h2 h3 h4 => exact other _ (fun h => h3 h) (fun h => h4 h) rfl
  · refine never _ (by decide) ?_
    unfold echoCb; split <;> rfl
  · unfold lifecycleCb
    split
    case h_1 hc => exact other _ (by rw [hc]; decide) (by rw [hc]; decide) (lifecycleSet_subs _ _)
    case h_2 hc => exact other _ (by rw [hc]; decide) (by rw [hc]; decide) rfl
    case h_3 hc => exact sub _ hc (by rw [hm]; decide) (by rw [hm])
    case h_4 hc => exact unsub _ hc (by rw [hm]; decide) (by rw [hm])
    case h_5 h1 h2 h3 h4 => exact other _ (fun h => h3 h) (fun h => h4 h) rfl
  · unfold settingsCb
    split
    case h_1 hc => exact other _ (by rw [hc]; decide) (by rw [hc]; decide) (stageAndDrop_subs _ _)
    case h_2 hc => exact other _ (by rw [hc]; decide) (by rw [hc]; decide) rfl
    case h_3 hc => exact sub _ hc (by rw [hm]; decide) (by rw [hm])
    case h_4 hc => exact unsub _ hc (by rw [hm]; decide) (by rw [hm])
    case h_5 h1 h2 h3 h4 => exact other _ (fun h => h3 h) (fun h => h4 h) rfl
  · unfold stagedCb
    split
    case h_1 hc => exact other _ (by rw [hc]; decide) (by rw [hc]; decide) (stagedSet_subs _ _)
    case h_2 hc => exact other _ (by rw [hc]; decide) (by rw [hc]; decide) rfl
    case h_3 hc => exact sub _ hc (by rw [hm]; decide) (by rw [hm])
    case h_4 hc => exact unsub _ hc (by rw [hm]; decide) (by rw [hm])
    case h_5 h1 h2 h3 h4 => exact other _ (fun h => h3 h) (fun h => h4 h) rfl
  · refine never _ (by decide) ?_
    unfold storeDefaultsCb; repeat' split
    all_goals rfl
  · refine never _ (by decide) ?_
    unfold resetDefaultsCb; repeat' split
    all_goals rfl
  · refine never _ (by decide) ?_
    unfold activeContextCb; repeat' split
    all_goals rfl
  · refine never _ (by decide) ?_
    unfold settingsCtxCb settingsCtxBody; repeat' split
    all_goals rfl
  · refine never _ (by decide) ?_
    unfold settingsContextsCb; split <;> rfl
  · unfold metaCb
    split
    case h_1 hc => exact other _ (by rw [hc]; decide) (by rw [hc]; decide) rfl
    case h_2 hc => exact sub _ hc (by rw [hm]; decide) (by rw [hm])
    case h_3 hc => exact unsub _ hc (by rw [hm]; decide) (by rw [hm])
    case h_4 h1 h2 h3 => exact other _ (fun h => h2 h) (fun h => h3 h) rfl
  · unfold uiCb
    split
    case h_1 hc => exact other _ (by rw [hc]; decide) (by rw [hc]; decide) (stageAndDrop_subs _ _)
    case h_2 hc => exact other _ (by rw [hc]; decide) (by rw [hc]; decide) rfl
    case h_3 hc => exact sub _ hc (by rw [hm]; decide) (by rw [hm])
    case h_4 hc => exact unsub _ hc (by rw [hm]; decide) (by rw [hm])
    case h_5 h1 h2 h3 h4 => exact other _ (fun h => h3 h) (fun h => h4 h) rfl

theorem subscribable_properties {p : String} (h : p ∈ subscribable) : p ∈ properties := by
  simp only [subscribable, List.mem_cons, List.not_mem_nil, or_false] at h
  rcases h with rfl | rfl | rfl | rfl | rfl | rfl <;> decide

/-- The effect of a message for the block -/
theorem answer_subs (hw : Wellbehaved extra) {b : Blk σ} {m : Msg} (hf : For n m) : SubsEffect b m (answer n (standard o ++ extra) b m).1 := by
  by_cases hp : m.endpoint ∈ properties
  · obtain ⟨h, hh⟩ := callback_some (o := o) hp
    rw [answer_known hf (lookup_standard hh), finish_blk]
    exact subsEffect hp rfl hh
  · refine subsEffect_same ?_ (fun h => hp (subscribable_properties h.1))
    have hl := lookup_append m.endpoint (standard o) extra
    rw [show lookup m.endpoint (standard o) = none from callback_none hp, Option.none_or] at hl
    cases hx : lookup m.endpoint extra with
    | none => rw [answer_unknown (hl.trans hx)]
    | some h => rw [answer_known hf (hl.trans hx), finish_blk]; exact hw.keeps _ _ (lookup_mem hx) b m

/-- A list ends with a message -/
theorem subscribed_snoc {p c : String} {hist : List Msg} {m : Msg} :
    Subscribed n p c (hist ++ [m]) ↔
      (c ≠ "" ∧ For n m ∧ m.cmd = .subscribe ∧ m.endpoint = p ∧ m.client = c) ∨
      (Subscribed n p c hist ∧ ¬ (For n m ∧ m.cmd = .unsubscribe ∧ m.endpoint = p ∧ m.client = c)) := by
  constructor
  · rintro ⟨hc, pre, x, post, e, hx, hpost⟩
    rcases List.eq_nil_or_concat post with rfl | ⟨post', y, rfl⟩
    · obtain ⟨rfl, h⟩ := List.append_inj' (s₁ := hist) (t₁ := [m]) (s₂ := pre) (t₂ := [x]) e rfl
      cases h
      exact .inl ⟨hc, hx⟩
    · obtain ⟨rfl, h⟩ := List.append_inj' (s₁ := hist) (t₁ := [m]) (s₂ := pre ++ x :: post') (t₂ := [y]) (by rw [e]; simp) rfl
      cases h
      exact .inr ⟨⟨hc, pre, x, post', rfl, hx, fun u hu => hpost u (by simp [hu])⟩, hpost _ (by simp)⟩
  · rintro (⟨hc, h⟩ | ⟨⟨hc, pre, x, post, rfl, hx, hpost⟩, hm⟩)
    · exact ⟨hc, hist, m, [], by simp, h, by simp⟩
    · refine ⟨hc, pre, x, post ++ [m], by simp, hx, ?_⟩
      intro u hu
      rcases List.mem_append.1 hu with hu | hu
      · exact hpost u hu
      · rw [List.mem_singleton.1 hu]; exact hm

theorem mem_subscribe {b : Blk σ} {p c p' c' : String} :
    (p', c') ∈ (b.subscribe p c).subs ↔ (p', c') ∈ b.subs ∨ (c ≠ "" ∧ p' = p ∧ c' = c) := by
  unfold Blk.subscribe
  split
  · next h => simp [h]
  · next h =>
    split
    · next hm =>
      constructor
      · exact .inl
      · rintro (h | ⟨_, rfl, rfl⟩)
        · exact h
        · exact hm
    · simp [h]

theorem nodup_subscribe {b : Blk σ} {p c : String} (h : b.subs.Nodup) : (b.subscribe p c).subs.Nodup := by
  unfold Blk.subscribe
  split
  · exact h
  · split
    · exact h
    · next hm => exact List.nodup_append.2 ⟨h, by simp, by intro a ha b hb; simp only [List.mem_singleton] at hb; subst hb; intro e; exact hm (e ▸ ha)⟩

theorem mem_unsubscribe {b : Blk σ} {p c p' c' : String} :
    (p', c') ∈ (b.unsubscribe p c).subs ↔ (p', c') ∈ b.subs ∧ ¬ (p' = p ∧ c' = c) := by
  simp only [Blk.unsubscribe, List.mem_filter, decide_eq_true_eq, ne_eq, Prod.mk.injEq]

theorem snoc_induction {P : List Msg → Prop} (h0 : P []) (hs : ∀ l m, P l → P (l ++ [m])) (l : List Msg) : P l := by
  have : ∀ k (l : List Msg), l.length = k → P l := by
    intro k
    induction k with
    | zero => intro l hl; rw [List.length_eq_zero_iff.1 hl]; exact h0
    | succ k ih =>
      intro l hl
      rcases List.eq_nil_or_concat l with rfl | ⟨l', m, rfl⟩
      · cases hl
      · rw [List.concat_eq_append]; exact hs _ _ (ih l' (by simpa using hl))
  exact this _ l rfl

/-- The subscriptions of a block are what its messages say. -/
theorem subs_after (hw : Wellbehaved extra) (s : σ) (hist : List Msg) :
    (after n (standard o ++ extra) ⟨s, []⟩ hist).subs.Nodup ∧
    ∀ p c, (p, c) ∈ (after n (standard o ++ extra) ⟨s, []⟩ hist).subs ↔ p ∈ subscribable ∧ Subscribed n p c hist := by
  refine snoc_induction (P := fun hist => (after n (standard o ++ extra) ⟨s, []⟩ hist).subs.Nodup ∧
    ∀ p c, (p, c) ∈ (after n (standard o ++ extra) ⟨s, []⟩ hist).subs ↔ p ∈ subscribable ∧ Subscribed n p c hist) ?_ ?_ hist
  · refine ⟨List.nodup_nil, fun p c => ⟨(fun h => by cases h), ?_⟩⟩
    rintro ⟨_, _, pre, m, post, e, _⟩
    cases pre <;> cases e
  · intro l m ⟨ihn, ih⟩
    have step : after n (standard o ++ extra) ⟨s, []⟩ (l ++ [m]) = (answer n (standard o ++ extra) (after n (standard o ++ extra) ⟨s, []⟩ l) m).1 := by
      rw [after_append]; rfl
    rw [step]
    generalize after n (standard o ++ extra) ⟨s, []⟩ l = b at ihn ih ⊢
    by_cases hf : For n m
    · obtain ⟨e1, e2, e3⟩ := answer_subs (o := o) hw (b := b) hf
      by_cases h1 : m.endpoint ∈ subscribable ∧ m.cmd = .subscribe
      · rw [e1 h1]
        refine ⟨nodup_subscribe ihn, fun p c => ?_⟩
        rw [mem_subscribe, ih, subscribed_snoc]
        have hcmd : m.cmd ≠ .unsubscribe := by rw [h1.2]; decide
        constructor
        · rintro (⟨h2, h3⟩ | ⟨h2, rfl, rfl⟩)
          · exact ⟨h2, .inr ⟨h3, fun h => hcmd h.2.1⟩⟩
          · exact ⟨h1.1, .inl ⟨h2, hf, h1.2, rfl, rfl⟩⟩
        · rintro ⟨h2, ⟨h3, _, _, h4, h5⟩ | ⟨h3, _⟩⟩
          · exact .inr ⟨by rw [h5]; exact h3, h4.symm, h5.symm⟩
          · exact .inl ⟨h2, h3⟩
      · by_cases h2 : m.endpoint ∈ subscribable ∧ m.cmd = .unsubscribe
        · rw [e2 h2]
          refine ⟨ihn.filter _, fun p c => ?_⟩
          rw [mem_unsubscribe, ih, subscribed_snoc]
          have hcmd : m.cmd ≠ .subscribe := by rw [h2.2]; decide
          constructor
          · rintro ⟨⟨h3, h4⟩, h5⟩
            exact ⟨h3, .inr ⟨h4, fun h => h5 ⟨h.2.2.1.symm, h.2.2.2.symm⟩⟩⟩
          · rintro ⟨h3, ⟨_, _, h4, _⟩ | ⟨h4, h5⟩⟩
            · exact absurd h4 hcmd
            · exact ⟨⟨h3, h4⟩, fun h => h5 ⟨hf, h2.2, h.1.symm, h.2.symm⟩⟩
        · rw [e3 (fun h => h.2.elim (fun x => h1 ⟨h.1, x⟩) (fun x => h2 ⟨h.1, x⟩))]
          refine ⟨ihn, fun p c => ?_⟩
          rw [ih, subscribed_snoc]
          constructor
          · rintro ⟨h3, h4⟩
            exact ⟨h3, .inr ⟨h4, fun h => h2 ⟨by rw [h.2.2.1]; exact h3, h.2.1⟩⟩⟩
          · rintro ⟨h3, ⟨_, _, h4, h5, _⟩ | ⟨h4, _⟩⟩
            · exact absurd ⟨by rw [h5]; exact h3, h4⟩ h1
            · exact ⟨h3, h4⟩
    · rw [answer_not_for hf]
      refine ⟨ihn, fun p c => ?_⟩
      rw [ih, subscribed_snoc]
      constructor
      · rintro ⟨h3, h4⟩; exact ⟨h3, .inr ⟨h4, fun h => hf h.1⟩⟩
      · rintro ⟨h3, ⟨_, h4, _⟩ | ⟨h4, _⟩⟩
        · exact absurd h4 hf
        · exact ⟨h3, h4⟩

/-! ## C69 -/

/-- The notifications of one property to one client -/
theorem notify_to {b : Blk σ} (hn : b.subs.Nodup) (p c : String) (body : Body) :
    (notify n true b p body).filter (fun r => r.client = c) =
      if (p, c) ∈ b.subs then [{ cmd := .notify, service := n.unique, client := c, endpoint := p, data := .ok body }] else [] := by
  unfold notify
  rw [if_neg (by decide), List.filter_map, List.filter_filter]
  induction hs : b.subs generalizing b with
  | nil => simp
  | cons x l ih =>
    obtain ⟨p', c'⟩ := x
    rw [hs] at hn
    obtain ⟨h1, h2⟩ := List.nodup_cons.1 hn
    have ih := ih (b := { b with subs := l }) h2 rfl
    by_cases he : p' = p ∧ c' = c
    · obtain ⟨rfl, rfl⟩ := he
      rw [if_neg h1] at ih
      rw [List.filter_cons, if_pos (by simp), if_pos List.mem_cons_self, List.map_cons, ih]
    · have : ¬ ((p, c) = (p', c')) := fun h => he (by cases h; exact ⟨rfl, rfl⟩)
      simp only [List.mem_cons, this, false_or]
      rw [← ih, List.filter_cons, if_neg]
      simpa [and_comm] using he

variable (n o extra)

/-- **C69, exactly the subscribers are notified.** When a property changes, one notification goes to each client who has subscribed to it and has not
cancelled since, and none to anybody else; `hist` are the messages the block has handled so far. -/
theorem subscribers_notified {s : σ} {room : List Bool} {evs : List Event} (hw : Wellbehaved extra) (hroom : false ∉ room) {hist : List Msg}
    (hh : sent evs = hist ++ (run n o (standard o ++ extra) s room evs).inbox) {p : String} (hp : p ∈ subscribable) (body : Body) :
    ∃ sentOut, (run n o (standard o ++ extra) s room (evs ++ [.tell p body])).out = (run n o (standard o ++ extra) s room evs).out ++ sentOut ∧
      ∀ c, (Subscribed n p c hist → sentOut.filter (fun r => r.client = c) =
          [{ cmd := .notify, service := n.unique, client := c, endpoint := p, data := .ok body }]) ∧
        (¬ Subscribed n p c hist → sentOut.filter (fun r => r.client = c) = []) := by
  obtain ⟨_, done, e1, e2, _⟩ := good_run (n := n) (o := o) (table := standard o ++ extra) (s := s) hroom evs
  have hd : hist = done := List.append_cancel_right (hh.symm.trans e1)
  subst hd
  obtain ⟨hn, hm⟩ := subs_after (n := n) (o := o) hw s hist
  refine ⟨notify n true (run n o (standard o ++ extra) s room evs).blk p body, by rw [run, List.foldl_append]; rfl, fun c => ?_⟩
  rw [e2, notify_to hn]
  exact ⟨fun h => if_pos ((hm p c).2 ⟨hp, h⟩), fun h => if_neg (fun h' => h ((hm p c).1 h').2)⟩

/-- **C69, heartbeat.** With each call of `processScheduledMessages`, one heartbeat goes to each client subscribed to it before the call, and
none to anybody else. -/
theorem heartbeat_to_subscribers {s : σ} {room : List Bool} {evs : List Event} (hw : Wellbehaved extra) (hroom : false ∉ room) {hist : List Msg}
    (hh : sent evs = hist ++ (run n o (standard o ++ extra) s room evs).inbox) :
    ∃ sentOut, (run n o (standard o ++ extra) s room (evs ++ [.call])).out = (run n o (standard o ++ extra) s room evs).out ++ sentOut ∧
      ∀ c, (Subscribed n "Heartbeat" c hist → ∃ t, sentOut.filter (fun r => r.cmd = .notify ∧ r.client = c) =
          [{ cmd := .notify, service := n.unique, client := c, endpoint := "Heartbeat", data := .ok [("heartbeat", .u64 t)] }]) ∧
        (¬ Subscribed n "Heartbeat" c hist → sentOut.filter (fun r => r.cmd = .notify ∧ r.client = c) = []) := by
  obtain ⟨hr, done, e1, e2, _⟩ := good_run (n := n) (o := o) (table := standard o ++ extra) (s := s) hroom evs
  have hd : hist = done := List.append_cancel_right (hh.symm.trans e1)
  subst hd
  obtain ⟨hn, hm⟩ := subs_after (n := n) (o := o) hw s hist
  generalize hi : run n o (standard o ++ extra) s room evs = i at *
  obtain ⟨room', ep, _⟩ := processMessages_ok (n := n) (table := standard o ++ extra) hr i.blk i.inbox
  refine ⟨notify n true i.blk "Heartbeat" [("heartbeat", .u64 (o.now i.blk.own))] ++ replies n (standard o ++ extra) i.blk i.inbox, ?_, fun c => ?_⟩
  · rw [run, List.foldl_append, show evs.foldl (Inst.step n o (standard o ++ extra)) ⟨⟨s, []⟩, [], [], room⟩ = i from hi]
    simp [Inst.step, Inst.processScheduled, ep]
  · have h1 : (replies n (standard o ++ extra) i.blk i.inbox).filter (fun r => r.cmd = .notify ∧ r.client = c) = [] := by
      rw [List.filter_eq_nil_iff]
      intro r hr
      rw [← replies_fin] at hr
      have := (List.mem_filter.1 hr).2
      simp only [decide_eq_true_eq] at this ⊢
      rw [this]; intro h; exact absurd h.1 (by decide)
    have h2 : ∀ body, (notify n true i.blk "Heartbeat" body).filter (fun r => r.cmd = .notify ∧ r.client = c) =
        (notify n true i.blk "Heartbeat" body).filter (fun r => r.client = c) := by
      intro body
      refine List.filter_congr fun r hr => ?_
      unfold notify at hr
      rw [if_neg (by decide)] at hr
      obtain ⟨x, _, rfl⟩ := List.mem_map.1 hr
      simp
    rw [List.filter_append, h1, List.append_nil, h2, e2, notify_to hn]
    exact ⟨fun h => ⟨_, if_pos ((hm _ c).2 ⟨by decide, h⟩)⟩, fun h => if_neg (fun h' => h ((hm _ c).1 h').2)⟩

/-! ## a concrete case -/

/-- Two clients subscribe to the settings, one of them twice and one under no name; the second cancels. -/
def subscriptions : List Event :=
  [.send { cmd := .subscribe, client := "a", endpoint := "Settings" }, .send { cmd := .subscribe, service := "amplifier", client := "b", endpoint := "Settings" },
   .call, .send { cmd := .subscribe, client := "a", endpoint := "Settings" }, .send { cmd := .unsubscribe, client := "b", endpoint := "Settings" },
   .send { cmd := .subscribe, client := "", endpoint := "Settings" }, .send { cmd := .subscribe, client := "c", endpoint := "Heartbeat" }, .call]

example : (run names toy (standard toy ++ []) {} [] (subscriptions ++ [.tell "Settings" [("gain", .u64 3)], .call])).out =
    [{ cmd := .notify, service := "Gain#1", client := "a", endpoint := "Settings", data := .ok [("gain", .u64 3)] },
     { cmd := .notify, service := "Gain#1", client := "c", endpoint := "Heartbeat", data := .ok [("heartbeat", .u64 42)] }] := by decide +kernel

/-- the hypotheses of `subscribers_notified` for this history -/
example : sent subscriptions = sent subscriptions ++ (run names toy (standard toy ++ []) {} [] subscriptions).inbox ∧ "Settings" ∈ subscribable ∧
    Subscribed names "Settings" "a" (sent subscriptions) := by
  refine ⟨by decide +kernel, by decide, by decide, [], _, _, rfl, ⟨.inl rfl, rfl, rfl, rfl⟩, ?_⟩
  decide +kernel

end Verif.Msg
