import Verif.Msg.Spec
/-!
# Helper lemmas for C68 and C69
-/
namespace Verif.Msg
variable {σ : Type} {n : Names} {o : Owner σ} {table extra : List (String × Handler σ)}

def after (n : Names) (table : List (String × Handler σ)) : Blk σ → List Msg → Blk σ
  | b, [] => b
  | b, m :: ms => after n table (answer n table b m).1 ms

def replies (n : Names) (table : List (String × Handler σ)) : Blk σ → List Msg → List Msg
  | _, [] => []
  | b, m :: ms => (answer n table b m).2.toList ++ replies n table (answer n table b m).1 ms

theorem after_append (b : Blk σ) (l r : List Msg) : after n table b (l ++ r) = after n table (after n table b l) r := by
  induction l generalizing b with
  | nil => rfl
  | cons m l ih => exact ih _

theorem replies_append (b : Blk σ) (l r : List Msg) :
    replies n table b (l ++ r) = replies n table b l ++ replies n table (after n table b l) r := by
  induction l generalizing b with
  | nil => rfl
  | cons m l ih => simp only [List.cons_append, replies, after, ih, List.append_assoc]

/-- Without failed reservations, everything is processed and every reply is published. -/
theorem processMessages_ok {room : List Bool} (h : false ∉ room) (b : Blk σ) (ms : List Msg) :
    ∃ room', processMessages n table true room b ms = ⟨after n table b ms, replies n table b ms, room', true⟩ ∧ false ∉ room' := by
  induction ms generalizing b room with
  | nil => exact ⟨room, rfl, h⟩
  | cons m ms ih =>
    simp only [processMessages, after, replies]
    rcases ha : answer n table b m with ⟨b', _ | r⟩
    · simpa using ih h b'
    · obtain ⟨room', e, hr⟩ := ih (room := room.tail) (fun hm => h (List.mem_of_mem_tail hm)) b'
      have h1 : room.head? ≠ some false := fun e => h (List.mem_of_mem_head? (by rw [e]; rfl))
      refine ⟨room', ?_, hr⟩
      simp [h1, e]

/-- In any case: what is published is a beginning of the replies; if the call returned, it is all of them. -/
theorem processMessages_any (room : List Bool) (b : Blk σ) (ms : List Msg) :
    (processMessages n table true room b ms).out <+: replies n table b ms ∧
    ((processMessages n table true room b ms).returned = true →
      (processMessages n table true room b ms).out = replies n table b ms ∧ (processMessages n table true room b ms).blk = after n table b ms) := by
  induction ms generalizing b room with
  | nil => exact ⟨List.prefix_refl _, fun _ => ⟨rfl, rfl⟩⟩
  | cons m ms ih =>
    simp only [processMessages, after, replies]
    rcases ha : answer n table b m with ⟨b', _ | r⟩
    · simpa using ih room b'
    · by_cases h : room.head? = some false
      · simp [h]
      · simp only [h, Bool.true_eq_false, if_false]
        refine ⟨?_, fun hr => ?_⟩
        · simpa using (ih room.tail b').1
        · have := (ih room.tail b').2 hr
          simp [this.1, this.2]

theorem answer_not_for {b : Blk σ} {m : Msg} (h : ¬ For n m) : answer n table b m = (b, none) := by
  unfold For at h
  unfold answer
  rw [if_pos (by grind)]

theorem answer_unknown {b : Blk σ} {m : Msg} (hl : lookup m.endpoint table = none) : answer n table b m = (b, none) := by
  unfold answer
  split
  · rfl
  · rw [hl]

theorem answer_known {b : Blk σ} {m : Msg} {h : Handler σ} (hf : For n m) (hl : lookup m.endpoint table = some h) :
    answer n table b m = finish n m (h b m) := by
  unfold For at hf
  rw [answer, if_neg (by grind), hl]

theorem lookup_mem {e : String} {h : Handler σ} (hl : lookup e table = some h) : (e, h) ∈ table := by
  induction table with
  | nil => cases hl
  | cons x r ih =>
    obtain ⟨k, h'⟩ := x
    simp only [lookup] at hl
    split at hl
    · next hk => cases hl; subst hk; exact .head _
    · exact .tail _ (ih hl)

theorem lookup_append (e : String) (a r : List (String × Handler σ)) :
    lookup e (a ++ r) = (lookup e a).or (lookup e r) := by
  induction a with
  | nil => rfl
  | cons x a ih =>
    obtain ⟨k, h⟩ := x
    simp only [List.cons_append, lookup]
    split
    · rfl
    · exact ih

/-- The callback of each property -/
def callback (o : Owner σ) (p : String) : Option (Handler σ) := lookup p (standard o)

theorem lookup_standard {p : String} {h : Handler σ} (hp : callback o p = some h) : lookup p (standard o ++ extra) = some h := by
  rw [lookup_append, show lookup p (standard o) = some h from hp]; rfl

theorem cb_Heartbeat : callback o "Heartbeat" = some (heartbeatCb o) := rfl
theorem cb_Echo : callback o "Echo" = some echoCb := rfl
theorem cb_LifecycleState : callback o "LifecycleState" = some (lifecycleCb o) := rfl
theorem cb_Settings : callback o "Settings" = some (settingsCb o) := rfl
theorem cb_StagedSettings : callback o "StagedSettings" = some (stagedCb o) := rfl
theorem cb_StoreDefaults : callback o "StoreDefaults" = some (storeDefaultsCb o) := rfl
theorem cb_ResetDefaults : callback o "ResetDefaults" = some (resetDefaultsCb o) := rfl
theorem cb_ActiveContext : callback o "ActiveContext" = some (activeContextCb o) := rfl
theorem cb_SettingsCtx : callback o "SettingsCtx" = some (settingsCtxCb o) := rfl
theorem cb_SettingsContexts : callback o "SettingsContexts" = some (settingsContextsCb o) := rfl
theorem cb_MetaInformation : callback o "MetaInformation" = some (metaCb o) := rfl
theorem cb_UiConstraints : callback o "UiConstraints" = some (uiCb o) := rfl

/-- The twelve properties, one by one -/
theorem callback_cases {p : String} {h : Handler σ} (hp : p ∈ properties) (hh : callback o p = some h) :
    p = "Heartbeat" ∧ h = (heartbeatCb o) ∨
    p = "Echo" ∧ h = echoCb ∨
    p = "LifecycleState" ∧ h = (lifecycleCb o) ∨
    p = "Settings" ∧ h = (settingsCb o) ∨
    p = "StagedSettings" ∧ h = (stagedCb o) ∨
    p = "StoreDefaults" ∧ h = (storeDefaultsCb o) ∨
    p = "ResetDefaults" ∧ h = (resetDefaultsCb o) ∨
    p = "ActiveContext" ∧ h = (activeContextCb o) ∨
    p = "SettingsCtx" ∧ h = (settingsCtxCb o) ∨
    p = "SettingsContexts" ∧ h = (settingsContextsCb o) ∨
    p = "MetaInformation" ∧ h = (metaCb o) ∨
    p = "UiConstraints" ∧ h = (uiCb o) := by
  simp only [properties, List.mem_cons, List.not_mem_nil, or_false] at hp
  rcases hp with rfl | rfl | rfl | rfl | rfl | rfl | rfl | rfl | rfl | rfl | rfl | rfl
  · rw [cb_Heartbeat] at hh; exact .inl ⟨rfl, (Option.some.inj hh).symm⟩
  · rw [cb_Echo] at hh; exact .inr (.inl ⟨rfl, (Option.some.inj hh).symm⟩)
  · rw [cb_LifecycleState] at hh; exact .inr (.inr (.inl ⟨rfl, (Option.some.inj hh).symm⟩))
  · rw [cb_Settings] at hh; exact .inr (.inr (.inr (.inl ⟨rfl, (Option.some.inj hh).symm⟩)))
  · rw [cb_StagedSettings] at hh; exact .inr (.inr (.inr (.inr (.inl ⟨rfl, (Option.some.inj hh).symm⟩))))
  · rw [cb_StoreDefaults] at hh; exact .inr (.inr (.inr (.inr (.inr (.inl ⟨rfl, (Option.some.inj hh).symm⟩)))))
  · rw [cb_ResetDefaults] at hh; exact .inr (.inr (.inr (.inr (.inr (.inr (.inl ⟨rfl, (Option.some.inj hh).symm⟩))))))
  · rw [cb_ActiveContext] at hh; exact .inr (.inr (.inr (.inr (.inr (.inr (.inr (.inl ⟨rfl, (Option.some.inj hh).symm⟩)))))))
  · rw [cb_SettingsCtx] at hh; exact .inr (.inr (.inr (.inr (.inr (.inr (.inr (.inr (.inl ⟨rfl, (Option.some.inj hh).symm⟩))))))))
  · rw [cb_SettingsContexts] at hh; exact .inr (.inr (.inr (.inr (.inr (.inr (.inr (.inr (.inr (.inl ⟨rfl, (Option.some.inj hh).symm⟩)))))))))
  · rw [cb_MetaInformation] at hh; exact .inr (.inr (.inr (.inr (.inr (.inr (.inr (.inr (.inr (.inr (.inl ⟨rfl, (Option.some.inj hh).symm⟩))))))))))
  · rw [cb_UiConstraints] at hh; exact .inr (.inr (.inr (.inr (.inr (.inr (.inr (.inr (.inr (.inr (.inr ⟨rfl, (Option.some.inj hh).symm⟩))))))))))

theorem callback_some {p : String} (hp : p ∈ properties) : ∃ h, callback o p = some h := by
  simp only [properties, List.mem_cons, List.not_mem_nil, or_false] at hp
  rcases hp with rfl | rfl | rfl | rfl | rfl | rfl | rfl | rfl | rfl | rfl | rfl | rfl <;> exact ⟨_, rfl⟩

theorem lookup_none {e : String} {t : List (String × Handler σ)} (h : e ∉ t.map (·.1)) : lookup e t = none := by
  induction t with
  | nil => rfl
  | cons x t ih =>
    obtain ⟨k, g⟩ := x
    simp only [List.map_cons, List.mem_cons, not_or] at h
    rw [lookup, if_neg (fun hk => h.1 hk.symm), ih h.2]

theorem callback_none {p : String} (hp : p ∉ properties) : callback o p = none :=
  lookup_none (show p ∉ (standard o).map (·.1) from hp)

/-- What one callback may return for a request -/
def Fits (m : Msg) : Out → Prop
  | .reply r => r.client = m.client ∧ r.endpoint = m.endpoint ∧ r.protocol = m.protocol ∧ r.rbac = m.rbac
  | .silent => Quiet m
  | .threw _ => True

theorem fits_lifecycleSet {b : Blk σ} {m : Msg} (he : m.endpoint = "LifecycleState") (hc : m.cmd = .set) : Fits m (lifecycleSet o b m).2 := by
  have hq : Quiet m := .inr ⟨hc, .inl (by rw [he]; simp)⟩
  unfold lifecycleSet
  repeat' split
  all_goals first | exact hq | trivial

theorem fits_stagedSet {b : Blk σ} {m : Msg} (he : m.endpoint = "StagedSettings") (hc : m.cmd = .set) : Fits m (stagedSet o b m).2 := by
  unfold stagedSet
  repeat' split
  · trivial
  · trivial
  · next h => exact .inr ⟨hc, .inr ⟨he, h⟩⟩
  · exact ⟨rfl, rfl, rfl, rfl⟩
  · trivial

theorem fits_stageAndDrop {b : Blk σ} {m : Msg} (he : m.endpoint = "Settings" ∨ m.endpoint = "UiConstraints") (hc : m.cmd = .set) :
    Fits m (stageAndDrop o b m).2 := by
  have hq : Quiet m := .inr ⟨hc, .inl (by rcases he with he | he <;> rw [he] <;> simp)⟩
  unfold stageAndDrop
  repeat' split
  all_goals first | exact hq | trivial

theorem fits_settingsCtx {b : Blk σ} {m : Msg} : Fits m (settingsCtxCb o b m).2 := by
  unfold settingsCtxCb
  split
  · trivial
  · split
    · trivial
    · unfold settingsCtxBody
      repeat' split
      all_goals first | trivial | exact ⟨rfl, rfl, rfl, rfl⟩

theorem fits {p : String} {h : Handler σ} {b : Blk σ} {m : Msg} (hp : p ∈ properties) (hm : m.endpoint = p) (hh : callback o p = some h) :
    Fits m (h b m).2 := by
  have hs : p ∈ subscribable → m.cmd = .subscribe ∨ m.cmd = .unsubscribe → Quiet m := fun h1 h2 => .inl ⟨h2, hm ▸ h1⟩
  rcases callback_cases hp hh with ⟨e, rfl⟩ | ⟨e, rfl⟩ | ⟨e, rfl⟩ | ⟨e, rfl⟩ | ⟨e, rfl⟩ | ⟨e, rfl⟩ | ⟨e, rfl⟩ | ⟨e, rfl⟩ | ⟨e, rfl⟩ | ⟨e, rfl⟩ | ⟨e, rfl⟩ | ⟨e, rfl⟩ <;> subst e
  · unfold heartbeatCb
    split
    case h_3 hc => exact hs (by decide) (.inl hc)
    case h_4 hc => exact hs (by decide) (.inr hc)
    all_goals first | trivial | exact ⟨rfl, rfl, rfl, rfl⟩
  · unfold echoCb
    split
    all_goals first | trivial | exact ⟨rfl, rfl, rfl, rfl⟩
  · unfold lifecycleCb
    split
    case h_1 hc => exact fits_lifecycleSet hm hc
    case h_3 hc => exact hs (by decide) (.inl hc)
    case h_4 hc => exact hs (by decide) (.inr hc)
    all_goals first | trivial | exact ⟨rfl, rfl, rfl, rfl⟩
  · unfold settingsCb
    split
    case h_1 hc => exact fits_stageAndDrop (.inl hm) hc
    case h_3 hc => exact hs (by decide) (.inl hc)
    case h_4 hc => exact hs (by decide) (.inr hc)
    all_goals first | trivial | exact ⟨rfl, rfl, rfl, rfl⟩
  · unfold stagedCb
    split
    case h_1 hc => exact fits_stagedSet hm hc
    case h_3 hc => exact hs (by decide) (.inl hc)
    case h_4 hc => exact hs (by decide) (.inr hc)
    all_goals first | trivial | exact ⟨rfl, rfl, rfl, rfl⟩
  · unfold storeDefaultsCb
    split
    case h_1 hc =>
      have hq : Quiet m := .inr ⟨hc, .inl (by rw [hm]; simp)⟩
      split
      · exact hq
      · trivial
    case h_2 => trivial
  · unfold resetDefaultsCb
    split
    case h_1 hc =>
      have hq : Quiet m := .inr ⟨hc, .inl (by rw [hm]; simp)⟩
      split
      · exact hq
      · trivial
    case h_2 => trivial
  · unfold activeContextCb activeReply
    repeat' split
    all_goals first | trivial | exact ⟨rfl, rfl, rfl, rfl⟩
  · exact fits_settingsCtx
  · unfold settingsContextsCb
    split
    all_goals first | trivial | exact ⟨rfl, rfl, rfl, rfl⟩
  · unfold metaCb
    split
    case h_2 hc => exact hs (by decide) (.inl hc)
    case h_3 hc => exact hs (by decide) (.inr hc)
    all_goals first | trivial | exact ⟨rfl, rfl, rfl, rfl⟩
  · unfold uiCb
    split
    case h_1 hc => exact fits_stageAndDrop (.inr hm) hc
    case h_3 hc => exact hs (by decide) (.inl hc)
    case h_4 hc => exact hs (by decide) (.inr hc)
    all_goals first | trivial | exact ⟨rfl, rfl, rfl, rfl⟩

/-- The answer to a request for one of the standard properties -/
theorem answer_standard {b : Blk σ} {m : Msg} (hf : For n m) (hp : m.endpoint ∈ properties) :
    (∃ r, (answer n (standard o ++ extra) b m).2 = some r ∧ AnswerTo n m r) ∨
    (Quiet m ∧ (answer n (standard o ++ extra) b m).2 = none) := by
  obtain ⟨h, hh⟩ := callback_some (o := o) hp
  have hfit := fits (b := b) hp rfl hh
  rw [answer_known hf (lookup_standard hh)]
  rcases hr : h b m with ⟨b', r | _ | e⟩ <;> rw [hr] at hfit
  · exact .inl ⟨_, rfl, rfl, rfl, hfit.1, hfit.2.1, hfit.2.2.1, hfit.2.2.2⟩
  · exact .inr ⟨hfit, rfl⟩
  · exact .inl ⟨_, rfl, rfl, rfl, rfl, rfl, rfl, rfl⟩

/-- Every answer is final, from the block, to the client of the request, and the request was for the block. -/
theorem answer_basic (hw : Wellbehaved extra) {b : Blk σ} {m r : Msg} (hr : (answer n (standard o ++ extra) b m).2 = some r) :
    For n m ∧ r.cmd = .fin ∧ r.service = n.unique ∧ r.client = m.client := by
  by_cases hf : For n m
  · refine ⟨hf, ?_⟩
    by_cases hp : m.endpoint ∈ properties
    · rcases answer_standard (o := o) (extra := extra) (b := b) hf hp with ⟨r', h1, h2⟩ | ⟨_, h1⟩
      · rw [h1] at hr; cases hr; exact ⟨h2.cmd, h2.service, h2.client⟩
      · rw [h1] at hr; cases hr
    · have hl := lookup_append m.endpoint (standard o) extra
      rw [show lookup m.endpoint (standard o) = none from callback_none hp, Option.none_or] at hl
      cases hx : lookup m.endpoint extra with
      | none => rw [answer_unknown (hl.trans hx)] at hr; cases hr
      | some h =>
        rw [answer_known hf (hl.trans hx)] at hr
        have hm := hw.mirrors _ _ (lookup_mem hx) b m
        rcases ho : h b m with ⟨b', r' | _ | e⟩ <;> rw [ho] at hr hm
        · cases hr; exact ⟨rfl, rfl, hm r' rfl⟩
        · cases hr
        · cases hr; exact ⟨rfl, rfl, rfl⟩
  · rw [answer_not_for hf] at hr; cases hr

/-- Every reply to a list of messages is a reply to one of them. -/
theorem mem_replies {b : Blk σ} {ms : List Msg} {r : Msg} (h : r ∈ replies n table b ms) :
    ∃ pre m post, ms = pre ++ m :: post ∧ (answer n table (after n table b pre) m).2 = some r := by
  induction ms generalizing b with
  | nil => cases h
  | cons m ms ih =>
    simp only [replies, List.mem_append, Option.mem_toList] at h
    rcases h with h | h
    · exact ⟨[], m, ms, rfl, h⟩
    · obtain ⟨pre, m', post, e, h⟩ := ih h
      exact ⟨m :: pre, m', post, by rw [e]; rfl, h⟩

theorem replies_client (hw : Wellbehaved extra) {b : Blk σ} {ms : List Msg} {r : Msg} (h : r ∈ replies n (standard o ++ extra) b ms) :
    ∃ m ∈ ms, For n m ∧ r.cmd = .fin ∧ r.service = n.unique ∧ r.client = m.client := by
  obtain ⟨pre, m, post, e, h⟩ := mem_replies h
  exact ⟨m, by rw [e]; simp, answer_basic hw h⟩

/-- The replies to a client who sent one message -/
theorem replies_to (hw : Wellbehaved extra) {b : Blk σ} {pre post : List Msg} {m : Msg}
    (hu : ∀ u ∈ pre ++ post, u.client ≠ m.client) :
    (replies n (standard o ++ extra) b (pre ++ m :: post)).filter (fun r => r.client = m.client) =
      (answer n (standard o ++ extra) (after n (standard o ++ extra) b pre) m).2.toList := by
  have hnone : ∀ (b : Blk σ) ms, (∀ u ∈ ms, u.client ≠ m.client) →
      (replies n (standard o ++ extra) b ms).filter (fun r => r.client = m.client) = [] := by
    intro b ms h
    rw [List.filter_eq_nil_iff]
    intro r hr
    obtain ⟨u, hu, _, _, _, e⟩ := replies_client hw hr
    simpa [e] using h u hu
  rw [replies_append, List.filter_append, hnone _ _ (fun u h => hu u (List.mem_append_left _ h)), replies, List.filter_append,
    hnone _ _ (fun u h => hu u (List.mem_append_right _ h)), List.append_nil, List.nil_append, List.filter_eq_self]
  intro r hr
  simpa using (answer_basic hw (Option.mem_toList.1 hr)).2.2.2

theorem sent_append (l r : List Event) : sent (l ++ r) = sent l ++ sent r := by
  induction l with
  | nil => rfl
  | cons e l ih => cases e <;> simp [sent, ih]

theorem notify_not_fin (b : Blk σ) (c : Bool) (p : String) (body : Body) : (notify n c b p body).filter (fun r => r.cmd = .fin) = [] := by
  rw [List.filter_eq_nil_iff]
  intro r hr
  unfold notify at hr
  split at hr
  · cases hr
  · obtain ⟨s, _, rfl⟩ := List.mem_map.1 hr
    simp

/-- All replies are final answers. -/
theorem replies_fin {b : Blk σ} {ms : List Msg} : (replies n table b ms).filter (fun r => r.cmd = .fin) = replies n table b ms := by
  rw [List.filter_eq_self]
  intro r hr
  obtain ⟨pre, m, post, _, h⟩ := mem_replies hr
  by_cases hf : For n m
  · cases hl : lookup m.endpoint table with
    | none => rw [answer_unknown hl] at h; cases h
    | some g =>
      rw [answer_known hf hl] at h
      rcases ho : g (after n table b pre) m with ⟨b', r' | _ | e⟩ <;> rw [ho] at h <;> cases h <;> rfl
  · rw [answer_not_for hf] at h; cases h

/-- A history without failed reservations -/
structure Good (n : Names) (table : List (String × Handler σ)) (s : σ) (msgs : List Msg) (i : Inst σ) : Prop where
  room : false ∉ i.room
  split : ∃ done, msgs = done ++ i.inbox ∧ i.blk = after n table ⟨s, []⟩ done ∧
    i.out.filter (fun r => r.cmd = .fin) = replies n table ⟨s, []⟩ done

theorem good_foldl {s : σ} {msgs : List Msg} {i : Inst σ} (h : Good n table s msgs i) (evs : List Event) :
    Good n table s (msgs ++ sent evs) (evs.foldl (Inst.step n o table) i) := by
  induction evs generalizing msgs i with
  | nil => simpa [sent] using h
  | cons e evs ih =>
    obtain ⟨hroom, done, e1, e2, e3⟩ := h
    cases e with
    | send m =>
      have := ih (msgs := msgs ++ [m]) (i := i.step n o table (.send m)) ⟨hroom, done, by rw [e1, List.append_assoc]; rfl, e2, e3⟩
      simpa [sent, List.append_assoc] using this
    | call =>
      obtain ⟨room', ep, hr⟩ := processMessages_ok (n := n) (table := table) hroom i.blk i.inbox
      have := ih (msgs := msgs) (i := i.step n o table .call) (by
        refine ⟨?_, done ++ i.inbox, ?_, ?_, ?_⟩
        · simpa [Inst.step, Inst.processScheduled, ep] using hr
        · simp [Inst.step, Inst.processScheduled, ep, e1]
        · simp only [Inst.step, Inst.processScheduled, ep]
          rw [e2, after_append]
        · simp only [Inst.step, Inst.processScheduled, ep]
          rw [List.filter_append, List.filter_append, e3, notify_not_fin, replies_append, replies_fin, e2, List.append_nil])
      simpa [sent] using this
    | tell p body =>
      have := ih (msgs := msgs) (i := i.step n o table (.tell p body)) (by
        refine ⟨hroom, done, e1, e2, ?_⟩
        simp only [Inst.step, List.filter_append, e3, notify_not_fin, List.append_nil])
      simpa [sent] using this

theorem good_run {s : σ} {room : List Bool} (h : false ∉ room) (evs : List Event) :
    Good n table s (sent evs) (run n o table s room evs) := by
  have := good_foldl (n := n) (o := o) (table := table) (s := s) (msgs := []) (i := ⟨⟨s, []⟩, [], [], room⟩)
    ⟨h, [], rfl, rfl, rfl⟩ evs
  rw [List.nil_append] at this
  exact this

end Verif.Msg
