import Verif.Msg.Lemmas
/-!
# Helper lemmas for C68: what the callbacks do to the block
-/
namespace Verif.Msg
open Verif.LifeCycle (State)
variable {σ : Type} {n : Names} {o : Owner σ} {table extra : List (String × Handler σ)}

theorem parseState_name {s : String} {st : State} (h : parseState s = some st) : s = stateName st := by
  have := List.find?_some h
  exact (of_decide_eq_true this).symm

theorem parseState_of_name (st : State) : parseState (stateName st) = some st := by
  cases st <;> decide

/-- A `Set` without answer was carried out; one with an answer failed, and the answer says so. -/
def SetOutcome (o : Owner σ) (b : Blk σ) (m : Msg) (x : Blk σ × Out) : Prop :=
  (x.2 = .silent ∧ ∃ s', SetDone o b.own m s' ∧ x.1 = { b with own := s' }) ∨
  (∃ e, x.2 = .threw e ∧ ∀ s', ¬ SetDone o b.own m s')

theorem lifecycleSet_outcome {b : Blk σ} {m : Msg} (he : m.endpoint = "LifecycleState") : SetOutcome o b m (lifecycleSet o b m) := by
  have inv : ∀ s', SetDone o b.own m s' → ∃ body st, m.data = .ok body ∧ find "state" body = some (.str (stateName st)) ∧
      o.changeState b.own st = (s', .ok true) := by
    intro s' h
    cases h with
    | lifecycle _ h1 h2 h3 => exact ⟨_, _, h1, h2, h3⟩
    | settings h => rw [he] at h; exact absurd h (by decide)
    | store h => rw [he] at h; exact absurd h (by decide)
    | reset h => rw [he] at h; exact absurd h (by decide)
  have no : (∀ s' body st, m.data = .ok body → find "state" body = some (.str (stateName st)) → o.changeState b.own st ≠ (s', .ok true)) →
      ∀ s', ¬ SetDone o b.own m s' := fun h s' hd => by
    obtain ⟨body, st, h1, h2, h3⟩ := inv s' hd
    exact h s' body st h1 h2 h3
  unfold lifecycleSet
  split
  · next e hd => exact .inr ⟨_, rfl, no (by intro s' body st h1; rw [hd] at h1; cases h1)⟩
  · next body hd =>
    have nod : (∀ s' st, find "state" body = some (.str (stateName st)) → o.changeState b.own st ≠ (s', .ok true)) →
        ∀ s', ¬ SetDone o b.own m s' := fun h => no (by intro s' body' st h1 h2; rw [hd] at h1; cases h1; exact h s' st h2)
    split
    · next hf => exact .inr ⟨_, rfl, nod (by intro s' st h; rw [hf] at h; cases h)⟩
    · next s hf =>
      split
      · next hp => exact .inr ⟨_, rfl, nod (by
          intro s' st h; rw [hf] at h; cases h; rw [parseState_of_name] at hp; cases hp)⟩
      · next st hp =>
        have hs := parseState_name hp
        subst hs
        have same : ∀ st', find "state" body = some (.str (stateName st')) → st' = st := by
          intro st' h; rw [hf] at h
          have h1 : stateName st = stateName st' := Val.str.inj (Option.some.inj h)
          have h2 := parseState_of_name st'
          rw [← h1, parseState_of_name] at h2
          exact (Option.some.inj h2).symm
        split
        · next s' hc => exact .inl ⟨rfl, s', .lifecycle he hd hf hc, rfl⟩
        · next s' hc => exact .inr ⟨_, rfl, nod (by intro s'' st' h; rw [same st' h, hc]; simp)⟩
        · next s' e hc => exact .inr ⟨_, rfl, nod (by intro s'' st' h; rw [same st' h, hc]; simp)⟩
    · next v hv hf => exact .inr ⟨_, rfl, nod (by intro s' st h; rw [hf] at h; cases h; exact (hv _ rfl).elim)⟩

theorem stage_inv {b : Blk σ} {m : Msg} {s' : σ} (he : m.endpoint = "Settings" ∨ m.endpoint = "UiConstraints" ∨ m.endpoint = "StagedSettings")
    (h : SetDone o b.own m s') : ∃ body, m.data = .ok body ∧ o.stage b.own body = (s', .ok []) := by
  cases h with
  | lifecycle h => rw [h] at he; exact absurd he (by decide)
  | settings _ h1 h2 => exact ⟨_, h1, h2⟩
  | store h => rw [h] at he; exact absurd he (by decide)
  | reset h => rw [h] at he; exact absurd he (by decide)

/-- The three outcomes of staging -/
theorem stagedSet_outcome {b : Blk σ} {m : Msg} (he : m.endpoint = "Settings" ∨ m.endpoint = "UiConstraints" ∨ m.endpoint = "StagedSettings") :
    (∃ s', SetDone o b.own m s' ∧ stagedSet o b m =
      ({ b with own := s' }, if m.client = "" then .silent else .reply { m with cmd := .fin, data := .ok (o.staged s') })) ∨
    (∃ e, (stagedSet o b m).2 = .threw e ∧ ∀ s', ¬ SetDone o b.own m s') := by
  unfold stagedSet
  split
  · next e hd => exact .inr ⟨_, rfl, fun s' h => by obtain ⟨body, h1, _⟩ := stage_inv he h; rw [hd] at h1; cases h1⟩
  · next body hd =>
    have no : (∀ s', o.stage b.own body ≠ (s', .ok [])) → ∀ s', ¬ SetDone o b.own m s' := fun hn s' h => by
      obtain ⟨body', h1, h2⟩ := stage_inv he h
      rw [hd] at h1; cases h1; exact hn s' h2
    split
    · next s' e hs => exact .inr ⟨_, rfl, no (by intro s''; rw [hs]; simp)⟩
    · next s' hs => exact .inl ⟨s', .settings he hd hs, rfl⟩
    · next s' ks hk hs => exact .inr ⟨_, rfl, no (by intro s''; rw [hs]; intro h; cases h; exact hk rfl)⟩

theorem stageAndDrop_outcome {b : Blk σ} {m : Msg} (he : m.endpoint = "Settings" ∨ m.endpoint = "UiConstraints") :
    SetOutcome o b m (stageAndDrop o b m) := by
  have he' : m.endpoint = "Settings" ∨ m.endpoint = "UiConstraints" ∨ m.endpoint = "StagedSettings" := he.elim .inl (.inr ∘ .inl)
  have h := stagedSet_outcome (o := o) (b := b) he'
  unfold stageAndDrop
  split
  · next e hd => exact .inr ⟨_, rfl, fun s' h => by obtain ⟨body, h1, _⟩ := stage_inv he' h; rw [hd] at h1; cases h1⟩
  · rcases h with ⟨s', hd, hs⟩ | ⟨e, hs, hn⟩
    · rw [hs]
      split
      · next heq => split at heq <;> cases heq
      · next heq => cases heq; exact .inl ⟨rfl, s', hd, rfl⟩
    · rcases hx : stagedSet o b m with ⟨b', x⟩
      rw [hx] at hs
      cases hs
      exact .inr ⟨_, rfl, hn⟩

theorem stagedQuiet_outcome {b : Blk σ} {m : Msg} (he : m.endpoint = "StagedSettings") (hc : m.client = "") :
    SetOutcome o b m (stagedSet o b m) := by
  rcases stagedSet_outcome (o := o) (b := b) (.inr (.inr he)) with ⟨s', hd, hs⟩ | h
  · rw [hs, if_pos hc]; exact .inl ⟨rfl, s', hd, rfl⟩
  · exact .inr h

theorem storeDefaults_outcome {b : Blk σ} {m : Msg} (he : m.endpoint = "StoreDefaults") (hc : m.cmd = .set) :
    SetOutcome o b m (storeDefaultsCb o b m) := by
  unfold storeDefaultsCb
  rw [hc]
  dsimp only
  split
  · next s' u hs => exact .inl ⟨rfl, s', .store he hs, rfl⟩
  · next s' e hs =>
    refine .inr ⟨_, rfl, fun s'' h => ?_⟩
    cases h with
    | lifecycle h => rw [he] at h; exact absurd h (by decide)
    | settings h => rw [he] at h; exact absurd h (by decide)
    | store _ h => rw [hs] at h; cases h
    | reset h => rw [he] at h; exact absurd h (by decide)

theorem resetDefaults_outcome {b : Blk σ} {m : Msg} (he : m.endpoint = "ResetDefaults") (hc : m.cmd = .set) :
    SetOutcome o b m (resetDefaultsCb o b m) := by
  unfold resetDefaultsCb
  rw [hc]
  dsimp only
  split
  · next s' u hs => exact .inl ⟨rfl, s', .reset he hs, rfl⟩
  · next s' e hs =>
    refine .inr ⟨_, rfl, fun s'' h => ?_⟩
    cases h with
    | lifecycle h => rw [he] at h; exact absurd h (by decide)
    | settings h => rw [he] at h; exact absurd h (by decide)
    | store h => rw [he] at h; exact absurd h (by decide)
    | reset _ h => rw [hs] at h; cases h

/-- The callback of a quiet `Set` -/
theorem quietSet_outcome {b : Blk σ} {m : Msg} (hq : Quiet m) (hc : m.cmd = .set) :
    ∃ h, callback o m.endpoint = some h ∧ SetOutcome o b m (h b m) := by
  rcases hq with ⟨h, _⟩ | ⟨_, h⟩
  · rw [hc] at h; exact absurd h (by decide)
  · simp only [List.mem_cons, List.not_mem_nil, or_false] at h
    rcases h with (h | h | h | h | h) | ⟨h, hcl⟩
    · refine ⟨lifecycleCb o, by rw [h]; rfl, ?_⟩
      simp only [lifecycleCb, hc]; exact lifecycleSet_outcome h
    · refine ⟨settingsCb o, by rw [h]; rfl, ?_⟩
      simp only [settingsCb, hc]; exact stageAndDrop_outcome (.inl h)
    · exact ⟨storeDefaultsCb o, by rw [h]; rfl, storeDefaults_outcome h hc⟩
    · exact ⟨resetDefaultsCb o, by rw [h]; rfl, resetDefaults_outcome h hc⟩
    · refine ⟨uiCb o, by rw [h]; rfl, ?_⟩
      simp only [uiCb, hc]; exact stageAndDrop_outcome (.inr h)
    · refine ⟨stagedCb o, by rw [h]; rfl, ?_⟩
      simp only [stagedCb, hc]; exact stagedQuiet_outcome h hcl

/-- A `Get` returns the value of the property and changes nothing. -/
theorem get_outcome {b : Blk σ} {m : Msg} {v : Body} (hc : m.cmd = .get) (hv : value o b.own m.endpoint = some v) :
    ∃ h, callback o m.endpoint = some h ∧ h b m = (b, .reply { m with data := .ok v }) := by
  unfold value at hv
  repeat' split at hv
  all_goals first | (cases hv; done) | skip
  · next h => cases hv; exact ⟨heartbeatCb o, by rw [h]; rfl, by simp only [heartbeatCb, hc]⟩
  · next h => cases hv; exact ⟨lifecycleCb o, by rw [h]; rfl, by simp only [lifecycleCb, hc]⟩
  · next h => cases hv; exact ⟨settingsCb o, by rw [h]; rfl, by simp only [settingsCb, hc]⟩
  · next h => cases hv; exact ⟨stagedCb o, by rw [h]; rfl, by simp only [stagedCb, hc]⟩
  · next h => cases hv; exact ⟨activeContextCb o, by rw [h]; rfl, by simp only [activeContextCb, activeReply, hc]⟩
  · next h => cases hv; exact ⟨settingsContextsCb o, by rw [h]; rfl, by simp only [settingsContextsCb, hc]⟩
  · next h => cases hv; exact ⟨metaCb o, by rw [h]; rfl, by simp only [metaCb, hc]⟩
  · next h => cases hv; exact ⟨uiCb o, by rw [h]; rfl, by simp only [uiCb, hc]⟩

/-- Only `Set`, and `Disconnect` of a stored context, change what the owner holds. -/
theorem callback_own {p : String} {h : Handler σ} {b : Blk σ} {m : Msg} (hp : p ∈ properties) (hh : callback o p = some h)
    (hc : m.cmd ≠ .set) (hd : ¬ (m.cmd = .disconnect ∧ p = "SettingsCtx")) : (h b m).1.own = b.own := by
  have sub : ∀ p c, (b.subscribe p c).own = b.own := by
    intro p c; unfold Blk.subscribe; repeat' split
    all_goals rfl
  rcases callback_cases hp hh with ⟨e, rfl⟩ | ⟨e, rfl⟩ | ⟨e, rfl⟩ | ⟨e, rfl⟩ | ⟨e, rfl⟩ | ⟨e, rfl⟩ | ⟨e, rfl⟩ | ⟨e, rfl⟩ | ⟨e, rfl⟩ | ⟨e, rfl⟩ | ⟨e, rfl⟩ | ⟨e, rfl⟩ <;> subst e
  case inr.inr.inr.inr.inr.inr.inr.inr.inl =>
    unfold settingsCtxCb settingsCtxBody
    repeat' split
    all_goals first | rfl | exact absurd (by assumption) hc | exact absurd ⟨by assumption, rfl⟩ hd
  all_goals
    first
    | (unfold heartbeatCb; split <;> first | rfl | exact sub _ _)
    | (unfold echoCb; split <;> rfl)
    | (unfold lifecycleCb; split <;> first | rfl | exact sub _ _ | (next h => exact absurd h hc))
    | (unfold settingsCb; split <;> first | rfl | exact sub _ _ | (next h => exact absurd h hc))
    | (unfold stagedCb; split <;> first | rfl | exact sub _ _ | (next h => exact absurd h hc))
    | (unfold storeDefaultsCb; split <;> first | rfl | (next h => exact absurd h hc))
    | (unfold resetDefaultsCb; split <;> first | rfl | (next h => exact absurd h hc))
    | (unfold activeContextCb; split <;> first | rfl | (next h => exact absurd h hc))
    | (unfold settingsContextsCb; split <;> rfl)
    | (unfold metaCb; split <;> first | rfl | exact sub _ _)
    | (unfold uiCb; split <;> first | rfl | exact sub _ _ | (next h => exact absurd h hc))

theorem finish_blk (m : Msg) (x : Blk σ × Out) : (finish n m x).1 = x.1 := by
  obtain ⟨b, r | _ | e⟩ := x <;> rfl

end Verif.Msg
