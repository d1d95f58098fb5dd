import Verif.Msg.Effects
/-!
# C68 — how a block answers requests

`n` are the names of the block, `o` is what lies behind its properties, `extra` are the further properties of its class; all are arbitrary. A
history is a list of events: clients send, the block's thread calls `processScheduledMessages`, the block notifies listeners.
-/
namespace Verif.Msg
open Verif.LifeCycle (State)
variable {σ : Type} (n : Names) (o : Owner σ) (extra : List (String × Handler σ))

/-- The block after it has handled the messages `ms` in one go -/
def blockAfter (s : σ) (ms : List Msg) : Blk σ := (run n o (standard o ++ extra) s [] (ms.map .send ++ [.call])).blk

theorem sent_map (ms : List Msg) : sent (ms.map .send) = ms := by
  induction ms with
  | nil => rfl
  | cons m ms ih => simp [sent, ih]

theorem blockAfter_eq (s : σ) (ms : List Msg) : blockAfter n o extra s ms = after n (standard o ++ extra) ⟨s, []⟩ ms := by
  have h : ∀ (ms : List Msg) (i : Inst σ), (ms.map Event.send).foldl (Inst.step n o (standard o ++ extra)) i = { i with inbox := i.inbox ++ ms } := by
    intro ms
    induction ms with
    | nil => intro i; simp
    | cons m ms ih => intro i; simp [ih, Inst.step]
  unfold blockAfter run
  rw [List.foldl_append, h]
  obtain ⟨room', e, _⟩ := processMessages_ok (n := n) (table := standard o ++ extra) (room := []) (by simp) ⟨s, []⟩ ms
  simp [Inst.step, Inst.processScheduled, e]

/-- The answers to one client after all messages were handled, in terms of the one message this client sent -/
theorem answers_eq {s : σ} {room : List Bool} {evs : List Event} (hw : Wellbehaved extra) (hroom : false ∉ room)
    (hin : (run n o (standard o ++ extra) s room evs).inbox = []) {pre post : List Msg} {m : Msg} (hs : sent evs = pre ++ m :: post)
    (hu : ∀ u ∈ pre ++ post, u.client ≠ m.client) :
    answersTo m.client (run n o (standard o ++ extra) s room evs).out =
      (answer n (standard o ++ extra) (blockAfter n o extra s pre) m).2.toList := by
  obtain ⟨_, done, e1, _, e3⟩ := good_run (n := n) (o := o) (table := standard o ++ extra) (s := s) hroom evs
  rw [hin, List.append_nil, hs] at e1
  unfold answersTo
  rw [show (fun r : Msg => decide (r.cmd = .fin ∧ r.client = m.client)) = (fun r => decide (r.client = m.client) && decide (r.cmd = .fin)) by
    funext r; by_cases h1 : r.cmd = .fin <;> by_cases h2 : r.client = m.client <;> simp [h1, h2]]
  rw [← List.filter_filter, e3, ← e1, replies_to hw hu, blockAfter_eq]

/-- **C68, exactly one answer.** Once all messages have been handled, a request for the block and one of its standard properties, which is not one
of those carried out quietly, has got exactly one answer: final, from the block, with the request's client, property, protocol and token. This
holds for every `Get`. -/
theorem answered_exactly_once {s : σ} {room : List Bool} {evs : List Event} (hw : Wellbehaved extra) (hroom : false ∉ room)
    (hin : (run n o (standard o ++ extra) s room evs).inbox = []) {pre post : List Msg} {m : Msg} (hs : sent evs = pre ++ m :: post)
    (hu : ∀ u ∈ pre ++ post, u.client ≠ m.client) (hf : For n m) (hp : m.endpoint ∈ properties) (hq : ¬ Quiet m) :
    ∃ r, answersTo m.client (run n o (standard o ++ extra) s room evs).out = [r] ∧ AnswerTo n m r := by
  rw [answers_eq n o extra hw hroom hin hs hu]
  rcases answer_standard (o := o) (extra := extra) (b := blockAfter n o extra s pre) hf hp with ⟨r, h1, h2⟩ | ⟨h, _⟩
  · exact ⟨r, by rw [h1]; rfl, h2⟩
  · exact absurd h hq

/-- **C68, quiet requests.** A quiet `Set` gets no answer if and only if it succeeded, and then the block is in the state it leads to; otherwise it gets
one answer, which is an error. -/
theorem quiet_set_outcome {s : σ} {room : List Bool} {evs : List Event} (hw : Wellbehaved extra) (hroom : false ∉ room)
    (hin : (run n o (standard o ++ extra) s room evs).inbox = []) {pre post : List Msg} {m : Msg} (hs : sent evs = pre ++ m :: post)
    (hu : ∀ u ∈ pre ++ post, u.client ≠ m.client) (hf : For n m) (hq : Quiet m) (hc : m.cmd = .set) :
    (answersTo m.client (run n o (standard o ++ extra) s room evs).out = [] ∧
      ∃ s', SetDone o (blockAfter n o extra s pre).own m s' ∧ (blockAfter n o extra s (pre ++ [m])).own = s') ∨
    ((∃ e, answersTo m.client (run n o (standard o ++ extra) s room evs).out =
        [{ m with cmd := .fin, service := n.unique, data := .error e }]) ∧
      ∀ s', ¬ SetDone o (blockAfter n o extra s pre).own m s') := by
  rw [answers_eq n o extra hw hroom hin hs hu]
  obtain ⟨h, hh, ho⟩ := quietSet_outcome (o := o) (b := blockAfter n o extra s pre) hq hc
  have hafter : blockAfter n o extra s (pre ++ [m]) = (h (blockAfter n o extra s pre) m).1 := by
    rw [blockAfter_eq, after_append, ← blockAfter_eq, after, after, answer_known hf (lookup_standard hh), finish_blk]
  rw [hafter, answer_known hf (lookup_standard hh)]
  rcases hx : h (blockAfter n o extra s pre) m with ⟨b', x⟩
  rw [hx] at ho
  rcases ho with ⟨h1, s', h2, h3⟩ | ⟨e, h1, h2⟩
  · dsimp only at h1 h3
    subst h1 h3
    exact .inl ⟨rfl, s', h2, rfl⟩
  · dsimp only at h1
    subst h1
    exact .inr ⟨⟨e, rfl⟩, h2⟩

/-- **C68, values.** The answer to a `Get` carries the value of the property at the time of the request: after the messages sent before it. -/
theorem get_returns_value {s : σ} {room : List Bool} {evs : List Event} (hw : Wellbehaved extra) (hroom : false ∉ room)
    (hin : (run n o (standard o ++ extra) s room evs).inbox = []) {pre post : List Msg} {m : Msg} (hs : sent evs = pre ++ m :: post)
    (hu : ∀ u ∈ pre ++ post, u.client ≠ m.client) (hf : For n m) (hc : m.cmd = .get) {v : Body}
    (hv : value o (blockAfter n o extra s pre).own m.endpoint = some v) :
    answersTo m.client (run n o (standard o ++ extra) s room evs).out = [{ m with cmd := .fin, service := n.unique, data := .ok v }] ∧
    blockAfter n o extra s (pre ++ [m]) = blockAfter n o extra s pre := by
  rw [answers_eq n o extra hw hroom hin hs hu]
  obtain ⟨h, hh, ho⟩ := get_outcome (o := o) (b := blockAfter n o extra s pre) hc hv
  rw [answer_known hf (lookup_standard hh), ho]
  refine ⟨rfl, ?_⟩
  rw [blockAfter_eq, after_append, ← blockAfter_eq, after, after, answer_known hf (lookup_standard hh), ho]
  rfl

/-- **C68, others are left alone.** A message for another block gets no answer. -/
theorem others_not_answered {s : σ} {room : List Bool} {evs : List Event} (hw : Wellbehaved extra) (hroom : false ∉ room)
    (hin : (run n o (standard o ++ extra) s room evs).inbox = []) {pre post : List Msg} {m : Msg} (hs : sent evs = pre ++ m :: post)
    (hu : ∀ u ∈ pre ++ post, u.client ≠ m.client) (hf : ¬ For n m) :
    answersTo m.client (run n o (standard o ++ extra) s room evs).out = [] := by
  rw [answers_eq n o extra hw hroom hin hs hu, answer_not_for hf]
  rfl

theorem after_filter (b : Blk σ) (ms : List Msg) :
    after n (standard o ++ extra) b ms = after n (standard o ++ extra) b (ms.filter (fun m => For n m)) ∧
    replies n (standard o ++ extra) b ms = replies n (standard o ++ extra) b (ms.filter (fun m => For n m)) := by
  induction ms generalizing b with
  | nil => exact ⟨rfl, rfl⟩
  | cons m ms ih =>
    by_cases hf : For n m
    · simp only [List.filter_cons, hf, decide_true, if_true, after, replies, (ih _).1, (ih _).2, and_self]
    · simpa [List.filter_cons, hf, after, replies, answer_not_for hf] using ih b

/-- **C68, messages for others have no effect**: the block is in the state, and has given the answers, as if only its own messages had been sent. -/
theorem others_have_no_effect {s : σ} {room : List Bool} {evs : List Event} (hroom : false ∉ room)
    (hin : (run n o (standard o ++ extra) s room evs).inbox = []) :
    (run n o (standard o ++ extra) s room evs).blk = blockAfter n o extra s ((sent evs).filter (fun m => For n m)) ∧
    (run n o (standard o ++ extra) s room evs).out.filter (fun r => r.cmd = .fin) =
      (run n o (standard o ++ extra) s [] (((sent evs).filter (fun m => For n m)).map .send ++ [.call])).out.filter (fun r => r.cmd = .fin) := by
  obtain ⟨_, done, e1, e2, e3⟩ := good_run (n := n) (o := o) (table := standard o ++ extra) (s := s) hroom evs
  rw [hin, List.append_nil] at e1
  subst e1
  refine ⟨by rw [e2, blockAfter_eq]; exact (after_filter n o extra _ _).1, ?_⟩
  generalize hl : (sent evs).filter (fun m => For n m) = l
  obtain ⟨_, done', f1, _, f3⟩ := good_run (n := n) (o := o) (table := standard o ++ extra) (s := s) (room := []) (by simp) (l.map .send ++ [.call])
  have hempty : (run n o (standard o ++ extra) s [] (l.map .send ++ [.call])).inbox = [] := by
    have h : ∀ (ms : List Msg) (i : Inst σ), (ms.map Event.send).foldl (Inst.step n o (standard o ++ extra)) i = { i with inbox := i.inbox ++ ms } := by
      intro ms
      induction ms with
      | nil => intro i; simp
      | cons m ms ih => intro i; simp [ih, Inst.step]
    unfold run
    rw [List.foldl_append, h]
    obtain ⟨room', e, _⟩ := processMessages_ok (n := n) (table := standard o ++ extra) (room := []) (by simp) ⟨s, []⟩ l
    simp [Inst.step, Inst.processScheduled, e]
  rw [hempty, List.append_nil, sent_append, sent_map, show sent [.call] = [] from rfl, List.append_nil] at f1
  subst f1
  rw [e3, f3, ← hl]
  exact (after_filter n o extra _ _).2

/-- **C68, only `Set` changes a block**, and `Disconnect` of a stored context: after messages without these the settings, the lifecycle state and everything
else behind the properties are as before. -/
theorem only_set_changes {s : σ} {room : List Bool} {evs : List Event} (hroom : false ∉ room)
    (hms : ∀ m ∈ sent evs, m.endpoint ∈ properties ∧ m.cmd ≠ .set ∧ ¬ (m.cmd = .disconnect ∧ m.endpoint = "SettingsCtx")) :
    (run n o (standard o ++ extra) s room evs).blk.own = s := by
  obtain ⟨_, done, e1, e2, e3⟩ := good_run (n := n) (o := o) (table := standard o ++ extra) (s := s) hroom evs
  rw [e2]
  have hd : ∀ m ∈ done, m.endpoint ∈ properties ∧ m.cmd ≠ .set ∧ ¬ (m.cmd = .disconnect ∧ m.endpoint = "SettingsCtx") :=
    fun m hm => hms m (by rw [e1]; exact List.mem_append_left _ hm)
  clear e1 e2 e3
  generalize hb : (⟨s, []⟩ : Blk σ) = b
  have hs : b.own = s := by rw [← hb]
  clear hb
  induction done generalizing b with
  | nil => exact hs
  | cons m ms ih =>
    refine ih (fun m' hm' => hd m' (.tail _ hm')) _ ?_
    obtain ⟨h1, h2, h3⟩ := hd m (.head _)
    by_cases hf : For n m
    · obtain ⟨h, hh⟩ := callback_some (o := o) h1
      rw [answer_known hf (lookup_standard hh), finish_blk, callback_own h1 hh h2 h3, hs]
    · rw [answer_not_for hf]; exact hs

/-- **C68, answers come in the order of the requests.** -/
theorem answers_in_order {s : σ} {room : List Bool} {evs : List Event} (hw : Wellbehaved extra) (hroom : false ∉ room) :
    (((run n o (standard o ++ extra) s room evs).out.filter (fun r => r.cmd = .fin)).map (·.client)).Sublist ((sent evs).map (·.client)) := by
  obtain ⟨_, done, e1, e2, e3⟩ := good_run (n := n) (o := o) (table := standard o ++ extra) (s := s) hroom evs
  rw [e3, e1, List.map_append]
  refine List.Sublist.trans ?_ (List.sublist_append_left _ _)
  clear e1 e2 e3
  generalize (⟨s, []⟩ : Blk σ) = b
  induction done generalizing b with
  | nil => exact List.Sublist.refl _
  | cons m ms ih =>
    rw [replies, List.map_append, List.map_cons]
    cases h : (answer n (standard o ++ extra) b m).2 with
    | none => exact List.Sublist.cons _ (ih _)
    | some r =>
      rw [show (Option.some r).toList.map (·.client) = [m.client] by simp [(answer_basic hw h).2.2.2]]
      exact List.Sublist.cons_cons _ (ih _)

/-! ## a full output -/

theorem out_mono (table : List (String × Handler σ)) (i : Inst σ) (evs : List Event) :
    i.out <+: (evs.foldl (Inst.step n o table) i).out := by
  induction evs generalizing i with
  | nil => exact List.prefix_refl _
  | cons e evs ih =>
    refine List.IsPrefix.trans ?_ (ih _)
    cases e with
    | send m => exact List.prefix_refl _
    | call => simp only [Inst.step, Inst.processScheduled, List.append_assoc]; exact List.prefix_append _ _
    | tell p body => exact List.prefix_append _ _

/-- What is no longer in the inbox has been answered, even if reservations fail. -/
theorem handled_foldl {msgs : List Msg} {i : Inst σ} (evs : List Event)
    (h : ∀ m ∈ msgs, m ∈ i.inbox ∨ (For n m → m.endpoint ∈ properties → ¬ Quiet m → ∃ r ∈ i.out, AnswerTo n m r)) :
    ∀ m ∈ msgs ++ sent evs, m ∈ (evs.foldl (Inst.step n o (standard o ++ extra)) i).inbox ∨
      (For n m → m.endpoint ∈ properties → ¬ Quiet m → ∃ r ∈ (evs.foldl (Inst.step n o (standard o ++ extra)) i).out, AnswerTo n m r) := by
  induction evs generalizing msgs i with
  | nil => simpa [sent] using h
  | cons e evs ih =>
    cases e with
    | send m =>
      have := ih (msgs := msgs ++ [m]) (i := i.step n o (standard o ++ extra) (.send m)) (by
        intro m' hm'
        rcases List.mem_append.1 hm' with hm' | hm'
        · rcases h m' hm' with h | h
          · exact .inl (List.mem_append_left _ h)
          · exact .inr h
        · exact .inl (List.mem_append_right _ hm'))
      simpa [sent, List.append_assoc] using this
    | call =>
      refine ih (msgs := msgs) (i := i.step n o (standard o ++ extra) .call) ?_
      intro m hm
      simp only [Inst.step, Inst.processScheduled]
      have hp := processMessages_any (n := n) (table := standard o ++ extra) i.room i.blk i.inbox
      cases hr : (processMessages n (standard o ++ extra) true i.room i.blk i.inbox).returned with
      | false =>
        rcases h m hm with h | h
        · exact .inl h
        · refine .inr fun h1 h2 h3 => ?_
          obtain ⟨r, hr, ha⟩ := h h1 h2 h3
          exact ⟨r, by simp [hr], ha⟩
      | true =>
        rw [(hp.2 hr).1]
        refine .inr fun h1 h2 h3 => ?_
        rcases h m hm with h | h
        · obtain ⟨pre, post, e⟩ := List.append_of_mem h
          rcases answer_standard (o := o) (extra := extra) (b := after n (standard o ++ extra) i.blk pre) h1 h2 with ⟨r, hr, ha⟩ | ⟨hq, _⟩
          · refine ⟨r, ?_, ha⟩
            rw [e, replies_append, replies, hr]
            simp
          · exact absurd hq h3
        · obtain ⟨r, hr, ha⟩ := h h1 h2 h3
          exact ⟨r, by simp [hr], ha⟩
    | tell p body =>
      refine ih (msgs := msgs) (i := i.step n o (standard o ++ extra) (.tell p body)) ?_
      intro m hm
      rcases h m hm with h | h
      · exact .inl h
      · refine .inr fun h1 h2 h3 => ?_
        obtain ⟨r, hr, ha⟩ := h h1 h2 h3
        exact ⟨r, List.mem_append_left _ hr, ha⟩

/-- **C68, no answer is lost.** Even if the output is full at arbitrary times: a request is either still waiting to be handled, or has been answered
at least once. -/
theorem no_answer_lost {s : σ} (room : List Bool) (evs : List Event) {m : Msg} (hm : m ∈ sent evs) (hf : For n m)
    (hp : m.endpoint ∈ properties) (hq : ¬ Quiet m) :
    m ∈ (run n o (standard o ++ extra) s room evs).inbox ∨ ∃ r ∈ (run n o (standard o ++ extra) s room evs).out, AnswerTo n m r := by
  have := handled_foldl n o extra (msgs := []) (i := ⟨⟨s, []⟩, [], [], room⟩) evs (by simp) m (by simpa using hm)
  rcases this with h | h
  · exact .inl h
  · exact .inr (h hf hp hq)

/-! ## a concrete block -/

/-- A block with one setting, `gain`; its state is the staged settings, the lifecycle state and the number of times something was staged. -/
structure Toy where
  staged : Body := []
  state : State := .idle
  count : Nat := 0
  deriving DecidableEq, Repr

def toy : Owner Toy where
  now _ := 42
  state s := s.state
  changeState s st := if Verif.LifeCycle.isValidTransition s.state st then ({ s with state := st }, .ok true) else (s, .ok false)
  get _ := [("gain", .u64 1)]
  staged s := s.staged
  stage s body := ({ s with staged := s.staged ++ body.filter (fun x => x.1 = "gain"), count := s.count + 1 }, .ok ((body.filter (fun x => x.1 ≠ "gain")).map (·.1)))
  storeDefaults s := (s, .ok ())
  resetDefaults s := (s, .error (.user 1))
  active _ := ("", 0)
  activate s _ _ := (s, .ok true)
  stored _ _ _ _ := none
  storedAll _ := [("", 0)]
  setIn s l _ _ := (s, .ok l)
  remove s _ _ := (s, .ok true)
  metaInfo _ := []
  ui _ := []

def names : Names := ⟨"Gain#1", "amplifier"⟩

/-- Six requests, in two batches: one for another block, one for an unknown property, one that fails. -/
def history : List Event :=
  [.send { cmd := .get, service := "Gain#1", client := "a", endpoint := "Settings" },
   .send { cmd := .set, service := "amplifier", client := "b", endpoint := "Settings", data := .ok [("gain", .u64 7)] },
   .call,
   .send { cmd := .get, client := "c", endpoint := "StagedSettings" },
   .send { cmd := .get, service := "Gain#2", client := "d", endpoint := "Settings" },
   .send { cmd := .get, client := "e", endpoint := "Nonsense" },
   .send { cmd := .set, client := "f", endpoint := "LifecycleState", data := .ok [("state", .str "PAUSED")] },
   .call]

theorem wellbehaved_nil : Wellbehaved ([] : List (String × Handler σ)) := ⟨nofun, nofun⟩

example : (run names toy (standard toy ++ []) {} [] history).out =
    [{ cmd := .fin, service := "Gain#1", client := "a", endpoint := "Settings", data := .ok [("gain", .u64 1)] },
     { cmd := .fin, service := "Gain#1", client := "c", endpoint := "StagedSettings", data := .ok [("gain", .u64 7)] },
     { cmd := .fin, service := "Gain#1", client := "f", endpoint := "LifecycleState", data := .error .transition }] := by decide +kernel

example : (run names toy (standard toy ++ []) {} [] history).inbox = [] := by decide +kernel

/-- the hypotheses of `answered_exactly_once` and `get_returns_value` for client `c` -/
example : ∃ r, answersTo "c" (run names toy (standard toy ++ []) {} [] history).out = [r] ∧
    AnswerTo names { cmd := .get, client := "c", endpoint := "StagedSettings" } r :=
  answered_exactly_once names toy [] (room := []) (evs := history) wellbehaved_nil (by simp) (by decide +kernel)
    (pre := (sent history).take 2) (post := (sent history).drop 3) (m := { cmd := .get, client := "c", endpoint := "StagedSettings" })
    (by decide +kernel) (by decide +kernel) (by decide) (by decide) (by decide)

/-- the hypotheses of `quiet_set_outcome` for client `f`, whose request fails -/
example : ∃ e, answersTo "f" (run names toy (standard toy ++ []) {} [] history).out =
    [{ cmd := .fin, service := "Gain#1", client := "f", endpoint := "LifecycleState", data := .error e }] := by
  rcases quiet_set_outcome names toy [] (s := {}) (room := []) (evs := history) wellbehaved_nil (by simp) (by decide +kernel)
    (pre := (sent history).take 5) (post := [])
    (m := { cmd := .set, client := "f", endpoint := "LifecycleState", data := .ok [("state", .str "PAUSED")] })
    (by decide +kernel) (by decide +kernel) (by decide) (by decide) rfl with ⟨h, _⟩ | ⟨⟨e, h⟩, _⟩
  · exact absurd h (by decide +kernel)
  · exact ⟨.transition, by decide +kernel⟩

/-- the hypotheses of `no_answer_lost`, with an output that is full once -/
example : (run names toy (standard toy ++ []) {} [false] history).inbox = [] ∧
    ∃ r ∈ (run names toy (standard toy ++ []) {} [false] history).out, r.client = "a" := by
  refine ⟨by decide +kernel, ?_⟩
  rcases no_answer_lost names toy [] (s := {}) [false] history (m := { cmd := .get, service := "Gain#1", client := "a", endpoint := "Settings" })
    (by decide +kernel) (by decide) (by decide) (by decide) with h | ⟨r, h1, h2⟩
  · exact absurd h (by decide +kernel)
  · exact ⟨r, h1, h2.client⟩

/-! ## findings -/

/-- **C68, false: every request is answered.** A request for a property which the block does not have gets no answer, not even an error. -/
theorem unknown_property_silent {s : σ} {room : List Bool} {evs : List Event} (hw : Wellbehaved extra) (hroom : false ∉ room)
    (hin : (run n o (standard o ++ extra) s room evs).inbox = []) {pre post : List Msg} {m : Msg} (hs : sent evs = pre ++ m :: post)
    (hu : ∀ u ∈ pre ++ post, u.client ≠ m.client) (hp : m.endpoint ∉ properties) (he : m.endpoint ∉ extra.map (·.1)) :
    answersTo m.client (run n o (standard o ++ extra) s room evs).out = [] := by
  rw [answers_eq n o extra hw hroom hin hs hu, answer_unknown]
  · rfl
  · rw [lookup_append, show lookup m.endpoint (standard o) = none from callback_none hp, lookup_none he]; rfl

/-- **C68, false: a request is carried out once.** If the output is full when an answer is due, all messages of the batch are handled again: the settings are
staged twice, and the first client gets two answers. -/
theorem full_output_repeats :
    let evs : List Event :=
      [.send { cmd := .set, client := "a", endpoint := "StagedSettings", data := .ok [("gain", .u64 7)] },
       .send { cmd := .get, client := "b", endpoint := "Settings" }, .call, .call]
    (run names toy (standard toy ++ []) {} [true, false] evs).inbox = [] ∧
    (run names toy (standard toy ++ []) {} [true, false] evs).blk.own.count = 2 ∧
    (answersTo "a" (run names toy (standard toy ++ []) {} [true, false] evs).out).length = 2 ∧
    (answersTo "b" (run names toy (standard toy ++ []) {} [true, false] evs).out).length = 1 := by decide +kernel

/-- **C68, false: a request answered with an error has no effect.** One unknown setting makes the whole request an error, but the known settings
are staged. -/
theorem error_but_staged :
    let evs : List Event :=
      [.send { cmd := .set, client := "a", endpoint := "Settings", data := .ok [("gain", .u64 7), ("nonsense", .u64 1)] }, .call]
    (answersTo "a" (run names toy (standard toy ++ []) {} [] evs).out).map (·.data) = [.error (.notSet ["nonsense"])] ∧
    (run names toy (standard toy ++ []) {} [] evs).blk.own.staged = [("gain", .u64 7)] := by decide +kernel

/-- **C68, false: answers are not answered.** A block that receives a final answer (its own, say) treats it as a request and answers it with an
error. -/
theorem answer_is_answered :
    (run names toy (standard toy ++ []) {} [] [.send { cmd := .fin, service := "Gain#1", client := "a", endpoint := "Settings" }, .call]).out =
      [{ cmd := .fin, service := "Gain#1", client := "a", endpoint := "Settings", data := .error .command }] := by decide +kernel

end Verif.Msg
