import Verif.Msg.SchedLemmas
import Verif.Msg.SubProps
/-!
# C70 — messages through a scheduler

The histories interleave the senders of messages, the scheduler, the threads of the blocks and the reader of the answers in every way.
-/
namespace Verif.Msg
variable {σ : Type}

theorem passesOn_eq (n : Names) : passesOn n = fun m => decide (ForBlocks n m) := by
  funext m
  rw [Bool.eq_iff_iff, decide_eq_true_iff]
  simp [passesOn, ForBlocks, and_assoc]

theorem fresh_sound {s : Sys σ} (h : Fresh s) : s.Sound :=
  ⟨fun _ k hk => (h.kids k hk).1, fun _ => h.pending⟩

theorem fresh_back {s : Sys σ} (h : Fresh s) : s.Back :=
  ⟨fun j k hk => by rw [h.out, h.back, (h.kids k (List.mem_of_getElem? hk)).2.1]; rfl, fun r hr => by rw [h.out, h.back] at hr; cases hr⟩

/-- **C70, the way there.** In every history, each block goes through what a block on its own goes through which is sent the messages for blocks
directly: these are, in order and each once, the messages for blocks that were sent to the scheduler, up to those the scheduler still has. -/
theorem delivered_as_if_direct {s : Sys σ} (hf : Fresh s) (evs : List (SysEvent σ)) (he : inits evs ≤ 1) {j : Nat} {k : Kid σ} (hk : s.kids[j]? = some k) :
    ∃ k' es, (s.run evs).kids[j]? = some k' ∧ k'.n = k.n ∧ k'.i = run k.n k.o k.table k.i.blk.own k.i.room es ∧
      sent es ++ (s.run evs).pending ++ (s.run evs).self.inbox.filter (fun m => ForBlocks s.n m) = (sentTo evs).filter (fun m => ForBlocks s.n m) := by
  obtain ⟨es, h1, h2, h3, _⟩ := run_went (fresh_sound hf) evs (by simpa [hf.connected] using he) j
  have hi : k.i = ⟨⟨k.i.blk.own, []⟩, [], [], k.i.room⟩ := by
    obtain ⟨a, b, c⟩ := hf.kids k (List.mem_of_getElem? hk)
    rcases hki : k.i with ⟨⟨x, y⟩, z, w, r⟩
    rw [hki] at a b c
    simp only at a b c
    subst a b c; rfl
  refine ⟨_, es, h1 k hk, rfl, ?_, ?_⟩
  · show es.foldl (Inst.step k.n k.o k.table) k.i = es.foldl (Inst.step k.n k.o k.table) ⟨⟨k.i.blk.own, []⟩, [], [], k.i.room⟩
    rw [← hi]
  · simp only [Sys.under, hf.pending, hf.inbox, h3, passesOn_eq, List.filter_nil, List.nil_append] at h2
    rw [← h2, List.append_assoc]

/-- **C70, the way back.** In every history, what a block has published is, in order and each once, what the scheduler has published of it and
what it still has on the way. -/
theorem published_comes_back {s : Sys σ} (hf : Fresh s) (evs : List (SysEvent σ)) (hd : DistinctNames (s.run evs)) {k : Kid σ} (hk : k ∈ (s.run evs).kids) :
    ((s.run evs).self.out ++ (s.run evs).back).filter (fun r => r.service = k.n.unique) = k.i.out := by
  obtain ⟨j, hj⟩ := List.getElem?_of_mem hk
  exact (run_back (fresh_back hf) evs hd).kid j k hj

/-- **C70, a block added later** gets, in order and each once, the messages for blocks which were under way to the blocks or are sent later. -/
theorem adopted_gets_later_messages {s : Sys σ} (hf : Fresh s) (evs evs' : List (SysEvent σ)) {n : Names} {o : Owner σ} {table : List (String × Handler σ)}
    {st : σ} {room : List Bool} (he : inits (evs ++ .adopt n o table st room :: evs') ≤ 1) :
    ∃ k es, (s.run (evs ++ .adopt n o table st room :: evs')).kids[(s.run evs).kids.length]? = some k ∧ k.n = n ∧ k.i = run n o table st room es ∧
      sent es ++ (s.run (evs ++ .adopt n o table st room :: evs')).pending ++
          (s.run (evs ++ .adopt n o table st room :: evs')).self.inbox.filter (fun m => ForBlocks s.n m) =
        (s.run evs).pending ++ (s.run evs).self.inbox.filter (fun m => ForBlocks s.n m) ++ (sentTo evs').filter (fun m => ForBlocks s.n m) := by
  have hsplit : ∀ (a b : List (SysEvent σ)), inits (a ++ b) = inits a + inits b := by
    intro a b
    induction a with
    | nil => simp [inits]
    | cons x a ih => rw [List.cons_append, inits_cons, inits_cons x a, ih]; omega
  rw [hsplit, inits_cons] at he
  have hrun : s.run (evs ++ .adopt n o table st room :: evs') = ((s.run evs).step (.adopt n o table st room)).run evs' := by
    simp [Sys.run, List.foldl_append]
  have hcon : ∀ (evs : List (SysEvent σ)) (s : Sys σ), s.Sound → inits evs ≤ (if s.connected then 0 else 1) → (s.run evs).connected = true → s.connected = true ∨ inits evs = 1 := by
    intro evs
    induction evs with
    | nil => intro s _ _ h; exact .inl h
    | cons e evs ih =>
      intro s hs hi h
      rw [inits_cons] at hi ⊢
      obtain ⟨_, _, _, _, h4, h5⟩ := step_went hs e (fun hc => by rw [if_pos hc] at hi; omega) 0
      by_cases hc : s.connected = true
      · exact .inl hc
      · have hc : s.connected = false := by simpa using hc
        have hle : inits evs ≤ if (s.step e).connected then 0 else 1 := by
          split
          · next hc' => have := h5 hc' hc; rw [if_neg (by simp [hc])] at hi; omega
          · split at hi <;> omega
        rcases ih (s.step e) h4 hle h with hx | hx
        · have := h5 hx hc; right; split at hi <;> omega
        · right; split at hi <;> omega
  obtain ⟨_, _, _, h3, h4⟩ := run_went (fresh_sound hf) evs (by simp [hf.connected]; omega) 0
  obtain ⟨_, _, _, g3, g4, _⟩ := step_went h4 (.adopt n o table st room) (fun _ => rfl) 0
  obtain ⟨es, f1, f2, f3, _⟩ := run_went g4 evs' (by
    split
    · next hc =>
      rcases hcon evs s (fresh_sound hf) (by simp [hf.connected]; omega) hc with hx | hx
      · rw [hf.connected] at hx; cases hx
      · omega
    · omega) (s.run evs).kids.length
  rw [hrun]
  refine ⟨_, es, f1 ⟨n, o, table, ⟨⟨st, []⟩, [], [], room⟩⟩ (by simp [Sys.step]), rfl, rfl, ?_⟩
  simp only [Sys.under, f3, g3, h3, passesOn_eq] at f2
  rw [List.append_assoc, f2]
  simp [Sys.step]

/-- **C70, exactly one answer.** Once no message is under way, a request sent to the scheduler which is for a block of it (by name or for everybody) and not for
the scheduler, about a standard property other than the lifecycle, and not one of those carried out quietly, has got exactly one answer from that block. -/
theorem answered_through_scheduler {s : Sys σ} (hf : Fresh s) (evs : List (SysEvent σ)) (he : inits evs ≤ 1) (hd : DistinctNames (s.run evs))
    (hdr : Drained (s.run evs)) {k : Kid σ} (hk : k ∈ s.kids) {extra : List (String × Handler σ)} (ht : k.table = standard k.o ++ extra) (hw : Wellbehaved extra)
    (hroom : false ∉ k.i.room) {pre post : List Msg} {m : Msg} (hs : sentTo evs = pre ++ m :: post) (hu : ∀ u ∈ pre ++ post, u.client ≠ m.client)
    (hm : For k.n m) (hm' : ForBlocks s.n m) (hp : m.endpoint ∈ properties) (hq : ¬ Quiet m) :
    ∃ r, (answersTo m.client (s.run evs).self.out).filter (fun r => r.service = k.n.unique) = [r] ∧ AnswerTo k.n m r := by
  obtain ⟨j, hj⟩ := List.getElem?_of_mem hk
  obtain ⟨k', es, h1, h2, h3, h4⟩ := delivered_as_if_direct hf evs he hj
  have hk' := List.mem_of_getElem? h1
  have hb := published_comes_back hf evs hd hk'
  rw [hdr.back, List.append_nil, h2] at hb
  rw [hdr.pending, hdr.inbox, List.filter_nil, List.append_nil, List.append_nil, hs, List.filter_append, List.filter_cons, if_pos (by simpa using hm')] at h4
  have hin := hdr.kids k' hk'
  rw [h3, ht] at hin
  obtain ⟨r, hr, ha⟩ := answered_exactly_once k.n k.o extra hw hroom hin h4 (by
    intro u hu'
    rcases List.mem_append.1 hu' with h | h
    · exact hu u (List.mem_append_left _ (List.mem_filter.1 h).1)
    · exact hu u (List.mem_append_right _ (List.mem_filter.1 h).1)) hm hp hq
  refine ⟨r, ?_, ha⟩
  rw [answersTo, List.filter_filter]
  rw [h3, ht] at hb
  rw [answersTo, ← hb, List.filter_filter] at hr
  rw [← hr]
  exact List.filter_congr (fun x _ => Bool.and_comm _ _)

/-- **C70, messages for the scheduler stay there**: no block of the scheduler reads a message addressed to the scheduler. -/
theorem scheduler_messages_stay {s : Sys σ} (hf : Fresh s) (evs : List (SysEvent σ)) (he : inits evs ≤ 1) {j : Nat} {k : Kid σ} (hk : s.kids[j]? = some k) :
    ∃ k' es, (s.run evs).kids[j]? = some k' ∧ k'.i = run k.n k.o k.table k.i.blk.own k.i.room es ∧
      ∀ m ∈ sent es, m ∈ sentTo evs ∧ m.service ≠ s.n.unique ∧ m.service ≠ s.n.name := by
  obtain ⟨k', es, h1, _, h3, h4⟩ := delivered_as_if_direct hf evs he hk
  refine ⟨k', es, h1, h3, fun m hm => ?_⟩
  have : m ∈ (sentTo evs).filter (fun m => ForBlocks s.n m) := by rw [← h4]; simp [hm]
  obtain ⟨a, b⟩ := List.mem_filter.1 this
  simp only [decide_eq_true_eq] at b
  exact ⟨a, b.1, b.2.1⟩

/-! ## where it is false -/

/-- **C70, false: every request for a block reaches it.** A request about the lifecycle which names a block is taken out by the scheduler, and the block never
answers it. -/
theorem lifecycle_request_unanswered {s : Sys σ} (hf : Fresh s) (evs : List (SysEvent σ)) (he : inits evs ≤ 1) (hd : DistinctNames (s.run evs))
    {k : Kid σ} (hk : k ∈ s.kids) {extra : List (String × Handler σ)} (ht : k.table = standard k.o ++ extra) (hw : Wellbehaved extra) (hroom : false ∉ k.i.room)
    {m : Msg} (hu : ∀ u ∈ sentTo evs, u.client = m.client → u = m) (hp : m.endpoint = "LifecycleState") :
    (answersTo m.client (s.run evs).self.out).filter (fun r => r.service = k.n.unique) = [] := by
  obtain ⟨j, hj⟩ := List.getElem?_of_mem hk
  obtain ⟨k', es, h1, h2, h3, h4⟩ := delivered_as_if_direct hf evs he hj
  have hb := published_comes_back hf evs hd (List.mem_of_getElem? h1)
  rw [h2] at hb
  rw [answersTo, List.filter_filter, List.filter_eq_nil_iff]
  intro r hr
  simp only [Bool.and_eq_true, decide_eq_true_eq, not_and]
  intro hs hc hcl
  have hr' : r ∈ k'.i.out := by rw [← hb]; simp [hr, hs]
  obtain ⟨_, done, e1, _, e3⟩ := good_run (n := k.n) (o := k.o) (table := k.table) (s := k.i.blk.own) hroom es
  have hr'' : r ∈ replies k.n k.table ⟨k.i.blk.own, []⟩ done := by rw [← e3, ← h3]; simp [hr', hc]
  rw [ht] at hr''
  obtain ⟨u, hu', _, _, _, hcu⟩ := replies_client hw hr''
  have hmem : u ∈ (sentTo evs).filter (fun m => ForBlocks s.n m) := by rw [← h4, e1]; simp [hu']
  obtain ⟨a, b⟩ := List.mem_filter.1 hmem
  simp only [decide_eq_true_eq] at b
  rw [hu u a (hcu.symm.trans hcl)] at b
  exact b.2.2 hp

/-- **C70, false: a scheduler always passes messages on.** If it is never initialised — it is stopped before that, and reset afterwards, which is a way round `init`
(LifeCycle.hpp:242, 267) — no message reaches any block. -/
theorem uninitialised_delivers_nothing {s : Sys σ} (hf : Fresh s) (evs : List (SysEvent σ)) (he : inits evs = 0) {j : Nat} {k : Kid σ} (hk : s.kids[j]? = some k) :
    ∃ k' es, (s.run evs).kids[j]? = some k' ∧ k'.i = run k.n k.o k.table k.i.blk.own k.i.room es ∧ sent es = [] := by
  obtain ⟨k', es, h1, h2, h3, h4⟩ := delivered_as_if_direct hf evs (by omega) hk
  refine ⟨k', es, h1, h3, ?_⟩
  -- nothing is sent to a block while the ports are not connected
  have key : ∀ (evs : List (SysEvent σ)) (s : Sys σ), s.Sound → inits evs = 0 → s.connected = false →
      s.under ++ (sentTo evs).filter (passesOn s.n) = (s.run evs).under := by
    intro evs
    induction evs with
    | nil => intro s _ _ _; simp [sentTo, Sys.run]
    | cons e evs ih =>
      intro s hs hi h
      rw [inits_cons] at hi
      have hn : (s.step e).n = s.n := (step_names s e).1
      obtain ⟨_, _, _, _, h4, h5⟩ := step_went hs e (fun _ => by omega) 0
      have hcx : (s.step e).connected = false := by
        cases hx : (s.step e).connected with
        | false => rfl
        | true => have := h5 hx h; omega
      have := ih (s.step e) h4 (by omega) hcx
      rw [show (s.run (e :: evs)) = (s.step e).run evs from rfl, ← this, hn, sentTo_cons e evs, List.filter_append, ← List.append_assoc]
      congr 1
      cases e with
      | send m => simp [Sys.step, Sys.under, sentTo, List.filter_append]
      | own =>
        simp only [Sys.step, sentTo, List.filter_nil, List.append_nil, Sys.own]
        rcases hp : s.self.processScheduled s.n s.o s.table s.listening with ⟨i, _ | _⟩ <;> have hi := processScheduled_inbox hp
        · simp [Sys.under, hi]
        · simp [Sys.under, hi, h]
      | init => simp [inits] at hi
      | kid l => simp only [Sys.step, sentTo, List.filter_nil, List.append_nil, Sys.kidStep]; split <;> rfl
      | kidTell l p b => simp only [Sys.step, sentTo, List.filter_nil, List.append_nil, Sys.kidStep]; split <;> rfl
      | tell p b => simp [Sys.step, Sys.under, sentTo]
      | collect => simp only [Sys.step, sentTo, List.filter_nil, List.append_nil, Sys.collect]; split <;> rfl
      | listen b => simp [Sys.step, Sys.under, sentTo]
      | adopt n o t st room => simp [Sys.step, Sys.under, sentTo]
  have hkey := key evs s (fresh_sound hf) he hf.connected
  have hn := (run_names s evs).1
  simp only [Sys.under, hf.pending, hf.inbox, hn, passesOn_eq, List.filter_nil, List.nil_append] at hkey
  rw [hkey, List.append_assoc] at h4
  exact List.append_cancel_right (h4.trans (List.nil_append _).symm)

/-- The histories in which nobody starts to read the answers -/
def unheard : List (SysEvent σ) → Prop
  | [] => True
  | .listen _ :: _ => False
  | _ :: evs => unheard evs

/-- **C70, false: answers nobody reads are dropped.** While nobody reads the answers of the scheduler, those of its blocks stay in its buffer for good. -/
theorem unheard_answers_stay (s : Sys σ) (hl : s.listening = false) (evs : List (SysEvent σ)) (hu : unheard evs) :
    (s.run evs).listening = false ∧ s.back <+: (s.run evs).back := by
  induction evs generalizing s with
  | nil => exact ⟨hl, List.prefix_refl _⟩
  | cons e evs ih =>
    have step : (s.step e).listening = false ∧ s.back <+: (s.step e).back := by
      have hown : s.own.1.listening = false ∧ s.own.1.back = s.back := by
        unfold Sys.own
        rcases s.self.processScheduled s.n s.o s.table s.listening with ⟨i, _ | _⟩
        · exact ⟨hl, rfl⟩
        · by_cases hc : s.connected = true
          · simp [hc, hl]
          · simp [hc, hl]
      have hkid : ∀ l x, (s.kidStep l x).listening = false ∧ s.back <+: (s.kidStep l x).back := by
        intro l x
        unfold Sys.kidStep
        split
        · exact ⟨hl, List.prefix_refl _⟩
        · exact ⟨hl, List.prefix_append _ _⟩
      cases e with
      | listen b => exact absurd hu (by simp [unheard])
      | own => exact ⟨hown.1, by simp only [Sys.step]; rw [hown.2]; exact List.prefix_refl _⟩
      | init =>
        simp only [Sys.step, Sys.init]
        rcases h : s.own with ⟨s', _ | _⟩ <;> rw [h] at hown
        · exact ⟨hown.1, by simp only at hown ⊢; rw [hown.2]; exact List.prefix_refl _⟩
        · exact ⟨hown.1, by simp only [Sys.connectPorts] at hown ⊢; rw [hown.2]; exact List.prefix_refl _⟩
      | kid l => exact hkid l _
      | kidTell l p b => exact hkid l _
      | collect => simp only [Sys.step, Sys.collect, hl]; exact ⟨hl, List.prefix_refl _⟩
      | send m => exact ⟨hl, List.prefix_refl _⟩
      | tell p b => exact ⟨hl, List.prefix_refl _⟩
      | adopt n o t st room => exact ⟨hl, List.prefix_refl _⟩
    obtain ⟨h1, h2⟩ := ih (s.step e) step.1 (by cases e <;> first | exact hu | exact absurd hu (by simp [unheard]))
    exact ⟨h1, step.2.trans h2⟩

/-- **C70, false: an error nobody reads is raised once.** While nobody reads the answers, one error of a block makes every later call of
`processScheduledMessages` throw. -/
theorem unheard_error_thrown_again (s : Sys σ) (hl : s.listening = false) {r : Msg} {x : Err} (hr : r ∈ s.back) (hx : r.data = .error x)
    (evs : List (SysEvent σ)) (hu : unheard evs) : (s.run evs).collect.2 = false := by
  obtain ⟨h1, h2⟩ := unheard_answers_stay s hl evs hu
  unfold Sys.collect
  simp only [h1, Bool.false_eq_true, if_false, List.all_eq_false]
  exact ⟨r, h2.subset hr, by simp [hx]⟩

/-! ## a concrete case -/

/-- A scheduler with its graph and two blocks -/
def system : Sys Toy :=
  let kid (u v : String) : Kid Toy := ⟨⟨u, v⟩, toy, standard toy, ⟨⟨{}, []⟩, [], [], []⟩⟩
  { n := ⟨"Simple#1", "sched"⟩, o := toy, table := standard toy, self := ⟨⟨{}, []⟩, [], [], []⟩, connected := false, pending := [],
    kids := [kid "Graph#1" "graph", kid "Gain#1" "a", kid "Gain#2" "b"], back := [], listening := true }

/-- A request for block `b` before the scheduler is initialised, one to everybody, one to the lifecycle of block `a`; the threads of the blocks run in different order. -/
def systemHistory : List (SysEvent Toy) :=
  [.send { cmd := .get, service := "Gain#2", client := "x", endpoint := "StagedSettings" }, .own,
   .send { cmd := .get, client := "y", endpoint := "Heartbeat" }, .init, .kid 2, .collect, .kid 0,
   .send { cmd := .get, service := "Gain#1", client := "z", endpoint := "LifecycleState" }, .own, .kid 1, .kid 2, .collect]

example : (system.run systemHistory).self.out.map (fun r => (r.service, r.client, r.endpoint)) =
    [("Simple#1", "y", "Heartbeat"), ("Gain#2", "x", "StagedSettings"), ("Gain#2", "y", "Heartbeat"), ("Graph#1", "y", "Heartbeat"),
     ("Gain#1", "y", "Heartbeat")] := by decide +kernel

/-- the hypotheses of `delivered_as_if_direct`, `published_comes_back` and `answered_through_scheduler` for this history and client `x` -/
example : Fresh system ∧ inits systemHistory ≤ 1 ∧ DistinctNames (system.run systemHistory) ∧ Drained (system.run systemHistory) ∧
    sentTo systemHistory = [] ++ { cmd := .get, service := "Gain#2", client := "x", endpoint := "StagedSettings" } ::
      [{ cmd := .get, client := "y", endpoint := "Heartbeat" }, { cmd := .get, service := "Gain#1", client := "z", endpoint := "LifecycleState" }] ∧
    For ⟨"Gain#2", "b"⟩ { cmd := .get, service := "Gain#2", client := "x", endpoint := "StagedSettings" } ∧
    ForBlocks system.n { cmd := .get, service := "Gain#2", client := "x", endpoint := "StagedSettings" } := by
  refine ⟨⟨rfl, rfl, rfl, rfl, rfl, ?_⟩, by decide +kernel, by decide +kernel, ⟨by decide +kernel, by decide +kernel, by decide +kernel, ?_⟩, rfl, by decide +kernel, by decide +kernel⟩
  · intro k hk
    simp only [system, List.mem_cons, List.not_mem_nil, or_false] at hk
    rcases hk with rfl | rfl | rfl <;> exact ⟨rfl, rfl, rfl⟩
  · have : (system.run systemHistory).kids.all (fun k => k.i.inbox.isEmpty) = true := by decide +kernel
    intro k hk
    simpa using List.all_eq_true.1 this k hk

/-- Without a reader of the answers, an error stays. -/
example : unheard ([.send { cmd := .get, client := "z", endpoint := "Heartbeat" }, .own, .kid 0, .collect] : List (SysEvent Toy)) ∧
    ({ system with listening := false, connected := true }.run [.send { cmd := .get, client := "q", endpoint := "Echo" }, .own, .kid 1]).back.any
      (fun r => match r.data with | .error _ => true | .ok _ => false) = true := ⟨by simp [unheard], by decide +kernel⟩

end Verif.Msg
