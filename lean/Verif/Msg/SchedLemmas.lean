import Verif.Msg.SchedSpec
import Verif.Msg.Lemmas
/-!
# Helper lemmas for C70
-/
namespace Verif.Msg
variable {σ : Type}

theorem foldl_send {n : Names} {o : Owner σ} {table : List (String × Handler σ)} (ms : List Msg) (i : Inst σ) :
    (ms.map Event.send).foldl (Inst.step n o table) i = { i with inbox := i.inbox ++ ms } := by
  induction ms generalizing i with
  | nil => simp
  | cons m ms ih => simp [ih, Inst.step]

theorem sent_sends (ms : List Msg) : sent (ms.map .send) = ms := by
  induction ms with
  | nil => rfl
  | cons m ms ih => simp [sent, ih]

theorem processScheduled_inbox {n : Names} {o : Owner σ} {table : List (String × Handler σ)} {c : Bool} {i i' : Inst σ} {r : Bool}
    (h : i.processScheduled n o table c = (i', r)) : i'.inbox = if r then [] else i.inbox := by
  simp only [Inst.processScheduled, Prod.mk.injEq] at h
  obtain ⟨rfl, rfl⟩ := h
  rfl

theorem notify_service {n : Names} {b : Blk σ} {c : Bool} {p : String} {body : Body} : ∀ r ∈ notify n c b p body, r.service = n.unique := by
  intro r hr
  unfold notify at hr
  split at hr
  · cases hr
  · obtain ⟨x, _, rfl⟩ := List.mem_map.1 hr
    rfl

theorem answer_service {n : Names} {table : List (String × Handler σ)} {b : Blk σ} {m r : Msg} (h : (answer n table b m).2 = some r) :
    r.service = n.unique := by
  by_cases hf : For n m
  · cases hl : lookup m.endpoint table with
    | none => rw [answer_unknown hl] at h; cases h
    | some g =>
      rw [answer_known hf hl] at h
      rcases ho : g b m with ⟨b', r' | _ | e⟩ <;> rw [ho] at h <;> cases h <;> rfl
  · rw [answer_not_for hf] at h; cases h

theorem processMessages_service {n : Names} {table : List (String × Handler σ)} {c : Bool} {room : List Bool} {b : Blk σ} {ms : List Msg} :
    ∀ r ∈ (processMessages n table c room b ms).out, r.service = n.unique := by
  induction ms generalizing room b with
  | nil => intro r hr; cases hr
  | cons m ms ih =>
    intro r hr
    simp only [processMessages] at hr
    rcases ha : answer n table b m with ⟨b', _ | x⟩ <;> simp only [ha] at hr
    · exact ih r hr
    · split at hr
      · exact ih r hr
      · split at hr
        · cases hr
        · rcases List.mem_cons.1 hr with rfl | hr
          · exact answer_service (by rw [ha])
          · exact ih r hr

theorem processScheduled_out {n : Names} {o : Owner σ} {table : List (String × Handler σ)} {c : Bool} {i i' : Inst σ} {r : Bool}
    (h : i.processScheduled n o table c = (i', r)) : ∃ new, i'.out = i.out ++ new ∧ ∀ r ∈ new, r.service = n.unique := by
  simp only [Inst.processScheduled, Prod.mk.injEq] at h
  obtain ⟨rfl, _⟩ := h
  refine ⟨_, List.append_assoc _ _ _, fun r hr => ?_⟩
  rcases List.mem_append.1 hr with hr | hr
  · exact notify_service r hr
  · exact processMessages_service r hr

theorem step_out (n : Names) (o : Owner σ) (table : List (String × Handler σ)) (i : Inst σ) (e : Event) :
    ∃ new, (i.step n o table e).out = i.out ++ new ∧ ∀ r ∈ new, r.service = n.unique := by
  cases e with
  | send m => exact ⟨[], by simp [Inst.step], by simp⟩
  | call => exact processScheduled_out (i' := (i.processScheduled n o table true).1) (r := (i.processScheduled n o table true).2) rfl
  | tell p body => exact ⟨_, rfl, notify_service⟩

/-! ## what a block of a scheduler goes through -/

/-- Kid `j` of `s'` is kid `j` of `s` after the events `es` -/
def Went (s s' : Sys σ) (j : Nat) (es : List Event) : Prop :=
  ∀ k, s.kids[j]? = some k → s'.kids[j]? = some { k with i := es.foldl (Inst.step k.n k.o k.table) k.i }

/-- What is under way to the blocks -/
def Sys.under (s : Sys σ) : List Msg := s.pending ++ s.self.inbox.filter (passesOn s.n)

theorem went_nil {s s' : Sys σ} {j : Nat} (h : s'.kids = s.kids) : Went s s' j [] := fun k hk => by rw [h]; exact hk

theorem went_trans {s s' s'' : Sys σ} {j : Nat} {e1 e2 : List Event} (h1 : Went s s' j e1) (h2 : Went s' s'' j e2) : Went s s'' j (e1 ++ e2) := by
  intro k hk
  rw [h2 _ (h1 k hk), List.foldl_append]

/-- Before the ports are connected the blocks have no messages, afterwards none is pending. -/
structure Sys.Sound (s : Sys σ) : Prop where
  before : s.connected = false → ∀ k ∈ s.kids, k.i.inbox = []
  after : s.connected = true → s.pending = []

theorem own_went {s : Sys σ} (hs : s.Sound) (j : Nat) : ∃ es, Went s s.own.1 j es ∧ sent es ++ s.own.1.under = s.under ∧
    s.own.1.connected = s.connected ∧ s.own.1.n = s.n ∧ (s.connected = false → s.own.1.kids = s.kids) ∧ (s.own.2 = true → s.own.1.self.inbox = []) ∧
    s.own.1.Sound := by
  unfold Sys.own
  rcases h : s.self.processScheduled s.n s.o s.table s.listening with ⟨i, _ | _⟩ <;> have hi := processScheduled_inbox h
  · exact ⟨[], went_nil rfl, by simp [sent, Sys.under, hi], rfl, rfl, fun _ => rfl, nofun, hs.before, hs.after⟩
  · by_cases hc : s.connected = true
    · refine ⟨(s.self.inbox.filter (passesOn s.n)).map .send, ?_, ?_, ?_, ?_, by simp [hc], ?_, ?_, ?_⟩
      · intro k hk
        simp [hc, hk, Kid.deliver, foldl_send]
      · simp [hc, Sys.under, hi, sent_sends, hs.after hc]
      · simp [hc]
      · simp [hc]
      · intro _; simp [hc, hi]
      · simp [hc]
      · simp [hc, hs.after hc]
    · simp only [Bool.not_eq_true] at hc
      exact ⟨[], by simp [hc]; exact went_nil rfl, by simp [hc, Sys.under, hi, sent], by simp [hc], by simp [hc], by simp [hc], by simp [hc, hi],
        by simpa [hc] using hs.before hc, by simp [hc]⟩

theorem init_went {s : Sys σ} (hs : s.Sound) (hc : s.connected = false) (j : Nat) : ∃ es, Went s s.init j es ∧ sent es ++ s.init.under = s.under ∧
    s.init.n = s.n ∧ s.init.Sound := by
  obtain ⟨es, h1, h2, h3, h4, h5, h6, h7⟩ := own_went hs j
  unfold Sys.init
  rcases h : s.own with ⟨s', _ | _⟩ <;> rw [h] at h1 h2 h3 h4 h5 h6 h7
  · exact ⟨es, h1, h2, h4, h7⟩
  · have hin := h6 rfl
    have hk := h7.before (h3.trans hc)
    have hg : (s'.kids.head?.map (·.i.inbox)).getD [] = [] := by
      cases hl : s'.kids with
      | nil => rfl
      | cons k l => exact hk k (by rw [hl]; exact .head _)
    refine ⟨es ++ s'.pending.map .send, went_trans h1 ?_, ?_, h4, nofun, fun _ => rfl⟩
    · intro k hk'
      have := hk k (List.mem_of_getElem? hk')
      simp only [Sys.connectPorts, hg, List.append_nil, List.getElem?_map, hk', Option.map_some, foldl_send, this, List.nil_append]
    · have h2 : sent es ++ s'.under = s.under := h2
      have hin : s'.self.inbox = [] := hin
      rw [← h2, sent_append, sent_sends, List.append_assoc]
      simp [Sys.under, Sys.connectPorts, hin]

theorem kidStep_went {s : Sys σ} (hs : s.Sound) (j l : Nat) (e : Event) (he : sent [e] = []) : ∃ es, Went s (s.kidStep l e) j es ∧ sent es = [] ∧
    (s.kidStep l e).Sound ∧ (s.kidStep l e).under = s.under ∧ (s.kidStep l e).connected = s.connected ∧ (s.kidStep l e).n = s.n := by
  unfold Sys.kidStep
  cases hl : s.kids[l]? with
  | none => exact ⟨[], went_nil rfl, rfl, hs, rfl, rfl, rfl⟩
  | some k =>
    have hsound : ∀ b, ({ s with kids := s.kids.set l { k with i := k.i.step k.n k.o k.table e }, back := b } : Sys σ).Sound := by
      intro b
      refine ⟨fun hc k' hk' => ?_, hs.after⟩
      rcases List.mem_or_eq_of_mem_set hk' with h | rfl
      · exact hs.before hc k' h
      · have h0 := hs.before hc k (List.mem_of_getElem? hl)
        cases e with
        | send m => cases he
        | call =>
          have := processScheduled_inbox (n := k.n) (o := k.o) (table := k.table) (c := true) (i := k.i) (i' := (k.i.processScheduled k.n k.o k.table true).1)
            (r := (k.i.processScheduled k.n k.o k.table true).2) rfl
          simp only [Inst.step]
          rw [this, h0]; split <;> rfl
        | tell p body => exact h0
    by_cases hj : l = j
    · subst hj
      refine ⟨[e], ?_, he, hsound _, rfl, rfl, rfl⟩
      intro k' hk'
      rw [hl] at hk'; cases hk'
      have hlt : l < s.kids.length := by
        rcases Nat.lt_or_ge l s.kids.length with h | h
        · exact h
        · rw [List.getElem?_eq_none h] at hl; cases hl
      simp [hlt]
    · refine ⟨[], ?_, rfl, hsound _, rfl, rfl, rfl⟩
      intro k' hk'
      simp [List.getElem?_set_ne hj, hk']

theorem step_went {s : Sys σ} (hs : s.Sound) (e : SysEvent σ) (he : s.connected = true → inits [e] = 0) (j : Nat) :
    ∃ es, Went s (s.step e) j es ∧ sent es ++ (s.step e).under = s.under ++ (sentTo [e]).filter (passesOn s.n) ∧ (s.step e).n = s.n ∧ (s.step e).Sound ∧
      ((s.step e).connected = true → s.connected = false → inits [e] = 1) := by
  cases e with
  | send m =>
    refine ⟨[], went_nil rfl, ?_, rfl, ⟨hs.before, hs.after⟩, fun h1 h2 => ?_⟩
    · simp [sent, sentTo, Sys.step, Sys.under, List.filter_append]
    · rw [show (s.step (.send m)).connected = s.connected from rfl, h2] at h1; cases h1
  | own =>
    obtain ⟨es, h1, h2, h3, h4, _, _, h5⟩ := own_went hs j
    exact ⟨es, h1, by simpa [sentTo, Sys.step] using h2, h4, h5, fun a b => by rw [show (s.step .own).connected = s.connected from h3, b] at a; cases a⟩
  | init =>
    have hc : s.connected = false := by
      cases h : s.connected with
      | false => rfl
      | true => cases he h
    obtain ⟨es, h1, h2, h3, h4⟩ := init_went hs hc j
    exact ⟨es, h1, by simpa [sentTo, Sys.step] using h2, h3, h4, fun _ _ => rfl⟩
  | kid l =>
    obtain ⟨es, h1, h2, h3, h4, h5, h6⟩ := kidStep_went hs j l .call rfl
    exact ⟨es, h1, by simp [sentTo, Sys.step, h2, h4], h6, h3, fun a b => by rw [show (s.step (.kid l)).connected = s.connected from h5, b] at a; cases a⟩
  | kidTell l p body =>
    obtain ⟨es, h1, h2, h3, h4, h5, h6⟩ := kidStep_went hs j l (.tell p body) rfl
    exact ⟨es, h1, by simp [sentTo, Sys.step, h2, h4], h6, h3, fun a b => by rw [show (s.step (.kidTell l p body)).connected = s.connected from h5, b] at a; cases a⟩
  | tell p body =>
    exact ⟨[], went_nil rfl, by simp [sent, sentTo, Sys.step, Sys.under], rfl, ⟨hs.before, hs.after⟩, fun a b => by rw [show (s.step (.tell p body)).connected = s.connected from rfl, b] at a; cases a⟩
  | collect =>
    simp only [Sys.step, Sys.collect]
    split
    · exact ⟨[], went_nil rfl, by simp [sent, sentTo, Sys.under], rfl, ⟨hs.before, hs.after⟩, fun a b => by rw [b] at a; cases a⟩
    · exact ⟨[], went_nil rfl, by simp [sent, sentTo], rfl, hs, fun a b => by rw [b] at a; cases a⟩
  | listen b =>
    exact ⟨[], went_nil rfl, by simp [sent, sentTo, Sys.step, Sys.under], rfl, ⟨hs.before, hs.after⟩, fun a h => by rw [show (s.step (.listen b)).connected = s.connected from rfl, h] at a; cases a⟩
  | adopt n o t st room =>
    refine ⟨[], ?_, by simp [sent, sentTo, Sys.step, Sys.under], rfl, ⟨fun hc k hk => ?_, hs.after⟩, fun a h => by rw [show (s.step (.adopt n o t st room)).connected = s.connected from rfl, h] at a; cases a⟩
    · intro k hk
      have hlt : j < s.kids.length := by
        rcases Nat.lt_or_ge j s.kids.length with h | h
        · exact h
        · rw [List.getElem?_eq_none h] at hk; cases hk
      simp only [Sys.step, List.foldl_nil]
      rw [List.getElem?_append_left hlt]; exact hk
    · rcases List.mem_append.1 hk with h | h
      · exact hs.before hc k h
      · rw [List.mem_singleton.1 h]

theorem inits_cons (e : SysEvent σ) (evs : List (SysEvent σ)) : inits (e :: evs) = inits [e] + inits evs := by
  cases e <;> simp only [inits] <;> omega

theorem sentTo_cons (e : SysEvent σ) (evs : List (SysEvent σ)) : sentTo (e :: evs) = sentTo [e] ++ sentTo evs := by
  cases e <;> rfl

/-- A block goes through events with exactly the messages for blocks that were under way or were sent and are not under way any more. -/
theorem run_went {s : Sys σ} (hs : s.Sound) (evs : List (SysEvent σ)) (he : inits evs ≤ if s.connected then 0 else 1) (j : Nat) :
    ∃ es, Went s (s.run evs) j es ∧ sent es ++ (s.run evs).under = s.under ++ (sentTo evs).filter (passesOn s.n) ∧ (s.run evs).n = s.n ∧
      (s.run evs).Sound := by
  induction evs generalizing s with
  | nil => exact ⟨[], went_nil rfl, by simp [sent, sentTo, Sys.run], rfl, hs⟩
  | cons e evs ih =>
    rw [inits_cons] at he
    obtain ⟨es, h1, h2, h3, h4, h5⟩ := step_went hs e (fun hc => by rw [if_pos hc] at he; omega) j
    obtain ⟨es', g1, g2, g3, g4⟩ := ih h4 (by
      split
      · next hc' =>
        cases hc : s.connected with
        | true => rw [if_pos hc] at he; omega
        | false => have := h5 hc' hc; rw [if_neg (by simp [hc])] at he; omega
      · split at he <;> omega)
    refine ⟨es ++ es', went_trans h1 g1, ?_, g3.trans h3, g4⟩
    rw [sent_append, List.append_assoc]
    rw [show (s.run (e :: evs)).under = ((s.step e).run evs).under from rfl, g2, ← List.append_assoc, h2, sentTo_cons e evs, List.filter_append, h3, List.append_assoc]

/-! ## what comes back -/

/-- What a block has published is out, or on its way; nobody else has published anything. -/
structure Sys.Back (s : Sys σ) : Prop where
  kid : ∀ (j : Nat) (k : Kid σ), s.kids[j]? = some k → (s.self.out ++ s.back).filter (fun r => r.service = k.n.unique) = k.i.out
  known : ∀ r ∈ s.self.out ++ s.back, r.service ∈ s.n.unique :: s.kids.map (·.n.unique)

theorem filter_foreign {new : List Msg} {u v : String} (h : ∀ r ∈ new, r.service = v) (hv : v ≠ u) :
    new.filter (fun r => r.service = u) = [] := by
  rw [List.filter_eq_nil_iff]
  intro r hr
  simpa [h r hr] using hv

theorem distinct_self {s : Sys σ} (hd : DistinctNames s) {j : Nat} {k : Kid σ} (hk : s.kids[j]? = some k) : s.n.unique ≠ k.n.unique := by
  intro h
  exact (List.nodup_cons.1 hd).1 (h ▸ List.mem_map_of_mem (List.mem_of_getElem? hk))

theorem distinct_kids {s : Sys σ} (hd : DistinctNames s) {j l : Nat} {k k' : Kid σ} (hk : s.kids[j]? = some k) (hk' : s.kids[l]? = some k') (hj : l ≠ j) :
    k'.n.unique ≠ k.n.unique := by
  intro h
  have hlt : l < s.kids.length := by
    rcases Nat.lt_or_ge l s.kids.length with h | h
    · exact h
    · rw [List.getElem?_eq_none h] at hk'; cases hk'
  refine hj ((List.getElem?_inj (l := s.kids.map (·.n.unique)) (by simpa using hlt) (List.nodup_cons.1 hd).2).1 ?_)
  rw [List.getElem?_map, List.getElem?_map, hk, hk', Option.map_some, Option.map_some, h]

/-- The scheduler itself publishes something, and the blocks nothing. -/
theorem back_self {s s' : Sys σ} (hb : s.Back) (hd : DistinctNames s) (hn : s'.n = s.n) {new : List Msg} (hout : s'.self.out = s.self.out ++ new)
    (hnew : ∀ r ∈ new, r.service = s.n.unique) (hback : s'.back = s.back) (hkids : s'.kids.map (fun k => (k.n, k.i.out)) = s.kids.map (fun k => (k.n, k.i.out))) :
    s'.Back := by
  have hu : s'.kids.map (·.n.unique) = s.kids.map (·.n.unique) := by
    have := congrArg (List.map (fun x : Names × List Msg => x.1.unique)) hkids
    simpa [List.map_map, Function.comp_def] using this
  constructor
  · intro j k' hk'
    have h1 := congrArg (fun l => l[j]?) hkids
    simp only [List.getElem?_map, hk', Option.map_some] at h1
    cases hk : s.kids[j]? with
    | none => rw [hk] at h1; cases h1
    | some k =>
      rw [hk] at h1
      simp only [Option.map_some, Option.some.injEq, Prod.mk.injEq] at h1
      rw [h1.1, h1.2, ← hb.kid j k hk, hout, hback]
      simp only [List.filter_append]
      rw [filter_foreign hnew (distinct_self hd hk), List.append_nil]
  · intro r hr
    rw [hout, hback] at hr
    rw [hn, hu]
    simp only [List.mem_append] at hr
    rcases hr with (hr | hr) | hr
    · exact hb.known r (by simp [hr])
    · rw [hnew r hr]; exact .head _
    · exact hb.known r (by simp [hr])

theorem own_kids (s : Sys σ) : s.own.1.n = s.n ∧ s.own.1.back = s.back ∧ (∃ new, s.own.1.self.out = s.self.out ++ new ∧ ∀ r ∈ new, r.service = s.n.unique) ∧
    s.own.1.kids.map (fun k => (k.n, k.i.out)) = s.kids.map (fun k => (k.n, k.i.out)) := by
  unfold Sys.own
  rcases h : s.self.processScheduled s.n s.o s.table s.listening with ⟨i, _ | _⟩ <;> have ho := processScheduled_out h
  · exact ⟨rfl, rfl, ho, rfl⟩
  · by_cases hc : s.connected = true
    · simp only [hc, if_true]
      exact ⟨trivial, trivial, ho, by simp [Kid.deliver, Function.comp_def]⟩
    · simp only [hc, if_false]
      exact ⟨rfl, rfl, ho, rfl⟩

theorem kidStep_back {s : Sys σ} (hb : s.Back) (hd : DistinctNames s) (l : Nat) (e : Event) : (s.kidStep l e).Back := by
  unfold Sys.kidStep
  cases hl : s.kids[l]? with
  | none => exact hb
  | some k =>
    obtain ⟨new, h1, h2⟩ := step_out k.n k.o k.table k.i e
    have hlt : l < s.kids.length := by
      rcases Nat.lt_or_ge l s.kids.length with h | h
      · exact h
      · rw [List.getElem?_eq_none h] at hl; cases hl
    have hdrop : (k.i.step k.n k.o k.table e).out.drop k.i.out.length = new := by rw [h1]; simp
    have hu : (s.kids.set l { k with i := k.i.step k.n k.o k.table e }).map (·.n.unique) = s.kids.map (·.n.unique) := by
      apply List.ext_getElem?
      intro m
      simp only [List.getElem?_map, List.getElem?_set]
      split
      · next h => subst h; rw [hl]; rfl
      · rfl
    simp only [hdrop]
    constructor
    · intro j k' hk'
      simp only at hk' ⊢
      by_cases hj : l = j
      · subst hj
        simp only [List.getElem?_set_self hlt, Option.some.injEq] at hk'
        subst hk'
        rw [← List.append_assoc, List.filter_append, hb.kid l k hl, h1, List.filter_eq_self.2]
        intro r hr
        simpa using h2 r hr
      · rw [List.getElem?_set_ne hj] at hk'
        rw [← List.append_assoc, List.filter_append, hb.kid j k' hk', filter_foreign h2 (distinct_kids hd hk' hl hj), List.append_nil]
    · intro r hr
      simp only [hu]
      rw [← List.append_assoc] at hr
      rcases List.mem_append.1 hr with hr | hr
      · exact hb.known r hr
      · rw [h2 r hr]
        exact List.mem_cons_of_mem _ (List.mem_map_of_mem (f := fun k : Kid σ => k.n.unique) (List.mem_of_getElem? hl))

theorem step_back {s : Sys σ} (hb : s.Back) (hd : DistinctNames s) (e : SysEvent σ) (hd' : DistinctNames (s.step e)) : (s.step e).Back := by
  cases e with
  | send m => exact ⟨hb.kid, hb.known⟩
  | own =>
    obtain ⟨h1, h2, ⟨new, h3, h4⟩, h5⟩ := own_kids s
    exact back_self hb hd h1 h3 h4 h2 h5
  | init =>
    obtain ⟨h1, h2, ⟨new, h3, h4⟩, h5⟩ := own_kids s
    simp only [Sys.step, Sys.init]
    rcases h : s.own with ⟨s', _ | _⟩ <;> rw [h] at h1 h2 h3 h5
    · exact back_self hb hd h1 h3 h4 h2 h5
    · exact back_self hb hd h1 h3 h4 h2 (by rw [← h5]; simp [Sys.connectPorts, Function.comp_def])
  | kid l => exact kidStep_back hb hd l .call
  | kidTell l p body => exact kidStep_back hb hd l (.tell p body)
  | tell p body => exact back_self hb hd rfl rfl notify_service rfl rfl
  | collect =>
    simp only [Sys.step, Sys.collect]
    split
    · exact ⟨fun j k hk => by simpa using hb.kid j k hk, fun r hr => hb.known r (by simpa using hr)⟩
    · exact hb
  | listen b => exact ⟨hb.kid, hb.known⟩
  | adopt n o t st room =>
    refine ⟨fun j k hk => ?_, fun r hr => ?_⟩
    · simp only [Sys.step] at hk ⊢
      rcases Nat.lt_or_ge j s.kids.length with h | h
      · rw [List.getElem?_append_left h] at hk; exact hb.kid j k hk
      · rw [List.getElem?_append_right h] at hk
        cases hj : j - s.kids.length with
        | succ m => rw [hj] at hk; simp at hk
        | zero =>
          rw [hj] at hk
          simp only [List.getElem?_cons_zero, Option.some.injEq] at hk
          subst hk
          rw [List.filter_eq_nil_iff]
          intro r hr
          simp only [decide_eq_true_eq]
          intro he
          have h1 := hb.known r hr
          unfold DistinctNames at hd'
          simp only [Sys.step, List.map_append, List.map_cons, List.map_nil] at hd'
          rw [← List.cons_append, List.nodup_append] at hd'
          exact hd'.2.2 _ h1 _ (List.mem_singleton.2 rfl) he
    · have := hb.known r hr
      simp only [Sys.step, List.map_append]
      rw [← List.cons_append]
      exact List.mem_append_left _ this

theorem step_names (s : Sys σ) (e : SysEvent σ) : (s.step e).n = s.n ∧ s.kids.map (·.n.unique) <+: (s.step e).kids.map (·.n.unique) := by
  have hm : ∀ {l l' : List (Kid σ)}, l'.map (fun k => (k.n, k.i.out)) = l.map (fun k => (k.n, k.i.out)) → l.map (·.n.unique) <+: l'.map (·.n.unique) := by
    intro l l' h
    have := congrArg (List.map (fun x : Names × List Msg => x.1.unique)) h
    simp only [List.map_map, Function.comp_def] at this
    rw [this]; exact List.prefix_refl _
  have hk : ∀ l e, (s.kidStep l e).n = s.n ∧ s.kids.map (·.n.unique) <+: (s.kidStep l e).kids.map (·.n.unique) := by
    intro l e
    unfold Sys.kidStep
    cases hl : s.kids[l]? with
    | none => exact ⟨rfl, List.prefix_refl _⟩
    | some k =>
      refine ⟨rfl, ?_⟩
      have hlt : l < s.kids.length := by
        rcases Nat.lt_or_ge l s.kids.length with h | h
        · exact h
        · rw [List.getElem?_eq_none h] at hl; cases hl
      have : (s.kids.set l { k with i := k.i.step k.n k.o k.table e }).map (·.n.unique) = s.kids.map (·.n.unique) := by
        apply List.ext_getElem?
        intro m
        simp only [List.getElem?_map, List.getElem?_set]
        split
        · next h => subst h; rw [hl]; rfl
        · rfl
      simp only [this]; exact List.prefix_refl _
  cases e with
  | own => obtain ⟨h1, _, _, h5⟩ := own_kids s; exact ⟨h1, hm h5⟩
  | init =>
    obtain ⟨h1, _, _, h5⟩ := own_kids s
    simp only [Sys.step, Sys.init]
    rcases h : s.own with ⟨s', _ | _⟩ <;> rw [h] at h1 h5
    · exact ⟨h1, hm h5⟩
    · exact ⟨h1, hm (by rw [← h5]; simp [Sys.connectPorts, Function.comp_def])⟩
  | kid l => exact hk l _
  | kidTell l p body => exact hk l _
  | collect => simp only [Sys.step, Sys.collect]; split <;> exact ⟨rfl, List.prefix_refl _⟩
  | adopt n o t st room => exact ⟨rfl, by simp [Sys.step]⟩
  | send m => exact ⟨rfl, List.prefix_refl _⟩
  | tell p body => exact ⟨rfl, List.prefix_refl _⟩
  | listen b => exact ⟨rfl, List.prefix_refl _⟩

theorem run_names (s : Sys σ) (evs : List (SysEvent σ)) : (s.run evs).n = s.n ∧ s.kids.map (·.n.unique) <+: (s.run evs).kids.map (·.n.unique) := by
  induction evs generalizing s with
  | nil => exact ⟨rfl, List.prefix_refl _⟩
  | cons e evs ih => exact ⟨(ih _).1.trans (step_names s e).1, (step_names s e).2.trans (ih (s.step e)).2⟩

theorem distinct_of_run {s : Sys σ} {evs : List (SysEvent σ)} (h : DistinctNames (s.run evs)) : DistinctNames s := by
  unfold DistinctNames at h ⊢
  obtain ⟨h1, h2⟩ := run_names s evs
  rw [h1] at h
  exact List.Sublist.nodup (List.Sublist.cons_cons _ h2.sublist) h

theorem run_back {s : Sys σ} (hb : s.Back) (evs : List (SysEvent σ)) (hd : DistinctNames (s.run evs)) : (s.run evs).Back := by
  induction evs generalizing s with
  | nil => exact hb
  | cons e evs ih =>
    have h1 : DistinctNames (s.step e) := distinct_of_run (evs := evs) hd
    exact ih (step_back hb (distinct_of_run (evs := [e]) h1) e h1) hd

end Verif.Msg
