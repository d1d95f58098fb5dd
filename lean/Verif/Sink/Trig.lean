import Verif.Sink.WinSpec
import Verif.Sink.Inv
/-!
# Helper lemmas: listeners on their own, and windows around triggers
-/
namespace Verif.Sink

variable {α γ σ : Type}

/-- a listener on its own, with the history of its sink -/
def Lis.run (h : Option (Hist α)) : List (In α γ) → Lis α γ σ → Lis α γ σ
  | [], l => l
  | .meta' info :: r, l => Lis.run h r (l.setMeta info)
  | .chunk c :: r, l => Lis.run (h.map (·.push c.data)) r (l.process (view h) c)

/-- the listeners of a sink do not influence each other -/
theorem run_lis (s : Sink α γ σ) (ins : List (In α γ)) : (s.run ins).lis = s.lis.map (Lis.run s.hist ins) := by
  induction ins generalizing s with
  | nil => simp [Sink.run, Lis.run]
  | cons i r ih =>
    cases i with
    | meta' info => simp only [Sink.run, ih, Sink.step, List.map_map]; rfl
    | chunk c => simp only [Sink.run, ih, Sink.step, List.map_map]; rfl

theorem Remembers.push {h : Option (Hist α)} {n : Nat} {past : List α} (hr : Remembers h n past) (xs : List α) :
    Remembers (h.map (·.push xs)) n (past ++ xs) := by
  rcases hr with hr | ⟨cap, h1, rfl⟩
  · exact .inl hr
  · refine .inr ⟨cap, h1, ?_⟩
    simp only [Option.map_some, Hist.push, List.reverse_append, Option.some.injEq, Hist.mk.injEq, true_and]
    rw [List.take_append, List.take_append, List.take_take]
    congr 1
    rw [Nat.min_eq_left (by omega)]

theorem Remembers.view {h : Option (Hist α)} {n : Nat} {past : List α} (hr : Remembers h n past) :
    ((Verif.Sink.view h).take (min n (Verif.Sink.view h).length)).reverse = past.drop (past.length - n) ∧
      min n (Verif.Sink.view h).length = min n past.length := by
  rcases hr with rfl | ⟨cap, h1, rfl⟩
  · simp
  · have hl : (Verif.Sink.view (some ⟨cap, past.reverse.take cap⟩ : Option (Hist α))) = past.reverse.take cap := rfl
    rw [hl, List.length_take, List.length_reverse]
    have hm : min n (min cap past.length) = min n past.length := by omega
    refine ⟨?_, hm⟩
    rw [hm, List.take_take, Nat.min_eq_left (by omega)]
    rw [List.take_reverse, List.reverse_reverse]
    congr 1
    omega

/-! ### Windows -/

theorem dataset_add (info : List γ) (a b : List α) (ev : List (Int × List γ)) :
    (dataset info a ev).add b = dataset info (a ++ b) ev := by
  simp only [dataset, DS.add, List.length_append, DS.mk.injEq, true_and, and_true]
  rw [List.range_eq_range', List.range_eq_range', ← List.range'_append_1, Nat.zero_add]

/-- what is kept of a trigger whose window is not complete -/
def capOf (pre post : Nat) (s : List α) (v : Verdict γ) : Capture α γ := ⟨window pre post s v, v.pos + post - s.length⟩

theorem window_add (pre post : Nat) (s d : List α) (v : Verdict γ) (h1 : v.pos ≤ s.length) (h2 : s.length ≤ v.pos + post) :
    (window pre post s v).add (d.take (min (v.pos + post - s.length) d.length)) = window pre post (s ++ d) v := by
  unfold window
  rw [dataset_add]
  congr 1
  rw [List.append_assoc, List.take_append_of_le_length h1, List.drop_append_of_le_length h1]
  congr 1
  rw [List.take_append, List.length_drop, List.take_of_length_le (by rw [List.length_drop]; omega)]
  congr 1
  by_cases hc : v.pos + post - s.length ≤ d.length
  · rw [Nat.min_eq_left hc]; congr 1; omega
  · rw [List.take_of_length_le (by omega), List.take_of_length_le (by omega)]

theorem window_stable (pre post : Nat) (s d : List α) (v : Verdict γ) (h : v.pos + post ≤ s.length) :
    window pre post (s ++ d) v = window pre post s v := by
  unfold window
  rw [List.take_append_of_le_length (by omega), List.drop_append_of_le_length (by omega),
    List.take_append_of_le_length (by rw [List.length_drop]; omega)]

theorem feed_eq (pre post : Nat) (s d : List α) (vs : List (Verdict γ)) (h : ∀ v ∈ vs, v.pos ≤ s.length ∧ s.length ≤ v.pos + post) :
    feed d (vs.map (capOf pre post s)) =
      ((vs.filter fun v => decide (v.pos + post ≤ (s ++ d).length)).map (window pre post (s ++ d)),
        (vs.filter fun v => decide ((s ++ d).length < v.pos + post)).map (capOf pre post (s ++ d))) := by
  induction vs with
  | nil => rfl
  | cons v r ih =>
    obtain ⟨h1, h2⟩ := h v List.mem_cons_self
    have hr := ih fun u hu => h u (List.mem_cons_of_mem _ hu)
    have hw := window_add pre post s d v h1 h2
    simp only [List.map_cons, feed, hr]
    by_cases hc : v.pos + post ≤ (s ++ d).length
    · rw [List.filter_cons_of_pos (by simpa using hc), List.filter_cons_of_neg (by simp only [decide_eq_true_eq]; omega)]
      rw [List.length_append] at hc
      rw [if_pos (by simp only [capOf]; omega)]
      simp only [capOf, hw, List.map_cons]
    · rw [List.filter_cons_of_neg (by simpa using hc), List.filter_cons_of_pos (by simp only [decide_eq_true_eq]; omega)]
      rw [List.length_append] at hc
      rw [if_neg (by simp only [capOf]; omega)]
      simp only [capOf, hw, List.map_cons, List.length_append, Prod.mk.injEq, List.cons.injEq, Capture.mk.injEq, true_and, and_true]
      omega

theorem judge_pos {m : Matcher γ σ} {skip : Bool} {b : Nat} {info : List γ} {st : σ} {ts : List (Tag γ)} (h : ∀ t ∈ ts, t.index = 0) :
    ∀ v ∈ (judge m skip b info st ts).1, v.pos = b := by
  induction ts generalizing st with
  | nil => intro v hv; cases hv
  | cons t r ih =>
    have hr := fun (st : σ) => ih (st := st) fun t ht => h t (List.mem_cons_of_mem _ ht)
    intro v hv
    simp only [judge] at hv
    split at hv
    · exact hr _ v hv
    · rcases List.mem_cons.1 hv with rfl | hv
      · simp only [h t List.mem_cons_self]; rfl
      · exact hr _ v hv

/-- the tags of a chunk -/
theorem onTags_eq (m : Matcher γ σ) (h : Option (Hist α)) (s : List α) (ts : List (Tag γ)) (h0 : ∀ t ∈ ts, t.index = 0)
    (t : Trig α γ σ) (hr : Remembers h t.pre s) :
    ts.foldl (Trig.onTag m (view h)) t = { t with
      state := (judge m true s.length t.info t.state ts).2
      caps := t.caps ++ (triggers (judge m true s.length t.info t.state ts).1).map (capOf t.pre t.post s) } := by
  induction ts generalizing t with
  | nil => simp [judge, triggers]
  | cons u r ih =>
    have hih := fun (t' : Trig α γ σ) => ih (fun x hx => h0 x (List.mem_cons_of_mem _ hx)) t'
    rw [List.foldl_cons]
    by_cases he : u.map = []
    · have e1 : Trig.onTag m (view h) t u = t := by simp [Trig.onTag, he]
      have e2 : judge m true s.length t.info t.state (u :: r) = judge m true s.length t.info t.state r := by
        simp [judge, he]
      rw [e1, e2]
      exact hih t hr
    · have hne : u.map.isEmpty = false := by cases hu : u.map <;> simp_all
      have hu0 := h0 u List.mem_cons_self
      simp only [Trig.onTag, hne, Bool.false_eq_true, if_false]
      have e2 : judge m true s.length t.info t.state (u :: r) =
          (⟨s.length, (m u t.state).1, u.map, t.info⟩ :: (judge m true s.length t.info (m u t.state).2 r).1,
            (judge m true s.length t.info (m u t.state).2 r).2) := by
        simp [judge, he, hu0]
      rw [e2]
      obtain ⟨v1, v2⟩ := hr.view
      rcases hm : m u t.state with ⟨res, st⟩
      cases res with
      | matching =>
        simp only
        refine (hih _ (by exact hr)).trans ?_
        simp only [triggers, List.filter_cons_of_pos, decide_true, List.map_cons, List.append_assoc, List.singleton_append]
        congr 3
        simp only [capOf, window, Capture.mk.injEq]
        refine ⟨?_, by omega⟩
        rw [v1, v2]
        simp only [DS.new, DS.add, DS.event, dataset, DS.mk.injEq, List.nil_append, List.length_nil, Nat.zero_add, true_and,
          List.take_length, List.drop_length, List.take_nil, List.append_nil]
        rw [List.range_eq_range']; exact ⟨rfl, trivial⟩
      | notMatching =>
        simp only
        refine (hih _ (by exact hr)).trans ?_
        simp [triggers]
      | ignore =>
        simp only
        refine (hih _ (by exact hr)).trans ?_
        simp [triggers]

/-- windows are complete in the order of their triggers -/
theorem complete_split {vs : List (Verdict γ)} (h : vs.Pairwise fun a b => a.pos ≤ b.pos) (post n n' : Nat) (hn : n ≤ n') :
    (vs.filter fun v => decide (v.pos + post ≤ n)) ++
        ((vs.filter fun v => decide (n < v.pos + post)).filter fun v => decide (v.pos + post ≤ n')) =
      vs.filter fun v => decide (v.pos + post ≤ n') := by
  induction vs with
  | nil => rfl
  | cons v r ih =>
    obtain ⟨h1, h2⟩ := List.pairwise_cons.1 h
    have hr := ih h2
    by_cases hv : v.pos + post ≤ n
    · rw [List.filter_cons_of_pos (by simpa using hv), List.filter_cons_of_neg (by simp only [decide_eq_true_eq]; omega),
        List.filter_cons_of_pos (by simp only [decide_eq_true_eq]; omega), List.cons_append, hr]
    · have h3 : (r.filter fun v => decide (v.pos + post ≤ n)) = [] :=
        List.filter_eq_nil_iff.2 fun u hu => by have := h1 u hu; simp only [decide_eq_true_eq]; omega
      rw [h3, List.nil_append] at hr
      rw [List.filter_cons_of_neg (by simpa using hv), h3, List.nil_append,
        List.filter_cons_of_pos (by simp only [decide_eq_true_eq]; omega), List.filter_cons, hr, List.filter_cons]

theorem triggers_append (a b : List (Verdict γ)) : triggers (a ++ b) = triggers a ++ triggers b := by simp [triggers]

/-- a run of a listener that already has triggers `ms` in the stream `s` -/
theorem trig_run (m : Matcher γ σ) (ins : List (In α γ)) (hat : AtStart ins) (h : Option (Hist α)) (s : List α) (pre post : Nat)
    (info : List γ) (st : σ) (ms : List (Verdict γ)) (hms : ms.Pairwise fun a b => a.pos ≤ b.pos) (hle : ∀ v ∈ ms, v.pos ≤ s.length)
    (hr : Remembers h pre s) (out : List (DS α γ)) :
    ∃ t', Lis.run h ins (.trig m ⟨pre, post, info, st, (ms.filter fun v => decide (s.length < v.pos + post)).map (capOf pre post s)⟩
          (out ++ (ms.filter fun v => decide (v.pos + post ≤ s.length)).map (window pre post s))) =
        .trig m t' (out ++ ((ms ++ triggers (verdicts m true info s.length st ins)).filter fun v =>
          decide (v.pos + post ≤ (s ++ samples ins).length)).map (window pre post (s ++ samples ins))) ∧
      t'.caps = ((ms ++ triggers (verdicts m true info s.length st ins)).filter fun v =>
          decide ((s ++ samples ins).length < v.pos + post)).map (capOf pre post (s ++ samples ins)) := by
  induction ins generalizing h s info st ms out with
  | nil =>
    simp only [Lis.run, verdicts, triggers, List.filter_nil, List.append_nil, samples]
    exact ⟨_, rfl, rfl⟩
  | cons i r ih =>
    have hr' : AtStart r := fun c hc => hat c (List.mem_cons_of_mem _ hc)
    cases i with
    | meta' info' => exact ih hr' h s info' st ms hms hle hr out
    | chunk c =>
      have h0 := hat c List.mem_cons_self
      have hjp := judge_pos (m := m) (skip := true) (b := s.length) (info := info) (st := st) h0
      generalize hN : triggers (judge m true s.length info st c.tags).1 = ns
      have hns : ∀ v ∈ ns, v.pos = s.length := fun v hv => hjp v (by rw [← hN] at hv; exact (List.mem_filter.1 hv).1)
      have hopen : ∀ v ∈ (ms.filter fun v => decide (s.length < v.pos + post)) ++ ns, v.pos ≤ s.length ∧ s.length ≤ v.pos + post := by
        intro v hv
        rcases List.mem_append.1 hv with hv | hv
        · have := hle v (List.mem_filter.1 hv).1
          have : s.length < v.pos + post := by simpa using (List.mem_filter.1 hv).2
          omega
        · have := hns v hv; omega
      have hM : (ms ++ ns).Pairwise fun a b => a.pos ≤ b.pos := by
        refine List.pairwise_append.2 ⟨hms, ?_, fun a ha b hb => ?_⟩
        · exact List.Pairwise.imp_of_mem (R := fun _ _ => True) (fun ha hb _ => by rw [hns _ ha, hns _ hb]; exact Nat.le_refl _)
            (List.pairwise_of_forall fun _ _ => trivial)
        · rw [hns b hb]; exact hle a ha
      have hMle : ∀ v ∈ ms ++ ns, v.pos ≤ (s ++ c.data).length := by
        intro v hv
        rw [List.length_append]
        rcases List.mem_append.1 hv with hv | hv
        · have := hle v hv; omega
        · have := hns v hv; omega
      have hp : Trig.process m (view h) ⟨pre, post, info, st, (ms.filter fun v => decide (s.length < v.pos + post)).map (capOf pre post s)⟩ c =
          ((((ms.filter fun v => decide (s.length < v.pos + post)) ++ ns).filter fun v =>
              decide (v.pos + post ≤ (s ++ c.data).length)).map (window pre post (s ++ c.data)),
            ⟨pre, post, info, (judge m true s.length info st c.tags).2,
              ((ms ++ ns).filter fun v => decide ((s ++ c.data).length < v.pos + post)).map (capOf pre post (s ++ c.data))⟩) := by
        simp only [Trig.process]
        rw [onTags_eq m h s c.tags h0 _ hr]
        simp only [hN, ← List.map_append]
        rw [feed_eq pre post s c.data _ hopen]
        simp only [Prod.mk.injEq, Trig.mk.injEq, true_and]
        congr 1
        rw [List.filter_append, List.filter_append, List.filter_filter]
        congr 1
        refine List.filter_congr fun v _ => ?_
        rw [List.length_append]
        by_cases h1 : s.length + c.data.length < v.pos + post
        · have : s.length < v.pos + post := by omega
          simp [h1, this]
        · simp [h1]
      have hout : out ++ (ms.filter fun v => decide (v.pos + post ≤ s.length)).map (window pre post s) ++
          (((ms.filter fun v => decide (s.length < v.pos + post)) ++ ns).filter fun v =>
              decide (v.pos + post ≤ (s ++ c.data).length)).map (window pre post (s ++ c.data)) =
          out ++ ((ms ++ ns).filter fun v => decide (v.pos + post ≤ (s ++ c.data).length)).map (window pre post (s ++ c.data)) := by
        rw [List.append_assoc]
        congr 1
        have e1 : (ms.filter fun v => decide (v.pos + post ≤ s.length)).map (window pre post s) =
            (ms.filter fun v => decide (v.pos + post ≤ s.length)).map (window pre post (s ++ c.data)) :=
          List.map_congr_left fun v hv => (window_stable pre post s c.data v (by simpa using (List.mem_filter.1 hv).2)).symm
        rw [e1, ← List.map_append]
        congr 1
        rw [List.filter_append, ← List.append_assoc,
          complete_split hms post s.length (s ++ c.data).length (by rw [List.length_append]; omega), ← List.filter_append]
      obtain ⟨t', e1, e2⟩ := ih hr' (h.map (·.push c.data)) (s ++ c.data) info (judge m true s.length info st c.tags).2 (ms ++ ns) hM hMle
        (hr.push c.data) out
      have hlen : (s ++ c.data).length = s.length + c.data.length := List.length_append
      have hv : triggers (verdicts m true info s.length st (In.chunk c :: r)) =
          ns ++ triggers (verdicts m true info (s ++ c.data).length (judge m true s.length info st c.tags).2 r) := by
        simp only [verdicts, triggers_append, hN, hlen]
      have hs : s ++ samples (In.chunk c :: r) = s ++ c.data ++ samples r := by simp [samples]
      refine ⟨t', ?_, ?_⟩
      · simp only [Lis.run, Lis.process, hp, hout]
        rw [e1, hv, hs, ← List.append_assoc ms]
      · rw [e2, hv, hs, ← List.append_assoc ms]

end Verif.Sink
