import Verif.Sink.SetsModel
/-!
# Data set pollers (C89)
-/
namespace Verif.Sink

variable {δ : Type}

/-- what the sink's thread published in a run -/
def published : List (SetAct δ) → List δ
  | [] => []
  | .publish d :: r => d :: published r
  | .stop :: r => published r
  | .look _ :: r => published r
  | .take :: r => published r

/-- a new poller: its ring has room for `cap` data sets -/
def freshSets (cap : Nat) (blocking : Bool) (lo hi : Nat) : Sets δ := ⟨cap, blocking, lo, hi, [], 0, false, none, []⟩

/-- what holds at every moment; `ps` is what was published so far -/
private structure SInv (s : Sets δ) (ps : List δ) : Prop where
  block : s.blocking = true → s.got.flatten ++ s.queue = ps ∧ s.dropped = 0
  drop : (s.got.flatten ++ s.queue).Sublist ps ∧ (s.got.flatten ++ s.queue).length + s.dropped = ps.length
  plan : ∀ n, s.plan = some n → n ≤ s.queue.length ∧ s.lo ≤ n ∧ n ≤ s.hi
  sizes : ∀ g ∈ s.got, s.lo ≤ g.length ∧ g.length ≤ s.hi
  room : s.queue.length ≤ s.cap

private theorem sinv_step {s s' : Sets δ} {ps : List δ} (hb : s.lo ≤ s.hi) (h : SInv s ps) {a : SetAct δ} (e : s.step a = some s') :
    SInv s' (ps ++ published [a]) ∧ s'.lo = s.lo ∧ s'.hi = s.hi ∧ s'.blocking = s.blocking ∧ s'.cap = s.cap := by
  obtain ⟨h1, ⟨h2, h2'⟩, h3, h4, h5⟩ := h
  cases a with
  | publish d =>
    simp only [Sets.step] at e
    split at e
    · cases e
      refine ⟨⟨fun hbl => ?_, ?_, fun n hn => ?_, h4, ?_⟩, rfl, rfl, rfl, rfl⟩
      · have := h1 hbl
        simp only [published, ← List.append_assoc, this.1, this.2, and_self]
      · simp only [published, ← List.append_assoc]
        refine ⟨h2.append (List.Sublist.refl [d]), ?_⟩
        rw [List.length_append, List.length_append (as := ps), List.length_singleton]; omega
      · have := h3 n hn
        simp only [List.length_append, List.length_singleton]
        omega
      · simp only [List.length_append, List.length_singleton]; omega
    · split at e
      · cases e
      · rename_i hnb
        cases e
        refine ⟨⟨fun hbl => absurd hbl hnb, ⟨h2.trans (List.sublist_append_left _ _), ?_⟩, h3, h4, h5⟩, rfl, rfl, rfl, rfl⟩
        simp only [published, List.length_append, List.length_singleton] at h2' ⊢
        omega
  | stop =>
    cases e
    rw [show published [(SetAct.stop : SetAct δ)] = [] from rfl, List.append_nil]
    exact ⟨⟨h1, ⟨h2, h2'⟩, h3, h4, h5⟩, rfl, rfl, rfl, rfl⟩
  | look q =>
    simp only [Sets.step] at e
    split at e
    · cases e
    · simp only [published, List.append_nil]
      split at e
      · cases e; exact ⟨⟨h1, ⟨h2, h2'⟩, h3, h4, h5⟩, rfl, rfl, rfl, rfl⟩
      · cases e
        refine ⟨⟨h1, ⟨h2, h2'⟩, fun n hn => ?_, h4, h5⟩, rfl, rfl, rfl, rfl⟩
        simp only [Option.some.injEq] at hn
        subst hn
        simp only
        omega
  | take =>
    simp only [Sets.step] at e
    split at e
    · cases e
    · rename_i n hn
      cases e
      have hq := h3 n hn
      rw [show published [(SetAct.take : SetAct δ)] = [] from rfl, List.append_nil]
      have hfl : (s.got ++ [s.queue.take n]).flatten ++ s.queue.drop n = s.got.flatten ++ s.queue := by
        simp [List.append_assoc]
      refine ⟨⟨?_, ?_, fun m hm => (by cases hm), fun g hg => ?_, ?_⟩, rfl, rfl, rfl, rfl⟩
      · simpa only [hfl] using h1
      · simp only [hfl]; exact ⟨h2, h2'⟩
      · rcases List.mem_append.1 hg with hg | hg
        · exact h4 g hg
        · simp only [List.mem_singleton] at hg
          subst hg
          rw [List.length_take]
          simp only
          omega
      · simp only [List.length_drop]; omega

private theorem published_cons (a : SetAct δ) (r : List (SetAct δ)) : published (a :: r) = published [a] ++ published r := by
  cases a <;> rfl

private theorem sinv_run {s s' : Sets δ} {ps : List δ} (hb : s.lo ≤ s.hi) (h : SInv s ps) (acts : List (SetAct δ))
    (e : s.run acts = some s') :
    SInv s' (ps ++ published acts) ∧ s'.lo = s.lo ∧ s'.hi = s.hi ∧ s'.blocking = s.blocking ∧ s'.cap = s.cap := by
  induction acts generalizing s ps with
  | nil => cases e; exact ⟨by simpa [published] using h, rfl, rfl, rfl, rfl⟩
  | cons a r ih =>
    simp only [Sets.run] at e
    split at e
    · cases e
    · rename_i s1 e1
      obtain ⟨g, g1, g2, g3, g4⟩ := sinv_step hb h e1
      obtain ⟨k, k1, k2, k3, k4⟩ := ih (by omega) g e
      rw [published_cons, ← List.append_assoc]
      exact ⟨k, k1.trans g1, k2.trans g2, k3.trans g3, k4.trans g4⟩

private theorem sinv_fresh (cap : Nat) (b : Bool) (lo hi : Nat) : SInv (freshSets cap b lo hi : Sets δ) [] :=
  ⟨fun _ => ⟨rfl, rfl⟩, ⟨List.Sublist.refl _, rfl⟩, fun _ h => (by cases h), fun _ h => (by cases h), Nat.zero_le _⟩

/-- A poller that holds the sink back is given every data set published, once and in order; what it has not been given is in its ring. -/
theorem sets_blocking (cap lo hi : Nat) (hb : lo ≤ hi) (acts : List (SetAct δ)) (s : Sets δ)
    (e : (freshSets cap true lo hi).run acts = some s) : s.got.flatten ++ s.queue = published acts ∧ s.dropped = 0 :=
  let h := sinv_run hb (sinv_fresh cap true lo hi) acts e
  by simpa using h.1.block h.2.2.2.1

/-- Other pollers are given data sets in order, none twice, and the number lost is counted. -/
theorem sets_dropping (cap : Nat) (b : Bool) (lo hi : Nat) (hb : lo ≤ hi) (acts : List (SetAct δ)) (s : Sets δ)
    (e : (freshSets cap b lo hi).run acts = some s) :
    (s.got.flatten ++ s.queue).Sublist (published acts) ∧
      (s.got.flatten ++ s.queue).length + s.dropped = (published acts).length :=
  let h := sinv_run hb (sinv_fresh cap b lo hi) acts e
  by simpa using h.1.drop

/-- A data set is kept if the ring has room and otherwise lost, or waits if the poller may hold the sink back. A poller that may not
never makes the sink wait. -/
theorem sets_lost_iff_full (s : Sets δ) (d : δ) :
    (s.queue.length < s.cap → ∃ s', s.step (.publish d) = some s' ∧ s'.queue = s.queue ++ [d] ∧ s'.dropped = s.dropped) ∧
    (s.cap ≤ s.queue.length → s.blocking = false →
      ∃ s', s.step (.publish d) = some s' ∧ s'.queue = s.queue ∧ s'.dropped = s.dropped + 1) ∧
    (s.cap ≤ s.queue.length → s.blocking = true → s.step (.publish d) = none) := by
  refine ⟨fun h => ⟨{ s with queue := s.queue ++ [d] }, by rw [Sets.step, if_pos h], rfl, rfl⟩,
    fun h hb => ⟨{ s with dropped := s.dropped + 1 }, ?_, rfl, rfl⟩, fun h hb => ?_⟩
  · rw [Sets.step, if_neg (by omega), if_neg (by rw [hb]; exact Bool.false_ne_true)]
  · rw [Sets.step, if_neg (by omega), if_pos hb]

/-- Each call has at least the smallest and at most the largest number of data sets asked for, and the ring never has more than fit. -/
theorem sets_sizes (cap : Nat) (b : Bool) (lo hi : Nat) (hb : lo ≤ hi) (acts : List (SetAct δ)) (s : Sets δ)
    (e : (freshSets cap b lo hi).run acts = some s) :
    (∀ g ∈ s.got, lo ≤ g.length ∧ g.length ≤ hi) ∧ s.queue.length ≤ cap := by
  obtain ⟨h, h1, h2, _, h4⟩ := sinv_run hb (sinv_fresh cap b lo hi) acts e
  refine ⟨fun g hg => ?_, ?_⟩
  · have := h.sizes g hg
    rw [h1, h2] at this
    exact this
  · have := h.room
    rw [h4] at this
    exact this

/-- A poll takes what there is, up to the number asked for within the limits; it does nothing only if there are too few. -/
theorem sets_poll (s : Sets δ) (q : Nat) (hp : s.plan = none) (hb : s.lo ≤ s.hi) (n : Nat)
    (hn : n = min s.queue.length (if q < s.lo then s.lo else if s.hi < q then s.hi else q)) :
    (s.queue.length < s.lo → s.step (.look q) = some s) ∧
    (s.lo ≤ s.queue.length → s.run [.look q, .take] = some { s with got := s.got ++ [s.queue.take n], queue := s.queue.drop n }) := by
  have e : min s.queue.length (max s.lo (min q s.hi)) = n := by
    rw [hn]
    congr 1
    split <;> (try split) <;> omega
  refine ⟨fun h => ?_, fun h => ?_⟩
  · simp only [Sets.step, hp, e]
    rw [if_pos (by rw [hn]; omega)]
  · have hlo : ¬ n < s.lo := by rw [hn]; split <;> (try split) <;> omega
    simp only [Sets.run, Sets.step, hp, e]
    rw [if_neg hlo]

/-- Once a poller says it is finished and has nothing left, a poller that holds the sink back was given everything. -/
theorem sets_finished (cap lo hi : Nat) (hb : lo ≤ hi) (before after : List (SetAct δ)) (hno : published after = []) (s : Sets δ)
    (e : (freshSets cap true lo hi).run (before ++ .stop :: after) = some s) (hq : s.queue = []) :
    s.got.flatten = published before := by
  have h := (sets_blocking cap lo hi hb _ s e).1
  rw [hq, List.append_nil] at h
  rw [h]
  clear h e
  induction before with
  | nil => exact hno
  | cons a r ih => rw [List.cons_append, published_cons, ih, ← published_cons]

/-- The sink for data sets publishes, to each listener, the data sets its matcher takes, in order. -/
theorem set_listener (matcher : δ → Bool) (ins : List (List δ)) : setListener matcher ins = ins.flatten.filter matcher := by
  induction ins with
  | nil => rfl
  | cons l r ih =>
    rw [List.flatten_cons, List.filter_append, ← ih]
    rfl

/-- FINDING: a poller for multiplexed data sets or snapshots obtained after the sink stopped never says it is finished; the other kinds
say so at once. -/
theorem late_pollers (k : PollKind) : newFinished k true = true ↔ k ≠ .multiplexed ∧ k ≠ .snapshot := by
  cases k <;> simp [newFinished]

/-- a ring for two: one data set is lost when three are published before the user takes any -/
example : (freshSets 2 false 1 5 : Sets Nat).run [.publish 1, .publish 2, .publish 3, .look 9, .publish 4, .take, .publish 5, .look 1, .take, .stop] =
    some ⟨2, false, 1, 5, [], 2, true, none, [[1, 2], [5]]⟩ := by decide

/-- a poller that holds the sink back -/
example : (freshSets 2 true 1 5 : Sets Nat).run [.publish 1, .publish 2, .look 9, .take, .publish 3, .look 1, .take, .stop] =
    some ⟨2, true, 1, 5, [], 0, true, none, [[1, 2], [3]]⟩ := by decide

end Verif.Sink
