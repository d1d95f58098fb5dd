import Verif.Sink.Trig
/-!
# Helper lemmas: snapshots
-/
namespace Verif.Sink

variable {α γ σ : Type}

/-- what is kept of a trigger whose sample is still to come -/
def shotOf (delay : Nat) (s : List α) (v : Verdict γ) : Shot γ := ⟨v.map, delay, v.pos + delay - s.length⟩

theorem snap_tags (m : Matcher γ σ) (s : List α) (ts : List (Tag γ)) (h0 : ∀ t ∈ ts, t.index = 0) (x : Snap γ σ) :
    ts.foldl (Snap.onTag m) x = { x with
      state := (judge m true s.length x.info x.state ts).2
      shots := x.shots ++ (triggers (judge m true s.length x.info x.state ts).1).map (shotOf x.delay s) } := by
  induction ts generalizing x with
  | nil => simp [judge, triggers]
  | cons u r ih =>
    have hih := fun (x' : Snap γ σ) => ih (fun y hy => h0 y (List.mem_cons_of_mem _ hy)) x'
    rw [List.foldl_cons]
    by_cases he : u.map = []
    · have e1 : Snap.onTag m x u = x := by simp [Snap.onTag, he]
      have e2 : judge m true s.length x.info x.state (u :: r) = judge m true s.length x.info x.state r := by
        simp [judge, he]
      rw [e1, e2]
      exact hih x
    · have hne : u.map.isEmpty = false := by cases hu : u.map <;> simp_all
      have hu0 := h0 u List.mem_cons_self
      simp only [Snap.onTag, hne, Bool.false_eq_true, if_false]
      have e2 : judge m true s.length x.info x.state (u :: r) =
          (⟨s.length, (m u x.state).1, u.map, x.info⟩ :: (judge m true s.length x.info (m u x.state).2 r).1,
            (judge m true s.length x.info (m u x.state).2 r).2) := by
        simp [judge, he, hu0]
      rw [e2]
      rcases hm : m u x.state with ⟨res, st⟩
      cases res with
      | matching =>
        refine (hih _).trans ?_
        simp only [triggers, List.filter_cons_of_pos, decide_true, List.map_cons, List.append_assoc, List.singleton_append]
        congr 3
        simp only [shotOf, Shot.mk.injEq, true_and]
        omega
      | notMatching =>
        refine (hih _).trans ?_
        simp [triggers]
      | ignore =>
        refine (hih _).trans ?_
        simp [triggers]

theorem shoot_eq (info : List γ) (delay : Nat) (s d : List α) (vs : List (Verdict γ)) (h : ∀ v ∈ vs, s.length ≤ v.pos + delay) :
    shoot info d (vs.map (shotOf delay s)) =
      (vs.filterMap (snapshot info delay (s ++ d)),
        (vs.filter fun v => decide ((s ++ d).length ≤ v.pos + delay)).map (shotOf delay (s ++ d))) := by
  induction vs with
  | nil => rfl
  | cons v r ih =>
    have h1 := h v List.mem_cons_self
    have hr := ih fun u hu => h u (List.mem_cons_of_mem _ hu)
    have hg : (s ++ d)[v.pos + delay]? = d[v.pos + delay - s.length]? := List.getElem?_append_right h1
    simp only [List.map_cons, shoot, hr]
    by_cases hc : (s ++ d).length ≤ v.pos + delay
    · have hd : d[v.pos + delay - s.length]? = none := List.getElem?_eq_none (by rw [List.length_append] at hc; omega)
      rw [List.filter_cons_of_pos (by simpa using hc), List.filterMap_cons]
      have e : snapshot info delay (s ++ d) v = none := by simp only [snapshot, hg, hd, Option.map_none]
      simp only [e, shotOf, hd, List.map_cons, Prod.mk.injEq, List.cons.injEq, Shot.mk.injEq, true_and, and_true, List.length_append]
      omega
    · have hlt : v.pos + delay - s.length < d.length := by rw [List.length_append] at hc; omega
      have hd := List.getElem?_eq_getElem hlt
      rw [List.filter_cons_of_neg (by simpa using hc), List.filterMap_cons]
      have e : snapshot info delay (s ++ d) v = some (dataset info [d[v.pos + delay - s.length]] [(-(delay : Int), v.map)]) := by
        simp only [snapshot, hg, hd, Option.map_some]
      simp only [e, shotOf, hd]
      rfl

theorem verdicts_pos {m : Matcher γ σ} {skip : Bool} {ins : List (In α γ)} (hat : AtStart ins) (info : List γ) (b : Nat) (st : σ) :
    ∀ v ∈ verdicts m skip info b st ins, b ≤ v.pos := by
  induction ins generalizing info b st with
  | nil => intro v hv; cases hv
  | cons i r ih =>
    have hr' : AtStart r := fun c hc => hat c (List.mem_cons_of_mem _ hc)
    cases i with
    | meta' info' => exact ih hr' info' b st
    | chunk c =>
      intro v hv
      rcases List.mem_append.1 hv with hv | hv
      · exact Nat.le_of_eq (judge_pos (hat c List.mem_cons_self) v hv).symm
      · have := ih hr' _ _ _ v hv; omega

theorem filterMap_congr {β δ : Type} {l : List β} {f g : β → Option δ} (h : ∀ x ∈ l, f x = g x) : l.filterMap f = l.filterMap g := by
  induction l with
  | nil => rfl
  | cons a r ih =>
    rw [List.filterMap_cons, List.filterMap_cons, h a List.mem_cons_self, ih fun x hx => h x (List.mem_cons_of_mem _ hx)]

/-- snapshots are taken in the order of their triggers -/
theorem taken_split {β : Type} {vs : List (Verdict γ)} (h : vs.Pairwise fun a b => a.pos ≤ b.pos) (delay n : Nat)
    (f g : Verdict γ → Option β) (hf : ∀ v ∈ vs, n ≤ v.pos + delay → f v = none) :
    vs.filterMap f ++ (vs.filter fun v => decide (n ≤ v.pos + delay)).filterMap g =
      vs.filterMap fun v => if n ≤ v.pos + delay then g v else f v := by
  induction vs with
  | nil => rfl
  | cons v r ih =>
    obtain ⟨h1, h2⟩ := List.pairwise_cons.1 h
    have hr := ih h2 fun u hu => hf u (List.mem_cons_of_mem _ hu)
    by_cases hv : n ≤ v.pos + delay
    · have h3 : r.filterMap f = [] :=
        List.filterMap_eq_nil_iff.2 fun u hu => hf u (List.mem_cons_of_mem _ hu) (by have := h1 u hu; omega)
      rw [h3, List.nil_append] at hr
      rw [List.filterMap_cons, hf v List.mem_cons_self hv, List.filter_cons_of_pos (by simpa using hv), List.filterMap_cons,
        List.filterMap_cons]
      simp only [h3, List.nil_append, hr, if_pos hv]
    · rw [List.filter_cons_of_neg (by simpa using hv), List.filterMap_cons, List.filterMap_cons]
      simp only [if_neg hv]
      cases f v with
      | none => exact hr
      | some y => simp only [List.cons_append, hr]

theorem snap_run (m : Matcher γ σ) (f : List γ → Nat) (delay : Nat) (ins : List (In α γ)) (hat : AtStart ins)
    (hd : ∀ info, In.meta' info ∈ ins → f info = delay) (h : Option (Hist α)) (s : List α) (info : List γ) (st : σ)
    (ms : List (Verdict γ)) (hms : ms.Pairwise fun a b => a.pos ≤ b.pos) (hle : ∀ v ∈ ms, v.pos ≤ s.length)
    (hop : ∀ v ∈ ms, s.length ≤ v.pos + delay) (out : List (DS α γ)) :
    ∃ x', Lis.run h ins (.snap m f ⟨delay, info, st, ms.map (shotOf delay s)⟩ out) =
      .snap m f x' (out ++ (ms ++ triggers (verdicts m true info s.length st ins)).filterMap fun v =>
        snapshot (infoAt info s.length ins (v.pos + delay)) delay (s ++ samples ins) v) := by
  induction ins generalizing h s info st ms out with
  | nil =>
    refine ⟨⟨delay, info, st, ms.map (shotOf delay s)⟩, ?_⟩
    have e : ((ms ++ triggers (verdicts m true info s.length st ([] : List (In α γ)))).filterMap fun v =>
        snapshot (infoAt info s.length ([] : List (In α γ)) (v.pos + delay)) delay (s ++ samples ([] : List (In α γ))) v) = [] := by
      simp only [verdicts, triggers, List.filter_nil, List.append_nil, samples]
      refine List.filterMap_eq_nil_iff.2 fun v hv => ?_
      simp only [snapshot, List.getElem?_eq_none (hop v hv), Option.map_none]
    rw [e, List.append_nil]
    rfl
  | cons i r ih =>
    have hr' : AtStart r := fun c hc => hat c (List.mem_cons_of_mem _ hc)
    have hd' : ∀ info, In.meta' info ∈ r → f info = delay := fun i hi => hd i (List.mem_cons_of_mem _ hi)
    cases i with
    | meta' info' =>
      have := ih hr' hd' h s info' st ms hms hle hop out
      have e := hd info' List.mem_cons_self
      obtain ⟨x', this⟩ := this
      refine ⟨x', ?_⟩
      simp only [Lis.run, Lis.setMeta, e]
      exact this
    | chunk c =>
      have h0 := hat c List.mem_cons_self
      have hjp := judge_pos (m := m) (skip := true) (b := s.length) (info := info) (st := st) h0
      have hlen : (s ++ c.data).length = s.length + c.data.length := List.length_append
      generalize hN : triggers (judge m true s.length info st c.tags).1 = ns
      have hns : ∀ v ∈ ns, v.pos = s.length := fun v hv => hjp v (by rw [← hN] at hv; exact (List.mem_filter.1 hv).1)
      have hM : (ms ++ ns).Pairwise fun a b => a.pos ≤ b.pos := by
        refine List.pairwise_append.2 ⟨hms, ?_, fun a ha b hb => ?_⟩
        · exact List.Pairwise.imp_of_mem (R := fun _ _ => True) (fun ha hb _ => by rw [hns _ ha, hns _ hb]; exact Nat.le_refl _)
            (List.pairwise_of_forall fun _ _ => trivial)
        · rw [hns b hb]; exact hle a ha
      have hMop : ∀ v ∈ ms ++ ns, s.length ≤ v.pos + delay := by
        intro v hv
        rcases List.mem_append.1 hv with hv | hv
        · exact hop v hv
        · have := hns v hv; omega
      have hMle : ∀ v ∈ ms ++ ns, v.pos ≤ (s ++ c.data).length := by
        intro v hv
        rcases List.mem_append.1 hv with hv | hv
        · have := hle v hv; omega
        · have := hns v hv; omega
      have hp : Snap.process m ⟨delay, info, st, ms.map (shotOf delay s)⟩ c =
          ((ms ++ ns).filterMap (snapshot info delay (s ++ c.data)),
            ⟨delay, info, (judge m true s.length info st c.tags).2,
              ((ms ++ ns).filter fun v => decide ((s ++ c.data).length ≤ v.pos + delay)).map (shotOf delay (s ++ c.data))⟩) := by
        simp only [Snap.process]
        rw [snap_tags m s c.tags h0]
        simp only [hN, ← List.map_append]
        rw [shoot_eq info delay s c.data _ hMop]
      obtain ⟨x', e1⟩ := ih hr' hd' (h.map (·.push c.data)) (s ++ c.data) info (judge m true s.length info st c.tags).2
        ((ms ++ ns).filter fun v => decide ((s ++ c.data).length ≤ v.pos + delay)) (hM.filter _)
        (fun v hv => hMle v (List.mem_filter.1 hv).1) (fun v hv => by simpa using (List.mem_filter.1 hv).2)
        (out ++ (ms ++ ns).filterMap (snapshot info delay (s ++ c.data)))
      have hv : triggers (verdicts m true info s.length st (In.chunk c :: r)) =
          ns ++ triggers (verdicts m true info (s ++ c.data).length (judge m true s.length info st c.tags).2 r) := by
        simp only [verdicts, triggers_append, hN, hlen]
      have hs : s ++ samples (In.chunk c :: r) = s ++ c.data ++ samples r := by simp [samples]
      refine ⟨x', ?_⟩
      simp only [Lis.run, Lis.process, hp]
      rw [e1, hv, hs, ← List.append_assoc ms, List.append_assoc out]
      congr 1
      congr 1
      generalize ms ++ ns = mn at hM ⊢
      rw [List.filterMap_append, ← List.append_assoc, List.filterMap_append]
      congr 1
      · rw [taken_split hM delay (s ++ c.data).length]
        · refine filterMap_congr fun v hv => ?_
          simp only [infoAt]
          by_cases hc : (s ++ c.data).length ≤ v.pos + delay
          · rw [if_pos hc, if_neg (by omega), hlen]
          · rw [if_neg hc, if_pos (by omega)]
            simp only [snapshot]
            rw [List.getElem?_append_left (l₁ := s ++ c.data) (by omega)]
        · intro v _ hc
          simp only [snapshot, List.getElem?_eq_none hc, Option.map_none]
      · refine filterMap_congr fun v hv => ?_
        have := verdicts_pos hr' _ _ _ v (List.mem_filter.1 hv).1
        simp only [infoAt]
        rw [if_neg (by omega), hlen]

end Verif.Sink
