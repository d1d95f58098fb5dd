import Verif.Sink.Stream
/-!
# Helper lemmas: what holds between any two steps of the threads using a poller
-/
namespace Verif.Sink

variable {α γ : Type}

/-- samples handed out and not yet consumed -/
def RPos.out : RPos → Nat
  | .called n => n
  | _ => 0

/-- what the writing thread has decided; `q` is the metadata to be sent before the chunk it holds -/
def WOk (p : Poller α γ) (blocking : Bool) (pending q : Option (List γ)) : WPos α γ → Prop
  | .idle => pending = q
  | .sized c n => pending = q ∧ n ≤ c.data.length ∧ (blocking = true → n = c.data.length) ∧
      (blocking = false → p.data.length + n ≤ p.cap)
  | .planned c n k a => pending = q ∧ n ≤ c.data.length ∧ (blocking = true → n = c.data.length) ∧
      (blocking = false → p.data.length + n ≤ p.cap) ∧ a = (onFirst q 0 c n).length ∧ k ≤ a ∧ (blocking = true → k = a) ∧
      (blocking = false → p.tags.length + k ≤ p.tagCap)
  | .tagged c n k a => pending = after q ⟨n, k⟩ ∧ n ≤ c.data.length ∧ (blocking = true → n = c.data.length) ∧
      (blocking = false → p.data.length + n ≤ p.cap) ∧ a = (onFirst q 0 c n).length ∧ k ≤ a ∧ (blocking = true → k = a)

/-- samples and counters, whether or not the user's functions take tags -/
structure Common (info : List γ) (s : St α γ) (ins : List (In α γ)) (ks : List Keep) : Prop where
  fits : Fits (some info) ins ks
  data : got s.calls ++ s.poller.data.drop s.r.out = kept ins ks
  read : s.poller.read + s.r.out = (got s.calls).length
  out : s.r.out ≤ s.poller.data.length
  plan : ∀ n tk, s.r = .planned n tk → n ≤ s.poller.data.length
  pub : s.published = (kept ins ks).length
  cap : s.poller.data.length ≤ s.poller.cap
  tagCap : s.poller.tags.length ≤ s.poller.tagCap
  lost : s.poller.droppedSamples + (kept ins ks).length = (samples ins).length
  lostTags : s.poller.droppedTags = missed (some info) ins ks
  w : WOk s.poller s.blocking s.pending (pend (some info) ins ks) s.w
  full : s.blocking = true → ks = full (some info) ins

theorem samples_append (a b : List (In α γ)) : samples (a ++ b) = samples a ++ samples b := by
  induction a with
  | nil => rfl
  | cons i r ih => cases i <;> simp [samples, ih]

/-- the reading thread only makes room -/
theorem WOk.room {p p' : Poller α γ} {b : Bool} {pe q : Option (List γ)} {w : WPos α γ} (h : WOk p b pe q w)
    (hd : p'.data.length ≤ p.data.length) (ht : p'.tags.length ≤ p.tags.length) (hc : p'.cap = p.cap) (htc : p'.tagCap = p.tagCap) :
    WOk p' b pe q w := by
  cases w with
  | idle => exact h
  | sized c n =>
    obtain ⟨h1, h2, h3, h4⟩ := h
    exact ⟨h1, h2, h3, fun hb => by have := h4 hb; omega⟩
  | planned c n k a =>
    obtain ⟨h1, h2, h3, h4, h5, h6, h7, h8⟩ := h
    exact ⟨h1, h2, h3, fun hb => by have := h4 hb; omega, h5, h6, h7, fun hb => by have := h8 hb; omega⟩
  | tagged c n k a =>
    obtain ⟨h1, h2, h3, h4, h5, h6, h7⟩ := h
    exact ⟨h1, h2, h3, fun hb => by have := h4 hb; omega, h5, h6, h7⟩

theorem tagEntries_eq (s : St α γ) (c : Chunk α γ) (n : Nat) : tagEntries s c n = onFirst s.pending s.published c n := by
  unfold tagEntries onFirst
  cases s.pending <;> rfl

theorem common_start (cap tagCap minReq maxReq : Nat) (blocking : Bool) (info : List γ) :
    Common info (start cap tagCap minReq maxReq blocking info : St α γ) [] [] where
  fits := rfl
  data := rfl
  read := rfl
  out := Nat.le_refl _
  plan := fun _ _ h => by cases h
  pub := rfl
  cap := Nat.zero_le _
  tagCap := Nat.zero_le _
  lost := rfl
  lostTags := rfl
  w := rfl
  full := fun _ => rfl

/-- chunks and metadata dealt with after a step -/
def nextIns (w : WPos α γ) (ins : List (In α γ)) : Act α γ → List (In α γ)
  | .meta' m => ins ++ [.meta' m]
  | .pubData => ins ++ w.held
  | _ => ins

/-- what is kept after a step -/
def nextKeep (w : WPos α γ) (ks : List Keep) : Act α γ → List Keep
  | .pubData => match w with
    | .tagged _ n k _ => ks ++ [⟨n, k⟩]
    | _ => ks
  | _ => ks

/-- one step: chunks are counted once their samples are published -/
theorem common_step {info : List γ} {s s' : St α γ} {ins : List (In α γ)} {ks : List Keep} (h : Common info s ins ks) (a : Act α γ)
    (hs : step s a = some s') :
    Common info s' (nextIns s.w ins a) (nextKeep s.w ks a) ∧ nextIns s.w ins a ++ s'.w.held = ins ++ s.w.held ++ arrived [a] ∧
      s'.blocking = s.blocking := by
  cases a with
  | meta' m =>
    cases hw : s.w with
    | idle =>
      simp only [step, hw, Option.some.injEq] at hs; subst hs
      obtain ⟨e1, e2, e3, e4, e5⟩ := snoc_meta h.fits m
      refine ⟨?_, by simp [nextIns, hw, WPos.held, arrived], rfl⟩
      show Common info _ (ins ++ [.meta' m]) ks
      exact { fits := e3, data := by rw [e1]; exact h.data, read := h.read, out := h.out, plan := h.plan, pub := by rw [e1]; exact h.pub,
              cap := h.cap, tagCap := h.tagCap, lost := by rw [e1, samples_append]; simpa [samples] using h.lost, lostTags := by rw [e4]; exact h.lostTags,
              w := by simp only [hw, WOk]; rw [e5], full := fun hb => by rw [full_meta]; exact h.full hb }
    | _ => simp only [step, hw] at hs; cases hs
  | offer c =>
    cases hw : s.w with
    | idle =>
      simp only [step, hw, Option.some.injEq] at hs; subst hs
      refine ⟨?_, by simp [nextIns, hw, WPos.held, arrived], rfl⟩
      have hcap := h.cap
      have hp := h.w; rw [hw] at hp
      exact { h with
              w := ⟨hp, by split <;> omega, fun hb => by rw [if_pos hb], fun hb => by
                have hb' : ¬ s.blocking = true := fun e => (by rw [show s.blocking = false from hb] at e; cases e)
                rw [if_neg hb']; dsimp only at hcap ⊢; omega⟩ }
    | _ => simp only [step, hw] at hs; cases hs
  | planTags =>
    cases hw : s.w with
    | sized c n =>
      simp only [step, hw, Option.some.injEq] at hs; subst hs
      have hp := h.w; rw [hw] at hp
      obtain ⟨h1, h2, h3, h4⟩ := hp
      have he : (if s.pending.isSome = true then (c.tags.filter fun t => decide (t.index < n)).length + 1
          else (c.tags.filter fun t => decide (t.index < n)).length) = (onFirst (pend (some info) ins ks) 0 c n).length := by
        rw [← h1]
        cases s.pending <;> simp [onFirst, Nat.add_comm]
      refine ⟨?_, by simp [nextIns, hw, WPos.held, arrived], rfl⟩
      refine { h with w := ?_ }
      refine ⟨h1, h2, h3, h4, he, ?_, ?_, ?_⟩
      · split
        · exact Nat.le_refl _
        · exact Nat.min_le_left _ _
      · intro hb; rw [if_pos hb]
      · intro hb
        have := h.tagCap
        have hb' : ¬ s.blocking = true := fun e => (by rw [show s.blocking = false from hb] at e; cases e)
        rw [if_neg hb']; dsimp only; omega
    | _ => simp only [step, hw] at hs; cases hs
  | pubTags =>
    cases hw : s.w with
    | planned c n k av =>
      have hp := h.w; rw [hw] at hp
      obtain ⟨h1, h2, h3, h4, h5, h6, h7, h8⟩ := hp
      simp only [step, hw] at hs
      by_cases hnk : 0 < n ∧ 0 < k
      · rw [if_pos hnk] at hs
        by_cases hr : s.poller.tags.length + k ≤ s.poller.tagCap
        · rw [if_pos hr] at hs
          simp only [Option.some.injEq] at hs; subst hs
          refine ⟨?_, by simp [nextIns, hw, WPos.held, arrived], rfl⟩
          refine { h with w := ?_, tagCap := by simp only [List.length_append, List.length_take]; omega }
          exact ⟨by unfold after; rw [if_pos hnk], h2, h3, h4, h5, h6, h7⟩
        · rw [if_neg hr] at hs; cases hs
      · rw [if_neg hnk] at hs
        simp only [Option.some.injEq] at hs; subst hs
        refine ⟨?_, by simp [nextIns, hw, WPos.held, arrived], rfl⟩
        refine { h with w := ?_ }
        exact ⟨by unfold after; rw [if_neg hnk]; exact h1, h2, h3, h4, h5, h6, h7⟩
    | _ => simp only [step, hw] at hs; cases hs
  | pubData =>
    cases hw : s.w with
    | tagged c n k av =>
      have hp := h.w; rw [hw] at hp
      obtain ⟨h1, h2, h3, h4, h5, h6, h7⟩ := hp
      simp only [step, hw] at hs
      by_cases hr : s.poller.data.length + n ≤ s.poller.cap
      · rw [if_pos hr] at hs
        simp only [Option.some.injEq] at hs; subst hs
        obtain ⟨e1, e2, e3, e4, e5⟩ := snoc_chunk h.fits c ⟨n, k⟩ h2 (h5 ▸ h6)
        refine ⟨?_, by simp [nextIns, hw, WPos.held, arrived], rfl⟩
        show Common info _ (ins ++ [.chunk c]) (ks ++ [⟨n, k⟩])
        have hout := h.out
        exact { fits := e3
                data := by
                  rw [e1, ← h.data, List.append_assoc]
                  dsimp only
                  rw [List.drop_append_of_le_length h.out]
                read := h.read
                out := by simp only [List.length_append]; omega
                plan := fun n' tk hr => by have := h.plan n' tk hr; simp only [List.length_append]; omega
                pub := by rw [e1, List.length_append, List.length_take, Nat.min_eq_left h2]; simp only [h.pub]
                cap := by simpa [Nat.min_eq_left h2] using hr
                tagCap := h.tagCap
                lost := by
                  have := h.lost
                  rw [e1, samples_append]
                  simp only [List.length_append, List.length_take, Nat.min_eq_left h2, samples, List.append_nil]
                  omega
                lostTags := by rw [e4, ← h.lostTags, h5]
                w := by simp only [WOk]; rw [e5]; exact h1
                full := fun hb => by
                  rw [full_chunk, ← h.full hb, h3 hb, h7 hb, h5, h3 hb] }
      · rw [if_neg hr] at hs; cases hs
    | _ => simp only [step, hw] at hs; cases hs
  | stop =>
    cases hw : s.w with
    | idle =>
      simp only [step, hw, Option.some.injEq] at hs; subst hs
      refine ⟨?_, by simp [nextIns, hw, WPos.held, arrived], rfl⟩
      have hp := h.w; rw [hw] at hp
      exact { h with w := hp }
    | _ => simp only [step, hw] at hs; cases hs
  | poll req tk =>
    cases hr : s.r with
    | idle =>
      simp only [step, hr] at hs
      split at hs
      · simp only [Option.some.injEq] at hs; subst hs
        exact ⟨h, by simp [nextIns, arrived], rfl⟩
      · simp only [Option.some.injEq] at hs; subst hs
        refine ⟨?_, by simp [nextIns, arrived], rfl⟩
        have hd := h.data; have hrd := h.read
        rw [hr] at hd hrd
        exact { h with data := hd, read := hrd, out := Nat.zero_le _, plan := fun n tk' he => (by
                  simp only [RPos.planned.injEq] at he
                  rw [← he.1]; exact Nat.min_le_left _ _) }
    | _ => simp only [step, hr] at hs; cases hs
  | call =>
    cases hr : s.r with
    | planned n tk =>
      have hd := h.data; have hrd := h.read; have hpl := h.plan n tk hr
      rw [hr] at hd hrd
      simp only [RPos.out, List.drop_zero, Nat.add_zero] at hd hrd
      have hdata : ∀ ts : List (Tag γ), got (s.calls ++ [⟨s.poller.data.take n, ts⟩]) ++ s.poller.data.drop n = kept ins ks := by
        intro ts
        rw [got_append, List.append_assoc, ← hd]
        simp [got]
      have hlen : ∀ ts : List (Tag γ), (got (s.calls ++ [⟨s.poller.data.take n, ts⟩])).length = (got s.calls).length + n := by
        intro ts
        rw [got_append]
        simp [got, Nat.min_eq_left hpl]
      simp only [step, hr] at hs
      cases tk with
      | true =>
        simp only [if_true, Option.some.injEq] at hs; subst hs
        refine ⟨?_, by simp [nextIns, arrived], rfl⟩
        exact { h with data := hdata _, read := by rw [hlen, ← hrd]; rfl, out := hpl, plan := fun _ _ he => (by cases he),
                       w := h.w.room (Nat.le_refl _) (by simp) rfl rfl, tagCap := (by have := h.tagCap; simp; try omega) }
      | false =>
        simp only [Bool.false_eq_true, if_false, Option.some.injEq] at hs; subst hs
        refine ⟨?_, by simp [nextIns, arrived], rfl⟩
        exact { h with data := hdata _, read := by rw [hlen, ← hrd]; rfl, out := hpl, plan := fun _ _ he => (by cases he),
                       w := h.w.room (Nat.le_refl _) (by simp) rfl rfl, tagCap := (by have := h.tagCap; simp; try omega) }
    | _ => simp only [step, hr] at hs; cases hs
  | consume =>
    cases hr : s.r with
    | called n =>
      have hd := h.data; have hrd := h.read; have ho := h.out; have hc := h.cap
      rw [hr] at hd hrd ho
      simp only [RPos.out] at hd hrd ho
      simp only [step, hr, Option.some.injEq] at hs; subst hs
      refine ⟨?_, by simp [nextIns, arrived], rfl⟩
      show Common info _ ins ks
      exact { h with data := by simpa [RPos.out] using hd, read := by simpa [RPos.out] using hrd, out := Nat.zero_le _,
                     plan := fun _ _ he => (by cases he), cap := by simp only [List.length_drop]; omega,
                     w := h.w.room (by simp) (Nat.le_refl _) rfl rfl }
    | _ => simp only [step, hr] at hs; cases hs

end Verif.Sink
