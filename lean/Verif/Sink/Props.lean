import Verif.Sink.TagInv
import Verif.Sink.Callback
/-!
# Streaming listeners of the data sink (C85)
-/
namespace Verif.Sink

variable {α γ : Type}

/-! ### Callbacks -/

/-- A streaming callback is given the stream, sample after sample, without gaps or repetitions, in pieces that are not empty and not
longer than asked for. -/
theorem callback_samples (tk : Bool) (maxChunk : Nat) (p : Option (List γ)) (ins : List (In α γ)) :
    got (callbacks tk maxChunk p ins) = samples ins ∧
      ∀ k ∈ callbacks tk maxChunk p ins, 0 < k.data.length ∧ (maxChunk ≠ 0 → k.data.length ≤ maxChunk) := by
  induction ins generalizing p with
  | nil => exact ⟨rfl, fun _ h => by cases h⟩
  | cons i r ih =>
    cases i with
    | meta' m => exact ih _
    | chunk c =>
      simp only [callbacks]
      obtain ⟨h1, h2⟩ := ih (callback tk maxChunk p c).2
      obtain ⟨l1, l2⟩ := loop_got tk (if maxChunk ≠ 0 then maxChunk else c.data.length) c
        (fun h => by split <;> omega) c.data.length 0 p (by omega)
      refine ⟨?_, fun k hk => ?_⟩
      · rw [got_append, h1]
        show got (callback tk maxChunk p c).1 ++ _ = _
        unfold callback
        rw [l1]; rfl
      · rcases List.mem_append.1 hk with hk | hk
        · obtain ⟨a, b⟩ := l2 k hk
          refine ⟨a, fun hm => ?_⟩
          rw [if_pos hm] at b
          exact b
        · exact h2 k hk

/-- A callback that takes tags is given every tag, at its sample, and new metadata with the first sample after it was set. -/
theorem callback_tags (maxChunk : Nat) (p : Option (List γ)) (b : Nat) (ins : List (In α γ)) (h : Ok ins) :
    gotTags b (callbacks true maxChunk p ins) = positions p b ins ∧ Inside (callbacks true maxChunk p ins) := by
  induction ins generalizing p b with
  | nil => exact ⟨rfl, fun _ h => by cases h⟩
  | cons i r ih =>
    have hr : Ok r := fun c hc => h c (List.mem_cons_of_mem _ hc)
    cases i with
    | meta' m => exact ih _ _ hr
    | chunk c =>
      have hc : c.Ok := h c List.mem_cons_self
      simp only [callbacks, positions]
      obtain ⟨l1, _⟩ := loop_got true (if maxChunk ≠ 0 then maxChunk else c.data.length) c
        (fun h => by split <;> omega) c.data.length 0 p (by omega)
      obtain ⟨t1, t2, t3⟩ := loop_tags (if maxChunk ≠ 0 then maxChunk else c.data.length) c hc
        (fun h => by split <;> omega) c.data.length 0 b p (by omega)
      obtain ⟨h1, h2⟩ := ih (callback true maxChunk p c).2 (b + c.data.length) hr
      refine ⟨?_, fun k hk => ?_⟩
      · rw [gotTags_append]
        have e : (got (callback true maxChunk p c).1).length = c.data.length := by
          unfold callback; rw [l1]; rfl
        rw [e, h1]
        show gotTags b (callback true maxChunk p c).1 ++ _ = _
        unfold callback
        rw [t1, t2]
        have hf : (c.tags.filter fun t => decide (0 ≤ t.index)) = c.tags := List.filter_eq_self.2 fun t _ => by simp
        by_cases hz : c.data.length = 0
        · have hn : c.tags = [] := by
            cases ht : c.tags with
            | nil => rfl
            | cons t _ => have := hc.2 t (by rw [ht]; exact List.mem_cons_self); omega
          rw [if_pos hz, if_neg (by omega), if_neg (by omega), hf, hn, hz]; rfl
        · rw [if_neg hz, if_pos (by omega), if_pos (by omega), hf]; simp
      · rcases List.mem_append.1 hk with hk | hk
        · exact t3 k hk
        · exact h2 k hk

example : callbacks true 2 none [.meta' [7], .chunk ⟨[1, 2, 3], [⟨0, [8]⟩, ⟨2, [9]⟩]⟩, .chunk ⟨[4], []⟩] =
    [⟨[1, 2], [⟨0, [7]⟩, ⟨0, [8]⟩]⟩, ⟨[3], [⟨0, [9]⟩]⟩, ⟨[4], []⟩] ∧
    positions none 0 [In.meta' [7], .chunk ⟨[1, 2, 3], [⟨0, [8]⟩, ⟨2, [9]⟩]⟩, .chunk ⟨[4], []⟩] = [(0, [7]), (0, [8]), (2, [9])] := by
  decide

/-! ### Pollers -/

/-- A poller that holds the sink back: whatever the interleaving of the two threads and whatever functions the user polls with, the user
was given a beginning of the stream, nothing was dropped and the rest is still in the poller. -/
theorem blocking_samples (cap tagCap minReq maxReq : Nat) (info : List γ) (as : List (Act α γ)) (s : St α γ)
    (h : run (start cap tagCap minReq maxReq true info) as = some s) :
    ∃ ins, ins ++ s.w.held = arrived as ∧ got s.calls <+: samples ins ∧ s.poller.droppedSamples = 0 ∧ s.poller.droppedTags = 0 ∧
      (s.r = .idle → got s.calls ++ s.poller.data = samples ins) := by
  obtain ⟨ins, ks, c, hi, hb, _⟩ := run_common as (common_start cap tagCap minReq maxReq true info) h
  have hk := c.full hb
  have hd := c.data
  have hl := c.lost
  have ht := c.lostTags
  rw [hk, kept_full] at hd hl
  rw [hk, missed_full] at ht
  refine ⟨ins, hi, ⟨_, hd⟩, by omega, ht, fun hr => ?_⟩
  rw [hr] at hd
  simpa [RPos.out] using hd

/-- If the user polls with functions that take tags, every call came with the tags of its samples, each at its sample, and nothing else. -/
theorem blocking_tags (cap tagCap minReq maxReq : Nat) (info : List γ) (as : List (Act α γ)) (s : St α γ)
    (h : run (start cap tagCap minReq maxReq true info) as = some s) (hok : Ok (arrived as)) (htk : TakesTags as) :
    ∃ ins, ins ++ s.w.held = arrived as ∧ Inside s.calls ∧
      gotTags 0 s.calls = (positions (some info) 0 ins).filter fun t => t.1 < (got s.calls).length := by
  obtain ⟨ins, ks, c, hi, hb, hT⟩ := run_common as (common_start cap tagCap minReq maxReq true info) h
  have hoff : ∀ c, Act.offer c ∈ as → c.Ok := by
    intro c hc
    refine hok c ?_
    clear hT hi h hok htk
    induction as with
    | nil => cases hc
    | cons a r ih =>
      rcases List.mem_cons.1 hc with rfl | hc
      · simp [arrived]
      · have := ih hc
        cases a <;> simp [arrived, this]
  have t := hT (tags_start ..) hoff htk
  have hins : Ok ins := fun c hc => hok c (by rw [show arrived as = ins ++ s.w.held from hi.symm]; exact List.mem_append_left _ hc)
  have e := t.got c
  rw [c.full hb, keptTags_full _ _ _ hins] at e
  exact ⟨ins, hi, t.inside, e⟩

/-- one user, one writer: the chunk's tags are in the ring before its samples are, and the user reads the number of samples first -/
def sample : List (Act Nat Nat) :=
  [.offer ⟨[1, 2, 3], [⟨0, [8]⟩, ⟨2, [9]⟩]⟩, .planTags, .pubTags, .poll 9 true, .pubData, .poll 2 true, .offer ⟨[4, 5], [⟨1, [6]⟩]⟩,
    .planTags, .pubTags, .call, .consume, .poll 9 true, .pubData, .call, .consume]

example : (run (start 8 8 1 9 true [7]) sample).map (fun s => (s.calls, s.poller.data, s.poller.tags)) =
    some ([⟨[1, 2], [⟨0, [7]⟩, ⟨0, [8]⟩]⟩, ⟨[3], [⟨0, [9]⟩]⟩], [4, 5], [(4, [6])]) := by decide

/-- A poller that does not hold the sink back: for each chunk there is a number of samples and of tags that were kept. The user was given
a beginning of the samples kept, and — polling with functions that take tags — the tags kept on these, at their samples. The samples not
kept are counted as dropped; so are the tags not kept of those on samples kept. -/
theorem dropping (cap tagCap minReq maxReq : Nat) (info : List γ) (as : List (Act α γ)) (s : St α γ)
    (h : run (start cap tagCap minReq maxReq false info) as = some s) :
    ∃ ins ks, ins ++ s.w.held = arrived as ∧ Fits (some info) ins ks ∧ got s.calls <+: kept ins ks ∧
      (s.r = .idle → got s.calls ++ s.poller.data = kept ins ks) ∧
      s.poller.droppedSamples + (kept ins ks).length = (samples ins).length ∧ s.poller.droppedTags = missed (some info) ins ks ∧
      (Ok (arrived as) → TakesTags as → Inside s.calls ∧
        gotTags 0 s.calls = (keptTags (some info) 0 ins ks).filter fun t => t.1 < (got s.calls).length) := by
  obtain ⟨ins, ks, c, hi, _, hT⟩ := run_common as (common_start cap tagCap minReq maxReq false info) h
  refine ⟨ins, ks, hi, c.fits, ⟨_, c.data⟩, fun hr => ?_, c.lost, c.lostTags, fun hok htk => ?_⟩
  · have hd := c.data
    rw [hr] at hd
    simpa [RPos.out] using hd
  · have hoff : ∀ c, Act.offer c ∈ as → c.Ok := by
      intro c hc
      refine hok c ?_
      clear hT hi h hok htk
      induction as with
      | nil => cases hc
      | cons a r ih =>
        rcases List.mem_cons.1 hc with rfl | hc
        · simp [arrived]
        · have := ih hc
          cases a <;> simp [arrived, this]
    have t := hT (tags_start ..) hoff htk
    exact ⟨t.inside, t.got c⟩

/-- The samples of a chunk are dropped only when the poller is full: as many are kept as there is room for when the chunk arrives. -/
theorem drops_when_full (s s' : St α γ) (c : Chunk α γ) (hb : s.blocking = false) (h : step s (.offer c) = some s') :
    s'.w = .sized c (min c.data.length (s.poller.cap - s.poller.data.length)) := by
  cases hw : s.w with
  | idle =>
    simp only [step, hw, hb, Option.some.injEq] at h
    subst h; rfl
  | _ => simp only [step, hw] at h; cases h

/-- Such a poller never makes the sink wait: the thread running the block can always go on. -/
theorem never_waits (cap tagCap minReq maxReq : Nat) (info : List γ) (as : List (Act α γ)) (s : St α γ)
    (h : run (start cap tagCap minReq maxReq false info) as = some s) :
    s.w = .idle ∨ (step s .planTags).isSome ∨ (step s .pubTags).isSome ∨ (step s .pubData).isSome := by
  obtain ⟨ins, ks, c, _, hb, _⟩ := run_common as (common_start cap tagCap minReq maxReq false info) h
  have hb' : s.blocking = false := hb
  have hw' := c.w
  cases hw : s.w with
  | idle => exact .inl rfl
  | sized c n => right; left; simp [step, hw]
  | planned c n k a =>
    right; right; left
    rw [hw] at hw'
    obtain ⟨_, _, _, _, _, _, _, h8⟩ := hw'
    simp only [step, hw]
    split
    · rw [if_pos (h8 hb')]; rfl
    · rfl
  | tagged c n k a =>
    right; right; right
    rw [hw] at hw'
    simp only [step, hw]
    rw [if_pos (hw'.2.2.2.1 hb')]; rfl

example : (run (start 3 8 1 9 false [7]) [.offer ⟨[1, 2], []⟩, .planTags, .pubTags, .pubData, .offer ⟨[3, 4, 5], [⟨0, [8]⟩]⟩, .planTags,
    .pubTags, .pubData, .poll 9 true, .call, .consume]).map (fun s => (s.calls, s.poller.droppedSamples)) =
    some ([⟨[1, 2, 3], [⟨0, [7]⟩, ⟨2, [8]⟩]⟩], 2) := by decide

/-- A poller that holds the sink back never makes it wait while there is room: a chunk that fits the empty poller gets in as soon as the
user has taken what was there. -/
theorem waits_for_room (s : St α γ) (c : Chunk α γ) (n k a : Nat) :
    (s.w = .tagged c n k a → ((step s .pubData).isSome ↔ s.poller.data.length + n ≤ s.poller.cap)) ∧
      (s.w = .planned c n k a → ((step s .pubTags).isSome ↔ n = 0 ∨ k = 0 ∨ s.poller.tags.length + k ≤ s.poller.tagCap)) := by
  refine ⟨fun hw => ?_, fun hw => ?_⟩
  · simp only [step, hw]
    split <;> simp_all
  · simp only [step, hw]
    by_cases hnk : 0 < n ∧ 0 < k
    · rw [if_pos hnk]
      split
      · rename_i h; simp [h]
      · rename_i h
        simp only [Option.isSome_none, Bool.false_eq_true, false_iff]
        omega
    · rw [if_neg hnk]
      simp only [Option.isSome_some, true_iff]
      omega

/-- Every call has between `minRequiredSamples` and `maxRequiredSamples` samples. -/
theorem call_sizes (cap tagCap minReq maxReq : Nat) (blocking : Bool) (info : List γ) (hm : minReq ≤ maxReq) (as : List (Act α γ))
    (s : St α γ) (h : run (start cap tagCap minReq maxReq blocking info) as = some s) :
    ∀ c ∈ s.calls, minReq ≤ c.data.length ∧ c.data.length ≤ maxReq := by
  have main : ∀ (as : List (Act α γ)) (s0 s : St α γ) (ins : List (In α γ)) (ks : List Keep), Common info s0 ins ks →
      (s0.poller.minReq = minReq ∧ s0.poller.maxReq = maxReq ∧ (∀ c ∈ s0.calls, minReq ≤ c.data.length ∧ c.data.length ≤ maxReq) ∧
        ∀ n tk, s0.r = .planned n tk → minReq ≤ n ∧ n ≤ maxReq) → run s0 as = some s →
      ∀ c ∈ s.calls, minReq ≤ c.data.length ∧ c.data.length ≤ maxReq := by
    intro as
    induction as with
    | nil =>
      intro s0 s ins ks _ hP hr
      simp only [run, Option.some.injEq] at hr; subst hr
      exact hP.2.2.1
    | cons a r ih =>
      intro s0 s ins ks hc hP hr
      simp only [run] at hr
      cases ha : step s0 a with
      | none => rw [ha] at hr; cases hr
      | some s1 =>
        rw [ha] at hr
        obtain ⟨c1, _, _⟩ := common_step hc a ha
        refine ih s1 s _ _ c1 ?_ hr
        obtain ⟨p1, p2, p3, p4⟩ := hP
        cases a with
        | poll req tk =>
          cases hr0 : s0.r with
          | idle =>
            simp only [step, hr0] at ha
            split at ha
            · simp only [Option.some.injEq] at ha; subst ha
              exact ⟨p1, p2, p3, p4⟩
            · rename_i hlt
              simp only [Option.some.injEq] at ha; subst ha
              refine ⟨p1, p2, p3, fun n tk' he => ?_⟩
              simp only [RPos.planned.injEq] at he
              rw [← he.1, ← p1, ← p2]
              refine ⟨by omega, ?_⟩
              simp only [nToProcess] at hlt ⊢
              rw [← p1, ← p2] at hm
              split
              · omega
              · split <;> omega
          | _ => simp only [step, hr0] at ha; cases ha
        | call =>
          cases hr0 : s0.r with
          | planned n tk =>
            have hn := p4 n tk hr0
            have hpl := hc.plan n tk hr0
            have hnew : ∀ ts : List (Tag γ), ∀ c ∈ s0.calls ++ [(⟨s0.poller.data.take n, ts⟩ : Call α γ)],
                minReq ≤ c.data.length ∧ c.data.length ≤ maxReq := by
              intro ts c hc
              rcases List.mem_append.1 hc with hc | hc
              · exact p3 c hc
              · simp only [List.mem_singleton] at hc
                subst hc
                simp only [List.length_take, Nat.min_eq_left hpl]
                exact hn
            simp only [step, hr0] at ha
            cases tk with
            | true =>
              simp only [if_true, Option.some.injEq] at ha; subst ha
              exact ⟨p1, p2, hnew _, fun _ _ he => by cases he⟩
            | false =>
              simp only [Bool.false_eq_true, if_false, Option.some.injEq] at ha; subst ha
              exact ⟨p1, p2, hnew _, fun _ _ he => by cases he⟩
          | _ => simp only [step, hr0] at ha; cases ha
        | consume =>
          cases hr0 : s0.r with
          | called n =>
            simp only [step, hr0, Option.some.injEq] at ha; subst ha
            exact ⟨p1, p2, p3, fun _ _ he => by cases he⟩
          | _ => simp only [step, hr0] at ha; cases ha
        | meta' m =>
          cases hw : s0.w with
          | idle => simp only [step, hw, Option.some.injEq] at ha; subst ha; exact ⟨p1, p2, p3, p4⟩
          | _ => simp only [step, hw] at ha; cases ha
        | offer m =>
          cases hw : s0.w with
          | idle => simp only [step, hw, Option.some.injEq] at ha; subst ha; exact ⟨p1, p2, p3, p4⟩
          | _ => simp only [step, hw] at ha; cases ha
        | planTags =>
          cases hw : s0.w with
          | sized c n => simp only [step, hw, Option.some.injEq] at ha; subst ha; exact ⟨p1, p2, p3, p4⟩
          | _ => simp only [step, hw] at ha; cases ha
        | pubTags =>
          cases hw : s0.w with
          | planned c n k av =>
            simp only [step, hw] at ha
            split at ha
            · split at ha
              · simp only [Option.some.injEq] at ha; subst ha; exact ⟨p1, p2, p3, p4⟩
              · cases ha
            · simp only [Option.some.injEq] at ha; subst ha; exact ⟨p1, p2, p3, p4⟩
          | _ => simp only [step, hw] at ha; cases ha
        | pubData =>
          cases hw : s0.w with
          | tagged c n k av =>
            simp only [step, hw] at ha
            split at ha
            · simp only [Option.some.injEq] at ha; subst ha; exact ⟨p1, p2, p3, p4⟩
            · cases ha
          | _ => simp only [step, hw] at ha; cases ha
        | stop =>
          cases hw : s0.w with
          | idle => simp only [step, hw, Option.some.injEq] at ha; subst ha; exact ⟨p1, p2, p3, p4⟩
          | _ => simp only [step, hw] at ha; cases ha
  exact main as _ s [] [] (common_start ..) ⟨rfl, rfl, fun _ h => (by cases h), fun _ _ h => (by cases h)⟩ h

/-- A poll gives samples exactly when there are `minRequiredSamples` of them: as many as there are, at most the number asked for, this
number being moved into the range from `minRequiredSamples` to `maxRequiredSamples`. -/
theorem poll_gives (s : St α γ) (hr : s.r = .idle) (hm : s.poller.minReq ≤ s.poller.maxReq) (req : Nat) (tk : Bool) :
    (s.poller.data.length < s.poller.minReq → step s (.poll req tk) = some s) ∧
      (s.poller.minReq ≤ s.poller.data.length →
        step s (.poll req tk) = some { s with r := .planned (min s.poller.data.length (max s.poller.minReq (min req s.poller.maxReq))) tk }) := by
  have he : nToProcess s.poller.data.length req s.poller.minReq s.poller.maxReq =
      min s.poller.data.length (max s.poller.minReq (min req s.poller.maxReq)) := by
    unfold nToProcess
    split
    · omega
    · split <;> omega
  refine ⟨fun h => ?_, fun h => ?_⟩
  · simp only [step, hr, he]
    rw [if_pos (by omega)]
  · simp only [step, hr, he]
    rw [if_neg (by omega)]

/-! ### What the code does otherwise -/

/-- A poller that holds the sink back and a chunk with more tags, metadata included, than the ring for tags has room for: the sink waits
for ever and the user never gets a sample of it. -/
theorem too_many_tags (cap tagCap minReq maxReq : Nat) (info : List γ) (c : Chunk α γ) (hc : c.Ok) (h0 : 0 < c.data.length)
    (ht : tagCap ≤ c.tags.length) (hmin : 0 < minReq) (as : List (Act α γ)) (s : St α γ)
    (h : run (start cap tagCap minReq maxReq true info) (.offer c :: .planTags :: as) = some s) : s.calls = [] ∧ s.w.held = [.chunk c] := by
  have hf : (c.tags.filter fun t => decide (t.index < c.data.length)).length = c.tags.length := by
    rw [List.filter_eq_self.2 fun t ht => by simpa using hc.2 t ht]
  have main : ∀ (as : List (Act α γ)) (s0 : St α γ) (k : Nat),
      (s0.poller.tagCap = tagCap ∧ s0.poller.minReq = minReq ∧ s0.poller.data = [] ∧ s0.calls = [] ∧ s0.r = .idle ∧
        s0.w = .planned c c.data.length k k ∧ tagCap < k) → run s0 as = some s → s.calls = [] ∧ s.w.held = [.chunk c] := by
    intro as
    induction as with
    | nil =>
      rintro s0 k ⟨_, _, _, h4, _, h6, _⟩ hr
      simp only [run, Option.some.injEq] at hr; subst hr
      exact ⟨h4, by rw [h6]; rfl⟩
    | cons a r ih =>
      rintro s0 k ⟨h1, h2, h3, h4, h5, h6, h7⟩ hr
      simp only [run] at hr
      cases a with
      | poll req tk =>
        have : step s0 (.poll req tk) = some s0 := by
          simp only [step, h5, h3, List.length_nil, nToProcess, Nat.zero_min, h2]
          rw [if_pos hmin]
        rw [this] at hr
        exact ih s0 k ⟨h1, h2, h3, h4, h5, h6, h7⟩ hr
      | pubTags =>
        have : step s0 (.pubTags : Act α γ) = none := by
          simp only [step, h6, h1]
          rw [if_pos (by omega), if_neg (by omega)]
        rw [this] at hr; cases hr
      | _ => simp only [step, h5, h6] at hr; cases hr
  simp only [run, step, start, Option.bind_some, Option.isSome_some, if_true] at h
  refine main as _ (c.tags.length + 1) ⟨rfl, rfl, rfl, rfl, rfl, ?_, by omega⟩ h
  simp only [hf]

example : (⟨[1], [⟨0, [8]⟩, ⟨0, [9]⟩]⟩ : Chunk Nat Nat).Ok ∧
    ((run (start 8 2 1 9 true [7]) [.offer ⟨[1], [⟨0, [8]⟩, ⟨0, [9]⟩]⟩, .planTags, .poll 1 true]).map fun s : St Nat Nat => s.w) =
      some (.planned ⟨[1], [⟨0, [8]⟩, ⟨0, [9]⟩]⟩ 1 3 3) := by
  refine ⟨⟨?_, ?_⟩, ?_⟩ <;> decide

/-- Tags on dropped samples are not counted as dropped: here one tag of two is gone and the counter is zero. -/
theorem lost_tag_uncounted :
    (run (start 2 8 1 9 false [7]) [.offer ⟨[1, 2, 3], [⟨0, [8]⟩, ⟨2, [9]⟩]⟩, .planTags, .pubTags, .pubData, .poll 9 true, .call, .consume,
      .stop]).map (fun s => (s.calls, s.poller.tags, s.poller.droppedSamples, s.poller.droppedTags)) =
    some ([⟨[1, 2], [⟨0, [7]⟩, ⟨0, [8]⟩]⟩], [], 1, 0) := by decide

/-- Metadata for which there is no room is counted as dropped and sent later all the same. -/
theorem metadata_counted :
    (run (start 8 1 1 9 false [7]) [.offer ⟨[1], []⟩, .planTags, .pubTags, .pubData, .meta' [6], .offer ⟨[2], []⟩, .planTags, .pubTags,
      .pubData, .poll 2 true, .call, .consume, .offer ⟨[3], []⟩, .planTags, .pubTags, .pubData, .poll 1 true, .call, .consume]).map
      (fun s => (s.calls, s.poller.droppedTags)) =
    some ([⟨[1, 2], [⟨0, [7]⟩]⟩, ⟨[3], [⟨0, [6]⟩]⟩], 1) := by decide

/-- One poll with a function that does not take tags throws away the tags of samples not read yet: here the tag of sample 2. -/
theorem mixed_polls :
    (run (start 8 8 1 9 true [7]) [.offer ⟨[1, 2], [⟨1, [8]⟩]⟩, .planTags, .pubTags, .pubData, .poll 1 false, .call, .consume, .poll 1 true,
      .call, .consume]).map (·.calls) = some [⟨[1], []⟩, ⟨[2], []⟩] := by decide

end Verif.Sink
