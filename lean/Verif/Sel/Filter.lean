import Verif.Sel.Stream
/-!
# StreamFilter: the samples of a call, and any sequence of calls
-/
namespace Verif.Sel

variable {α τ σ : Type} {c : Cfg τ σ} {R : Rule τ} {On Off : σ → Prop}

/-! ## the history -/

theorem window_nil (lo hi : Nat) (xs : Strm α τ) (h : hi ≤ lo) : window lo hi xs = [] := by
  unfold window; exact List.drop_of_length_le (by rw [List.length_take]; omega)

theorem recent_age (c : Cfg τ σ) {xs : Strm α τ} {P n : Nat} (hc : Chunk xs P n) (first : Nat) (hf : first ≤ P) :
    (ageTags (recentTags c.nPre xs first P) (tagsOf (window P (P + n) xs)) n).filter (fun t => t.1 ≤ c.nPre) =
      recentTags c.nPre xs first (P + n) := by
  have hz := chunk_tags_zero hc
  have hle := hc.le
  have hn := hc.pos
  unfold ageTags recentTags
  obtain ⟨lo1, h1⟩ : ∃ lo1, lo1 = max first (P - c.nPre) := ⟨_, rfl⟩
  obtain ⟨lo2, h2⟩ : ∃ lo2, lo2 = max first (P + n - c.nPre) := ⟨_, rfl⟩
  rw [← h1, ← h2, List.map_append, List.filter_append, List.map_map]
  by_cases h3 : lo2 ≤ P
  · rw [window_split xs lo2 P (P + n) h3 (by omega), window_split xs lo1 lo2 P (by omega) h3, tagsOf_append, tagsOf_append, List.map_append,
      List.map_append, List.filter_append]
    have e1 : ((tagsOf (window lo1 lo2 xs)).map ((fun t : Nat × τ => (t.1 + n, t.2)) ∘ fun t : Nat × τ => (P - (lo1 + t.1), t.2))).filter
        (fun t => t.1 ≤ c.nPre) = [] := by
      rw [List.filter_eq_nil_iff]
      intro u hu
      obtain ⟨t, ht, rfl⟩ := List.mem_map.mp hu
      have := tagsOf_lt _ t ht
      rw [window_length _ _ _ (by omega)] at this
      simp only [Function.comp, decide_eq_true_eq]
      omega
    rw [e1, List.nil_append, List.map_map, List.map_map, window_length _ _ _ (by omega), window_length _ _ _ (by omega)]
    congr 1
    · rw [List.filter_eq_self.mpr]
      · apply List.map_congr_left
        intro t ht
        have := tagsOf_lt _ t ht
        rw [window_length _ _ _ (by omega)] at this
        simp only [Function.comp]
        refine Prod.ext ?_ rfl
        dsimp only; omega
      · intro u hu
        obtain ⟨t, ht, rfl⟩ := List.mem_map.mp hu
        have := tagsOf_lt _ t ht
        rw [window_length _ _ _ (by omega)] at this
        simp only [Function.comp, decide_eq_true_eq]
        omega
    · rw [List.filter_eq_self.mpr]
      · apply List.map_congr_left
        intro t ht
        have := hz t ht
        simp only [Function.comp]
        refine Prod.ext ?_ rfl
        dsimp only; omega
      · intro u hu
        obtain ⟨t, ht, rfl⟩ := List.mem_map.mp hu
        have := hz t ht
        simp only [decide_eq_true_eq]
        omega
  · have e1 : tagsOf (window lo2 (P + n) xs) = [] := by
      apply tagsOf_untagged
      intro x hx
      apply hc.tags
      rw [window_split xs (P + 1) lo2 (P + n) (by omega) (by omega)]
      exact List.mem_append_right _ hx
    rw [e1]
    have e2 : ((tagsOf (window lo1 P xs)).map ((fun t : Nat × τ => (t.1 + n, t.2)) ∘ fun t : Nat × τ => (P - (lo1 + t.1), t.2))).filter
        (fun t => t.1 ≤ c.nPre) = [] := by
      rw [List.filter_eq_nil_iff]
      intro u hu
      obtain ⟨t, ht, rfl⟩ := List.mem_map.mp hu
      simp only [Function.comp, decide_eq_true_eq]
      omega
    have e3 : ((tagsOf (window P (P + n) xs)).map (fun t : Nat × τ => (t.1 + n, t.2))).filter (fun t => t.1 ≤ c.nPre) = [] := by
      rw [List.filter_eq_nil_iff]
      intro u hu
      obtain ⟨t, ht, rfl⟩ := List.mem_map.mp hu
      simp only [decide_eq_true_eq]
      omega
    rw [e2, e3]
    rfl

theorem recent_self (nPre : Nat) (xs : Strm α τ) (first P : Nat) (h : P ≤ first) : recentTags nPre xs first P = [] := by
  unfold recentTags
  rw [window_nil _ _ _ (by omega)]
  rfl

/-- after the first sample of a chunk there are no tags in it -/
theorem recent_chunk (nPre : Nat) {xs : Strm α τ} {P n : Nat} (hc : Chunk xs P n) (first : Nat) (hf : P < first) :
    recentTags nPre xs first (P + n) = [] := by
  unfold recentTags
  rw [tagsOf_untagged]
  · rfl
  · intro x hx
    by_cases h : max first (P + n - nPre) ≤ P + n
    · apply hc.tags
      rw [window_split xs (P + 1) (max first (P + n - nPre)) (P + n) (by omega) h]
      exact List.mem_append_right _ hx
    · rw [window_nil _ _ _ (by omega)] at hx
      cases hx

/-- the samples kept in the history -/
theorem history_samples (c : Cfg τ σ) {xs : Strm α τ} {P n : Nat} (hc : Chunk xs P n) (s : SSt α τ σ) (h : 0 < c.nPre → s.hist = histOf c xs P)
    (tags : List (Nat × τ)) (k : Nat) (hk : k ≤ n) (b : Bool) (h0 : 0 < c.nPre) :
    (historyS c s ((window P (P + n) xs).map (·.1)) tags k b).hist = histOf c xs (P + k) := by
  have hl : ((window P (P + n) xs).map (·.1)).length = n := by rw [List.length_map, chunk_length hc]
  unfold historyS
  rw [hl, Nat.min_eq_left hk]
  by_cases hk0 : k = 0
  · rw [if_pos hk0, hk0]; exact h h0
  · rw [if_neg hk0, if_neg (by omega)]
    dsimp only
    have : ((window P (P + n) xs).map (·.1)).take k = (window P (P + k) xs).map (·.1) := by
      rw [← List.map_take]
      congr 1
      unfold window
      rw [List.take_drop, List.take_take]
      congr 2
      omega
    rw [this]
    exact hist_push c xs P k s.hist (h h0)

theorem history_fields (c : Cfg τ σ) (s : SSt α τ σ) (ins : List α) (tags : List (Nat × τ)) (k : Nat) (b : Bool) :
    (historyS c s ins tags k b).acc = s.acc ∧ (historyS c s ins tags k b).st = s.st := by
  unfold historyS
  split
  · exact ⟨rfl, rfl⟩
  · split <;> exact ⟨rfl, rfl⟩

/-- tags are kept -/
theorem history_tags (c : Cfg τ σ) {xs : Strm α τ} {P n : Nat} (hc : Chunk xs P n) (s : SSt α τ σ) (first : Nat) (hf : first ≤ P)
    (h : s.histTags = recentTags c.nPre xs first P) :
    (historyS c s ((window P (P + n) xs).map (·.1)) (tagsOf (window P (P + n) xs)) n true).histTags = recentTags c.nPre xs first (P + n) := by
  have hl : ((window P (P + n) xs).map (·.1)).length = n := by rw [List.length_map, chunk_length hc]
  have hn := hc.pos
  unfold historyS
  rw [hl, Nat.min_self, if_neg (by omega)]
  by_cases h0 : c.nPre = 0
  · rw [if_pos h0, h, h0, recentTags_zero, recentTags_zero]
  · rw [if_neg h0]
    dsimp only
    rw [if_pos rfl, h]
    exact recent_age c hc first hf

/-- no tags are kept -/
theorem history_none (c : Cfg τ σ) (s : SSt α τ σ) (h : s.histTags = []) (ins : List α) (tags : List (Nat × τ)) (k : Nat) :
    (historyS c s ins tags k false).histTags = [] := by
  unfold historyS
  split
  · exact h
  · split
    · exact h
    · dsimp only; rw [h]; rfl

/-! ## the samples before the trigger -/

theorem pre_length (c : Cfg τ σ) (xs : Strm α τ) (P : Nat) (hP : P ≤ xs.length) :
    min c.nPre (histOf c xs P).length = min c.nPre P := by
  unfold histOf Cfg.cap
  rw [List.length_take, List.length_reverse, List.length_map, List.length_take]
  omega

/-- a range that begins now: samples before it -/
def before (nPre : Nat) (xs : Strm α τ) (P last : Nat) : Strm α τ :=
  bare (window (P - nPre) (min last P) xs) ++ window (max last (P - nPre)) P xs

theorem before_map (nPre : Nat) (xs : Strm α τ) (P last : Nat) (hl : last ≤ P) :
    (before nPre xs P last).map (·.1) = (window (P - nPre) P xs).map (·.1) := by
  unfold before
  rw [List.map_append, bare_map, ← List.map_append, Nat.min_eq_left hl]
  by_cases h : last ≤ P - nPre
  · rw [window_nil _ last _ h, Nat.max_eq_right h, List.nil_append]
  · rw [Nat.max_eq_left (by omega), ← window_split xs (P - nPre) last P (by omega) hl]

theorem before_length (nPre : Nat) (xs : Strm α τ) (P last : Nat) (hl : last ≤ P) (hP : P ≤ xs.length) :
    (before nPre xs P last).length = min nPre P := by
  have := congrArg List.length (before_map nPre xs P last hl)
  rw [List.length_map, List.length_map, window_length _ _ _ hP] at this
  omega

theorem before_samples (c : Cfg τ σ) (xs : Strm α τ) (P last : Nat) (hl : last ≤ P) (hP : P ≤ xs.length) :
    ((histOf c xs P).take (min c.nPre P)).reverse = (before c.nPre xs P last).map (·.1) := by
  rw [before_map _ _ _ _ hl]
  unfold histOf
  rw [List.take_take, Nat.min_eq_left (by unfold Cfg.cap; omega), List.take_reverse, List.reverse_reverse, List.length_map,
    List.length_take, Nat.min_eq_left hP, ← List.map_drop]
  unfold window
  congr 2
  omega

theorem before_tags (c : Cfg τ σ) (xs : Strm α τ) (P last : Nat) (hl : last ≤ P) (hP : P ≤ xs.length) (h0 : 0 < c.nPre) :
    (recentTags c.nPre xs last P).map (fun t => (if 0 < c.nPre && t.1 < min c.nPre P then min c.nPre P - t.1 else 0, t.2)) =
      tagsOf (before c.nPre xs P last) := by
  unfold before recentTags
  rw [tagsOf_append, tagsOf_bare, List.nil_append, List.map_map, bare_length, window_length _ _ _ (by omega), Nat.min_eq_left hl]
  apply List.map_congr_left
  intro t ht
  have := tagsOf_lt _ t ht
  rw [window_length _ _ _ hP] at this
  simp only [Function.comp]
  refine Prod.ext ?_ rfl
  dsimp only
  by_cases h : P - (max last (P - c.nPre) + t.1) < min c.nPre P
  · rw [if_pos (by simp [h0, h])]; omega
  · rw [if_neg (by simp [h])]; omega

/-! ## the output -/

/-- the output grows by the samples of the call -/
theorem selected_grow (nPre nPost : Nat) (xs : Strm α τ) {P j k : Nat} {rs0 : List Range} {r : Range} (hov : Over nPost r.start rs0)
    (hle : r.start ≤ P) (h1 : r.upTo nPost P = P) (h2 : r.upTo nPost (P + j) = P + k) :
    selected nPre nPost xs (P + j) 0 (rs0 ++ [r]) = selected nPre nPost xs P 0 (rs0 ++ [r]) ++ window P (P + k) xs := by
  have hov' : Over nPost P rs0 := fun r' hr' => by
    obtain ⟨e, h3, h4⟩ := hov r' hr'
    exact ⟨e, h3, by omega⟩
  obtain ⟨a1, a2⟩ := over_selected nPre nPost xs (show P ≤ P + j by omega) rs0 hov' 0
  rw [selected_append, selected_append, a1, a2, List.append_assoc]
  congr 1
  have hl : lastEnd nPost P 0 rs0 ≤ r.start := lastEnd_le hle rs0 hov 0 (Nat.zero_le _)
  unfold piece
  rw [h1, h2, Nat.min_eq_left (by omega), Nat.min_eq_left (by omega), List.append_assoc]
  congr 1
  exact window_split xs _ P (P + k) (by omega) (by omega)

theorem selected_begin (nPre nPost : Nat) (xs : Strm α τ) {P : Nat} {rs0 : List Range} {r : Range} (hs : r.start = P)
    (h1 : r.upTo nPost P = P) :
    selected nPre nPost xs P 0 (rs0 ++ [r]) = selected nPre nPost xs P 0 rs0 ++ before nPre xs P (lastEnd nPost P 0 rs0) := by
  rw [selected_append]
  unfold piece before
  rw [hs, h1]

/-- the part of a call after the tags were looked at -/
def core (c : Cfg τ σ) (s : SSt α τ σ) (ins : List α) (tags : List (Nat × τ)) (room : Nat) : SSt α τ σ × OutS α τ :=
  if !s.acc.active then (historyS c s ins tags ins.length true, ⟨ins.length, [], []⟩)
  else
    match preS c s room with
    | none => (s, ⟨0, [], []⟩)
    | some (a, pre) =>
      let r := copyS a ins.length (room - pre.length)
      let s := { s with acc := r.1 }
      if pre.length + r.2 = 0 && r.1.active then (s, ⟨0, [], []⟩)
      else
        let published := decide (0 < pre.length + r.2)
        let tg := if published then tagsS c s.histTags tags pre.length r.2 else []
        let s := if published then { s with histTags := [] } else s
        let k := if r.1.active then r.2 else ins.length
        (historyS c s ins tags k (!published), ⟨k, pre ++ ins.take r.2, tg⟩)

theorem callS_core (c : Cfg τ σ) (s : SSt α τ σ) (ins : List α) (tags : List (Nat × τ)) (room : Nat) :
    callS c s ins tags room = core c { s with st := (detect c (findS c s.st tags) s.st).1
                                              acc := s.acc.update (detect c (findS c s.st tags) s.st).2 c.nPre c.nPost } ins tags room := rfl

/-- the range has its samples up to now -/
theorem busy_upTo {xs : Strm α τ} {ts : List τ} {rs0 : List Range} {r : Range} {P : Nat} {b : Bool} {s : SSt α τ σ} {out : Strm α τ}
    (h : Busy c R On Off xs ts rs0 r P b s out) : r.upTo c.nPost P = P := by
  unfold Range.upTo
  cases hs : r.stop with
  | none => rfl
  | some e =>
    obtain ⟨_, _, _, _, h5, _⟩ := h.closed e hs
    dsimp only
    omega

/-- copying samples of the call: the range goes on, or it ends in this call -/
theorem copy_step {xs : Strm α τ} {ts : List τ} {rs0 : List Range} {r : Range} {P n : Nat} (hn : 0 < n) {s : SSt α τ σ} {out : Strm α τ}
    (h : Busy c R On Off xs ts rs0 r P true s out) (hpre : s.acc.pre = false) (room : Nat) :
    (copyS s.acc n room).2 ≤ n ∧
    ((copyS s.acc n room).1.active = true ∧ (0 < room → 0 < (copyS s.acc n room).2) ∧
      ((copyS s.acc n room).2 = 0 → Busy c R On Off xs ts rs0 r P true { s with acc := (copyS s.acc n room).1 } out) ∧
      (0 < (copyS s.acc n room).2 → ∀ ts' s', s'.acc = (copyS s.acc n room).1 → s'.st = s.st → s'.histTags = [] →
        Busy c R On Off xs ts' rs0 r (P + (copyS s.acc n room).2) false s' (out ++ window P (P + (copyS s.acc n room).2) xs)) ∨
    (copyS s.acc n room).1.active = false ∧ (copyS s.acc n room).1.post = false ∧ Off s.st ∧
      (∃ e, r.stop = some e ∧ e ≤ P ∧ e + c.nPost = P + (copyS s.acc n room).2) ∧
      selected c.nPre c.nPost xs (P + n) 0 (rs0 ++ [r]) = out ++ window P (P + (copyS s.acc n room).2) xs) := by
  obtain ⟨hout, htg⟩ := h.done hpre
  have hup := busy_upTo h
  cases hs : r.stop with
  | none =>
    obtain ⟨o1, o2, o3, o4⟩ := h.opened hs
    have hcp : copyS s.acc n room = ({ s.acc with n := s.acc.n + min n room }, min n room) := by
      unfold copyS; rw [if_pos (by rw [o1]; rfl)]
    rw [hcp]
    dsimp only
    refine ⟨by omega, Or.inl ⟨h.active, by omega, ?_, ?_⟩⟩
    · intro h0
      exact ⟨h.over, h.active, h.le, (fun _ => ⟨o1, o2, o3, o4⟩), (fun e he => by rw [hs] at he; cases he),
        (fun hp => by dsimp only at hp; rw [hpre] at hp; cases hp), (fun _ => ⟨hout, htg⟩)⟩
    · intro hk ts' s' ha hst hht
      have hle := h.le
      refine ⟨h.over, (by rw [ha]; exact h.active), (by omega), (fun _ => ⟨(by rw [ha]; exact o1), (by rw [hst]; exact o2), (fun _ => by omega), nofun⟩),
        (fun e he => by rw [hs] at he; cases he), (fun hp => by rw [ha] at hp; dsimp only at hp; rw [hpre] at hp; cases hp), (fun _ => ⟨?_, hht⟩)⟩
      rw [hout]
      refine (selected_grow c.nPre c.nPost xs h.over h.le hup ?_).symm
      unfold Range.upTo; rw [hs]
  | some e =>
    obtain ⟨o1, o2, o3, o4, o5, o6, o7, o8, o9⟩ := h.closed e hs
    obtain ⟨k, hk⟩ : ∃ k, k = min s.acc.remain (min n room) := ⟨_, rfl⟩
    have hcp : copyS s.acc n room = (s.acc.postSamples k, k) := by
      unfold copyS; rw [if_neg (by rw [o2]; simp), ← hk]
    rw [hcp]
    dsimp only
    refine ⟨by omega, ?_⟩
    by_cases hz : s.acc.remain - k = 0
    · right
      have hps : s.acc.postSamples k = { s.acc with remain := s.acc.remain - k, n := s.acc.n + k, active := false, post := false } := by
        unfold Acc.postSamples; dsimp only; rw [if_pos hz]
      rw [hps]
      have hek : e + c.nPost = P + k := by omega
      refine ⟨rfl, rfl, o3, ⟨e, rfl, o1, hek⟩, ?_⟩
      rw [hout]
      refine selected_grow c.nPre c.nPost xs h.over h.le hup ?_
      unfold Range.upTo; rw [hs]; dsimp only; omega
    · left
      have hps : s.acc.postSamples k = { s.acc with remain := s.acc.remain - k, n := s.acc.n + k } := by
        unfold Acc.postSamples; dsimp only; rw [if_neg hz]
      rw [hps]
      refine ⟨h.active, by omega, ?_, ?_⟩
      · intro h0
        refine ⟨h.over, h.active, h.le, (fun hn => by rw [hs] at hn; cases hn), ?_, (fun hp => by dsimp only at hp; rw [hpre] at hp; cases hp),
          (fun _ => ⟨hout, htg⟩)⟩
        intro e' he'
        rw [hs] at he'
        cases he'
        exact ⟨o1, o2, o3, by dsimp only; omega, o5, o6, o7, o8, o9⟩
      · intro hk0 ts' s' ha hst hht
        have hle := h.le
        refine ⟨h.over, (by rw [ha]; exact h.active), (by omega), (fun hn => by rw [hs] at hn; cases hn), ?_,
          (fun hp => by rw [ha] at hp; dsimp only at hp; rw [hpre] at hp; cases hp), (fun _ => ⟨?_, hht⟩)⟩
        · intro e' he'
          rw [hs] at he'
          cases he'
          refine ⟨by omega, by rw [ha]; exact o2, by rw [hst]; exact o3, by rw [ha]; dsimp only; omega, by omega, fun _ => by omega, o7, o8, nofun⟩
        · rw [hout]
          refine (selected_grow c.nPre c.nPost xs h.over h.le hup ?_).symm
          unfold Range.upTo; rw [hs]; dsimp only; omega

/-- publishing the samples before the trigger -/
theorem pre_step {xs : Strm α τ} {ts : List τ} {rs0 : List Range} {r : Range} {P : Nat} (hP : P ≤ xs.length) {s : SSt α τ σ} {out : Strm α τ}
    (hh : 0 < c.nPre → s.hist = histOf c xs P) (h : Busy c R On Off xs ts rs0 r P true s out) (room : Nat) :
    (preS c s room = none ∧ room < min c.nPre P) ∨
    ∃ (a : Acc) (w : Strm α τ), preS c s room = some (a, w.map (·.1)) ∧ a.pre = false ∧ w.length ≤ room ∧ w.length ≤ c.nPre ∧
      s.histTags.map (fun t => (if 0 < c.nPre && t.1 < w.length then w.length - t.1 else 0, t.2)) = tagsOf w ∧
      Busy c R On Off xs ts rs0 r P true { s with acc := a, histTags := [] } (out ++ w) ∧ (0 < w.length → r.start = P) := by
  unfold preS
  cases hp : s.acc.pre with
  | false =>
    right
    obtain ⟨hout, htg⟩ := h.done hp
    refine ⟨s.acc, [], rfl, hp, Nat.zero_le _, Nat.zero_le _, by rw [htg]; rfl, ?_, fun h0 => absurd h0 (by simp)⟩
    rw [List.append_nil]
    exact ⟨h.over, h.active, h.le, h.opened, h.closed, (fun hp' => by dsimp only at hp'; rw [hp] at hp'; cases hp'), (fun _ => ⟨hout, rfl⟩)⟩
  | true =>
    obtain ⟨_, p2, p3, p4, p5⟩ := h.pre hp
    have hlast : lastEnd c.nPost P 0 rs0 ≤ P := by
      have := lastEnd_le h.le rs0 h.over 0 (Nat.zero_le _)
      omega
    rw [hh p3, pre_length c xs P hP]
    dsimp only [Bool.not_true]
    rw [if_neg (by simp)]
    by_cases hr : room < min c.nPre P
    · left
      rw [if_pos hr]
      exact ⟨rfl, hr⟩
    · right
      rw [if_neg hr]
      have hlen := before_length c.nPre xs P _ hlast hP
      refine ⟨{ s.acc with pre := false, n := s.acc.n + min c.nPre P }, before c.nPre xs P (lastEnd c.nPost P 0 rs0), ?_, rfl, by omega, by omega, ?_, ?_,
        fun _ => p2⟩
      · rw [before_samples c xs P _ hlast hP]
      · rw [hlen, p5]
        exact before_tags c xs P _ hlast hP p3
      · refine ⟨h.over, h.active, h.le, h.opened, h.closed, nofun, fun _ => ⟨?_, rfl⟩⟩
        rw [p4, ← selected_begin c.nPre c.nPost xs p2 (busy_upTo h)]

theorem lastEnd_append (nPost P last : Nat) (rs0 : List Range) (r : Range) : lastEnd nPost P last (rs0 ++ [r]) = r.upTo nPost P := by
  induction rs0 generalizing last with
  | nil => rfl
  | cons a t ih => exact ih _

theorem take_chunk {xs : Strm α τ} {P n k : Nat} (hk : k ≤ n) : (window P (P + n) xs).take k = window P (P + k) xs := by
  unfold window
  rw [List.take_drop, List.take_take]
  congr 2
  omega

/-- a call after the tags were looked at -/
theorem core_step (hsg : R.single = true → 0 < c.nPost ∨ c.nPre = 0) {xs : Strm α τ} {ts : List τ} {rs : List Range} {P n : Nat} (hc : Chunk xs P n)
    {s : SSt α τ σ} {out : Strm α τ} (hh : 0 < c.nPre → s.hist = histOf c xs P) (h : Body c R On Off xs ts rs P true s out) (room : Nat) :
    ∃ (o : SSt α τ σ × OutS α τ) (w : Strm α τ), core c s ((window P (P + n) xs).map (·.1)) (tagsOf (window P (P + n) xs)) room = o ∧
      o.2.samples = w.map (·.1) ∧ o.2.tags = tagsOf w ∧ o.2.consumed ≤ n ∧ w.length ≤ room ∧ (c.nPre < room → 0 < o.2.consumed) ∧
      (0 < c.nPre → o.1.hist = histOf c xs (P + o.2.consumed)) ∧
      ((o.2.consumed = 0 ∧ ∃ rs0 r, rs = rs0 ++ [r] ∧ Busy c R On Off xs ts rs0 r P true o.1 (out ++ w)) ∨
        (0 < o.2.consumed ∧ ∀ ts', Body c R On Off xs ts' rs (P + o.2.consumed) false o.1 (out ++ w))) := by
  have hn := hc.pos
  have hle := hc.le
  have hl : ((window P (P + n) xs).map (·.1)).length = n := by rw [List.length_map, chunk_length hc]
  rcases h with h | ⟨rs0, r, rfl, h⟩
  · unfold core
    rw [if_pos (by rw [h.inactive]; rfl), hl]
    refine ⟨_, [], rfl, ?_⟩
    refine ⟨rfl, rfl, Nat.le_refl _, Nat.zero_le _, fun _ => hn, history_samples c hc s hh _ n (Nat.le_refl _) true, Or.inr ⟨hn, fun ts' => Or.inl ?_⟩⟩
    rw [List.append_nil]
    obtain ⟨f1, f2⟩ := history_fields c s ((window P (P + n) xs).map (·.1)) (tagsOf (window P (P + n) xs)) n true
    obtain ⟨a1, a2⟩ := over_selected c.nPre c.nPost xs (show P ≤ P + n by omega) rs h.over 0
    refine ⟨?_, by dsimp only; rw [f1]; exact h.inactive, by dsimp only; rw [f1]; exact h.post, by dsimp only; rw [f2]; exact h.off, ?_, ?_⟩
    · intro r hr
      obtain ⟨e, h1, h2⟩ := h.over r hr
      exact ⟨e, h1, by dsimp only; omega⟩
    · dsimp only; rw [a1]; exact h.out
    · dsimp only; rw [a2]
      exact history_tags c hc s _ (lastEnd_le (Nat.le_refl _) rs h.over 0 (Nat.zero_le _)) h.tags
  · unfold core
    rw [h.active]
    dsimp only [Bool.not_true]
    rw [if_neg (by simp)]
    rcases pre_step (show P ≤ xs.length by omega) hh h room with ⟨hp, hroom⟩ | ⟨a, w1, hp, ha, hw1, hw2, hw3, hb, hw4⟩
    · rw [hp]
      refine ⟨_, [], rfl, rfl, rfl, Nat.zero_le _, Nat.zero_le _, ?_, hh, Or.inl ⟨rfl, rs0, r, rfl, ?_⟩⟩
      · intro hr; omega
      · rw [List.append_nil]; exact h
    · rw [hp]
      dsimp only
      rw [hl, List.length_map]
      obtain ⟨hkn, hcs⟩ := copy_step (c := c) (R := R) (On := On) (Off := Off) hn hb ha (room - w1.length)
      obtain ⟨cp, hcp⟩ : ∃ cp, cp = copyS a n (room - w1.length) := ⟨_, rfl⟩
      have hkr : cp.2 ≤ room - w1.length := by
        rw [hcp]; unfold copyS; split <;> dsimp only <;> omega
      dsimp only at hcs hkn
      rw [← hcp] at hcs hkn ⊢
      have hsw : tagsOf (window P (P + cp.2) xs) = (tagsOf (window P (P + n) xs)).filter (fun t => t.1 < cp.2) := by
        rw [← take_chunk hkn, tagsOf_take]
      have hwl : (window P (P + cp.2) xs).length = cp.2 := by rw [window_length _ _ _ (by omega)]; omega
      have hht0 : w1.length = 0 → s.histTags = [] := by
        intro h0
        have : w1 = [] := List.length_eq_zero_iff.mp h0
        rw [this] at hw3
        exact List.map_eq_nil_iff.mp hw3
      by_cases hstall : w1.length + cp.2 = 0 ∧ cp.1.active = true
      · rw [if_pos (by rw [hstall.1, hstall.2]; rfl)]
        obtain ⟨hz, hac⟩ := hstall
        have hw0 : w1 = [] := List.length_eq_zero_iff.mp (by omega)
        rcases hcs with ⟨_, hpos, hst, _⟩ | ⟨hna, _⟩
        · refine ⟨_, [], rfl, rfl, rfl, Nat.zero_le _, Nat.zero_le _, ?_, hh, Or.inl ⟨rfl, rs0, r, rfl, ?_⟩⟩
          · intro hr
            have := hpos (by omega)
            omega
          · have hbb := hst (by omega)
            rw [hw0] at hbb
            have hs : ({ s with acc := cp.1 } : SSt α τ σ) = { s with acc := cp.1, histTags := [] } := by
              rw [← hht0 (by omega)]
            dsimp only
            rw [hs]
            exact hbb
        · rw [hac] at hna; cases hna
      · rw [if_neg (by rw [Bool.and_eq_true, decide_eq_true_eq]; exact hstall)]
        refine ⟨_, w1 ++ window P (P + cp.2) xs, rfl, ?_⟩
        dsimp only
        have htags : (if decide (0 < w1.length + cp.2) = true then tagsS c s.histTags (tagsOf (window P (P + n) xs)) w1.length cp.2 else []) =
            tagsOf (w1 ++ window P (P + cp.2) xs) := by
          by_cases hpub : 0 < w1.length + cp.2
          · rw [if_pos (by simpa using hpub), tagsOf_append, hsw]
            unfold tagsS
            rw [hw3]
          · rw [if_neg (by simpa using hpub)]
            have h1 : w1 = [] := List.length_eq_zero_iff.mp (by omega)
            rw [h1, window_nil _ _ _ (by omega)]
            rfl
        rw [htags]
        have hsamp : w1.map (·.1) ++ ((window P (P + n) xs).map (·.1)).take cp.2 = (w1 ++ window P (P + cp.2) xs).map (·.1) := by
          rw [List.map_append, ← List.map_take, take_chunk hkn]
        rw [hsamp]
        -- the state handed to the history
        obtain ⟨s2, hs2⟩ : ∃ s2, s2 = (if decide (0 < w1.length + cp.2) = true then ({ s with acc := cp.1, histTags := [] } : SSt α τ σ)
          else { s with acc := cp.1 }) := ⟨_, rfl⟩
        have hs2' : s2 = { s with acc := cp.1, histTags := [] } := by
          rw [hs2]
          by_cases hpub : 0 < w1.length + cp.2
          · rw [if_pos (by simpa using hpub)]
          · rw [if_neg (by simpa using hpub), ← hht0 (by omega)]
        rw [← hs2, hs2']
        have hh2 : 0 < c.nPre → ({ s with acc := cp.1, histTags := [] } : SSt α τ σ).hist = histOf c xs P := hh
        have hsum : (w1 ++ window P (P + cp.2) xs).length ≤ room := by rw [List.length_append, hwl]; omega
        rcases hcs with ⟨hac, hpos, hst, hgo⟩ | ⟨hna, hnp, hoff, ⟨e, he1, he2, he3⟩, hsel⟩
        · rw [hac]
          rw [if_pos rfl]
          refine ⟨rfl, rfl, hkn, hsum, ?_, history_samples c hc _ hh2 _ _ hkn _, ?_⟩
          · intro hr; exact hpos (by omega)
          · obtain ⟨f1, f2⟩ := history_fields c ({ s with acc := cp.1, histTags := [] } : SSt α τ σ) ((window P (P + n) xs).map (·.1))
              (tagsOf (window P (P + n) xs)) cp.2 (!decide (0 < w1.length + cp.2))
            by_cases hk : cp.2 = 0
            · left
              refine ⟨hk, rs0, r, rfl, ?_⟩
              have hbb := hst hk
              rw [hk, window_nil P (P + 0) xs (by omega), List.append_nil]
              have : historyS c ({ s with acc := cp.1, histTags := [] } : SSt α τ σ) ((window P (P + n) xs).map (·.1))
                  (tagsOf (window P (P + n) xs)) 0 (!decide (0 < w1.length + 0)) = { s with acc := cp.1, histTags := [] } := by
                unfold historyS; rw [Nat.zero_min, if_pos rfl]
              rw [this]
              exact hbb
            · right
              refine ⟨by omega, fun ts' => Or.inr ⟨rs0, r, rfl, ?_⟩⟩
              rw [← List.append_assoc]
              apply hgo (by omega)
              · rw [f1]
              · rw [f2]
              · have : (!decide (0 < w1.length + cp.2)) = false := by rw [decide_eq_true (by omega)]; rfl
                rw [this]
                exact history_none c _ rfl _ _ _
        · rw [hna]
          rw [if_neg (by simp)]
          obtain ⟨f1, f2⟩ := history_fields c ({ s with acc := cp.1, histTags := [] } : SSt α τ σ) ((window P (P + n) xs).map (·.1))
            (tagsOf (window P (P + n) xs)) n (!decide (0 < w1.length + cp.2))
          refine ⟨rfl, rfl, Nat.le_refl _, hsum, fun _ => hn, history_samples c hc _ hh2 _ _ (Nat.le_refl _) _, Or.inr ⟨hn, fun ts' => Or.inl ?_⟩⟩
          have hlast : lastEnd c.nPost (P + n) 0 (rs0 ++ [r]) = P + cp.2 := by
            rw [lastEnd_append]
            unfold Range.upTo
            rw [he1]
            dsimp only
            omega
          refine ⟨?_, by rw [f1]; exact hna, by rw [f1]; exact hnp, by rw [f2]; exact hoff, ?_, ?_⟩
          · intro r' hr'
            rcases List.mem_append.mp hr' with hr' | hr'
            · obtain ⟨e', h1, h2⟩ := h.over r' hr'
              have := h.le
              exact ⟨e', h1, by omega⟩
            · have : r' = r := by simpa using hr'
              subst this
              exact ⟨e, he1, by omega⟩
          · rw [hsel, List.append_assoc]
          · rw [hlast]
            by_cases hk : cp.2 = 0
            · by_cases hw0 : w1.length = 0
              · have : (!decide (0 < w1.length + cp.2)) = true := by rw [decide_eq_false (by omega)]; rfl
                rw [this]
                apply history_tags c hc _ (P + cp.2) (by omega)
                rw [recent_self _ _ _ _ (by omega)]
              · exfalso
                have hst := hw4 (by omega)
                obtain ⟨_, _, _, _, _, _, o7, o8, _⟩ := h.closed e he1
                have := hsg (o7 (by omega))
                omega
            · have : (!decide (0 < w1.length + cp.2)) = false := by rw [decide_eq_true (by omega)]; rfl
              rw [this, recent_chunk c.nPre hc _ (by omega)]
              exact history_none c _ rfl _ _ _

/-! ## ranges of a part of the stream -/

theorem closeFirst_get (q : Nat) (rs : List Range) (k : Nat) (r : Range) (h : rs[k]? = some r) :
    ∃ r', (closeFirst q rs)[k]? = some r' ∧ r'.start = r.start ∧ (r'.stop = r.stop ∨ r.stop = none ∧ r'.stop = some q) := by
  induction rs generalizing k with
  | nil => cases h
  | cons a l ih =>
    unfold closeFirst
    cases k with
    | zero =>
      cases h
      split
      · next hn => exact ⟨_, rfl, rfl, Or.inr ⟨hn, rfl⟩⟩
      · exact ⟨_, rfl, rfl, Or.inl rfl⟩
    | succ k =>
      split
      · exact ⟨r, h, rfl, Or.inl rfl⟩
      · exact ih k h

theorem closeFirst_length (q : Nat) (rs : List Range) : (closeFirst q rs).length = rs.length := by
  induction rs with
  | nil => rfl
  | cons a l ih => unfold closeFirst; split <;> simp [ih]

/-- one more sample: the ranges stay, an open one may get closed -/
theorem judge_get (R : Rule τ) (rs : List Range) (q : Nat) (ts : List τ) (k : Nat) (r : Range) (h : rs[k]? = some r) :
    ∃ r', (judge R rs q ts)[k]? = some r' ∧ r'.start = r.start ∧ (r'.stop = r.stop ∨ r.stop = none ∧ r'.stop = some q) := by
  unfold judge
  have hk : k < rs.length := (List.getElem?_eq_some_iff.mp h).1
  cases control R rs ts with
  | none => exact ⟨r, h, rfl, Or.inl rfl⟩
  | some t =>
    dsimp only
    by_cases hc : R.closes t
    · rw [if_pos hc]
      obtain ⟨r', h1, h2⟩ := closeFirst_get q rs k r h
      refine ⟨r', ?_, h2⟩
      split
      · rw [List.getElem?_append_left (by rw [closeFirst_length]; exact hk)]; exact h1
      · exact h1
    · rw [if_neg hc]
      refine ⟨r, ?_, rfl, Or.inl rfl⟩
      split
      · rw [List.getElem?_append_left hk]; exact h
      · exact h

theorem foldl_get (R : Rule τ) (ys : Strm α τ) (p q : Nat) (hq : p ≤ q) (rs : List Range) (k : Nat) (r : Range) (h : rs[k]? = some r) :
    ∃ r', ((ys.zipIdx q).foldl (fun rs x => judge R rs x.2 x.1.2) rs)[k]? = some r' ∧ r'.start = r.start ∧
      (r'.stop = r.stop ∨ r.stop = none ∧ ∃ e, r'.stop = some e ∧ p ≤ e) := by
  induction ys generalizing q rs r with
  | nil => exact ⟨r, h, rfl, Or.inl rfl⟩
  | cons y l ih =>
    rw [List.zipIdx_cons, List.foldl_cons]
    obtain ⟨r1, h1, h2, h3⟩ := judge_get R rs q y.2 k r h
    obtain ⟨r2, g1, g2, g3⟩ := ih (q + 1) (by omega) _ r1 h1
    refine ⟨r2, g1, g2.trans h2, ?_⟩
    rcases h3 with h3 | ⟨h3, h4⟩
    · rw [← h3]; exact g3
    · rcases g3 with g3 | ⟨g3, _⟩
      · exact Or.inr ⟨h3, q, g3.trans h4, hq⟩
      · rw [h4] at g3; cases g3

theorem judge_starts (R : Rule τ) (rs : List Range) (q : Nat) (ts : List τ) (h : ∀ r ∈ rs, r.start < q) :
    ∀ r ∈ judge R rs q ts, r.start < q + 1 := by
  have hcf : ∀ rs : List Range, (∀ r ∈ rs, r.start < q) → ∀ r ∈ closeFirst q rs, r.start < q := by
    intro rs h
    induction rs with
    | nil => intro r hr; cases hr
    | cons a l ih =>
      intro r hr
      unfold closeFirst at hr
      split at hr
      · rcases List.mem_cons.mp hr with rfl | hr
        · exact h a List.mem_cons_self
        · exact h r (List.mem_cons_of_mem _ hr)
      · rcases List.mem_cons.mp hr with rfl | hr
        · exact h r List.mem_cons_self
        · exact ih (fun r' hr' => h r' (List.mem_cons_of_mem _ hr')) r hr
  intro r hr
  unfold judge at hr
  cases hcl : control R rs ts with
  | none => rw [hcl] at hr; have := h r hr; omega
  | some t =>
    rw [hcl] at hr
    dsimp only at hr
    have h1 : ∀ r ∈ (if R.closes t = true then closeFirst q rs else rs), r.start < q := by
      split
      · exact hcf rs h
      · exact h
    split at hr
    · rcases List.mem_append.mp hr with hr | hr
      · have := h1 r hr; omega
      · have : r = ⟨q, if R.single then some q else none⟩ := by simpa using hr
        rw [this]; simp
    · have := h1 r hr; omega

theorem foldl_starts (R : Rule τ) (ys : Strm α τ) (q : Nat) (rs : List Range) (h : ∀ r ∈ rs, r.start < q) :
    ∀ r ∈ (ys.zipIdx q).foldl (fun rs x => judge R rs x.2 x.1.2) rs, r.start < q + ys.length := by
  induction ys generalizing q rs with
  | nil => exact h
  | cons y l ih =>
    rw [List.zipIdx_cons, List.foldl_cons, List.length_cons]
    intro r hr
    have := ih (q + 1) _ (judge_starts R rs q y.2 h) r hr
    omega

theorem ranges_starts (R : Rule τ) (xs : Strm α τ) : ∀ r ∈ ranges R xs, r.start < xs.length := by
  intro r hr
  have := foldl_starts R xs 0 [] (fun r hr => by cases hr) r hr
  omega

/-- ranges that do not overlap do not overlap in the part of the stream seen so far -/
theorem apart_prefix (R : Rule τ) (nPost : Nat) (xs : Strm α τ) (p : Nat) (h : Apart nPost (ranges R xs)) : Apart nPost (ranges R (xs.take p)) := by
  intro k r r' hr hr'
  have hx : ranges R xs = ((xs.drop p).zipIdx (xs.take p).length).foldl (fun rs x => judge R rs x.2 x.1.2) (ranges R (xs.take p)) := by
    rw [← ranges_append, List.take_append_drop]
  obtain ⟨r1, h1, h2, h3⟩ := foldl_get R (xs.drop p) (xs.take p).length _ (Nat.le_refl _) _ k r hr
  obtain ⟨r2, g1, g2, g3⟩ := foldl_get R (xs.drop p) (xs.take p).length _ (Nat.le_refl _) _ (k + 1) r' hr'
  rw [← hx] at h1 g1
  obtain ⟨e, he, hle⟩ := h k r1 r2 h1 g1
  rw [g2] at hle
  rcases h3 with h3 | ⟨_, e', h4, h5⟩
  · exact ⟨e, by rw [← h3]; exact he, hle⟩
  · have := ranges_starts R (xs.take p) r' (List.mem_of_getElem? hr')
    rw [h4] at he
    cases he
    omega

/-! ## any sequence of calls -/

/-- between calls: `W` is what was published -/
structure InvS (c : Cfg τ σ) (R : Rule τ) (On Off : σ → Prop) (xs : Strm α τ) (s : SSt α τ σ) (P : Nat) (W : Strm α τ) : Prop where
  le : P ≤ xs.length
  hist : 0 < c.nPre → s.hist = histOf c xs P
  body : (∀ ts, Body c R On Off xs ts (ranges R (xs.take P)) P false s W) ∨
    ∃ x rs0 r, xs[P]? = some x ∧ judge R (ranges R (xs.take P)) P x.2 = rs0 ++ [r] ∧ Busy c R On Off xs x.2 rs0 r P true s W

theorem inv_stepS (F : Follows c R On Off) (hsg : R.single = true → 0 < c.nPost ∨ c.nPre = 0) {xs : Strm α τ}
    (hone : ∀ x ∈ xs, ∀ t ∈ x.2, ∀ t' ∈ x.2, R.opens t → ¬ R.closes t') (hap : Apart c.nPost (ranges R xs))
    {s : SSt α τ σ} {P : Nat} {W : Strm α τ} (h : InvS c R On Off xs s P W) {n : Nat} (hc : Chunk xs P n) (room : Nat) :
    ∃ w, (stepS c xs s P n room).2.samples = w.map (·.1) ∧ (stepS c xs s P n room).2.tags = tagsOf w ∧ w.length ≤ room ∧
      (stepS c xs s P n room).2.consumed ≤ n ∧ (c.nPre < room → 0 < (stepS c xs s P n room).2.consumed) ∧
      InvS c R On Off xs (stepS c xs s P n room).1 (P + (stepS c xs s P n room).2.consumed) (W ++ w) := by
  obtain ⟨x, hx, _⟩ := chunk_cons hc
  have hap' : Apart c.nPost (judge R (ranges R (xs.take P)) P x.2) := by
    rw [← ranges_chunk R hc hx]; exact apart_prefix R c.nPost xs (P + n) hap
  have hone' := hone x (List.mem_of_getElem? hx)
  have hbody : Body c R On Off xs x.2 (judge R (ranges R (xs.take P)) P x.2) P true
      { s with st := (detect c (findS c s.st (x.2.map (fun t => (0, t)))) s.st).1
               acc := s.acc.update (detect c (findS c s.st (x.2.map (fun t => (0, t)))) s.st).2 c.nPre c.nPost } W := by
    rcases h.body with hb | ⟨y, rs0, r, hy, hj, hb⟩
    · exact tags_first F hone' hap' (hb x.2)
    · rw [hx] at hy
      cases hy
      exact Or.inr ⟨rs0, r, hj, tags_again F hb⟩
  have hst : stepS c xs s P n room = core c
      { s with st := (detect c (findS c s.st (x.2.map (fun t => (0, t)))) s.st).1
               acc := s.acc.update (detect c (findS c s.st (x.2.map (fun t => (0, t)))) s.st).2 c.nPre c.nPost }
      ((window P (P + n) xs).map (·.1)) (tagsOf (window P (P + n) xs)) room := by
    unfold stepS
    rw [callS_core, tagsOf_chunk hc hx]
  obtain ⟨o, w, ho, h1, h2, h3, h4, h5, h6, h7⟩ := core_step hsg hc (s := { s with
    st := (detect c (findS c s.st (x.2.map (fun t => (0, t)))) s.st).1
    acc := s.acc.update (detect c (findS c s.st (x.2.map (fun t => (0, t)))) s.st).2 c.nPre c.nPost }) h.hist hbody room
  rw [hst, ho]
  refine ⟨w, h1, h2, h4, h3, h5, ?_⟩
  have hle := hc.le
  refine ⟨by omega, h6, ?_⟩
  rcases h7 with ⟨h0, rs0, r, hj, hb⟩ | ⟨h0, hb⟩
  · right
    rw [h0]
    exact ⟨x, rs0, r, hx, hj, hb⟩
  · left
    intro ts
    have hck : Chunk xs P o.2.consumed := ⟨h0, by omega, fun y hy => hc.tags y (by
      rw [window_split xs (P + 1) (P + o.2.consumed) (P + n) (by omega) (by omega)]
      exact List.mem_append_left _ hy)⟩
    rw [ranges_chunk R hck hx]
    exact hb ts

theorem reach_invS (F : Follows c R On Off) (hsg : R.single = true → 0 < c.nPost ∨ c.nPre = 0) {xs : Strm α τ}
    (hone : ∀ x ∈ xs, ∀ t ∈ x.2, ∀ t' ∈ x.2, R.opens t → ¬ R.closes t') (hap : Apart c.nPost (ranges R xs))
    {s : SSt α τ σ} {P : Nat} {out : List α} {tags : List (Nat × τ)} (h : ReachS c xs s P out tags) :
    ∃ W, out = W.map (·.1) ∧ tags = tagsOf W ∧ InvS c R On Off xs s P W := by
  induction h with
  | init =>
    refine ⟨[], rfl, rfl, Nat.zero_le _, fun _ => by unfold histOf; simp, Or.inl (fun ts => Or.inl ?_)⟩
    refine ⟨(fun r hr => by cases hr), rfl, rfl, F.fresh, rfl, ?_⟩
    rw [recent_self _ _ _ _ (Nat.zero_le _)]
  | @call s p out tags h n room hc ih =>
    obtain ⟨W, h1, h2, inv⟩ := ih
    obtain ⟨w, g1, g2, _, _, _, g3⟩ := inv_stepS F hsg hone hap inv hc room
    refine ⟨W ++ w, by rw [h1, g1, List.map_append], ?_, g3⟩
    rw [tagsOf_append, g2, h2, h1, List.length_map]

/-- what was published, in terms of the ranges -/
theorem inv_output {xs : Strm α τ} (hone : ∀ x ∈ xs, ∀ t ∈ x.2, ∀ t' ∈ x.2, R.opens t → ¬ R.closes t') {s : SSt α τ σ} {P : Nat} {W : Strm α τ} (h : InvS c R On Off xs s P W) :
    W = selected c.nPre c.nPost xs P 0 (ranges R (xs.take P)) ∨ W = selected c.nPre c.nPost xs P 0 (ranges R (xs.take (P + 1))) := by
  rcases h.body with hb | ⟨x, rs0, r, hx, hj, hb⟩
  · rcases hb [] with hb | ⟨rs0, r, hr, hb⟩
    · exact Or.inl hb.out
    · have hpre : s.acc.pre = false := by
        cases hp : s.acc.pre
        · rfl
        · exact absurd (hb.pre hp).1 (by simp)
      rw [hr]
      exact Or.inl (hb.done hpre).1
  · have hP : P < xs.length := (List.getElem?_eq_some_iff.mp hx).1
    have hck : Chunk xs P 1 := ⟨by omega, by omega, fun y hy => by rw [window_nil _ _ _ (by omega)] at hy; cases hy⟩
    have hr : ranges R (xs.take (P + 1)) = rs0 ++ [r] := by rw [ranges_chunk R hck hx, hj]
    cases hp : s.acc.pre with
    | false => right; rw [hr]; exact (hb.done hp).1
    | true =>
      left
      obtain ⟨_, p2, _, p4, _⟩ := hb.pre hp
      have hrs : ranges R (xs.take P) = rs0 := by
        have hlt := ranges_starts R (xs.take P)
        rw [List.length_take, Nat.min_eq_left (by omega)] at hlt
        -- the last range begins here, so it was not there before
        have hlen : (ranges R (xs.take P)).length ≤ rs0.length := by
          apply Classical.byContradiction
          intro hn
          have hk : rs0.length < (ranges R (xs.take P)).length := by omega
          obtain ⟨r', h1, h2, _⟩ := judge_get R (ranges R (xs.take P)) P x.2 rs0.length _ (List.getElem?_eq_getElem hk)
          rw [hj, List.getElem?_append_right (by omega), Nat.sub_self] at h1
          cases h1
          have := hlt _ (List.getElem_mem hk)
          omega
        unfold judge at hj
        cases hct : control R (ranges R (xs.take P)) x.2 with
        | none =>
          rw [hct] at hj
          dsimp only at hj
          rw [hj, List.length_append] at hlen
          simp at hlen
          omega
        | some t =>
          rw [hct] at hj
          dsimp only at hj
          by_cases ho : R.opens t
          · rw [if_pos ho] at hj
            have := (List.append_inj hj (by have := congrArg List.length hj; simp at this; omega)).1
            by_cases hcl : R.closes t
            · exact absurd hcl (hone x (List.mem_of_getElem? hx) t (List.mem_of_find?_eq_some hct) t (List.mem_of_find?_eq_some hct) ho)
            · rw [if_neg hcl] at this
              exact this
          · rw [if_neg ho] at hj
            have := congrArg List.length hj
            rw [List.length_append] at this
            split at this
            · rw [closeFirst_length] at this; simp at this; omega
            · simp at this; omega
      rw [hrs]
      exact p4

end Verif.Sel
