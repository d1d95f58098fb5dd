import Verif.Sink.Spec
/-!
# Helper lemmas: what a poller is given, one more chunk at a time
-/
namespace Verif.Sink

variable {α γ : Type}

/-- metadata still to be sent -/
def pend : Option (List γ) → List (In α γ) → List Keep → Option (List γ)
  | _, .meta' m :: r, ks => pend (some m) r ks
  | p, .chunk _ :: r, k :: ks => pend (after p k) r ks
  | p, _, _ => p

theorem onFirst_len (p : Option (List γ)) (b b' : Nat) (c : Chunk α γ) (n : Nat) :
    (onFirst p b c n).length = (onFirst p b' c n).length := by
  simp [onFirst]

theorem snoc_meta {p : Option (List γ)} {ins : List (In α γ)} {ks : List Keep} (h : Fits p ins ks) (m : List γ) :
    kept (ins ++ [.meta' m]) ks = kept ins ks ∧ (∀ b, keptTags p b (ins ++ [.meta' m]) ks = keptTags p b ins ks) ∧
      Fits p (ins ++ [.meta' m]) ks ∧ missed p (ins ++ [.meta' m]) ks = missed p ins ks ∧
      pend p (ins ++ [.meta' m]) ks = some m := by
  induction ins generalizing p ks with
  | nil => cases h; simp [kept, keptTags, Fits, missed, pend]
  | cons i r ih =>
    match i, ks, h with
    | .meta' m', ks, h => simpa [kept, keptTags, Fits, missed, pend] using ih (p := some m') h
    | .chunk c, k :: ks, h =>
      obtain ⟨h1, h2, h3⟩ := h
      obtain ⟨e1, e2, e3, e4, e5⟩ := ih h3
      refine ⟨?_, ?_, ⟨h1, h2, e3⟩, ?_, ?_⟩
      · simp only [List.cons_append, kept, e1]
      · intro b; simp only [List.cons_append, keptTags, e2]
      · simp only [List.cons_append, missed, e4]
      · simp only [List.cons_append, pend, e5]

theorem snoc_chunk {p : Option (List γ)} {ins : List (In α γ)} {ks : List Keep} (h : Fits p ins ks) (c : Chunk α γ) (k : Keep)
    (hn : k.n ≤ c.data.length) (hk : k.k ≤ (onFirst (pend p ins ks) 0 c k.n).length) :
    kept (ins ++ [.chunk c]) (ks ++ [k]) = kept ins ks ++ c.data.take k.n ∧
      (∀ b, keptTags p b (ins ++ [.chunk c]) (ks ++ [k]) = keptTags p b ins ks ++
        (if 0 < k.n then (onFirst (pend p ins ks) (b + (kept ins ks).length) c k.n).take k.k else [])) ∧
      Fits p (ins ++ [.chunk c]) (ks ++ [k]) ∧
      missed p (ins ++ [.chunk c]) (ks ++ [k]) = missed p ins ks + ((onFirst (pend p ins ks) 0 c k.n).length - k.k) ∧
      pend p (ins ++ [.chunk c]) (ks ++ [k]) = after (pend p ins ks) k := by
  induction ins generalizing p ks with
  | nil =>
    cases h
    refine ⟨by simp [kept], fun b => by simp [kept, keptTags, pend], ⟨hn, hk, rfl⟩, by simp [missed, pend], rfl⟩
  | cons i r ih =>
    match i, ks, h with
    | .meta' m', ks, h =>
      obtain ⟨e1, e2, e3, e4, e5⟩ := ih (p := some m') h hk
      exact ⟨e1, e2, e3, e4, e5⟩
    | .chunk c', k' :: ks, h =>
      obtain ⟨h1, h2, h3⟩ := h
      obtain ⟨e1, e2, e3, e4, e5⟩ := ih h3 hk
      refine ⟨?_, ?_, ⟨h1, h2, e3⟩, ?_, ?_⟩
      · simp only [List.cons_append, kept, e1, List.append_assoc]
      · intro b
        simp only [List.cons_append, keptTags, e2, List.append_assoc, pend, kept, List.length_append, List.length_take,
          Nat.min_eq_left h1, Nat.add_assoc]
      · simp only [List.cons_append, missed, e4, pend]; omega
      · simp only [List.cons_append, pend, e5]

/-- what is kept when nothing is dropped -/
def full : Option (List γ) → List (In α γ) → List Keep
  | _, [] => []
  | _, .meta' m :: r => full (some m) r
  | p, .chunk c :: r =>
    let k : Keep := ⟨c.data.length, (onFirst p 0 c c.data.length).length⟩
    k :: full (after p k) r

theorem full_meta (p : Option (List γ)) (ins : List (In α γ)) (m : List γ) : full p (ins ++ [.meta' m]) = full p ins := by
  induction ins generalizing p with
  | nil => rfl
  | cons i r ih => cases i <;> simp only [List.cons_append, full, ih]

theorem full_chunk (p : Option (List γ)) (ins : List (In α γ)) (c : Chunk α γ) :
    full p (ins ++ [.chunk c]) =
      full p ins ++ [⟨c.data.length, (onFirst (pend p ins (full p ins)) 0 c c.data.length).length⟩] := by
  induction ins generalizing p with
  | nil => rfl
  | cons i r ih =>
    cases i with
    | meta' m => simp only [List.cons_append, full, ih, pend]
    | chunk c' => simp only [List.cons_append, full, ih, pend]

theorem fits_full (p : Option (List γ)) (ins : List (In α γ)) : Fits p ins (full p ins) := by
  induction ins generalizing p with
  | nil => rfl
  | cons i r ih =>
    cases i with
    | meta' m => exact ih _
    | chunk c' => exact ⟨Nat.le_refl _, Nat.le_refl _, ih _⟩

theorem kept_full (p : Option (List γ)) (ins : List (In α γ)) : kept ins (full p ins) = samples ins := by
  induction ins generalizing p with
  | nil => rfl
  | cons i r ih =>
    cases i with
    | meta' m => exact ih _
    | chunk c => simp only [full, kept, samples, ih, List.take_length]

theorem keptTags_full (p : Option (List γ)) (b : Nat) (ins : List (In α γ)) (h : Ok ins) :
    keptTags p b ins (full p ins) = positions p b ins := by
  induction ins generalizing p b with
  | nil => simp [full, keptTags, positions]
  | cons i r ih =>
    have hr : Ok r := fun c hc => h c (List.mem_cons_of_mem _ hc)
    cases i with
    | meta' m => exact ih _ _ hr
    | chunk c =>
      have hc : c.Ok := h c List.mem_cons_self
      simp only [full, keptTags, positions, ih _ _ hr]
      by_cases hz : c.data.length = 0
      · have ha : after p (⟨c.data.length, (onFirst p 0 c c.data.length).length⟩ : Keep) = p := by simp [after, hz]
        rw [ha, if_pos hz, if_neg (by omega), hz]; rfl
      · have hf : (c.tags.filter fun t => t.index < c.data.length) = c.tags :=
          List.filter_eq_self.2 fun t ht => by simpa using hc.2 t ht
        have hlen : (onFirst p 0 c c.data.length).length = (onFirst p b c c.data.length).length := onFirst_len ..
        rw [if_neg hz, if_pos (by omega), hlen, List.take_length]
        have ha : positions (after p (⟨c.data.length, (onFirst p b c c.data.length).length⟩ : Keep)) (b + c.data.length) r =
            positions none (b + c.data.length) r := by
          unfold after
          split
          · rfl
          · rename_i hn
            have h0 : (onFirst p b c c.data.length).length = 0 := by
              simp only at hn; omega
            have : p = none := by
              cases p with
              | none => rfl
              | some m => simp [onFirst] at h0
            rw [this]
        rw [ha]
        simp only [onFirst, hf]

theorem missed_full (p : Option (List γ)) (ins : List (In α γ)) : missed p ins (full p ins) = 0 := by
  induction ins generalizing p with
  | nil => simp [missed]
  | cons i r ih =>
    cases i with
    | meta' m => exact ih _
    | chunk c => simp only [full, missed, ih]; omega

/-! ### Tags in order -/

/-- positions in order, all from `lo` up to `hi` -/
def Between (lo hi : Nat) (l : List (Nat × List γ)) : Prop := l.Pairwise (fun a b => a.1 ≤ b.1) ∧ ∀ t ∈ l, lo ≤ t.1 ∧ t.1 < hi

theorem Between.nil (lo hi : Nat) : Between lo hi ([] : List (Nat × List γ)) := ⟨List.Pairwise.nil, by simp⟩

theorem Between.append {lo mid hi : Nat} {a b : List (Nat × List γ)} (ha : Between lo mid a) (hb : Between mid hi b) (h1 : lo ≤ mid)
    (h2 : mid ≤ hi) : Between lo hi (a ++ b) := by
  refine ⟨List.pairwise_append.2 ⟨ha.1, hb.1, fun x hx y hy => ?_⟩, fun t ht => ?_⟩
  · have := ha.2 x hx; have := hb.2 y hy; omega
  · rcases List.mem_append.1 ht with ht | ht
    · have := ha.2 t ht; omega
    · have := hb.2 t ht; omega

theorem between_onFirst (p : Option (List γ)) (b : Nat) (c : Chunk α γ) (n k : Nat) (hc : c.Ok) (hn : 0 < n) :
    Between b (b + n) ((onFirst p b c n).take k) := by
  have hb : Between b (b + n) (onFirst p b c n) := by
    refine ⟨List.pairwise_append.2 ⟨?_, ?_, ?_⟩, ?_⟩
    · cases p <;> simp
    · exact List.pairwise_map.2 ((hc.1.filter _).imp fun h => Nat.add_le_add_left h b)
    · intro x hx y hy
      obtain ⟨m, _, rfl⟩ := List.mem_map.1 hx
      obtain ⟨t, _, rfl⟩ := List.mem_map.1 hy
      exact Nat.le_add_right ..
    · intro t ht
      rcases List.mem_append.1 ht with ht | ht
      · obtain ⟨m, _, rfl⟩ := List.mem_map.1 ht
        exact ⟨Nat.le_refl _, by omega⟩
      · obtain ⟨u, hu, rfl⟩ := List.mem_map.1 ht
        have : u.index < n := by simpa using (List.mem_filter.1 hu).2
        exact ⟨Nat.le_add_right .., by simpa using this⟩
  exact ⟨hb.1.sublist (List.take_sublist _ _), fun t ht => hb.2 t (List.mem_of_mem_take ht)⟩

/-- `takeWhile` on a sorted list splits it at the bound -/
theorem split_at {d : Nat} {l : List (Nat × List γ)} (h : l.Pairwise fun a b => a.1 ≤ b.1) :
    (∀ t ∈ l.takeWhile (fun t => t.1 < d), t.1 < d) ∧ (∀ t ∈ l.drop (l.takeWhile (fun t => t.1 < d)).length, d ≤ t.1) ∧
      l.takeWhile (fun t => t.1 < d) ++ l.drop (l.takeWhile (fun t => t.1 < d)).length = l := by
  induction l with
  | nil => simp
  | cons x r ih =>
    have hr := ih (List.pairwise_cons.1 h).2
    by_cases hx : x.1 < d
    · simp only [List.takeWhile_cons, hx, decide_true, if_true, List.length_cons, List.drop_succ_cons, List.mem_cons,
        List.cons_append, hr.2.2, and_true]
      exact ⟨fun t ht => ht.elim (fun e => e ▸ hx) (hr.1 t), hr.2.1⟩
    · simp only [List.takeWhile_cons, hx, decide_false, Bool.false_eq_true, if_false, List.length_nil, List.drop_zero,
        List.nil_append, and_true]
      refine ⟨by simp, fun t ht => ?_⟩
      rcases List.mem_cons.1 ht with rfl | ht
      · omega
      · have := (List.pairwise_cons.1 h).1 t ht; omega

theorem gotTags_append (b : Nat) (cs ds : List (Call α γ)) :
    gotTags b (cs ++ ds) = gotTags b cs ++ gotTags (b + (got cs).length) ds := by
  induction cs generalizing b with
  | nil => simp [gotTags, got]
  | cons c r ih =>
    simp only [List.cons_append, gotTags, ih, List.append_assoc, got, List.flatMap_cons, List.length_append, Nat.add_assoc]

theorem got_append (cs ds : List (Call α γ)) : got (cs ++ ds) = got cs ++ got ds := by simp [got]

end Verif.Sink
