import Verif.Settings.AutoLemmas
/-! Lemmas about staging, applying and duplicate time stamps. -/
namespace Verif.Settings

open Verif.Work.Tags (Key Map settingsKey insertOrAssign)

variable {V : Type}

theorem given_cons (cfg : Cfg V) (e : Key × V) (r : Map V) (k : Key) :
    given cfg (e :: r) k = (given cfg r k).or (if !cfg.isMono e.2 && decide (settingsKey e.1 = k) then some e.2 else none) := by
  unfold given
  rw [List.reverse_cons, List.find?_append]
  cases h : r.reverse.find? (fun e => !cfg.isMono e.2 && decide (settingsKey e.1 = k)) with
  | some x => simp
  | none =>
    cases hb : (!cfg.isMono e.2 && decide (settingsKey e.1 = k)) with
    | true => simp [List.find?_cons, hb]
    | false => simp [List.find?_cons, hb]

theorem setLoop_content (cfg : Cfg V) (ps m : Map V) (ks : List Key) (ret : Map V) (h : (setLoop cfg ps m ks ret).2.2.2 = false) (k : Key) :
    get (setLoop cfg ps m ks ret).1 k =
      match given cfg ps k with
      | none => get m k
      | some x => if cfg.writable.contains k then cfg.conv k x else get m k := by
  induction ps generalizing m ks ret with
  | nil => rfl
  | cons e r ih =>
    obtain ⟨k0, x⟩ := e
    rw [given_cons]
    unfold setLoop at h ⊢
    by_cases hm : cfg.isMono x = true
    · rw [if_pos hm] at h ⊢
      rw [ih _ _ _ h]
      simp only [hm, Bool.not_true, Bool.false_and]
      cases given cfg r k <;> rfl
    · have hm' : cfg.isMono x = false := by simpa using hm
      rw [if_neg hm] at h ⊢
      simp only [hm', Bool.not_false, Bool.true_and]
      by_cases hw : cfg.writable.contains (settingsKey k0) = true
      · rw [if_pos hw] at h ⊢
        cases hc : cfg.conv (settingsKey k0) x with
        | none => rw [hc] at h; cases h
        | some y =>
          rw [hc] at h
          dsimp only at h ⊢
          rw [ih _ _ _ h]
          cases hg : given cfg r k with
          | some z =>
            dsimp only [Option.or]
            by_cases hwk : cfg.writable.contains k = true
            · rw [if_pos hwk, if_pos hwk]
            · rw [if_neg hwk, if_neg hwk, get_insertOrAssign, if_neg]
              intro hh; exact hwk (hh ▸ hw)
          | none =>
            dsimp only [Option.or]
            rw [get_insertOrAssign]
            by_cases hk : settingsKey k0 = k
            · rw [if_pos hk.symm, if_pos (decide_eq_true hk)]
              dsimp only
              rw [← hk, if_pos hw, hc]
            · rw [if_neg (fun h => hk h.symm), if_neg (by simpa using hk)]
      · rw [if_neg hw] at h ⊢
        rw [ih _ _ _ h]
        cases hg : given cfg r k with
        | some z => rfl
        | none =>
          dsimp only [Option.or]
          by_cases hk : settingsKey k0 = k
          · rw [if_pos (decide_eq_true hk)]
            dsimp only
            rw [← hk, if_neg hw]
          · rw [if_neg (by simpa using hk)]

theorem get_cons (e : Key × V) (r : Map V) (k : Key) : get (e :: r) k = if e.1 = k then some e.2 else get r k := by
  unfold get
  rw [List.find?_cons]
  by_cases h : e.1 = k
  · rw [if_pos h, decide_eq_true h]; rfl
  · rw [if_neg h, decide_eq_false h]

theorem applyFold (cfg : Cfg V) (l : Map V) (acc : ApplyAcc V) (hn : (l.map (·.1)).Nodup) (k : Key) :
    (l.foldl (applyStep cfg) acc).fields k = fieldAfter cfg l acc.fields k ∧
    get (l.foldl (applyStep cfg) acc).applied k = (accepted cfg l k).or (get acc.applied k) := by
  induction l generalizing acc with
  | nil => exact ⟨rfl, rfl⟩
  | cons e r ih =>
    rw [List.map_cons, List.nodup_cons] at hn
    rw [List.foldl_cons]
    obtain ⟨h1, h2⟩ := ih (applyStep cfg acc e) hn.2
    rw [h1, h2]
    unfold fieldAfter accepted
    rw [get_cons]
    by_cases hk : e.1 = k
    · have hr : get r k = none := (get_eq_none_iff r k).2 (hk ▸ hn.1)
      rw [hr, if_pos hk]
      dsimp only
      unfold applyStep
      subst hk
      by_cases hw : cfg.writable.contains e.1 = true
      · rw [if_pos hw, if_pos hw]
        cases ha : cfg.accept e.1 e.2 with
        | none => simp
        | some w =>
          have hw2 : e.1 ∈ cfg.writable := by simpa using hw
          simp [hw2, get_insertOrAssign]
      · rw [if_neg hw, if_neg hw]
        have : cfg.writable.contains e.1 = false := by simpa using hw
        rw [this]
        exact ⟨rfl, rfl⟩
    · rw [if_neg hk]
      have hf : (applyStep cfg acc e).fields k = acc.fields k ∧ get (applyStep cfg acc e).applied k = get acc.applied k := by
        unfold applyStep
        split
        · cases cfg.accept e.1 e.2 with
          | none => exact ⟨rfl, rfl⟩
          | some w =>
            dsimp only
            rw [if_neg (fun h => hk h.symm), get_insertOrAssign, if_neg (fun h => hk h.symm)]
            exact ⟨rfl, rfl⟩
        · exact ⟨rfl, rfl⟩
      rw [hf.1, hf.2]
      exact ⟨rfl, rfl⟩

theorem readFields_get (cfg : Cfg V) (f : Key → V) (m : Map V) (k : Key) :
    get (readFields cfg f m) k = if k ∈ cfg.readable then some (f k) else get m k := by
  unfold readFields
  generalize cfg.readable = l
  induction l generalizing m with
  | nil => simp
  | cons j r ih =>
    rw [List.foldl_cons, ih, get_insertOrAssign]
    by_cases hk : k ∈ r
    · rw [if_pos hk, if_pos (List.mem_cons_of_mem _ hk)]
    · rw [if_neg hk]
      by_cases hj : k = j
      · rw [if_pos hj, if_pos (hj ▸ List.mem_cons_self), hj]
      · rw [if_neg hj, if_neg]
        intro hh
        rcases List.mem_cons.1 hh with h | h
        · exact hj h
        · exact hk h

/-! ## Duplicate time stamps -/

theorem upper_le (v : List (Entry V)) (t : Nat) (i : Nat) (hi : i < upperIdx v t) (x : Entry V) (h : v[i]? = some x) : x.ctx.time ≤ t := by
  have := getElem_lt_takeWhile (fun e : Entry V => decide (e.ctx.time ≤ t)) v i hi x h
  simpa using this

theorem upper_gt (v : List (Entry V)) (t : Nat) (hs : Sorted v) (i : Nat) (hi : upperIdx v t ≤ i) (x : Entry V) (h : v[i]? = some x) :
    t < x.ctx.time := by
  have hlen := (List.getElem?_eq_some_iff.1 h).1
  have hlt : upperIdx v t < v.length := by omega
  have hu : v[upperIdx v t]? = some v[upperIdx v t] := List.getElem?_eq_getElem hlt
  have := takeWhile_length_getElem (fun e : Entry V => decide (e.ctx.time ≤ t)) v _ hu
  have h1 : ¬ (v[upperIdx v t]).ctx.time ≤ t := by simpa using this
  have h2 := sorted_getElem v hs _ i _ x hi hu h
  omega

theorem lower_lt (v : List (Entry V)) (t : Nat) (i : Nat) (hi : i < lowerIdx v t) (x : Entry V) (h : v[i]? = some x) : x.ctx.time < t := by
  have := getElem_lt_takeWhile (fun e : Entry V => decide (e.ctx.time < t)) v i hi x h
  simpa using this

theorem lower_ge (v : List (Entry V)) (t : Nat) (hs : Sorted v) (i : Nat) (hi : lowerIdx v t ≤ i) (x : Entry V) (h : v[i]? = some x) :
    t ≤ x.ctx.time := by
  have hlen := (List.getElem?_eq_some_iff.1 h).1
  have hlt : lowerIdx v t < v.length := by omega
  have hu : v[lowerIdx v t]? = some v[lowerIdx v t] := List.getElem?_eq_getElem hlt
  have := takeWhile_length_getElem (fun e : Entry V => decide (e.ctx.time < t)) v _ hu
  have h1 : ¬ (v[lowerIdx v t]).ctx.time < t := by simpa using this
  have h2 := sorted_getElem v hs _ i _ x hi hu h
  omega

/-- what `resolveDuplicateTimestamp` returns -/
theorem resolveDup_spec (s : Stored V) (h : WF s) (c : Ctx) :
    (resolveDup s c).context = c.context ∧
    ((resolveDup s c = c ∧ ∀ e ∈ entriesOf s c.context, ¬ (c.time ≤ e.ctx.time ∧ e.ctx.time ≤ c.time + 1000)) ∨
     ∃ u ∈ entriesOf s c.context, c.time ≤ u.ctx.time ∧ u.ctx.time ≤ c.time + 1000 ∧ (resolveDup s c).time = u.ctx.time + 1 ∧
       ∀ e ∈ entriesOf s c.context, e.ctx.time ≤ c.time + 1000 → e.ctx.time ≤ u.ctx.time) := by
  unfold resolveDup
  cases hf : storedFind s c.context with
  | none =>
    refine ⟨rfl, Or.inl ⟨rfl, fun e he => ?_⟩⟩
    unfold entriesOf at he
    rw [hf] at he
    simp at he
  | some v =>
    have hev : entriesOf s c.context = v := by unfold entriesOf; rw [hf]; rfl
    have hs : Sorted v := hev ▸ h.entries_sorted c.context
    rw [hev]
    dsimp only
    have hlu : lowerIdx v c.time ≤ upperIdx v (c.time + 1000) := by
      apply Nat.le_of_not_lt
      intro hlt
      have h1 : lowerIdx v c.time ≤ v.length := (List.takeWhile_prefix _).length_le
      have h2 : upperIdx v (c.time + 1000) < v.length := by omega
      have h3 := List.getElem?_eq_getElem h2
      have h4 := lower_lt v c.time _ hlt _ h3
      have h5 := upper_gt v (c.time + 1000) hs _ (Nat.le_refl _) _ h3
      omega
    have hul : upperIdx v (c.time + 1000) ≤ v.length := (List.takeWhile_prefix _).length_le
    by_cases hc : lowerIdx v c.time ≠ upperIdx v (c.time + 1000) ∧ lowerIdx v c.time ≠ v.length
    · rw [if_pos hc]
      have hlt : upperIdx v (c.time + 1000) - 1 < v.length := by omega
      have hu := List.getElem?_eq_getElem hlt
      rw [hu]
      dsimp only
      refine ⟨rfl, Or.inr ⟨v[upperIdx v (c.time + 1000) - 1], List.getElem_mem _, ?_, ?_, rfl, ?_⟩⟩
      · exact lower_ge v c.time hs _ (by omega) _ hu
      · exact upper_le v _ _ (by omega) _ hu
      · intro e he het
        obtain ⟨i, hi⟩ := mem_getElem? v e he
        by_cases hiu : i ≤ upperIdx v (c.time + 1000) - 1
        · exact sorted_getElem v hs i _ e _ hiu hi hu
        · have := upper_gt v (c.time + 1000) hs i (by omega) e hi
          omega
    · rw [if_neg hc]
      refine ⟨rfl, Or.inl ⟨rfl, fun e he hin => ?_⟩⟩
      obtain ⟨i, hi⟩ := mem_getElem? v e he
      have hil := (List.getElem?_eq_some_iff.1 hi).1
      have h1 : ¬ upperIdx v (c.time + 1000) ≤ i := by
        intro hle
        have := upper_gt v _ hs i hle e hi
        omega
      have h2 : ¬ i < lowerIdx v c.time := by
        intro hlt
        have := lower_lt v c.time i hlt e hi
        omega
      omega

/-- the entry just inserted is the first with its time, also after dropping entries before it -/
theorem find_drop_insert (v : List (Entry V)) (e : Entry V) (n : Nat) (hn : n ≤ lowerIdx v e.ctx.time) :
    ((insertEntry v e).drop n).find? (fun x => decide (x.ctx.time = e.ctx.time)) = some e := by
  unfold insertEntry
  unfold lowerIdx at hn
  rw [List.drop_append_of_le_length hn, List.find?_append]
  have : ((v.takeWhile (fun x => decide (x.ctx.time < e.ctx.time))).drop n).find? (fun x => decide (x.ctx.time = e.ctx.time)) = none := by
    rw [List.find?_eq_none]
    intro x hx
    have := mem_takeWhile_pos _ _ _ ((List.drop_sublist _ _).subset hx)
    simp at this ⊢
    omega
  rw [this]; simp

end Verif.Settings
