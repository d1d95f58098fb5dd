import Verif.Yaml.Safe
/-!
# Loading never reads outside the text — lists and maps
-/
namespace Verif.Yaml

variable {F : Type} {α β : Type}

theorem convertList_wf {tag : Option Tag} {vs : List (Val F)} (hv : ∀ v ∈ vs, WF v) : WF (convertList tag vs) := by
  unfold convertList
  split
  · exact WF.list hv
  · exact WF.null
  · refine WF.list fun v h => ?_
    obtain ⟨w, -, rfl⟩ := List.mem_map.mp h
    cases w <;> exact WF.str
  · rename_i t
    refine WF.arr fun s h => ?_
    obtain ⟨w, hw, h⟩ := List.mem_filterMap.mp h
    cases w with
    | sca s' =>
      dsimp only at h
      split at h
      · rename_i ht
        injection h with h
        subst h
        cases hv _ hw with
        | sca ho => exact ⟨ht, ho⟩
      · cases h
    | _ => cases h

theorem upsert_keys (key : List Char) (v : Val F) : ∀ es : List (List Char × Val F), ∀ k, k ∈ (upsert key v es).map Prod.fst → k = key ∨ k ∈ es.map Prod.fst := by
  intro es
  induction es with
  | nil => intro k h; simpa [upsert] using h
  | cons e es ih =>
    obtain ⟨k0, w⟩ := e
    intro k h
    unfold upsert at h
    split at h
    · exact Or.inr h
    · rw [List.map_cons, List.mem_cons] at h
      rcases h with h | h
      · exact Or.inr (by rw [List.map_cons, List.mem_cons]; exact Or.inl h)
      · rcases ih k h with h | h
        · exact Or.inl h
        · exact Or.inr (List.mem_cons_of_mem _ h)

theorem upsert_nodup (key : List Char) (v : Val F) : ∀ es : List (List Char × Val F), (es.map Prod.fst).Nodup → ((upsert key v es).map Prod.fst).Nodup := by
  intro es
  induction es with
  | nil => intro _; simp [upsert]
  | cons e es ih =>
    obtain ⟨k0, w⟩ := e
    intro h
    rw [List.map_cons, List.nodup_cons] at h
    unfold upsert
    split
    · rw [List.map_cons, List.nodup_cons]; exact h
    · rename_i hk
      rw [List.map_cons, List.nodup_cons]
      refine ⟨fun hm => ?_, ih h.2⟩
      rcases upsert_keys key v es k0 hm with h' | h'
      · exact hk h'
      · exact h.1 h'

theorem upsert_vals (key : List Char) (v : Val F) (P : Val F → Prop) (hv : P v) : ∀ es : List (List Char × Val F), (∀ e ∈ es, P e.2) →
    ∀ e ∈ upsert key v es, P e.2 := by
  intro es
  induction es with
  | nil => intro _ e h; simp only [upsert, List.mem_cons, List.not_mem_nil, or_false] at h; subst h; exact hv
  | cons e0 es ih =>
    obtain ⟨k0, w⟩ := e0
    intro hes e h
    unfold upsert at h
    split at h
    · rcases List.mem_cons.mp h with h | h
      · subst h; exact hv
      · exact hes _ (List.mem_cons_of_mem _ h)
    · rcases List.mem_cons.mp h with h | h
      · subst h; exact hes _ List.mem_cons_self
      · exact ih (fun e he => hes e (List.mem_cons_of_mem _ he)) e h

/-- the entries collected so far -/
def Entries (es : List (List Char × Val F)) : Prop := (∀ e ∈ es, WF e.2) ∧ (es.map Prod.fst).Nodup

theorem Entries.upsert {es : List (List Char × Val F)} (h : Entries es) (key : List Char) {v : Val F} (hv : WF v) : Entries (upsert key v es) :=
  ⟨upsert_vals key v WF hv es h.1, upsert_nodup key v es h.2⟩

theorem TagOk.orElse {a b : Option Tag} (ha : TagOk a) (hb : TagOk b) : TagOk (a.orElse fun _ => b) := by
  cases a with
  | none => exact hb
  | some x => exact ha

theorem element_safe {fl : Floats F} {isMap : Bool} {tag : Option Tag} {nested : Bool → Option Tag → Ctx → Res (Val F)} {c : Ctx} (ho : c.Ok)
    (ht : TagOk tag)
    (hn : ∀ m t c', TagOk t → c'.Ok → c'.lines <:+ c.lines → c'.size + 1 ≤ c.size → Safe c' 0 WF (nested m t c')) :
    Safe c 0 WF (element fl false isMap tag nested c) := by
  unfold element
  refine safe_bind (parseTag_safe ho) (e := 0) ?_
  intro own c1 hown ho1 hs1 hz1
  split
  · exact safe_fail ho1 List.suffix_rfl
  · have ho2 := ws_ok ho1
    have hs2 := ws_suffix ho1
    have hz2 := ws_size ho1
    have hloc := TagOk.orElse hown ht
    dsimp only
    refine Safe.weak (c1 := c1.ws) (d := 0) (P := WF) ?_ hs2 (by omega) (fun _ h => h)
    refine consumeIf_safe (p := ['[']) ho2 ?_ ?_
    · intro c3 _ ho3 hl3 hz3
      rw [List.length_singleton] at hz3
      exact hn _ _ _ hloc ho3 (by rw [hl3]; exact hs2.trans hs1) (by omega)
    · intro _
      refine consumeIf_safe (p := ['{']) ho2 ?_ ?_
      · intro c3 _ ho3 hl3 hz3
        rw [List.length_singleton] at hz3
        exact hn _ _ _ hloc ho3 (by rw [hl3]; exact hs2.trans hs1) (by omega)
      · intro _
        exact parsePlain_safe (fun h => absurd h (by decide)) ho2 hloc

/-- a well-formed value, and a map if one was asked for -/
def FlowVal (isMap : Bool) (v : Val F) : Prop := WF v ∧ (isMap = true → ∃ es, v = .map es)

theorem flowVal_done {isMap : Bool} {tag : Option Tag} {vs : List (Val F)} {es : List (List Char × Val F)} (hv : ∀ v ∈ vs, WF v) (he : Entries es) :
    FlowVal isMap (if isMap then .map es else convertList tag vs) := by
  cases isMap with
  | true => exact ⟨WF.map he.1 he.2, fun _ => ⟨es, rfl⟩⟩
  | false => exact ⟨convertList_wf hv, nofun⟩

theorem flow_safe (fl : Floats F) (parent : Option Nat) : ∀ (n : Nat) (isMap : Bool) (tag : Option Tag) (n0 : Nat) (vs : List (Val F))
    (es : List (List Char × Val F)) (c : Ctx), c.Ok → c.size < n → TagOk tag → (∀ v ∈ vs, WF v) → Entries es →
    Safe c 0 (FlowVal isMap) (flow fl false parent n isMap tag n0 vs es c) := by
  intro n
  induction n with
  | zero => intro isMap tag n0 vs es c _ h; omega
  | succ n ih =>
    intro isMap tag n0 vs es c0 ho0 hsz ht hv he
    unfold flow
    dsimp only
    split
    · exact ⟨flowVal_done hv he, ho0, List.suffix_rfl, Nat.le_refl _⟩
    · have ho := ws_ok ho0
      have hs := ws_suffix ho0
      have hz := ws_size ho0
      generalize c0.ws = c at ho hs hz
      refine Safe.weak (c1 := c) (d := 0) (P := FlowVal isMap) ?_ hs (by omega) (fun _ h => h)
      split
      · exact safe_fail ho List.suffix_rfl
      · rename_i hneod
        have hl := ne_nil_of_eod hneod
        refine consumeIf_safe ho ?_ ?_
        · intro c1 _ ho1 hl1 hz1
          exact ⟨flowVal_done hv he, ho1, List.suffix_rfl, by omega⟩
        · intro _
          rw [if_neg (by decide), currentIndent_bind hl]
          split
          · exact safe_fail ho List.suffix_rfl
          · have hin : ∀ c', c'.lines <:+ c.lines → c'.size ≤ c.size → c'.Ok → Safe c' 0 WF
                (element fl false isMap tag (fun m t c => flow fl false parent n m t c.lines.length [] [] c) c') := by
              intro c' hs' hz' ho'
              refine element_safe ho' ht ?_
              intro m t c2 ht2 ho2 hs2 hz2
              exact (ih m t _ [] [] c2 ho2 (by omega) ht2 nofun ⟨nofun, List.nodup_nil⟩).weak List.suffix_rfl (by omega) (fun _ h => h.1)
            refine safe_bind (d := 0) (e := 0) (P := fun acc => (∀ v ∈ acc.1, WF v) ∧ Entries acc.2) ?_ ?_
            · split
              · refine (safe_bind (parseKey_safe ho hl) (e := 0) ?_).weak List.suffix_rfl (by omega) (fun _ h => h)
                intro key c1 _ ho1 hs1 hz1
                have ho2 := ws_ok ho1
                have hs2 := ws_suffix ho1
                have hz2 := ws_size ho1
                refine Safe.weak (c1 := c1.ws) (d := 0) (P := fun acc => (∀ v ∈ acc.1, WF v) ∧ Entries acc.2) ?_ hs2 (by omega) (fun _ h => h)
                have hcopy := hin c1.ws (hs2.trans hs1) (by omega) ho2
                rename_i hm
                refine safe_bind (d := 0) (e := 0) hcopy ?_
                intro v c3 hv3 ho3 _ _
                exact ⟨⟨hv, he.upsert key hv3⟩, ho3, List.suffix_rfl, Nat.le_refl _⟩
              · refine safe_bind (d := 0) (e := 0) (hin c List.suffix_rfl (Nat.le_refl _) ho) ?_
                intro v c3 hv3 ho3 _ _
                refine ⟨⟨fun w hw => ?_, he⟩, ho3, List.suffix_rfl, Nat.le_refl _⟩
                rcases List.mem_append.mp hw with hw | hw
                · exact hv w hw
                · rw [List.mem_singleton] at hw; subst hw; exact hv3
            · intro acc c1 hacc ho1 hs1 hz1
              have ho2 := ws_ok ho1
              have hs2 := ws_suffix ho1
              have hz2 := ws_size ho1
              refine Safe.weak (c1 := c1.ws) (d := 0) (P := FlowVal isMap) ?_ hs2 (by omega) (fun _ h => h)
              refine consumeIf_safe (p := [',']) ho2 ?_ ?_
              · intro c3 _ ho3 hl3 hz3
                rw [List.length_singleton] at hz3
                exact (ih isMap tag n0 acc.1 acc.2 c3 ho3 (by omega) ht hacc.1 hacc.2).weak List.suffix_rfl (by omega) (fun _ h => h)
              · intro _
                rw [if_neg (by decide)]
                refine consumeIf_safe ho2 ?_ ?_
                · intro c3 _ ho3 _ _
                  exact ⟨flowVal_done hacc.1 hacc.2, ho3, List.suffix_rfl, by omega⟩
                · intro _
                  exact safe_fail ho2 List.suffix_rfl

theorem startsWith_mem {c : Ctx} {ch : Char} (ho : c.Ok) (h : c.startsWith [ch] = true) : ∃ l ∈ c.lines, ch ∈ l := by
  obtain ⟨hp, hl, -⟩ := startsWith_props ho h
  obtain ⟨ls, k⟩ := c
  cases ls with
  | nil => exact absurd rfl hl
  | cons l ls =>
    refine ⟨l, List.mem_cons_self, ?_⟩
    have hm : ch ∈ (Ctx.mk (l :: ls) k).rem := hp.subset List.mem_cons_self
    rw [rem_eq ho] at hm
    exact List.mem_of_mem_drop hm

theorem flowOr_safe {fl : Floats F} {dbg : Bool} {n : Nat} {isMap : Bool} {tag : Option Tag} {parent : Option Nat} {loop : Ctx → Res (Val F)} {c : Ctx}
    (ho : c.Ok) (hf : NoFlow dbg c.lines) (hn : c.size < n) (ht : TagOk tag)
    (hloop : ∀ c', c'.Ok → c'.lines <:+ c.lines → c'.size ≤ c.size → Safe c' 0 (FlowVal isMap) (loop c')) :
    Safe c 0 (FlowVal isMap) (flowOr fl dbg n isMap tag parent loop c) := by
  have ho1 := ws_ok ho
  have hs1 := ws_suffix ho
  have hz1 := ws_size ho
  unfold flowOr
  refine Safe.weak (c1 := c.ws) (d := 0) (P := FlowVal isMap) ?_ hs1 (by omega) (fun _ h => h)
  refine consumeIf_safe ho1 ?_ ?_
  · intro c2 hstart ho2 hl2 hz2
    have hd : dbg = false := by
      cases dbg with
      | false => rfl
      | true =>
        exfalso
        have hf1 := hf.mono hs1 rfl
        cases isMap with
        | true =>
          obtain ⟨l, hl, hc⟩ := startsWith_mem ho1 hstart
          exact (hf1 l hl).2 hc
        | false =>
          obtain ⟨l, hl, hc⟩ := startsWith_mem ho1 hstart
          exact (hf1 l hl).1 hc
    subst hd
    rw [if_pos rfl]
    have hz2' : c2.size ≤ c.ws.size := by omega
    refine (safe_bind (flow_safe fl parent n isMap tag c2.lines.length [] [] c2 ho2 (by omega) ht nofun ⟨nofun, List.nodup_nil⟩) (e := 0)
      (Q := FlowVal isMap) ?_).weak List.suffix_rfl (by omega) (fun _ h => h)
    intro v c3 hv ho3 _ _
    exact ⟨hv, next_ok _ ho3, next_suffix _, next_size ho3⟩
  · intro _
    exact hloop _ ho1 hs1 hz1

theorem col_le {a b : Ctx} (h : a.lines = b.lines) (ho : b.Ok) : b.col ≤ a.cur.length := by
  unfold Ctx.cur
  rw [h]
  exact ho

theorem tagOk_none : TagOk none := by
  intro t h
  cases h

theorem loops_safe (fl : Floats F) (dbg : Bool) : ∀ n : Nat,
    (∀ (parent : Option Nat) (first : Bool) (es : List (List Char × Val F)) (c : Ctx), c.Ok → NoFlow dbg c.lines → c.size < n → Entries es →
      Safe c 0 (FlowVal true) (mapLoop fl dbg parent n first es c)) ∧
    (∀ (parent : Option Nat) (tag : Option Tag) (vs : List (Val F)) (c : Ctx), c.Ok → NoFlow dbg c.lines → c.size < n → TagOk tag →
      (∀ v ∈ vs, WF v) → Safe c 0 (FlowVal false) (listLoop fl dbg parent tag n vs c)) := by
  intro n
  induction n with
  | zero => exact ⟨fun _ _ _ c _ _ h => by omega, fun _ _ _ c _ _ h => by omega⟩
  | succ n ih =>
    obtain ⟨ihm, ihl⟩ := ih
    have hmapv : ∀ (ind : Nat) (c : Ctx), c.Ok → NoFlow dbg c.lines → c.size < n → Safe c 0 (WF (F := F))
        (flowOr fl dbg n true none (some ind) (fun c => mapLoop fl dbg (some ind) n true [] c) c) := by
      intro ind c ho hf hz
      refine (flowOr_safe ho hf hz tagOk_none ?_).weak List.suffix_rfl (Nat.le_refl _) (fun _ h => h.1)
      intro c' ho' hs' hz'
      exact ihm _ _ _ _ ho' (hf.mono hs') (by omega) ⟨nofun, List.nodup_nil⟩
    have hlistv : ∀ (ind : Nat) (tag : Option Tag) (c : Ctx), c.Ok → NoFlow dbg c.lines → c.size < n → TagOk tag → Safe c 0 (WF (F := F))
        (flowOr fl dbg n false tag (some ind) (fun c => listLoop fl dbg (some ind) tag n [] c) c) := by
      intro ind tag c ho hf hz ht
      refine (flowOr_safe ho hf hz ht ?_).weak List.suffix_rfl (Nat.le_refl _) (fun _ h => h.1)
      intro c' ho' hs' hz'
      exact ihl _ _ _ _ ho' (hf.mono hs') (by omega) ht nofun
    refine ⟨?_, ?_⟩
    · intro parent first es c0 ho0 hf0 hz0 hes
      have hdone : FlowVal true (Val.map es) := ⟨WF.map hes.1 hes.2, fun _ => ⟨es, rfl⟩⟩
      unfold mapLoop
      split
      · exact ⟨hdone, ho0, List.suffix_rfl, Nat.le_refl _⟩
      · split
        · exact safe_fail ho0 List.suffix_rfl
        · have ho := ws_ok ho0
          have hs := ws_suffix ho0
          have hz := ws_size ho0
          dsimp only
          generalize c0.ws = c at ho hs hz
          refine Safe.weak (c1 := c) (d := 0) (P := FlowVal true) ?_ hs (by omega) (fun _ h => h)
          have hf := hf0.mono hs
          by_cases he : c.eod = true
          · rw [if_pos he]; exact ⟨hdone, ho, List.suffix_rfl, Nat.le_refl _⟩
          · rw [if_neg he]
            have hl := ne_nil_of_eod he
            have hzn := next_size_lt ho hl
            have hnext : Safe c 0 (FlowVal true) (mapLoop fl dbg parent n first es c.next) :=
              (ihm parent first es c.next (next_ok _ ho) (hf.mono (next_suffix _)) (by omega) hes).weak (next_suffix _) (by omega) (fun _ h => h)
            split
            · exact hnext
            · rw [currentIndent_bind hl]
              split
              · exact hnext
              · rename_i ind _
                split
                · exact ⟨hdone, ho, List.suffix_rfl, Nat.le_refl _⟩
                · refine (safe_bind (parseKey_safe ho hl) (e := 0) (Q := FlowVal true) ?_).weak List.suffix_rfl (by omega) (fun _ h => h)
                  intro key c1 _ ho1 hs1 hz1
                  have ho2 := spaces_ok ho1
                  have hz2 := spaces_size c1
                  have hl2 := spaces_lines c1
                  refine Safe.weak (c1 := c1.spaces) (d := 0) (P := FlowVal true) ?_ (spaces_suffix _) (by omega) (fun _ h => h)
                  refine (safe_bind_eq (parseTag_safe ho2) (e := 0) (Q := FlowVal true) ?_).weak List.suffix_rfl (by omega) (fun _ h => h)
                  intro tag c3 heq htag ho3 hs3 hz3
                  have hl4 : c3.spaces.lines = c1.spaces.lines := (spaces_lines c3).trans (parseTag_lines ho2 heq)
                  have ho4 := spaces_ok ho3
                  have hz4 := spaces_size c3
                  have hs4 := spaces_suffix c3
                  generalize c3.spaces = c4 at ho4 hz4 hs4 hl4
                  refine Safe.weak (c1 := c4) (d := 0) (P := FlowVal true) ?_ hs4 (by omega) (fun _ h => h)
                  obtain ⟨vt, hvt⟩ := peek_ok (dbg := dbg) (level := ind) ho4
                  rw [hvt]
                  have hf4 : NoFlow dbg c4.lines := by
                    refine hf.mono (hs4.trans (hs3.trans ?_))
                    rw [hl2]; exact hs1
                  refine safe_bind (d := 0) (e := 0) (P := WF) ?_ ?_
                  · cases vt with
                    | list => exact hlistv ind tag c4 ho4 hf4 (by omega) htag
                    | map =>
                      dsimp only
                      split
                      · refine ⟨List.suffix_rfl, ?_⟩
                        exact col_le hl4 ho2
                      · exact hmapv ind c4 ho4 hf4 (by omega)
                    | scalar => exact parseScalar_safe ho4 htag
                  · intro v c5 hv ho5 hs5 hz5
                    exact ihm _ _ _ _ ho5 (hf4.mono hs5) (by omega) (hes.upsert key hv)
    · intro parent tag vs c0 ho0 hf0 hz0 htag hvs
      have hdone : FlowVal false (convertList tag vs) := ⟨convertList_wf hvs, nofun⟩
      unfold listLoop
      split
      · exact ⟨hdone, ho0, List.suffix_rfl, Nat.le_refl _⟩
      · have ho := ws_ok ho0
        have hs := ws_suffix ho0
        have hz := ws_size ho0
        dsimp only
        generalize c0.ws = c at ho hs hz
        refine Safe.weak (c1 := c) (d := 0) (P := FlowVal false) ?_ hs (by omega) (fun _ h => h)
        have hf := hf0.mono hs
        by_cases he : c.eod = true
        · rw [if_pos he]; exact ⟨hdone, ho, List.suffix_rfl, Nat.le_refl _⟩
        · rw [if_neg he]
          have hl := ne_nil_of_eod he
          have hzn := next_size_lt ho hl
          have hnext : Safe c 0 (FlowVal false) (listLoop fl dbg parent tag n vs c.next) :=
            (ihl parent tag vs c.next (next_ok _ ho) (hf.mono (next_suffix _)) (by omega) htag hvs).weak (next_suffix _) (by omega) (fun _ h => h)
          split
          · exact hnext
          · rw [currentIndent_bind hl]
            split
            · exact hnext
            · rename_i ind _
              split
              · exact ⟨hdone, ho, List.suffix_rfl, Nat.le_refl _⟩
              · refine consumeIf_safe (p := ['-']) ho ?_ ?_
                · intro c1 _ ho1 hl1 hz1
                  rw [List.length_singleton] at hz1
                  rw [if_neg (by decide)]
                  have ho2 := spaces_ok ho1
                  have hz2 := spaces_size c1
                  have hl2 := spaces_lines c1
                  refine Safe.weak (c1 := c1.spaces) (d := 0) (P := FlowVal false) ?_ (spaces_suffix _) (by omega) (fun _ h => h)
                  refine (safe_bind_eq (parseTag_safe ho2) (e := 0) (Q := FlowVal false) ?_).weak List.suffix_rfl (by omega) (fun _ h => h)
                  intro own c3 heq hown ho3 hs3 hz3
                  have hl4 : c3.spaces.lines = c1.spaces.lines := (spaces_lines c3).trans (parseTag_lines ho2 heq)
                  split
                  · exact safe_fail ho3 List.suffix_rfl
                  · have hboth := TagOk.orElse htag hown
                    have ho4 := spaces_ok ho3
                    have hz4 := spaces_size c3
                    have hs4 := spaces_suffix c3
                    generalize c3.spaces = c4 at ho4 hz4 hs4 hl4
                    refine Safe.weak (c1 := c4) (d := 0) (P := FlowVal false) ?_ hs4 (by omega) (fun _ h => h)
                    obtain ⟨vt, hvt⟩ := peek_ok (dbg := dbg) (level := ind) ho4
                    rw [hvt]
                    have hf4 : NoFlow dbg c4.lines := by
                      refine hf.mono (hs4.trans (hs3.trans ?_))
                      rw [hl2, hl1]; exact List.suffix_rfl
                    refine safe_bind (d := 0) (e := 0) (P := WF) ?_ ?_
                    · cases vt with
                      | list =>
                        dsimp only
                        split
                        · refine ⟨List.suffix_rfl, ?_⟩
                          exact col_le hl4 ho2
                        · exact hlistv ind _ c4 ho4 hf4 (by omega) hboth
                      | map =>
                        dsimp only
                        split
                        · refine ⟨List.suffix_rfl, ?_⟩
                          exact col_le hl4 ho2
                        · exact hmapv ind c4 ho4 hf4 (by omega)
                      | scalar => exact parseScalar_safe ho4 hboth
                    · intro v c5 hv ho5 hs5 hz5
                      refine ihl _ _ _ _ ho5 (hf4.mono hs5) (by omega) htag ?_
                      intro w hw
                      rcases List.mem_append.mp hw with hw | hw
                      · exact hvs w hw
                      · rw [List.mem_singleton] at hw; subst hw; exact hv
                · intro _
                  exact safe_fail ho List.suffix_rfl

theorem splitGo_cons (sep : Char) (cur : List Char) (c : Char) (s : List Char) :
    splitGo sep cur (c :: s) = if c = sep then cur :: splitGo sep [] s else splitGo sep (cur ++ [c]) s := by cases cur <;> rfl

/-- the splitting of the text is the one of the specification -/
theorem splitGo_lines : ∀ (s cur : List Char), '\n' ∉ cur → Lines (cur ++ s) (splitGo '\n' cur s) := by
  intro s
  induction s with
  | nil =>
    intro cur hc
    rw [List.append_nil]
    cases cur with
    | nil => exact Lines.nil
    | cons a b => exact Lines.last (by simp) hc
  | cons c s ih =>
    intro cur hc
    rw [splitGo_cons]
    split
    · rename_i h
      subst h
      exact Lines.cons hc (ih [] (by simp))
    · rename_i h
      have h1 : cur ++ c :: s = (cur ++ [c]) ++ s := by simp
      rw [h1]
      refine ih _ ?_
      rw [List.mem_append, List.mem_singleton]
      rintro (h' | h')
      · exact hc h'
      · exact h h'.symm

theorem lines_split (s : List Char) : Lines s (splitLines s) := splitGo_lines s [] (by simp)

theorem deserialize_safe (fl : Floats F) (dbg : Bool) (text : List Char) (hf : NoFlow dbg (splitLines text)) :
    Safe ⟨splitLines text, 0⟩ 0 (FlowVal true) (deserialize fl dbg text) := by
  have ho0 : (Ctx.mk (splitLines text) 0).Ok := Nat.zero_le _
  have ho := ws_ok ho0
  have hs := ws_suffix ho0
  have hz := ws_size ho0
  unfold deserialize
  dsimp only
  refine Safe.weak (c1 := (Ctx.mk (splitLines text) 0).ws) (d := 0) (P := FlowVal true) ?_ hs (by omega) (fun _ h => h)
  have hsz : (Ctx.mk (splitLines text) 0).size = textSize (splitLines text) := rfl
  have key : ∀ c : Ctx, c.Ok → c.lines <:+ splitLines text → c.size ≤ textSize (splitLines text) → Safe c 0 (FlowVal true)
      (flowOr fl dbg (textSize (splitLines text) + 1) true none none (fun c => mapLoop fl dbg none (textSize (splitLines text) + 1) true [] c) c) := by
    intro c hc1 hc2 hc3
    refine flowOr_safe hc1 (hf.mono hc2) (by omega) tagOk_none ?_
    intro c' h1 h2 h3
    exact (loops_safe fl dbg _).1 _ _ _ _ h1 (hf.mono (h2.trans hc2)) (by omega) ⟨nofun, List.nodup_nil⟩
  refine consumeIf_safe ho ?_ ?_
  · intro c1 _ ho1 hl1 hz1
    exact (key c1 ho1 (by rw [hl1]; exact hs) (by omega)).weak List.suffix_rfl (by omega) (fun _ h => h)
  · intro _
    exact key _ ho hs (by omega)

theorem sane_of_safe {lines : List Line} {r : Res (Val F)} (h : Safe ⟨lines, 0⟩ 0 (FlowVal true) r) : Sane lines r := by
  cases r with
  | ok v c => exact ⟨h.1.1, h.1.2 rfl⟩
  | err e c n =>
    obtain ⟨h1, h2⟩ := h
    have h1 : c.lines <:+ lines := h1
    refine ⟨lines.length - c.lines.length, Nat.sub_le _ _, ?_, ?_⟩
    · exact (List.suffix_iff_eq_drop.mp h1)
    · rw [← List.suffix_iff_eq_drop.mp h1]; exact h2
  | ub => exact h
  | fuel => exact h

end Verif.Yaml
