import Verif.Wav.Run
/-! The invariant of the source on files that are well formed. -/
namespace Verif.Wav
open Verif.Bytes
open Verif.FileIo (Msg poll Polled)

theorem marks_append (p : Nat) (A B : List (Fmt × List Out)) : marks p (A ++ B) = marks p A ++ marks (p + (A.flatMap (·.2)).length) B := by
  induction A generalizing p with
  | nil => simp [marks]
  | cons a A ih =>
    obtain ⟨f, o⟩ := a
    simp only [List.cons_append, marks, ih, List.append_assoc, List.flatMap_cons, List.length_append, Nat.add_assoc]

theorem marks_nil_tail (p : Nat) (A : List (Fmt × List Out)) (f : Fmt) : marks p (A ++ [(f, [])]) = marks p A := by
  rw [marks_append]; simp [marks]

theorem played_succ (c : Cfg) (L : List (Fmt × List Byte)) (h : Nat) {x : Fmt × List Byte} (hx : L.getD (h % L.length) (.none, []) = x) :
    played c L (h + 1) = played c L h ++ [(x.1, samples c.kind x.1 (part c x.1 x.2))] := by
  unfold played
  rw [List.range_succ, List.map_append]
  simp only [List.map_cons, List.map_nil, hx]

/-- Where the source is in the file whose messages are given. -/
def Phase (c : Cfg) (msgs : List Msg) (x : Fmt × List Byte) (o : List Out) (s : St) : Prop :=
  (o = [] ∧ ∃ pieces head tail, msgs = pieces.map .data ++ [.final] ∧ pieces.flatten = head ++ x.2 ++ tail ∧ Header head x.1 x.2.length ∧
    reach head.length pieces ≤ 2 ^ 20 ∧ (c.offset * x.1.width < x.2.length → head.length + c.offset * x.1.width ≤ reach head.length pieces) ∧
    Pre pieces head.length s) ∨
  (Supported x.1 ∧ x.1.width ∣ (part c x.1 x.2).length ∧ ∃ X, o = samples c.kind x.1 X ∧ Post x.1 (part c x.1 x.2) (part c x.1 x.2).length X s)

/-- The invariant: `h` files were played and `o` are the samples of the file at hand that were put out. -/
structure Inv (c : Cfg) (files : List (List Msg)) (L : List (Fmt × List Byte)) (h : Nat) (o : List Out) (s : St) : Prop where
  next : s.next = h % L.length + 1
  out : s.out = (played c L h).flatMap (·.2) ++ o
  tags : s.tags = marks 0 (played c L h ++ [((L.getD (h % L.length) (.none, [])).1, o)])
  pending : s.pending = decide (o = [])
  noError : s.error = none
  bound : c.again = false → h < L.length
  queue : ∀ m ∈ s.queue, m ∈ files.getD (h % L.length) []
  phase : Phase c (files.getD (h % L.length) []) (L.getD (h % L.length) (.none, [])) o s

/-- The files are as said. -/
def All (c : Cfg) (files : List (List Msg)) (L : List (Fmt × List Byte)) : Prop :=
  files.length = L.length ∧ L ≠ [] ∧ ∀ i, i < L.length → Gives c (files.getD i []) (L.getD i (.none, [])).1 (L.getD i (.none, [])).2

theorem part_unit {c : Cfg} {f : Fmt} {data head : List Byte} (hh : Header head f data.length) : f.width ∣ (part c f data).length := by
  obtain ⟨_, h2, _⟩ := header_fmt hh
  have := (part_eq c f data data.length (Nat.le_refl _)).2
  rw [List.take_length] at this
  rw [this]
  exact remaining_unit c f _ h2

theorem open_inv {c : Cfg} {files : List (List Msg)} {L : List (Fmt × List Byte)} (ha : All c files L) {s : St} {h : Nat} (hn : s.next = h % L.length)
    (ho : s.out = (played c L h).flatMap (·.2)) (ht : s.tags = marks 0 (played c L h)) (he : s.error = none) (hb : c.again = false → h < L.length) :
    Inv c files L h [] (s.openNext files) ∧ (s.openNext files).cost = cost (files.getD (h % L.length) []) := by
  obtain ⟨hl, hne, hg⟩ := ha
  have hlp := List.length_pos_iff.2 hne
  have hlt : h % L.length < L.length := Nat.mod_lt _ hlp
  have hget : files[s.next]? = some (files.getD (h % L.length) []) := by
    rw [hn, List.getD_eq_getElem?_getD, List.getElem?_eq_getElem (by omega)]
    rfl
  unfold St.openNext
  rw [hget]
  dsimp only
  refine ⟨⟨by rw [hn], by rw [List.append_nil]; exact ho, by rw [marks_nil_tail]; exact ht, rfl, he, hb, fun _ h => h, .inl ⟨rfl, ?_⟩⟩, ?_⟩
  · obtain ⟨pieces, head, tail, h1, h2, h3, h4, h5⟩ := hg _ hlt
    exact ⟨pieces, head, tail, h1, h2, h3, h4, h5, rfl, rfl, rfl, rfl, [], pieces, rfl, rfl, h1, (header_fmt h3).2.2⟩
  · unfold St.cost
    simp

/-- The calls that are needed from file `i` on, when `n` files follow. -/
def costFrom (files : List (List Msg)) (i : Nat) : Nat := ((files.drop i).map fun q => cost q + 1).sum

theorem costFrom_succ (files : List (List Msg)) (i : Nat) (h : i < files.length) : costFrom files i = cost (files.getD i []) + 1 + costFrom files (i + 1) := by
  unfold costFrom
  rw [List.drop_eq_getElem_cons h, List.map_cons, List.sum_cons, List.getD_eq_getElem?_getD, List.getElem?_eq_getElem h]
  rfl

/-- The end of a file. -/
theorem finish_inv {c : Cfg} {files : List (List Msg)} {L : List (Fmt × List Byte)} (ha : All c files L) {s : St} {h : Nat} {o : List Out} (hi : Inv c files L h o s)
    (hfull : o = samples c.kind (L.getD (h % L.length) (.none, [])).1 (part c (L.getD (h % L.length) (.none, [])).1 (L.getD (h % L.length) (.none, [])).2)) :
    ∃ st t, s.finish c files = (st, t) ∧
      ((st = .ok ∧ Inv c files L (h + 1) [] t ∧ t.cost = cost (files.getD ((h + 1) % L.length) [])) ∨
       (st = .done ∧ t = s ∧ c.again = false ∧ h + 1 = L.length)) := by
  have ha' := ha
  obtain ⟨hl, hne, hg⟩ := ha
  have hlp := List.length_pos_iff.2 hne
  have hlt : h % L.length < L.length := Nat.mod_lt _ hlp
  have hout : s.out = (played c L (h + 1)).flatMap (·.2) := by
    rw [played_succ c L h rfl, List.flatMap_append, hi.out, hfull]
    simp
  have htags : s.tags = marks 0 (played c L (h + 1)) := by rw [hi.tags, played_succ c L h rfl, hfull]
  unfold St.finish
  have hnx := hi.next
  by_cases h1 : s.next < files.length
  · rw [if_pos h1]
    have hm : (h + 1) % L.length = h % L.length + 1 := by
      rw [Nat.add_mod, Nat.mod_eq_of_lt (a := 1) (by omega), Nat.mod_eq_of_lt (by omega)]
    have hb : c.again = false → h + 1 < L.length := by
      intro hag
      have := hi.bound hag
      rw [Nat.mod_eq_of_lt this] at hnx
      omega
    obtain ⟨h2, h3⟩ := open_inv ha' (s := s) (h := h + 1) (by rw [hm]; exact hnx) hout htags hi.noError hb
    exact ⟨_, _, rfl, .inl ⟨rfl, h2, h3⟩⟩
  · rw [if_neg h1]
    by_cases h2 : c.again = true ∧ files ≠ []
    · rw [if_pos h2]
      have hm : (h + 1) % L.length = 0 := by
        have : h % L.length + 1 = L.length := by omega
        rw [← Nat.mod_add_mod, this, Nat.mod_self]
      obtain ⟨h3, h4⟩ := open_inv ha' (s := { s with next := 0 }) (h := h + 1) (by rw [hm]) hout htags hi.noError (fun h => by rw [h2.1] at h; cases h)
      exact ⟨_, _, rfl, .inl ⟨rfl, h3, h4⟩⟩
    · rw [if_neg h2]
      have hag : c.again = false := by
        cases hh : c.again with
        | false => rfl
        | true =>
          exfalso
          exact h2 ⟨hh, fun e => by rw [e] at hl; simp at hl; exact hne (List.length_eq_zero_iff.1 hl.symm)⟩
      have := hi.bound hag
      rw [Nat.mod_eq_of_lt this] at hnx
      exact ⟨_, _, rfl, .inr ⟨rfl, rfl, hag, by omega⟩⟩

/-- Putting out samples. -/
theorem emit_inv {c : Cfg} {files : List (List Msg)} {L : List (Fmt × List Byte)} {s t : St} {h : Nat} {o o' : List Out} (hi : Inv c files L h o s) (hb : Base s t)
    (hq : ∀ m ∈ t.queue, m ∈ s.queue) (hf : o' ≠ [] → t.fmt = (L.getD (h % L.length) (.none, [])).1)
    (hp : Phase c (files.getD (h % L.length) []) (L.getD (h % L.length) (.none, [])) (o ++ o') (t.emit o')) :
    Inv c files L h (o ++ o') (t.emit o') := by
  obtain ⟨b1, b2, b3, b4, b5⟩ := hb
  refine ⟨b1.trans hi.next, ?_, ?_, ?_, b3.trans hi.noError, hi.bound, fun m hm => hi.queue m (hq m hm), hp⟩
  · show t.out ++ o' = _
    rw [b4, hi.out, List.append_assoc]
  · show (if o' ≠ [] ∧ t.pending = true then t.tags ++ [(t.out.length, t.fmt.rate, t.fmt.channels)] else t.tags) = _
    rw [b2, b5, b4, hi.tags, hi.pending]
    by_cases ho : o = []
    · subst ho
      by_cases ho' : o' = []
      · subst ho'
        simp
      · rw [if_pos ⟨ho', by simp⟩, marks_nil_tail, List.nil_append, marks_append, hf ho', hi.out]
        simp [marks, ho']
    · rw [if_neg (by simp [ho])]
      rw [marks_append, marks_append]
      simp [marks, ho]
  · show (if o' ≠ [] ∧ t.pending = true then false else t.pending) = _
    rw [b2, hi.pending]
    by_cases ho : o = []
    · by_cases ho' : o' = []
      · simp [ho, ho']
      · simp [ho, ho']
    · simp [ho]

/-- One call. -/
theorem call_inv {c : Cfg} {files : List (List Msg)} {L : List (Fmt × List Byte)} (ha : All c files L) {s : St} {h : Nat} {o : List Out} (hi : Inv c files L h o s)
    (room : Nat) (arrived : Bool) :
    ∃ st t h' o', s.call c files room arrived = (st, t) ∧ Inv c files L h' o' t ∧ st ≠ .error ∧
      (st = .done → c.again = false ∧ h' + 1 = L.length ∧
        o' = samples c.kind (L.getD (h' % L.length) (.none, [])).1 (part c (L.getD (h' % L.length) (.none, [])).1 (L.getD (h' % L.length) (.none, [])).2)) ∧
      (arrived = true → 0 < room → (∀ q ∈ files, ∀ b, Msg.data b ∈ q → b.length < room) → c.again = false → st = .done ∨
        t.cost + 1 + costFrom files (h' + 1) < s.cost + 1 + costFrom files (h + 1)) := by
  have hl := ha.1
  have hlp := List.length_pos_iff.2 ha.2.1
  have hlt : h % L.length < L.length := Nat.mod_lt _ hlp
  by_cases hr : room = 0
  · unfold St.call
    rw [if_pos hr]
    exact ⟨_, _, h, o, rfl, hi, nofun, nofun, fun _ h0 => by omega⟩
  have hroom : 0 < room := by omega
  have hqs : (∀ q ∈ files, ∀ b, Msg.data b ∈ q → b.length < room) → ∀ b, Msg.data b ∈ s.queue → b.length < room := by
    intro hh b hb
    refine hh (files.getD (h % L.length) []) ?_ b (hi.queue _ hb)
    rw [List.getD_eq_getElem?_getD, List.getElem?_eq_getElem (by omega)]
    exact List.getElem_mem _
  -- how a call goes on when it leaves the data of the file at hand
  have fromPost : ∀ (t : St) (o' : List Out) (X : List Byte) (big : Bool), Supported (L.getD (h % L.length) (.none, [])).1 →
      (L.getD (h % L.length) (.none, [])).1.width ∣ (part c (L.getD (h % L.length) (.none, [])).1 (L.getD (h % L.length) (.none, [])).2).length →
      s.call c files room arrived = t.conclude c files o' big →
      Post (L.getD (h % L.length) (.none, [])).1 (part c (L.getD (h % L.length) (.none, [])).1 (L.getD (h % L.length) (.none, [])).2)
        (part c (L.getD (h % L.length) (.none, [])).1 (L.getD (h % L.length) (.none, [])).2).length X t →
      o ++ o' = samples c.kind (L.getD (h % L.length) (.none, [])).1 X → Base s t → (∀ m ∈ t.queue, m ∈ s.queue) → (big = true → 0 < t.remaining) →
      t.cost ≤ s.cost → (arrived = true → (∀ b, Msg.data b ∈ s.queue → b.length < room) → t.cost < s.cost ∨ t.remaining = 0) →
      ∃ st t h' o', s.call c files room arrived = (st, t) ∧ Inv c files L h' o' t ∧ st ≠ .error ∧
      (st = .done → c.again = false ∧ h' + 1 = L.length ∧
        o' = samples c.kind (L.getD (h' % L.length) (.none, [])).1 (part c (L.getD (h' % L.length) (.none, [])).1 (L.getD (h' % L.length) (.none, [])).2)) ∧
      (arrived = true → 0 < room → (∀ q ∈ files, ∀ b, Msg.data b ∈ q → b.length < room) → c.again = false → st = .done ∨
        t.cost + 1 + costFrom files (h' + 1) < s.cost + 1 + costFrom files (h + 1)) := by
    intro t o' X big hs hd hcall hpost ho hbase hq hbig hcost hprog
    obtain ⟨p1, p2, p3, p4, _, _⟩ := post_complete (width_pos hs).1 hd hpost
    have hinv : Inv c files L h (o ++ o') (t.emit o') := emit_inv hi hbase hq (fun _ => hpost.fmt) (.inr ⟨hs, hd, X, ho, emit_post o' hpost⟩)
    rw [conclude_emit p1 p2 p3] at hcall
    by_cases hb : big = true ∧ o' = []
    · rw [if_pos hb] at hcall
      refine ⟨_, _, h, o ++ o', hcall, hinv, nofun, nofun, fun h1 _ h3 _ => ?_⟩
      have := hprog h1 (hqs h3)
      have := hbig hb.1
      right
      show t.cost + 1 + _ < _
      omega
    · rw [if_neg hb] at hcall
      by_cases hz : t.head = true ∧ t.remaining = 0
      · rw [if_pos hz] at hcall
        have hfull : o ++ o' = samples c.kind (L.getD (h % L.length) (.none, [])).1 (part c (L.getD (h % L.length) (.none, [])).1 (L.getD (h % L.length) (.none, [])).2) := by
          rw [ho, p4 hz.2]
        obtain ⟨st, u, e, hcase⟩ := finish_inv ha hinv hfull
        rw [e] at hcall
        rcases hcase with ⟨rfl, hi', hc'⟩ | ⟨rfl, rfl, hag, hend⟩
        · refine ⟨_, _, h + 1, [], hcall, hi', nofun, nofun, fun _ _ _ hag => .inr ?_⟩
          have := hi'.bound hag
          rw [hc', Nat.mod_eq_of_lt this, costFrom_succ files (h + 1) (by omega)]
          omega
        · exact ⟨_, _, h, o ++ o', hcall, hinv, nofun, fun _ => ⟨hag, hend, hfull⟩, fun _ _ _ _ => .inl rfl⟩
      · rw [if_neg hz] at hcall
        refine ⟨_, _, h, o ++ o', hcall, hinv, nofun, nofun, fun h1 _ h3 _ => .inr ?_⟩
        have := hprog h1 (hqs h3)
        have : t.remaining ≠ 0 := fun e => hz ⟨hpost.head, e⟩
        show t.cost + 1 + _ < _
        omega
  rcases hi.phase with ⟨ho, pieces, head, tail, g1, g2, g3, g4, g5, hpre⟩ | ⟨hs, hd, X, ho, hpost⟩
  · rcases call_pre (c := c) (files := files) (arrived := arrived) g2 g3 g4 g5 hpre hroom with ⟨t, e, hpre', hbase, hq, hcost, hprog⟩ | ⟨X, o', t, e, hpost, _, ho', _, hbase, hq, hcost⟩
    · rw [conclude_emit (by rw [hpre'.final]; simp) (by rw [hpre'.final]; simp) (by rw [hpre'.head]; simp), if_neg (by simp), if_neg (by rw [hpre'.head]; simp)] at e
      refine ⟨_, _, h, o ++ [], e, emit_inv hi hbase hq (fun h => absurd rfl h) (.inl ⟨by rw [ho]; rfl, pieces, head, tail, g1, g2, g3, g4, g5, emit_pre [] hpre'⟩), nofun, nofun,
        fun h1 _ _ _ => .inr ?_⟩
      have := hprog h1
      show t.cost + 1 + _ < _
      omega
    · exact fromPost t o' X false (header_fmt g3).1 (part_unit g3) e hpost (by rw [ho, List.nil_append]; exact ho') hbase hq nofun (Nat.le_of_lt hcost) (fun _ _ => .inl hcost)
  · have hw := (width_pos hs).1
    rcases call_post (c := c) (files := files) (room := room) (arrived := arrived) hw hpost hroom with ⟨e, t, hcall, _, _, hmem, _⟩ | ⟨X', o', t, big, e, hpost', hl', ho', _, hfr, hq, hbig, hcost, hprog⟩
    · exfalso
      have := hi.queue _ hmem
      obtain ⟨pieces, head, tail, h1, _⟩ := ha.2.2 _ hlt
      rw [h1] at this
      simp at this
    · obtain ⟨n, hn⟩ := hpost.unit
      obtain ⟨_, _, _, _, _, p6⟩ := post_complete hw hd hpost
      refine fromPost t o' (X ++ X') big hs hd e hpost' (by rw [ho, ho', samples_append c.kind _ n hn hw]) hfr.base hq hbig hcost (fun h1 h2 => ?_)
      by_cases hz : s.remaining = 0
      · right
        have h3 := hpost.len
        have h4 := hpost'.len
        have h5 : X = (part c (L.getD (h % L.length) (.none, [])).1 (L.getD (h % L.length) (.none, [])).2) := (post_complete hw hd hpost).2.2.2.1 hz
        have h6 := congrArg List.length h5
        rw [List.length_append] at h4
        omega
      · exact .inl (hprog (by omega) h1 h2 (p6 (by omega)))

end Verif.Wav
