import Verif.Wav.Inv
/-! A source of one file of any bytes whatever. -/
namespace Verif.Wav
open Verif.Bytes
open Verif.FileIo (Msg poll Polled)

/-! ## any bytes at all -/

/-- The state of a source of one file of any bytes. -/
def Any (c : Cfg) (pieces : List (List Byte)) (s : St) : Prop :=
  s.next = 1 ∧
  ((s.failed = true ∧ s.head = false ∧ s.out = []) ∨
   (s.failed = false ∧ s.head = false ∧ s.out = [] ∧ s.part = [] ∧ ∃ done todo tl, pieces = done ++ todo ∧ s.buf = done.flatten ∧ s.queue = todo.map Msg.data ++ tl ∧
     (∀ m ∈ tl, ∀ b, m ≠ .data b) ∧ (s.final = true → todo = [])) ∨
   ∃ head f size rest X, pieces.flatten = head ++ rest ∧ Header head f size ∧ s.out = samples c.kind f X ∧ (∃ r, X ++ r = part c f (rest.take size)) ∧
     (∃ n, X.length = n * f.width) ∧ (s.failed = true ∨ Post f (part c f (rest.take size)) (dataChunk c f size []).remaining X s))

/-- All of the file was played: it has as much data as its header says, or as much as was asked for. -/
def Whole (c : Cfg) (pieces : List (List Byte)) (out : List Out) : Prop :=
  ∃ head f size rest, pieces.flatten = head ++ rest ∧ Header head f size ∧ out = samples c.kind f (part c f (rest.take size)) ∧
    (size ≤ rest.length ∨ (c.length ≠ 0 ∧ c.length * f.width ≤ rest.length))

theorem part_take (c : Cfg) (f : Fmt) (rest : List Byte) (size : Nat) (h0 : c.offset = 0) :
    (dataChunk c f size []).skip = 0 ∧ rest.take (dataChunk c f size []).remaining = part c f (rest.take size) := by
  unfold part dataChunk
  dsimp only
  rw [h0, Nat.zero_mul, List.drop_zero]
  have h1 : (if 0 < 0 ∧ 0 < size then size - 0 else if size ≤ 0 then 0 else size) = size := by
    rw [if_neg (by omega)]
    split <;> omega
  rw [h1]
  refine ⟨by simp, ?_⟩
  by_cases h2 : c.length = 0
  · rw [if_neg (by simp [h2]), if_pos h2]
  · rw [if_pos h2, if_neg h2, List.take_take, Nat.min_comm]

theorem any_conclude {c : Cfg} {pieces : List (List Byte)} {files : List (List Msg)} (hfl : files.length = 1) (hag : c.again = false) {head rest : List Byte} {f : Fmt} {size : Nat}
    {X X' : List Byte} {o : List Out} {big : Bool} {s : St} (hn : s.next = 1) (hp : pieces.flatten = head ++ rest) (hh : Header head f size) (hout : s.out = samples c.kind f X)
    (h0 : c.offset = 0) (hu : ∃ n, X.length = n * f.width) (ho : o = samples c.kind f X') (hpost : Post f (part c f (rest.take size)) (dataChunk c f size []).remaining (X ++ X') s) :
    Any c pieces (s.conclude c files o big).2 ∧ ((s.conclude c files o big).1 = .done → Whole c pieces (s.conclude c files o big).2.out) := by
  have hw := (width_pos (header_fmt hh).1).1
  obtain ⟨n, hn'⟩ := hu
  obtain ⟨todo, tl, _, _, _, hq4⟩ := hpost.data
  have hpre : ∃ r, (X ++ X') ++ r = part c f (rest.take size) := ⟨_, by rw [List.append_assoc (X ++ X')] at hq4; exact hq4⟩
  have hpre' : ∃ r, X ++ r = part c f (rest.take size) := by
    obtain ⟨r, hr⟩ := hpre
    exact ⟨X' ++ r, by rw [← List.append_assoc]; exact hr⟩
  by_cases h1 : s.final = true ∧ s.part ≠ []
  · unfold St.conclude
    rw [if_pos h1]
    exact ⟨⟨hn, .inr (.inr ⟨head, f, size, rest, X, hp, hh, hout, hpre', ⟨n, hn'⟩, .inl rfl⟩)⟩, nofun⟩
  by_cases h2 : s.final = true ∧ 0 < s.remaining ∧ s.buf = []
  · unfold St.conclude
    rw [if_neg h1, if_pos h2]
    exact ⟨⟨hn, .inr (.inr ⟨head, f, size, rest, X, hp, hh, hout, hpre', ⟨n, hn'⟩, .inl rfl⟩)⟩, nofun⟩
  by_cases h3 : s.head = true ∧ s.remaining = 0 ∧ s.part ≠ []
  · unfold St.conclude
    rw [if_neg h1, if_neg h2, if_pos h3]
    exact ⟨⟨hn, .inr (.inr ⟨head, f, size, rest, X, hp, hh, hout, hpre', ⟨n, hn'⟩, .inl rfl⟩)⟩, nofun⟩
  rw [conclude_emit h1 h2 h3]
  have hany : Any c pieces (s.emit o) :=
    ⟨hn, .inr (.inr ⟨head, f, size, rest, X ++ X', hp, hh, by show s.out ++ o = _; rw [hout, ho, samples_append c.kind f n hn' hw], hpre, hpost.unit, .inr (emit_post o hpost)⟩)⟩
  split
  · exact ⟨hany, nofun⟩
  · split
    · rename_i hrem
      unfold St.finish
      rw [if_neg (by show ¬ s.next < _; omega), if_neg (by rw [hag]; simp)]
      refine ⟨hany, fun _ => ?_⟩
      have hrem0 : s.remaining = 0 := hrem.2
      have hpart : s.part = [] := by
        by_cases hp : s.part = []
        · exact hp
        · exact absurd ⟨hpost.head, hrem0, hp⟩ h3
      have hlen := hpost.len
      rw [hpart, hrem0, List.length_nil, Nat.add_zero] at hlen
      obtain ⟨r, hr⟩ := hpre
      have ht := (part_take c f rest size h0).2
      have hl : (part c f (rest.take size)).length ≤ (dataChunk c f size []).remaining := by rw [← ht, List.length_take]; omega
      have hr0 : r = [] := by
        have := congrArg List.length hr
        rw [List.length_append] at this
        have : r.length = 0 := by omega
        exact List.length_eq_zero_iff.1 this
      rw [hr0, List.append_nil] at hr
      refine ⟨head, f, size, rest, hp, hh, ?_, ?_⟩
      · show s.out ++ o = _
        rw [hout, ho, ← hr, samples_append c.kind f n hn' hw]
      · have h1 : (dataChunk c f size []).remaining ≤ rest.length := by
          have := congrArg List.length ht
          rw [← hr, List.length_take] at this
          omega
        revert h1
        unfold dataChunk
        dsimp only
        rw [h0, Nat.zero_mul]
        intro h1
        by_cases h2 : c.length = 0
        · rw [if_neg (by simp [h2]), if_neg (by omega)] at h1
          left
          split at h1 <;> omega
        · rw [if_pos h2, if_neg (by omega)] at h1
          split at h1
          · left; omega
          · omega
    · exact ⟨hany, nofun⟩

theorem any_call {c : Cfg} {pieces : List (List Byte)} {files : List (List Msg)} (hfl : files.length = 1) (hag : c.again = false) (h0 : c.offset = 0) {s : St} (h : Any c pieces s)
    (room : Nat) (arrived : Bool) : Any c pieces (s.call c files room arrived).2 ∧ ((s.call c files room arrived).1 = .done → Whole c pieces (s.call c files room arrived).2.out) := by
  by_cases hr : room = 0
  · unfold St.call
    rw [if_pos hr]
    exact ⟨h, nofun⟩
  by_cases hf : s.failed = true
  · unfold St.call
    rw [if_neg hr, if_pos hf]
    exact ⟨h, nofun⟩
  obtain ⟨hn, h⟩ := h
  rcases h with ⟨h, _⟩ | ⟨_, hhead, hout, hpart, done, todo, tl, g1, g2, g3, g4, g5⟩ | ⟨head, f, size, rest, X, g1, g2, g3, g4, g4', g5⟩
  · exact absurd h hf
  · unfold St.call
    rw [if_neg hr, if_neg hf, if_pos hhead]
    -- what the poll gives
    have key : ∀ (p : Option Polled) (q : List Msg), (p, q) = (if arrived = true then poll s.queue Verif.FileIo.npos else (none, s.queue)) →
        ∀ r, r = (match St.header c { s with queue := q } p with
          | .error e => St.fail { s with queue := q } e
          | .ok s => (s.skipped.buffered c room).2.conclude c files (s.skipped.buffered c room).1 false) → Any c pieces r.2 ∧ (r.1 = .done → Whole c pieces r.2.out) := by
      intro p q hpq r hr'
      subst hr'
      -- the state after the poll and before the header is looked at
      have hstep : (∃ e, St.header c { s with queue := q } p = .error e) ∨
          ∃ (t : St) (done' todo' : List (List Byte)) (tl' : List Msg), pieces = done' ++ todo' ∧ t.buf = done'.flatten ∧ t.queue = todo'.map Msg.data ++ tl' ∧ (∀ m ∈ tl', ∀ b, m ≠ .data b) ∧
            (t.final = true → todo' = []) ∧ t.next = 1 ∧ t.failed = false ∧ t.head = false ∧ t.out = [] ∧ t.part = [] ∧
            St.header c { s with queue := q } p = (match tryParse c t.buf with
              | .error e => .error e
              | .ok none => if t.final then .error .headerMissing else .ok t
              | .ok (some h) => .ok { t with head := true, fmt := h.fmt, remaining := h.remaining, skip := h.skip, buf := h.rest }) := by
        have hff : s.failed = false := by cases hh : s.failed with | false => rfl | true => exact absurd hh hf
        have hsame : (p, q) = (none, s.queue) ∨ (∃ n, (p, q) = (some (.tooLarge n), s.queue)) → ∃ (t : St) (done' todo' : List (List Byte)) (tl' : List Msg), pieces = done' ++ todo' ∧ t.buf = done'.flatten ∧
            t.queue = todo'.map Msg.data ++ tl' ∧ (∀ m ∈ tl', ∀ b, m ≠ .data b) ∧ (t.final = true → todo' = []) ∧ t.next = 1 ∧ t.failed = false ∧ t.head = false ∧ t.out = [] ∧ t.part = [] ∧
            St.header c { s with queue := q } p = (match tryParse c t.buf with
              | .error e => .error e
              | .ok none => if t.final then .error .headerMissing else .ok t
              | .ok (some h) => .ok { t with head := true, fmt := h.fmt, remaining := h.remaining, skip := h.skip, buf := h.rest }) := by
          intro h
          rcases h with h | ⟨n, h⟩
          · obtain ⟨rfl, rfl⟩ := Prod.mk.inj h
            exact ⟨s, done, todo, tl, g1, g2, g3, g4, g5, hn, hff, hhead, hout, hpart, rfl⟩
          · obtain ⟨rfl, rfl⟩ := Prod.mk.inj h
            exact ⟨s, done, todo, tl, g1, g2, g3, g4, g5, hn, hff, hhead, hout, hpart, rfl⟩
        cases arrived with
        | false => exact .inr (hsame (.inl hpq))
        | true =>
          rw [if_pos rfl] at hpq
          cases todo with
          | nil =>
            rw [List.map_nil, List.nil_append] at g3
            cases tl with
            | nil => rw [g3] at hpq; exact .inr (hsame (.inl (by rw [g3]; exact hpq)))
            | cons m tl =>
              rw [g3] at hpq
              cases m with
              | data b => exact absurd rfl (g4 (.data b) (.head _) b)
              | error e =>
                obtain ⟨rfl, rfl⟩ := Prod.mk.inj hpq
                exact .inl ⟨.reader e, rfl⟩
              | final =>
                obtain ⟨rfl, rfl⟩ := Prod.mk.inj hpq
                exact .inr ⟨{ s with queue := q, final := true }, done, [], q, g1, g2, rfl, fun m hm => g4 m (.tail _ hm), fun _ => rfl, hn, hff, hhead, hout, hpart, rfl⟩
          | cons b todo =>
            rw [g3] at hpq
            simp only [List.map_cons, List.cons_append, poll] at hpq
            split at hpq
            · obtain ⟨rfl, rfl⟩ := Prod.mk.inj hpq
              by_cases hbig : maxHeader < (s.buf ++ b).length
              · left
                refine ⟨.headerTooLarge, ?_⟩
                unfold St.header
                dsimp only
                rw [if_pos hbig]
              · right
                refine ⟨{ s with queue := todo.map Msg.data ++ tl, buf := s.buf ++ b }, done ++ [b], todo, tl, by rw [g1]; simp, by simp [g2], rfl, g4, ?_, hn, hff, hhead, hout, hpart, ?_⟩
                · intro hfin
                  exact absurd (g5 hfin) (by simp)
                · unfold St.header
                  dsimp only
                  rw [if_neg hbig]
                  rfl
            · refine .inr (hsame (.inr ⟨b.length, ?_⟩))
              rw [hpq, g3]
              rfl
      rcases hstep with ⟨e, he⟩ | ⟨t, done', todo', tl', k1, k2, k3, k4, k5, k6, k7, k8, k9, k10, he⟩
      · rw [he]
        exact ⟨⟨hn, .inl ⟨rfl, hhead, hout⟩⟩, nofun⟩
      · rw [he]
        cases hpar : tryParse c t.buf with
        | error e => exact ⟨⟨hn, .inl ⟨rfl, hhead, hout⟩⟩, nofun⟩
        | ok r =>
          cases r with
          | none =>
            dsimp only
            by_cases hfin : t.final = true
            · rw [if_pos hfin]
              exact ⟨⟨hn, .inl ⟨rfl, hhead, hout⟩⟩, nofun⟩
            · rw [if_neg hfin]
              dsimp only
              have hst : t.skipped.buffered c room = ([], t) := by
                unfold St.skipped
                rw [if_neg (by rw [k8]; simp)]
                unfold St.buffered
                rw [if_neg (by rw [k8]; simp)]
              rw [hst, conclude_emit (fun h => hfin h.1) (fun h => hfin h.1) (by rw [k8]; simp), if_neg (by simp), if_neg (by rw [k8]; simp)]
              exact ⟨⟨k6, .inr (.inl ⟨k7, k8, by show t.out ++ [] = []; rw [k9]; rfl, k10, done', todo', tl', k1, k2, k3, k4, k5⟩)⟩, nofun⟩
          | some hd =>
            dsimp only
            obtain ⟨head, f, size, rest, r1, r2, rfl⟩ := tryParse_sound c hpar
            have hw := (width_pos (header_fmt r2).1).1
            have hfl2 : pieces.flatten = head ++ (rest ++ todo'.flatten) := by rw [k1, List.flatten_append, ← k2, r1, List.append_assoc]
            obtain ⟨hsk, hpt⟩ := part_take c f (rest ++ todo'.flatten) size h0
            rw [dataChunk_rest]
            dsimp only
            rw [skipped_eq _ rfl (by dsimp only; rw [hsk]; omega)]
            dsimp only
            rw [hsk, List.drop_zero]
            have hpost : Post f (part c f ((rest ++ todo'.flatten).take size)) (dataChunk c f size []).remaining []
                { t with head := true, fmt := (dataChunk c f size []).fmt, remaining := (dataChunk c f size []).remaining, skip := 0, buf := rest } := by
              refine ⟨rfl, k7, rfl, rfl, by rw [k10]; simp, ⟨0, by simp⟩, by rw [k10]; exact hw, fun hh => absurd k10 hh, todo', tl', k3, k4, k5, ?_⟩
              rw [k10, ← hpt]
              simp
            obtain ⟨X1, o1, t1, e1, p1, l1, s1, r1', fr1, q1, f1, c1, d1, b1⟩ := buffered_post (c := c) hw hpost (by omega : 0 < room)
            rw [e1]
            exact any_conclude hfl hag (fr1.1.trans k6) hfl2 r2 (X := []) (X' := X1) (by rw [fr1.2.2.2.2.2.2.1]; exact k9.trans (samples_nil ..).symm) h0 ⟨0, by simp⟩ s1 p1
    obtain ⟨p, q, hpq⟩ : ∃ p q, (p, q) = (if arrived = true then poll s.queue Verif.FileIo.npos else (none, s.queue)) := ⟨_, _, rfl⟩
    rw [← hpq]
    exact key p q hpq _ rfl
  · rcases g5 with g5 | g5
    · exact absurd g5 hf
    · have hw := (width_pos (header_fmt g2).1).1
      rcases call_post (c := c) (files := files) (room := room) (arrived := arrived) hw g5 (by omega) with ⟨e, t, hcall, ht, _, _, hnx⟩ | ⟨X', o', t, big, e, hpost', hl', ho', _, hfr, hq, hbig, hcost, hprog⟩
      · rw [hcall]
        exact ⟨⟨hnx.trans hn, .inr (.inr ⟨head, f, size, rest, X, g1, g2, by show t.out = _; rw [ht]; exact g3, g4, g4', .inl rfl⟩)⟩, nofun⟩
      · rw [e]
        exact any_conclude hfl hag (hfr.1.trans hn) g1 g2 (by rw [hfr.2.2.2.2.2.2.1]; exact g3) h0 g5.unit ho' hpost'

theorem any_calls {c : Cfg} {pieces : List (List Byte)} {files : List (List Msg)} (hfl : files.length = 1) (hag : c.again = false) (h0 : c.offset = 0) (rooms : List (Nat × Bool)) {s : St}
    (h : Any c pieces s) :
    Any c pieces (s.calls c files rooms).2 ∧ ∀ l, (s.calls c files rooms).1 = l ++ [.done] → Whole c pieces (s.calls c files rooms).2.out := by
  induction rooms generalizing s with
  | nil => exact ⟨h, fun l hl => by simp [St.calls] at hl⟩
  | cons r rs ih =>
    obtain ⟨r, a⟩ := r
    obtain ⟨h1, h2⟩ := any_call hfl hag h0 h r a
    obtain ⟨h3, h4⟩ := ih h1
    simp only [St.calls]
    refine ⟨h3, fun l hl => ?_⟩
    cases l with
    | nil =>
      rw [List.nil_append, List.cons.injEq] at hl
      have hrs : rs = [] := by
        cases rs with
        | nil => rfl
        | cons r rs => simp [St.calls] at hl
      subst hrs
      exact h2 hl.1
    | cons y l =>
      rw [List.cons_append, List.cons.injEq] at hl
      exact h4 l hl.2

end Verif.Wav
