import Verif.Wav.Steps
/-! Lemmas about the calls on files that are well formed. -/
namespace Verif.Wav
open Verif.Bytes
open Verif.FileIo (Msg poll Polled)

theorem reach_done (n : Nat) (done : List (List Byte)) (b : List Byte) (todo : List (List Byte)) (h : done.flatten.length < n) :
    done.flatten.length + b.length ≤ reach n (done ++ b :: todo) ∧
      (n ≤ done.flatten.length + b.length → reach n (done ++ b :: todo) = done.flatten.length + b.length) := by
  induction done generalizing n with
  | nil =>
    simp only [List.nil_append, reach, List.flatten_nil, List.length_nil, Nat.zero_add]
    split
    · exact ⟨Nat.le_refl _, fun _ => rfl⟩
    · exact ⟨by omega, fun h => by omega⟩
  | cons d ds ih =>
    rw [List.flatten_cons, List.length_append] at h
    obtain ⟨h1, h2⟩ := ih (n - d.length) (by omega)
    simp only [List.cons_append, reach, List.flatten_cons, List.length_append]
    rw [if_neg (by omega)]
    exact ⟨by omega, fun h => by rw [h2 (by omega)]; omega⟩

theorem part_eq (c : Cfg) (f : Fmt) (rest : List Byte) (size : Nat) (hsz : size ≤ rest.length) :
    (rest.drop (dataChunk c f size []).skip).take (dataChunk c f size []).remaining = part c f (rest.take size) ∧
      (part c f (rest.take size)).length = (dataChunk c f size []).remaining := by
  unfold part dataChunk
  dsimp only
  generalize c.offset * f.width = off
  generalize c.length * f.width = len
  by_cases h1 : 0 < off ∧ off < size
  · simp only [if_pos h1]
    by_cases h2 : c.length = 0
    · simp only [h2, ne_eq, not_true_eq_false, if_false, if_true]
      refine ⟨by rw [List.drop_take], by rw [List.length_drop, List.length_take]; omega⟩
    · simp only [h2, ne_eq, not_false_eq_true, if_true, if_false]
      refine ⟨by rw [List.drop_take, List.take_take, Nat.min_comm], by rw [List.length_take, List.length_drop, List.length_take]; omega⟩
  · simp only [if_neg h1]
    by_cases h0 : size ≤ off
    · simp only [if_pos h0, List.drop_zero]
      rw [List.drop_eq_nil_of_le (by rw [List.length_take]; omega)]
      by_cases h2 : c.length = 0
      · simp [h2]
      · simp [h2]
    · have : off = 0 := by omega
      subst this
      simp only [if_neg h0, List.drop_zero]
      by_cases h2 : c.length = 0
      · simp [h2]; omega
      · simp only [h2, ne_eq, not_false_eq_true, if_true, if_false]
        exact ⟨by rw [List.take_take, Nat.min_comm], by rw [List.length_take, List.length_take]; omega⟩

theorem remaining_unit (c : Cfg) (f : Fmt) (size : Nat) (hw : f.width ∣ size) : f.width ∣ (dataChunk c f size []).remaining := by
  unfold dataChunk
  dsimp only
  have h1 : f.width ∣ c.offset * f.width := ⟨_, Nat.mul_comm ..⟩
  have h2 : f.width ∣ c.length * f.width := ⟨_, Nat.mul_comm ..⟩
  have h3 : f.width ∣ (if 0 < c.offset * f.width ∧ c.offset * f.width < size then size - c.offset * f.width else if size ≤ c.offset * f.width then 0 else size) := by
    split
    · exact Nat.dvd_sub hw h1
    · split
      · exact ⟨0, rfl⟩
      · exact hw
  split
  · rcases Nat.le_total (if 0 < c.offset * f.width ∧ c.offset * f.width < size then size - c.offset * f.width else if size ≤ c.offset * f.width then 0 else size)
      (c.length * f.width) with h | h
    · rw [Nat.min_eq_left h]; exact h3
    · rw [Nat.min_eq_right h]; exact h2
  · exact h3

theorem header_fmt {head : List Byte} {f : Fmt} {size : Nat} (h : Header head f size) : Supported f ∧ f.width ∣ size ∧ 0 < head.length := by
  obtain ⟨len, b, x, a, h1, h2, h3, h4, h5, h6, h7, h8, h9⟩ := h
  refine ⟨h6.1, ?_, by rw [h1]; simp [RIFF]⟩
  have h10 : f.align = f.channels * (f.bits / 8) := h6.2.2.2.2.1
  exact Nat.dvd_trans ⟨f.channels, by rw [h10, Nat.mul_comm]; rfl⟩ (Nat.dvd_of_mod_eq_zero h9)

/-- The state before the header of a file is complete. -/
structure Pre (pieces : List (List Byte)) (H : Nat) (s : St) : Prop where
  head : s.head = false
  failed : s.failed = false
  final : s.final = false
  part : s.part = []
  data : ∃ done todo, pieces = done ++ todo ∧ s.buf = done.flatten ∧ s.queue = todo.map Msg.data ++ [.final] ∧ done.flatten.length < H

/-- What is left unchanged. -/
def Base (s t : St) : Prop := t.next = s.next ∧ t.pending = s.pending ∧ t.error = s.error ∧ t.out = s.out ∧ t.tags = s.tags

theorem Base.trans {s t u : St} (h : Base s t) (h' : Base t u) : Base s u :=
  ⟨h'.1.trans h.1, h'.2.1.trans h.2.1, h'.2.2.1.trans h.2.2.1, h'.2.2.2.1.trans h.2.2.2.1, h'.2.2.2.2.trans h.2.2.2.2⟩

theorem Frame.base {s t : St} (h : Frame s t) : Base s t := ⟨h.1, h.2.2.2.2.1, h.2.2.2.2.2.1, h.2.2.2.2.2.2.1, h.2.2.2.2.2.2.2⟩

theorem dataChunk_rest (c : Cfg) (f : Fmt) (size : Nat) (rest : List Byte) :
    dataChunk c f size rest = { dataChunk c f size [] with rest := rest } := rfl

theorem skip_le (c : Cfg) (f : Fmt) (size : Nat) : (dataChunk c f size []).skip = 0 ∨ (dataChunk c f size []).skip = c.offset * f.width ∧ c.offset * f.width < size := by
  unfold dataChunk
  dsimp only
  split
  · rename_i h; exact .inr ⟨rfl, h.2⟩
  · exact .inl rfl

theorem skipped_eq (s : St) (h : s.head = true) (hle : s.skip ≤ s.buf.length) : s.skipped = { s with buf := s.buf.drop s.skip, skip := 0 } := by
  unfold St.skipped
  by_cases h0 : s.skip = 0
  · simp only [h0, Nat.lt_irrefl, false_and, and_false, if_false, List.drop_zero]
    cases s; simp_all
  · have : s.buf ≠ [] := fun e => by rw [e] at hle; simp at hle; omega
    simp only
    rw [if_pos ⟨h, by omega, this⟩, Nat.min_eq_left hle, Nat.sub_self]

/-- A call before the header of a file is complete. -/
theorem call_pre {c : Cfg} {files : List (List Msg)} {f : Fmt} {data : List Byte} {pieces : List (List Byte)} {head tail : List Byte} {s : St} {room : Nat} {arrived : Bool}
    (hfl : pieces.flatten = head ++ data ++ tail) (hh : Header head f data.length) (hm : reach head.length pieces ≤ 2 ^ 20)
    (ho : c.offset * f.width < data.length → head.length + c.offset * f.width ≤ reach head.length pieces) (h : Pre pieces head.length s) (hr : 0 < room) :
    (∃ t, s.call c files room arrived = t.conclude c files [] false ∧ Pre pieces head.length t ∧ Base s t ∧ (∀ m ∈ t.queue, m ∈ s.queue) ∧ t.cost ≤ s.cost ∧
      (arrived = true → t.cost < s.cost)) ∨
    ∃ X o t, s.call c files room arrived = t.conclude c files o false ∧ Post f (part c f data) (part c f data).length X t ∧ X.length = o.length * f.width ∧
      o = samples c.kind f X ∧ o.length ≤ room ∧ Base s t ∧ (∀ m ∈ t.queue, m ∈ s.queue) ∧ t.cost < s.cost := by
  obtain ⟨done, todo, hp, hb, hq, hlt⟩ := h.data
  obtain ⟨hs, hdw, _⟩ := header_fmt hh
  obtain ⟨hw, _⟩ := width_pos hs
  have hincomplete : ∀ p : List Byte, (∃ q, p ++ q = pieces.flatten) → p.length < head.length → tryParse c p = .ok none := by
    intro p ⟨q, hq⟩ hl
    rw [hfl, List.append_assoc] at hq
    obtain ⟨r, h1, h2⟩ | ⟨r, h1, h2⟩ := List.append_eq_append_iff.1 hq
    · refine tryParse_prefix c hh (p := p) (q := r) (fun e => ?_) h1.symm
      rw [e, List.append_nil] at h1
      rw [h1] at hl
      exact Nat.lt_irrefl _ hl
    · rw [h1, List.length_append] at hl
      omega
  have hstay : ∀ t : St, t.head = false → t.skipped.buffered c room = ([], t) := by
    intro t ht
    unfold St.skipped
    rw [if_neg (by rw [ht]; simp)]
    unfold St.buffered
    rw [if_neg (by rw [ht]; simp)]
  unfold St.call
  rw [if_neg (by omega), if_neg (by rw [h.failed]; simp), if_pos h.head]
  cases arrived with
  | false =>
    left
    simp only [Bool.false_eq_true, if_false]
    have e : St.header c s none = .ok s := by
      unfold St.header
      dsimp only
      rw [hincomplete s.buf ⟨todo.flatten, by rw [hb, hp, List.flatten_append]⟩ (by rw [hb]; exact hlt)]
      dsimp only
      rw [if_neg (by rw [h.final]; simp)]
    rw [e]
    dsimp only
    rw [hstay s h.head]
    exact ⟨s, rfl, h, ⟨rfl, rfl, rfl, rfl, rfl⟩, fun _ h => h, Nat.le_refl _, nofun⟩
  | true =>
    cases todo with
    | nil =>
      exfalso
      rw [List.append_nil] at hp
      rw [← hp, hfl] at hlt
      simp only [List.length_append] at hlt
      omega
    | cons b todo' =>
      obtain ⟨hr1, hr2⟩ := reach_done head.length done b todo' hlt
      rw [← hp] at hr1 hr2
      simp only [if_true]
      rw [hq]
      simp only [List.map_cons, List.cons_append, poll]
      rw [if_pos (by unfold Verif.FileIo.npos; omega)]
      dsimp only
      have hbl : (s.buf ++ b).length = done.flatten.length + b.length := by rw [List.length_append, hb]
      have hbuf : s.buf ++ b ++ todo'.flatten = pieces.flatten := by rw [hb, hp, List.flatten_append, List.flatten_cons, List.append_assoc]
      have hcost : s.cost = s.buf.length + (1 + b.length + cost (todo'.map Msg.data ++ [.final])) := by unfold St.cost; rw [hq]; rfl
      by_cases hc : done.flatten.length + b.length < head.length
      · left
        have e : St.header c { s with queue := todo'.map Msg.data ++ [.final] } (some (.data b)) =
            .ok { s with queue := todo'.map Msg.data ++ [.final], buf := s.buf ++ b } := by
          unfold St.header
          dsimp only
          rw [if_neg (by unfold maxHeader; omega)]
          dsimp only
          rw [hincomplete (s.buf ++ b) ⟨_, hbuf⟩ (by omega)]
          dsimp only
          rw [if_neg (by rw [h.final]; simp)]
        rw [e]
        dsimp only
        rw [hstay { s with queue := todo'.map Msg.data ++ [.final], buf := s.buf ++ b } h.head]
        have hlt' : St.cost { s with queue := todo'.map Msg.data ++ [.final], buf := s.buf ++ b } < s.cost := by
          rw [hcost]
          unfold St.cost
          simp only [List.length_append]
          omega
        refine ⟨_, rfl, ⟨h.head, h.failed, h.final, h.part, done ++ [b], todo', by rw [hp]; simp, by simp [hb], rfl, by rw [List.flatten_append, List.length_append, List.flatten_singleton]; exact hc⟩, ⟨rfl, rfl, rfl, rfl, rfl⟩, ?_, Nat.le_of_lt hlt',
          fun _ => hlt'⟩
        intro m hm
        exact .tail _ hm
      · right
        have hre := hr2 (by omega)
        obtain ⟨rest, hrest⟩ : ∃ rest, s.buf ++ b = head ++ rest := by
          have hbuf' : (s.buf ++ b) ++ todo'.flatten = head ++ (data ++ tail) := by rw [hbuf, hfl, List.append_assoc]
          obtain ⟨r, h1, h2⟩ | ⟨r, h1, h2⟩ := List.append_eq_append_iff.1 hbuf'
          · have : r = [] := by
              have := congrArg List.length h1
              rw [List.length_append] at this
              exact List.length_eq_zero_iff.1 (by omega)
            exact ⟨[], by rw [this, List.append_nil] at h1; rw [h1, List.append_nil]⟩
          · exact ⟨r, h1⟩
        have hrl : (s.buf ++ b).length = head.length + rest.length := by rw [hrest, List.length_append]
        have hrt : rest ++ todo'.flatten = data ++ tail := by
          rw [hrest, hfl, List.append_assoc, List.append_assoc] at hbuf
          exact List.append_cancel_left hbuf
        have e : St.header c { s with queue := todo'.map Msg.data ++ [.final] } (some (.data b)) =
            .ok { s with queue := todo'.map Msg.data ++ [.final], head := true, fmt := f, remaining := (dataChunk c f data.length []).remaining,
                         skip := (dataChunk c f data.length []).skip, buf := rest } := by
          unfold St.header
          dsimp only
          rw [if_neg (by unfold maxHeader; omega)]
          dsimp only
          rw [hrest, tryParse_header c hh rest]
          dsimp only
          rw [dataChunk_rest]
          simp only [show (dataChunk c f data.length []).fmt = f from rfl]
        rw [e]
        dsimp only
        have hsk : (dataChunk c f data.length []).skip ≤ rest.length := by
          rcases skip_le c f data.length with h0 | ⟨h1, h2⟩
          · omega
          · have := ho h2
            omega
        obtain ⟨hp1, hp2⟩ := part_eq c f (data ++ tail) data.length (by simp)
        rw [List.take_left] at hp1 hp2
        rw [skipped_eq _ rfl hsk]
        dsimp only
        have hpost : Post f (part c f data) (part c f data).length []
            { s with queue := todo'.map Msg.data ++ [.final], head := true, fmt := f, remaining := (dataChunk c f data.length []).remaining, skip := 0,
                     buf := rest.drop (dataChunk c f data.length []).skip } := by
          refine ⟨rfl, h.failed, rfl, rfl, by rw [h.part, hp2]; simp, ⟨0, by simp⟩, by rw [h.part]; exact hw, fun hh => absurd h.part hh, todo', [.final], rfl, ?_, ?_, ?_⟩
          · intro m hm b
            rw [List.mem_singleton.1 hm]
            exact nofun
          · intro hf
            rw [h.final] at hf
            cases hf
          · rw [h.part, ← hp1, ← hrt]
            rw [List.drop_append_of_le_length hsk]
            simp
        obtain ⟨X1, o1, t1, e1, p1, l1, s1, r1, fr1, q1, f1, c1, d1, b1⟩ := buffered_post (c := c) hw hpost hr
        rw [e1]
        refine ⟨X1, o1, t1, rfl, p1, l1, s1, r1, Base.trans (t := _) ⟨rfl, rfl, rfl, rfl, rfl⟩ fr1.base, ?_, ?_⟩
        · intro m hm
          rw [q1] at hm
          exact .tail _ hm
        · rw [hcost]
          unfold St.cost
          rw [q1]
          dsimp only at c1 ⊢
          rw [List.length_drop] at c1
          rw [List.length_append] at hrl
          omega

/-- The state with samples put out. -/
def St.emit (s : St) (o : List Out) : St :=
  { s with out := s.out ++ o, tags := if o ≠ [] ∧ s.pending = true then s.tags ++ [(s.out.length, s.fmt.rate, s.fmt.channels)] else s.tags,
           pending := if o ≠ [] ∧ s.pending = true then false else s.pending }

theorem conclude_emit {c : Cfg} {files : List (List Msg)} {s : St} {o : List Out} {big : Bool} (h1 : ¬ (s.final = true ∧ s.part ≠ []))
    (h2 : ¬ (s.final = true ∧ 0 < s.remaining ∧ s.buf = [])) (h3 : ¬ (s.head = true ∧ s.remaining = 0 ∧ s.part ≠ [])) :
    s.conclude c files o big = if big = true ∧ o = [] then (.insufficient, s.emit o) else if s.head = true ∧ s.remaining = 0 then (s.emit o).finish c files else (.ok, s.emit o) := by
  unfold St.conclude
  rw [if_neg h1, if_neg h2, if_neg h3]
  dsimp only
  by_cases h : o ≠ [] ∧ s.pending = true
  · simp only [if_pos h, St.emit]
  · simp only [if_neg h, St.emit]

theorem post_complete {f : Fmt} {T X : List Byte} {s : St} (hw : 0 < f.width) (hT : f.width ∣ T.length) (h : Post f T T.length X s) :
    ¬ (s.final = true ∧ s.part ≠ []) ∧ ¬ (s.final = true ∧ 0 < s.remaining ∧ s.buf = []) ∧ ¬ (s.head = true ∧ s.remaining = 0 ∧ s.part ≠ []) ∧
      (s.remaining = 0 → X = T) ∧ (∃ r, X ++ r = T) ∧ (0 < s.remaining → s.buf ≠ [] ∨ ∃ b q, s.queue = .data b :: q) := by
  obtain ⟨todo, tl, hq1, hq2, hq3, hq4⟩ := h.data
  have hl := congrArg List.length hq4
  rw [List.length_append, List.length_append, List.length_take] at hl
  have hlen := h.len
  have hzero : s.remaining = 0 → s.part = [] := by
    intro h0
    obtain ⟨n, hn⟩ := h.unit
    have hd : f.width ∣ s.part.length := by
      have h1 : f.width ∣ X.length := ⟨n, by rw [hn, Nat.mul_comm]⟩
      have : s.part.length = T.length - X.length := by omega
      rw [this]
      exact Nat.dvd_sub hT h1
    have := h.short
    exact List.length_eq_zero_iff.1 (Nat.eq_zero_of_dvd_of_lt hd this)
  have hav : s.remaining ≤ (s.buf ++ todo.flatten).length := by omega
  refine ⟨?_, ?_, ?_, ?_, ?_, ?_⟩
  · rintro ⟨h1, h2⟩
    rw [hq3 h1, h.keep h2] at hav
    exact h2 (hzero (by simpa using hav))
  · rintro ⟨h1, h2, h3⟩
    rw [hq3 h1, h3] at hav
    simp at hav
    omega
  · rintro ⟨_, h1, h2⟩
    exact h2 (hzero h1)
  · intro h0
    rw [h0, List.take_zero, hzero h0] at hq4
    simpa using hq4
  · exact ⟨_, by rw [List.append_assoc] at hq4; exact hq4⟩
  · intro h0
    by_cases hb : s.buf = []
    · right
      cases todo with
      | nil => rw [hb] at hav; simp at hav; omega
      | cons b bs => exact ⟨b, _, by rw [hq1]; rfl⟩
    · exact .inl hb

theorem emit_post {f : Fmt} {T : List Byte} {N : Nat} {X : List Byte} {s : St} (o : List Out) (h : Post f T N X s) : Post f T N X (s.emit o) :=
  ⟨h.head, h.failed, h.fmt, h.skip, h.len, h.unit, h.short, h.keep, h.data⟩

theorem emit_pre {pieces : List (List Byte)} {H : Nat} {s : St} (o : List Out) (h : Pre pieces H s) : Pre pieces H (s.emit o) :=
  ⟨h.head, h.failed, h.final, h.part, h.data⟩

end Verif.Wav
