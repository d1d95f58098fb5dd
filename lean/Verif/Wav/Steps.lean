import Verif.Wav.Head
/-! Lemmas about one call of the source. -/
namespace Verif.Wav
open Verif.Bytes
open Verif.FileIo (Msg poll Polled)

theorem width_pos {f : Fmt} (h : Supported f) : 0 < f.width ∧ f.width ≤ 4 := by
  obtain ⟨h, _, _, _⟩ := supported_bits h
  unfold Fmt.width
  simp at h
  omega

/-- The state while the data of a file is read: `X` are the bytes of the samples put out, `T` the bytes to put out and `N` the number of them according to the
header. -/
structure Post (f : Fmt) (T : List Byte) (N : Nat) (X : List Byte) (s : St) : Prop where
  head : s.head = true
  failed : s.failed = false
  fmt : s.fmt = f
  skip : s.skip = 0
  len : X.length + s.part.length + s.remaining = N
  unit : ∃ n, X.length = n * f.width
  short : s.part.length < f.width
  keep : s.part ≠ [] → s.buf = []
  data : ∃ todo tl, s.queue = todo.map Msg.data ++ tl ∧ (∀ m ∈ tl, ∀ b, m ≠ .data b) ∧ (s.final = true → todo = []) ∧
    X ++ s.part ++ (s.buf ++ todo.flatten).take s.remaining = T

/-- What is left unchanged. -/
def Frame (s t : St) : Prop :=
  t.next = s.next ∧ t.head = s.head ∧ t.failed = s.failed ∧ t.fmt = s.fmt ∧ t.pending = s.pending ∧ t.error = s.error ∧ t.out = s.out ∧ t.tags = s.tags

theorem Frame.rfl (s : St) : Frame s s := ⟨.refl _, .refl _, .refl _, .refl _, .refl _, .refl _, .refl _, .refl _⟩

theorem Frame.trans {s t u : St} (h : Frame s t) (h' : Frame t u) : Frame s u :=
  ⟨h'.1.trans h.1, h'.2.1.trans h.2.1, h'.2.2.1.trans h.2.2.1, h'.2.2.2.1.trans h.2.2.2.1, h'.2.2.2.2.1.trans h.2.2.2.2.1,
    h'.2.2.2.2.2.1.trans h.2.2.2.2.2.1, h'.2.2.2.2.2.2.1.trans h.2.2.2.2.2.2.1, h'.2.2.2.2.2.2.2.trans h.2.2.2.2.2.2.2⟩

theorem split_take {α : Type} (A F : List α) {n r : Nat} (h1 : n ≤ A.length) (h2 : n ≤ r) : (A ++ F).take r = A.take n ++ (A.drop n ++ F).take (r - n) := by
  conv => lhs; rw [← List.take_append_drop n A, List.append_assoc]
  rw [List.take_append, List.length_take, Nat.min_eq_left h1, List.take_of_length_le (by rw [List.length_take]; omega)]

theorem buffered_post {c : Cfg} {f : Fmt} {T : List Byte} {N : Nat} {X : List Byte} {s : St} {room : Nat} (hw : 0 < f.width) (h : Post f T N X s) (hr : 0 < room) :
    ∃ X' o t, s.buffered c room = (o, t) ∧ Post f T N (X ++ X') t ∧ X'.length = o.length * f.width ∧ o = samples c.kind f X' ∧ o.length ≤ room ∧ Frame s t ∧
      t.queue = s.queue ∧ t.final = s.final ∧ t.buf.length ≤ s.buf.length ∧ (s.buf ≠ [] → 0 < s.remaining → t.buf.length < s.buf.length) ∧
      (s.buf = [] → o = [] ∧ t = s) := by
  obtain ⟨rfl⟩ := h.fmt
  unfold St.buffered
  by_cases hb : s.buf = []
  · rw [if_neg (fun hh => hh.2 hb)]
    exact ⟨[], [], s, rfl, by rw [List.append_nil]; exact h, by simp, (samples_nil _ _).symm, Nat.zero_le _, .rfl s, rfl, rfl, Nat.le_refl _, fun h => absurd hb h, fun _ => ⟨rfl, rfl⟩⟩
  rw [if_pos ⟨h.head, hb⟩]
  obtain ⟨todo, tl, hq1, hq2, hq3, hq4⟩ := h.data
  by_cases hrem : s.remaining = 0
  · have e : decodeChunk c.kind s.fmt s.part (s.buf.take (min s.buf.length s.remaining)) room = ([], 0, s.part) := by
      unfold decodeChunk
      rw [if_pos (.inl (by rw [hrem, Nat.min_zero]; rfl))]
    rw [e]
    dsimp only
    rw [if_pos (by omega)]
    refine ⟨[], [], _, rfl, ?_, by simp, (samples_nil _ _).symm, Nat.zero_le _, .rfl s, rfl, rfl, Nat.zero_le _, fun _ h => by omega, fun h => absurd h hb⟩
    rw [List.append_nil]
    refine ⟨h.head, h.failed, h.fmt, h.skip, by have := h.len; simp only; omega, h.unit, h.short, fun _ => rfl, todo, tl, hq1, hq2, hq3, ?_⟩
    rw [hrem, List.take_zero] at hq4
    dsimp only
    rw [hrem, List.take_zero]
    exact hq4
  · have hbl := List.length_pos_iff.2 hb
    have hd := decodeChunk_spec c.kind s.fmt (part := s.part) (b := s.buf.take (min s.buf.length s.remaining)) (room := room)
      (fun h => by have := congrArg List.length h; rw [List.length_take, List.length_nil] at this; omega) hr hw h.short
    generalize decodeChunk c.kind s.fmt s.part (s.buf.take (min s.buf.length s.remaining)) room = r at hd
    obtain ⟨o, n, p⟩ := r
    obtain ⟨h1, h2, h3, h4, ⟨X', h5, h6, h7⟩, h8, h9⟩ := hd
    dsimp only at h1 h2 h3 h4 h5 h6 h7 h8 h9 ⊢
    rw [List.length_take] at h2 h8 h9
    rw [List.take_take, Nat.min_eq_left (by omega)] at h5
    have hlen := congrArg List.length h5
    rw [List.length_append, List.length_append, List.length_take, Nat.min_eq_left (by omega)] at hlen
    have hl := h.len
    have hunit : ∃ n, (X ++ X').length = n * s.fmt.width := by
      obtain ⟨k, hk⟩ := h.unit
      exact ⟨k + o.length, by rw [List.length_append, hk, h6, Nat.add_mul]⟩
    have heq : X ++ X' ++ p ++ (s.buf.drop n ++ todo.flatten).take (s.remaining - n) = T := by
      rw [← hq4, split_take s.buf todo.flatten (n := n) (r := s.remaining) (by omega) (by omega), List.append_assoc X X' p, ← h5]
      simp only [List.append_assoc]
    split
    · rename_i h0
      refine ⟨X', o, _, rfl, ?_, h6, h7, h3, .rfl s, rfl, rfl, Nat.zero_le _, fun _ _ => hbl, fun h => absurd h hb⟩
      refine ⟨h.head, h.failed, h.fmt, h.skip, by rw [List.length_append]; dsimp only; omega, hunit, h4, fun _ => rfl, todo, tl, hq1, hq2, hq3, ?_⟩
      dsimp only
      rw [h0, List.take_zero] at heq
      rw [h0, List.take_zero]
      exact heq
    · rename_i h0
      refine ⟨X', o, _, rfl, ?_, h6, h7, h3, .rfl s, rfl, rfl, by dsimp only; rw [List.length_drop]; omega, fun _ _ => by dsimp only; rw [List.length_drop]; omega, fun h => absurd h hb⟩
      refine ⟨h.head, h.failed, h.fmt, h.skip, by rw [List.length_append]; dsimp only; omega, hunit, h4, fun hp => ?_, todo, tl, hq1, hq2, hq3, heq⟩
      have := h8 hp
      exact List.drop_eq_nil_of_le (by omega)

theorem piece_post {c : Cfg} {f : Fmt} {T : List Byte} {N : Nat} {X : List Byte} {s : St} {room : Nat} {b : List Byte} {q : List Msg} (hw : 0 < f.width)
    (h : Post f T N X s) (hr : 0 < room) (hb : s.buf = []) (hq : s.queue = .data b :: q) :
    ∃ X' o t, St.piece c { s with queue := q } b room = (o, t) ∧ Post f T N (X ++ X') t ∧ X'.length = o.length * f.width ∧ o = samples c.kind f X' ∧
      o.length ≤ room ∧ Frame s t ∧ t.queue = q ∧ t.final = s.final ∧ t.buf.length ≤ b.length := by
  obtain ⟨todo, tl, hq1, hq2, hq3, hq4⟩ := h.data
  obtain ⟨todo', rfl⟩ : ∃ todo', todo = b :: todo' := by
    cases todo with
    | nil =>
      rw [hq, List.map_nil, List.nil_append] at hq1
      exact absurd rfl (hq2 (.data b) (by rw [← hq1]; exact .head _) b)
    | cons x xs =>
      rw [hq, List.map_cons, List.cons_append] at hq1
      injection hq1 with e _
      injection e with e
      exact ⟨xs, by rw [e]⟩
  have hq' : q = todo'.map Msg.data ++ tl := by
    rw [hq, List.map_cons, List.cons_append] at hq1
    exact (List.cons.inj hq1).2
  have hfin : s.final = false := by
    cases hf : s.final with
    | false => rfl
    | true => exact absurd (hq3 hf) (by simp)
  have hfin' : s.final = true → todo' = [] := fun e => by rw [hfin] at e; cases e
  rw [hb, List.nil_append, List.flatten_cons] at hq4
  obtain ⟨rfl⟩ := h.fmt
  unfold St.piece
  dsimp only
  by_cases hempty : b.take (min b.length s.remaining) = []
  · have e : decodeChunk c.kind s.fmt s.part (b.take (min b.length s.remaining)) room = ([], 0, s.part) := by
      unfold decodeChunk
      rw [if_pos (.inl hempty)]
    rw [e]
    dsimp only
    have hz : min b.length s.remaining = 0 := by
      have := congrArg List.length hempty
      rw [List.length_take, List.length_nil] at this
      omega
    rw [if_neg (by omega), hb]
    refine ⟨[], [], _, rfl, ?_, by simp, (samples_nil _ _).symm, Nat.zero_le _, ⟨rfl, rfl, rfl, rfl, rfl, rfl, rfl, rfl⟩, rfl, rfl, Nat.zero_le _⟩
    rw [List.append_nil]
    refine ⟨h.head, h.failed, h.fmt, h.skip, h.len, h.unit, h.short, fun _ => rfl, todo', tl, hq', hq2, hfin', ?_⟩
    dsimp only
    rw [Nat.sub_zero, List.nil_append, ← hq4]
    rcases Nat.le_total b.length s.remaining with hle | hle
    · have : b = [] := List.length_eq_zero_iff.1 (by omega)
      rw [this]; rfl
    · have : s.remaining = 0 := by omega
      rw [this]; simp
  · have hd := decodeChunk_spec c.kind s.fmt (part := s.part) hempty hr hw h.short
    generalize decodeChunk c.kind s.fmt s.part (b.take (min b.length s.remaining)) room = r at hd
    obtain ⟨o, n, p⟩ := r
    obtain ⟨h1, h2, h3, h4, ⟨X', h5, h6, h7⟩, h8, h9⟩ := hd
    dsimp only at h1 h2 h3 h4 h5 h6 h7 h8 h9 ⊢
    rw [List.length_take] at h2 h8 h9
    rw [List.take_take, Nat.min_eq_left (by omega)] at h5
    have hlen := congrArg List.length h5
    rw [List.length_append, List.length_append, List.length_take, Nat.min_eq_left (by omega)] at hlen
    have hl := h.len
    have hunit : ∃ n, (X ++ X').length = n * s.fmt.width := by
      obtain ⟨k, hk⟩ := h.unit
      exact ⟨k + o.length, by rw [List.length_append, hk, h6, Nat.add_mul]⟩
    refine ⟨X', o, _, rfl, ?_, h6, h7, h3, ⟨rfl, rfl, rfl, rfl, rfl, rfl, rfl, rfl⟩, rfl, rfl, ?_⟩
    · refine ⟨h.head, h.failed, h.fmt, h.skip, by rw [List.length_append]; dsimp only; omega, hunit, h4, fun hp => ?_, todo', tl, hq', hq2, hfin', ?_⟩
      · have := h8 hp
        dsimp only
        rw [if_neg (by omega), hb]
      · dsimp only
        rw [← hq4, split_take b todo'.flatten (n := n) (r := s.remaining) (by omega) (by omega), List.append_assoc X X' p, ← h5]
        simp only [List.append_assoc]
        congr 3
        split
        · rcases Nat.le_total b.length s.remaining with hle | hle
          · rw [Nat.min_eq_left hle, List.take_length]
          · rw [Nat.min_eq_right hle]
            rw [List.take_append_of_le_length (by rw [List.length_drop, List.length_take]; omega), List.take_append_of_le_length (by rw [List.length_drop]; omega),
              List.drop_take, List.take_take, Nat.min_self]
        · rename_i hk
          have hn : n = min b.length s.remaining := by omega
          rw [hb]
          rcases Nat.le_total b.length s.remaining with hle | hle
          · rw [List.drop_eq_nil_of_le (as := b) (by omega)]
          · rw [show s.remaining - n = 0 by omega, List.take_zero, List.take_zero]
    · dsimp only
      split
      · rw [List.length_drop, List.length_take]; omega
      · rw [hb]; exact Nat.zero_le _

/-- The bytes and messages left. -/
def cost : List Msg → Nat
  | [] => 0
  | .data b :: q => 1 + b.length + cost q
  | _ :: q => 1 + cost q

def St.cost (s : St) : Nat := s.buf.length + Verif.Wav.cost s.queue

/-- A call while the data of a file is read. -/
theorem call_post {c : Cfg} {files : List (List Msg)} {f : Fmt} {T : List Byte} {N : Nat} {X : List Byte} {s : St} {room : Nat} {arrived : Bool} (hw : 0 < f.width)
    (h : Post f T N X s) (hr : 0 < room) :
    (∃ e t, s.call c files room arrived = St.fail t (.reader e) ∧ t.out = s.out ∧ t.tags = s.tags ∧ .error e ∈ s.queue ∧ t.next = s.next) ∨
    ∃ X' o t big, s.call c files room arrived = t.conclude c files o big ∧ Post f T N (X ++ X') t ∧ X'.length = o.length * f.width ∧ o = samples c.kind f X' ∧
      o.length ≤ room ∧ Frame s t ∧ (∀ m ∈ t.queue, m ∈ s.queue) ∧ (big = true → 0 < t.remaining) ∧ t.cost ≤ s.cost ∧
      (0 < s.remaining → arrived = true → (∀ b, Msg.data b ∈ s.queue → b.length < room) → (s.buf ≠ [] ∨ ∃ b q, s.queue = .data b :: q) → t.cost < s.cost) := by
  unfold St.call
  rw [if_neg (by omega), if_neg (by rw [h.failed]; simp), if_neg (by rw [h.head]; simp)]
  rw [show s.skipped = s from if_neg (by rw [h.skip]; exact fun h => Nat.lt_irrefl 0 h.2.1)]
  obtain ⟨X1, o1, t1, e1, p1, l1, s1, r1, fr1, q1, f1, c1, d1, b1⟩ := buffered_post (c := c) hw h hr
  rw [e1]
  dsimp only
  have hcost1 : t1.cost ≤ s.cost := by unfold St.cost; rw [q1]; omega
  by_cases hpoll : t1.buf = [] ∧ o1.length < room ∧ 0 < t1.remaining
  · rw [if_pos hpoll]
    cases arrived with
    | false =>
      exact .inr ⟨X1, o1, t1, false, rfl, p1, l1, s1, r1, fr1, fun m hm => by rwa [q1] at hm, nofun, hcost1, fun _ h => by cases h⟩
    | true =>
      rw [if_pos rfl]
      cases hq : t1.queue with
      | nil =>
        simp only [poll]
        refine .inr ⟨X1, o1, t1, false, rfl, p1, l1, s1, r1, fr1, fun m hm => by rwa [q1] at hm, nofun, hcost1, fun h1 _ _ h3 => ?_⟩
        rcases h3 with h3 | ⟨b, q, h3⟩
        · have := d1 h3 h1
          unfold St.cost
          rw [q1]
          omega
        · rw [q1, h3] at hq
          cases hq
      | cons m q =>
        have hq' : s.queue = m :: q := by rw [← q1]; exact hq
        cases m with
        | error e =>
          simp only [poll]
          exact .inl ⟨e, _, rfl, fr1.2.2.2.2.2.2.1, fr1.2.2.2.2.2.2.2, by rw [hq']; exact .head _, fr1.1⟩
        | final =>
          simp only [poll]
          obtain ⟨todo, tl, k1, k2, k3, k4⟩ := p1.data
          have hfr : Frame s { t1 with queue := q, final := true } := fr1.trans ⟨rfl, rfl, rfl, rfl, rfl, rfl, rfl, rfl⟩
          have hlt : St.cost { t1 with queue := q, final := true } < s.cost := by
            unfold St.cost
            dsimp only
            rw [hq']
            simp only [cost]
            omega
          have htodo : todo = [] ∧ tl = .final :: q := by
            cases todo with
            | nil => rw [hq] at k1; exact ⟨rfl, k1.symm⟩
            | cons x xs => rw [hq, List.map_cons, List.cons_append] at k1; cases (List.cons.inj k1).1
          refine .inr ⟨X1, o1, _, false, rfl, ⟨p1.head, p1.failed, p1.fmt, p1.skip, p1.len, p1.unit, p1.short, p1.keep, [], q, by simp, fun m hm => ?_, fun _ => rfl, ?_⟩,
            l1, s1, r1, hfr, fun m hm => by rw [hq']; exact .tail _ hm, nofun, Nat.le_of_lt hlt, fun _ _ _ _ => hlt⟩
          · exact k2 m (by rw [htodo.2]; exact .tail _ hm)
          · rw [htodo.1] at k4
            exact k4
        | data b =>
          simp only [poll]
          by_cases hbig : b.length ≤ t1.maxBytes (room - o1.length)
          · rw [if_pos hbig]
            dsimp only
            obtain ⟨X2, o2, t2, e2, p2, l2, s2, r2, fr2, q2, f2, c2⟩ := piece_post (c := c) (room := room - o1.length) hw p1 (by omega) hpoll.1 hq
            rw [e2]
            dsimp only
            have hlt : t2.cost < s.cost := by
              unfold St.cost
              rw [hq', q2]
              simp only [cost]
              omega
            obtain ⟨n1, hn1⟩ : ∃ n, X1.length = n * f.width := ⟨_, l1⟩
            refine .inr ⟨X1 ++ X2, o1 ++ o2, t2, false, rfl, by rw [← List.append_assoc]; exact p2, by rw [List.length_append, List.length_append, l1, l2, Nat.add_mul], ?_, ?_,
              fr1.trans fr2, fun m hm => by rw [hq', ← q2]; exact .tail _ hm, nofun, Nat.le_of_lt hlt, fun _ _ _ _ => hlt⟩
            · rw [samples_append c.kind f n1 hn1 hw, ← s1, ← s2]
            · rw [List.length_append]; omega
          · rw [if_neg hbig]
            dsimp only
            refine .inr ⟨X1, o1, t1, true, rfl, p1, l1, s1, r1, fr1, fun m hm => by rwa [q1] at hm, fun _ => hpoll.2.2, hcost1, fun h1 _ h2 h3 => ?_⟩
            by_cases hsb : s.buf = []
            · exfalso
              obtain ⟨z1, z2⟩ := b1 hsb
              apply hbig
              rw [z1, z2]
              unfold St.maxBytes
              have := h2 b (by rw [hq']; exact .head _)
              have hsh := h.short
              rw [h.fmt, List.length_nil, Nat.sub_zero, if_neg (by omega)]
              have : (b.length + 1) * f.width ≤ room * f.width := Nat.mul_le_mul_right _ this
              rw [Nat.add_mul] at this
              have := Nat.le_mul_of_pos_right b.length hw
              omega
            · have := d1 hsb h1
              unfold St.cost
              rw [q1]
              omega
  · rw [if_neg hpoll]
    refine .inr ⟨X1, o1, t1, false, rfl, p1, l1, s1, r1, fr1, fun m hm => by rwa [q1] at hm, nofun, hcost1, fun h1 _ _ h3 => ?_⟩
    by_cases hsb : s.buf = []
    · exfalso
      obtain ⟨z1, z2⟩ := b1 hsb
      exact hpoll ⟨by rw [z2]; exact hsb, by rw [z1]; exact hr, by rw [z2]; exact h1⟩
    · have := d1 hsb h1
      unfold St.cost
      rw [q1]
      omega

end Verif.Wav
