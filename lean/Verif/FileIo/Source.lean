import Verif.FileIo.Push
import Verif.FileIo.Limit
/-!
From the bytes of the source to the messages: sources read as they are and sources decompressed.
-/
namespace Verif.FileIo
open Verif.Bytes (Byte)
open Verif.Deflate (Dec Session OneShot)

variable {k : Option Nat} {c : Cfg} {R : List Byte} {s : RS}

/-- The worker between two operations, when `R` is what there was to publish so far. -/
structure Held (k : Option Nat) (c : Cfg) (R : List Byte) (s : RS) : Prop where
  mid : Mid k c R s s.pending
  short : s.cancel ≠ some 0 → s.pending.length < c.unit

/-- After the final message. -/
def Done (k : Option Nat) (c : Cfg) (R : List Byte) (tail : List Msg) (s : RS) : Prop :=
  ∃ ds, s.published = ds.map .data ++ tail ∧ Cut c.unit c.largest ds ∧ ds.flatten <+: R ∧ (k = none → tail = [.final] → ds.flatten = R) ∧
    ∀ n, k = some n → ds.length ≤ n

theorem Held.look (h : Held k c R s) :
    (s.look = (true, s) ∧ s.cancel = some 0) ∨ (s.cancel ≠ some 0 ∧ ∃ t, s.look = (false, t) ∧ t.pending = s.pending ∧ Frame s t ∧ Held k c R t) := by
  obtain ⟨e, hc⟩ | ⟨t, e, hp, hf, hn⟩ := h.mid.looked (look_ok s)
  · exact .inl ⟨e, hc⟩
  · have hns : s.cancel ≠ some 0 := by
      intro hz
      rw [RS.look, hz] at e
      cases e
    exact .inr ⟨hns, t, e, hp, hf, ⟨hp ▸ hn.mid, fun _ => hp ▸ h.short hns⟩⟩

theorem Held.weaken {R' : List Byte} (h : Held k c R s) (hc : s.cancel = some 0) (hR : R <+: R') : Held k c R' s :=
  ⟨h.mid.weaken hc hR, fun x => absurd hc x⟩

theorem Held.none (h : Held none c R s) : s.cancel = none := by
  obtain ⟨_, _, _, _, _, _, h5⟩ := h.mid
  exact h5

theorem Held.cfg (h : Held k c R s) : s.cfg = c := h.mid.cfg

/-- `pushFinal` -/
theorem Held.final (h : Held k c R s) (b : Bool) (hb : b = false → s.cancel = some 0) : Done k c R [.final] (s.pushFinal b) := by
  obtain ⟨⟨h0, ds, h1, h2, h3, h4, h5⟩, hs⟩ := h
  have bound : ∀ n, k = some n → ds.length ≤ n := by
    intro n hn
    subst hn
    obtain ⟨j, _, h6⟩ := h5
    omega
  cases b with
  | false =>
    have hc := hb rfl
    refine ⟨ds, ?_, h2.cut, h3, fun hk _ => ?_, bound⟩
    · show s.published ++ [_] = _
      rw [h1]
    · subst hk
      rw [Left, hc] at h5
      cases h5
  | true =>
    show Done k c R [.final] (s.publishPending.publish .final)
    unfold RS.publishPending
    by_cases hp : s.pending = []
    · rw [if_pos hp]
      refine ⟨ds, ?_, h2.cut, h3, fun hk _ => ?_, bound⟩
      · show s.published ++ [_] = _
        rw [h1]
      · subst hk
        have hc : s.cancel = Option.none := h5
        have := h4 (by rw [hc]; nofun)
        rw [hp, List.append_nil] at this
        exact this
    · rw [if_neg hp]
      have hl := look_ok s
      generalize s.look = q at hl
      cases hl with
      | seen a =>
        refine ⟨ds, ?_, h2.cut, h3, fun hk _ => ?_, bound⟩
        · show s.published ++ [_] = _
          rw [h1]
        · subst hk
          rw [Left, a] at h5
          cases h5
      | never a =>
        have hns : s.cancel ≠ some 0 := by rw [a]; nofun
        have e : s.publishData s.pending = s.publish (.data s.pending) := by
          simp only [RS.publishData, RS.look, a]
          rw [if_neg hp]
        dsimp only
        rw [e]
        refine ⟨ds ++ [s.pending], ?_, h2.cut_push hp (hs hns), ?_, fun _ _ => ?_, fun n hn => ?_⟩
        · show s.published ++ [_] ++ [_] = _
          rw [h1]; simp
        · rw [← h4 hns]; simp
        · rw [← h4 hns]; simp
        · subst hn
          obtain ⟨j, h6, _⟩ := h5
          rw [a] at h6; cases h6
      | @later n a =>
        have hns : s.cancel ≠ some 0 := by rw [a]; nofun
        have hm : ∃ m, k = some m ∧ ds.length + (n + 1) ≤ m := by
          cases k with
          | none => rw [Left, a] at h5; cases h5
          | some m =>
            obtain ⟨j, h6, h7⟩ := h5
            rw [a] at h6; cases h6
            exact ⟨m, rfl, h7⟩
        obtain ⟨m, rfl, hm⟩ := hm
        dsimp only
        cases n with
        | zero =>
          simp only [RS.publishData, RS.look]
          refine ⟨ds, ?_, h2.cut, h3, nofun, fun i hi => ?_⟩
          · show s.published ++ [_] = _
            rw [h1]
          · cases hi; omega
        | succ n =>
          simp only [RS.publishData, RS.look]
          rw [if_neg hp]
          refine ⟨ds ++ [s.pending], ?_, h2.cut_push hp (hs hns), ?_, nofun, fun i hi => ?_⟩
          · show s.published ++ [_] ++ [_] = _
            rw [h1]; simp
          · rw [← h4 hns]; simp
          · cases hi
            rw [List.length_append, List.length_singleton]; omega

/-- `pushErrorFinal` -/
theorem Held.errorFinal (h : Held k c R s) (e : Err) : Done k c R [.error e, .final] (s.pushErrorFinal e) := by
  obtain ⟨⟨h0, ds, h1, h2, h3, h4, h5⟩, hs⟩ := h
  refine ⟨ds, ?_, h2.cut, h3, nofun, ?_⟩
  · show s.published ++ [_] ++ [_] = _
    rw [h1]; simp
  · intro n hn
    subst hn
    obtain ⟨j, _, h6⟩ := h5
    omega

theorem Held.lookFinal (h : Held k c R s) : Done k c R [.final] (s.look.2.pushFinal (!s.look.1)) := by
  obtain ⟨e, hc⟩ | ⟨_, t, e, _, _, ht⟩ := h.look
  · rw [e]; exact h.final _ fun _ => hc
  · rw [e]; exact ht.final _ nofun

theorem Held.pushData {data : List Byte} (h : Held k c R s) : Held k c (R ++ data) (s.pushData data) ∧ Frame s (s.pushData data) := by
  obtain ⟨a, b, d⟩ := pushData_ok (data := data) h.mid h.short
  exact ⟨⟨a, b⟩, d⟩

/-! ### Sources read as they are -/

theorem plain_source {data : List Byte} {fin : Bool} (h : Held k c R s) (hd : s.dec = none) :
    ∃ t, s.pushSource data fin = (.ok, t) ∧ Held k c (R ++ data) t ∧ t.dec = none := by
  unfold RS.pushSource
  obtain ⟨e, hc⟩ | ⟨_, t, e, _, hf, ht⟩ := h.look
  · rw [e]
    exact ⟨s, rfl, h.weaken hc (List.prefix_append _ _), hd⟩
  · rw [e]
    dsimp only
    rw [hf.dec, hd]
    obtain ⟨a, b⟩ := ht.pushData (data := data)
    exact ⟨_, rfl, a, b.dec.trans (hf.dec.trans hd)⟩

theorem plain_loop {chunk : Nat} (hchunk : 0 < chunk) : ∀ (f : Nat) (s : RS) (R rest : List Byte), rest.length < f → Held k c R s → s.dec = none →
    ∃ t, RS.fileLoop chunk f s rest = (.ok, t) ∧ Held k c (R ++ rest) t ∧ t.dec = none
  | 0, _, _, _, hf, _, _ => absurd hf (Nat.not_lt_zero _)
  | f + 1, s, R, rest, hf, h, hd => by
    unfold RS.fileLoop
    obtain ⟨e, hc⟩ | ⟨_, t, e, _, hfr, ht⟩ := h.look
    · rw [e]
      exact ⟨s, rfl, h.weaken hc (List.prefix_append _ _), hd⟩
    · rw [e]
      dsimp only
      split
      · rename_i hz
        have hr : rest = [] := List.length_eq_zero_iff.1 (by omega)
        rw [hr, List.append_nil]
        exact ⟨t, rfl, ht, hfr.dec.trans hd⟩
      · rename_i hz
        obtain ⟨u, e2, hu, hud⟩ := plain_source (data := rest.take (min chunk rest.length)) (fin := false) ht (hfr.dec.trans hd)
        rw [e2]
        dsimp only
        split
        · obtain ⟨v, e3, hv, hvd⟩ := plain_loop hchunk f u _ (rest.drop (min chunk rest.length)) (by rw [List.length_drop]; omega) hu hud
          refine ⟨v, e3, ?_, hvd⟩
          rw [List.append_assoc, List.take_append_drop] at hv
          exact hv
        · rename_i hge
          rw [List.take_of_length_le (by omega)] at hu
          exact ⟨u, rfl, hu, hud⟩

theorem plain_finish (h : Held k c R s) (hd : s.dec = none) : ∃ t, s.finish = (.ok, t) ∧ Done k c R [.final] t := by
  unfold RS.finish
  obtain ⟨e, hc⟩ | ⟨_, t, e, _, hfr, ht⟩ := h.look
  · rw [e]
    exact ⟨_, rfl, h.lookFinal⟩
  · rw [e]
    dsimp only
    obtain ⟨u, e2, hu, _⟩ := plain_source (data := []) (fin := true) ht (hfr.dec.trans hd)
    rw [e2, List.append_nil] at *
    exact ⟨_, rfl, hu.lookFinal⟩

theorem plain_pieces : ∀ (ps : List (List Byte)) (s : RS) (R : List Byte), Held k c R s → s.dec = none →
    ∃ b t, s.httpPieces ps = (b, .ok, t) ∧ Held k c (R ++ ps.flatten) t ∧ t.dec = none
  | [], s, R, h, hd => ⟨true, s, rfl, by rw [List.flatten_nil, List.append_nil]; exact h, hd⟩
  | p :: ps, s, R, h, hd => by
    unfold RS.httpPieces
    obtain ⟨e, hc⟩ | ⟨_, t, e, _, hfr, ht⟩ := h.look
    · rw [e]
      exact ⟨false, s, rfl, h.weaken hc (List.prefix_append _ _), hd⟩
    · rw [e]
      dsimp only
      split
      · rename_i hp
        subst hp
        exact plain_pieces ps t R ht (hfr.dec.trans hd)
      · obtain ⟨u, e2, hu, hud⟩ := plain_source (data := p) (fin := false) ht (hfr.dec.trans hd)
        rw [e2]
        obtain ⟨b, v, e3, hv, hvd⟩ := plain_pieces ps u _ hu hud
        refine ⟨b, v, e3, ?_, hvd⟩
        rw [List.append_assoc] at hv
        exact hv

/-! ### Sources decompressed -/

theorem pushDecoded_ok {O p : List Byte} {off : Nat} (h : Held k c (O.drop off) s) (hs : s.skip = off - O.length) :
    Held k c ((O ++ p).drop off) (s.pushDecoded p) ∧ (s.pushDecoded p).skip = off - (O ++ p).length ∧ (s.pushDecoded p).dec = s.dec ∧
      (s.pushDecoded p).seen = s.seen ∧ (s.pushDecoded p).codecPending = s.codecPending ∧ (s.pushDecoded p).cfg = s.cfg := by
  unfold RS.pushDecoded
  by_cases hp : p = []
  · rw [if_pos hp, hp, List.append_nil]
    exact ⟨h, hs, rfl, rfl, rfl, rfl⟩
  · rw [if_neg hp]
    split
    · rename_i hle
      have hl : (O ++ p).length = O.length + p.length := List.length_append
      have h1 : p.length ≠ 0 := fun h => hp (List.length_eq_zero_iff.1 h)
      refine ⟨⟨?_, ?_⟩, ?_, rfl, rfl, rfl, rfl⟩
      · rw [List.drop_eq_nil_of_le (by omega)]
        rw [List.drop_eq_nil_of_le (by omega)] at h
        exact ⟨h.mid.cfg, h.mid.ex⟩
      · exact h.short
      · show s.skip - p.length = _
        omega
    · rename_i hgt
      have h' : Held k c (O.drop off) { s with skip := 0 } := ⟨⟨h.mid.cfg, h.mid.ex⟩, h.short⟩
      obtain ⟨a, b⟩ := h'.pushData (data := p.drop s.skip)
      refine ⟨?_, ?_, b.dec, b.seen, b.codecPending, b.cfg⟩
      · rw [List.drop_append, ← hs]
        exact a
      · rw [b.skip, List.length_append]
        show 0 = _
        omega

variable {S fut : List Byte} {off : Nat}

/-- No output belongs to the stream. -/
def Invalid (c : Cfg) (S : List Byte) : Prop := ∀ D, ¬ OneShot 0 S c.limit .gzip D

theorem codecLoop_ok {fin : Bool} (hpos : 0 < c.codecChunk) (hfut : fin = true → fut = []) : ∀ (f : Nat) (s : RS) (sess : Session) (input : List Byte),
    sess.Reaches .gzip c.limit S → Held k c (sess.output.drop off) s → sess.rest = input ++ fut → s.skip = off - sess.output.length →
    c.limit < sess.output.length + f →
    (∃ t e O, RS.codecLoop fin f s sess.dec input = (.failed, t.pushErrorFinal e) ∧ Held k c O t ∧ Invalid c S) ∨
    ∃ (t : RS) (sess' : Session), RS.codecLoop fin f s sess.dec input = (.ok, t) ∧ sess'.Reaches .gzip c.limit S ∧ Held k c (sess'.output.drop off) t ∧
      t.dec = some sess'.dec ∧ sess'.rest = t.codecPending ++ fut ∧ t.skip = off - sess'.output.length ∧ t.seen = s.seen ∧
      (fin = true → sess'.dec.finished = true ∧ sess'.rest = [])
  | 0, s, sess, input, hr, _, _, _, hl => by
    have := hr.limit.2
    omega
  | f + 1, s, sess, input, hr, h, hrest, hskip, hl => by
    have htake : sess.rest.take input.length = input := by rw [hrest, List.take_left' rfl]
    have hf' : fin = true → sess.rest.length ≤ input.length := by
      intro hf
      rw [hrest, hfut hf, List.append_nil]
      exact Nat.le_refl _
    have hp := hr.process input.length c.codecChunk fin hf'
    rw [htake] at hp
    rw [RS.codecLoop, h.cfg]
    obtain ⟨e, d, he, hinv⟩ | ⟨res, d, he, hr', hcons, hin, hout, hdone⟩ := hp
    · rw [he]
      refine .inl ⟨{ s with dec := some d, cfg := c }, .decode e, _, rfl, ⟨⟨rfl, h.mid.ex⟩, h.short⟩, hinv⟩
    · rw [he]
      dsimp only
      have h' : Held k c (sess.output.drop off) { s with dec := some d } := ⟨⟨h.mid.cfg, h.mid.ex⟩, h.short⟩
      obtain ⟨a1, a2, a3, a4, a5, a6⟩ := pushDecoded_ok (p := res.produced) h' hskip
      generalize hs' : RS.pushDecoded { s with dec := some d } res.produced = s' at a1 a2 a3 a4 a5 a6
      have hs'' : RS.pushDecoded { cfg := c, dec := some d, pending := s.pending, codecPending := s.codecPending, skip := s.skip, seen := s.seen, cancel := s.cancel, published := s.published } res.produced = s' := by
        rw [← hs']
        rw [show ({ s with dec := some d } : RS) = { cfg := s.cfg, dec := some d, pending := s.pending, codecPending := s.codecPending, skip := s.skip, seen := s.seen, cancel := s.cancel, published := s.published } from rfl, h.cfg]
      rw [hs'']
      have hdrop : sess.rest.drop res.consumed = input.drop res.consumed ++ fut := by
        rw [hrest, List.drop_append_of_le_length hcons]
      split
      · rename_i hst
        obtain ⟨hd1, hd2⟩ := hdone hst
        have hnil : sess.rest.drop res.consumed = fut := by
          rw [hdrop, hd2, List.drop_length, List.nil_append]
        refine .inr ⟨_, _, rfl, hr', ⟨⟨a1.mid.cfg, a1.mid.ex⟩, a1.short⟩, a3, ?_, a2, a4, fun hf => ⟨hd1, ?_⟩⟩
        · exact hnil
        · exact hnil.trans (hfut hf)
      · split
        · rename_i hst
          have hff := hin hst
          subst hff
          exact .inr ⟨_, _, rfl, hr', ⟨⟨a1.mid.cfg, a1.mid.ex⟩, a1.short⟩, a3, hdrop, a2, a4, nofun⟩
        · rename_i hst1 hst2
          have hst : res.status = .needOutput := by
            cases h : res.status with
            | needInput => exact absurd h hst2
            | needOutput => rfl
            | done => exact absurd h hst1
          have hroom := hout hst
          have := codecLoop_ok hpos hfut f s' ⟨d, sess.rest.drop res.consumed, sess.output ++ res.produced⟩ (input.drop res.consumed) hr' a1 hdrop a2
            (by show _ < (sess.output ++ res.produced).length + f; rw [List.length_append]; omega)
          rcases this with x | ⟨t, ss, x1, x2, x3, x4, x5, x6, x7, x8⟩
          · exact .inl x
          · exact .inr ⟨t, ss, x1, x2, x3, x4, x5, x6, x7.trans a4, x8⟩

/-- The worker over a compressed stream `S` of which `fut` is to come. -/
structure G (off : Nat) (k : Option Nat) (c : Cfg) (S fut : List Byte) (sess : Session) (s : RS) : Prop where
  reach : sess.Reaches .gzip c.limit S
  held : Held k c (sess.output.drop off) s
  live : s.cancel ≠ some 0 → s.dec = some sess.dec ∧ sess.rest = s.codecPending ++ fut ∧ s.skip = off - sess.output.length ∧ s.seen + fut.length = S.length

theorem G.look {sess : Session} (h : G off k c S fut sess s) :
    (s.look = (true, s) ∧ s.cancel = some 0) ∨ (s.cancel ≠ some 0 ∧ ∃ t, s.look = (false, t) ∧ G off k c S fut sess t ∧
      t.dec = some sess.dec ∧ sess.rest = t.codecPending ++ fut ∧ t.skip = off - sess.output.length ∧ t.seen + fut.length = S.length) := by
  obtain ⟨e, hc⟩ | ⟨hns, t, e, _, hf, ht⟩ := h.held.look
  · exact .inl ⟨e, hc⟩
  · obtain ⟨a, b, d, x⟩ := h.live hns
    have key : t.dec = some sess.dec ∧ sess.rest = t.codecPending ++ fut ∧ t.skip = off - sess.output.length ∧ t.seen + fut.length = S.length := by
      rw [hf.dec, hf.codecPending, hf.skip, hf.seen]
      exact ⟨a, b, d, x⟩
    exact .inr ⟨hns, t, e, ⟨h.reach, ht, fun _ => key⟩, key⟩

theorem G.cancelled {sess : Session} {fut' : List Byte} (h : G off k c S fut sess s) (hc : s.cancel = some 0) : G off k c S fut' sess s :=
  ⟨h.reach, h.held, fun x => absurd hc x⟩

theorem codecChunk_pos (c : Cfg) : 0 < c.codecChunk := by
  unfold Cfg.codecChunk
  split <;> omega

/-- `pushSourceData` for a compressed stream -/
theorem gzip_source {sess : Session} {data : List Byte} {fin : Bool} (h : G off k c S (data ++ fut) sess s) (hmax : c.codecChunk ≤ vectorMax)
    (hfin : fin = true → data = [] ∧ fut = [] ∧ S ≠ []) :
    (∃ t e O, s.pushSource data fin = (.failed, t.pushErrorFinal e) ∧ Held k c O t ∧ Invalid c S) ∨
    ∃ (t : RS) (sess' : Session), s.pushSource data fin = (.ok, t) ∧ G off k c S fut sess' t ∧
      (fin = true → s.cancel ≠ some 0 → sess'.dec.finished = true ∧ sess'.rest = []) := by
  unfold RS.pushSource
  obtain ⟨e, hc⟩ | ⟨_, t, e, ht, hdec, hrest, hskip, hseen⟩ := h.look
  · rw [e]
    exact .inr ⟨s, sess, rfl, h.cancelled hc, fun _ x => absurd hc x⟩
  · rw [e]
    dsimp only
    rw [hdec]
    dsimp only
    rw [if_neg, if_neg]
    · rw [ht.held.cfg]
      have h' : Held k c (sess.output.drop off) { t with seen := t.seen + data.length, codecPending := t.codecPending ++ data, cfg := c } :=
        ⟨⟨rfl, ht.held.mid.ex⟩, ht.held.short⟩
      have := codecLoop_ok (k := k) (S := S) (fut := fut) (off := off) (fin := fin) (codecChunk_pos c) (fun hf => (hfin hf).2.1) (c.limit + 2) _ sess
        (t.codecPending ++ data) ht.reach h' (by rw [hrest, List.append_assoc]) hskip (by omega)
      rw [show ({ t with seen := t.seen + data.length, codecPending := t.codecPending ++ data, cfg := c } : RS) =
        { cfg := c, dec := some sess.dec, pending := t.pending, codecPending := t.codecPending ++ data, skip := t.skip, seen := t.seen + data.length, cancel := t.cancel, published := t.published } from by rw [← hdec]] at this
      rcases this with x | ⟨u, ss, x1, x2, x3, x4, x5, x6, x7, x8⟩
      · exact .inl x
      · refine .inr ⟨u, ss, x1, ⟨x2, x3, fun _ => ⟨x4, x5, x6, ?_⟩⟩, fun hf _ => x8 hf⟩
        rw [x7]
        show t.seen + data.length + fut.length = _
        rw [List.length_append] at hseen
        omega
    · rw [show ({ t with dec := some sess.dec, seen := t.seen + data.length } : RS).cfg = c from ht.held.cfg]
      omega
    · rintro ⟨hf, hz⟩
      obtain ⟨h1, h2, h3⟩ := hfin hf
      subst h1 h2
      have hz : t.seen + ([] : List Byte).length = 0 := hz
      simp only [List.length_nil, List.append_nil] at hz hseen
      exact h3 (List.length_eq_zero_iff.1 (by omega))

end Verif.FileIo
