import Verif.FileIo.Source
/-! Whole compressed sources. -/
namespace Verif.FileIo
open Verif.Bytes (Byte)
open Verif.Deflate (Dec Session OneShot)

variable {k : Option Nat} {c : Cfg} {S fut : List Byte} {off : Nat}

/-- An error and the final message were published because the stream is not valid. -/
def Refused (k : Option Nat) (c : Cfg) (S : List Byte) (r : Pushed × RS) : Prop :=
  r.1 = .failed ∧ (∃ e O, Done k c O [.error e, .final] r.2) ∧ Invalid c S

theorem Refused.of {t : RS} {e : Err} {O : List Byte} (h : Held k c O t) (hi : Invalid c S) : Refused k c S (.failed, t.pushErrorFinal e) :=
  ⟨rfl, ⟨e, O, h.errorFinal e⟩, hi⟩

theorem gzip_loop {chunk : Nat} (hchunk : 0 < chunk) (hmax : c.codecChunk ≤ vectorMax) : ∀ (f : Nat) (s : RS) (sess : Session) (rest : List Byte),
    rest.length < f → G off k c S rest sess s →
    Refused k c S (RS.fileLoop chunk f s rest) ∨ ∃ (t : RS) (sess' : Session), RS.fileLoop chunk f s rest = (.ok, t) ∧ G off k c S [] sess' t
  | 0, _, _, _, hf, _ => absurd hf (Nat.not_lt_zero _)
  | f + 1, s, sess, rest, hf, h => by
    unfold RS.fileLoop
    obtain ⟨e, hc⟩ | ⟨_, t, e, ht, _⟩ := h.look
    · rw [e]
      exact .inr ⟨s, sess, rfl, h.cancelled hc⟩
    · rw [e]
      dsimp only
      split
      · rename_i hz
        have hr : rest = [] := List.length_eq_zero_iff.1 (by omega)
        subst hr
        exact .inr ⟨t, sess, rfl, ht⟩
      · rename_i hz
        have hs := gzip_source (data := rest.take (min chunk rest.length)) (fut := rest.drop (min chunk rest.length)) (fin := false)
          (by rw [List.take_append_drop]; exact ht) hmax nofun
        obtain ⟨u, e1, O, e2, hu, hi⟩ | ⟨u, ss, e2, hu, _⟩ := hs
        · rw [e2]
          exact .inl (.of hu hi)
        · rw [e2]
          dsimp only
          split
          · exact gzip_loop hchunk hmax f u ss _ (by rw [List.length_drop]; omega) hu
          · rw [List.drop_eq_nil_of_le (by omega)] at hu
            exact .inr ⟨u, ss, rfl, hu⟩

theorem gzip_pieces (hmax : c.codecChunk ≤ vectorMax) : ∀ (ps : List (List Byte)) (s : RS) (sess : Session),
    G off k c S ps.flatten sess s →
    (∃ b r, s.httpPieces ps = (b, r) ∧ Refused k c S r) ∨ ∃ (b : Bool) (t : RS) (sess' : Session), s.httpPieces ps = (b, .ok, t) ∧ G off k c S [] sess' t ∧ (b = false → t.cancel = some 0)
  | [], s, sess, h => .inr ⟨true, s, sess, rfl, h, nofun⟩
  | p :: ps, s, sess, h => by
    unfold RS.httpPieces
    obtain ⟨e, hc⟩ | ⟨_, t, e, ht, _⟩ := h.look
    · rw [e]
      exact .inr ⟨false, s, sess, rfl, h.cancelled hc, fun _ => hc⟩
    · rw [e]
      dsimp only
      split
      · rename_i hp
        subst hp
        exact gzip_pieces hmax ps t sess ht
      · obtain ⟨u, e1, O, e2, hu, hi⟩ | ⟨u, ss, e2, hu, _⟩ := gzip_source (data := p) (fut := ps.flatten) (fin := false) ht hmax nofun
        · rw [e2]
          exact .inl ⟨false, _, rfl, .of hu hi⟩
        · rw [e2]
          exact gzip_pieces hmax ps u ss hu

/-- A source read to its end, or cancelled. -/
def Ended (off : Nat) (k : Option Nat) (c : Cfg) (S : List Byte) (t : RS) : Prop :=
  ∃ sess : Session, sess.Reaches .gzip c.limit S ∧ Done k c (sess.output.drop off) [.final] t ∧ (k = none → sess.dec.finished = true ∧ sess.rest = [])

theorem gzip_finish {sess : Session} {s : RS} (hmax : c.codecChunk ≤ vectorMax) (hS : S ≠ []) (h : G off k c S [] sess s) :
    Refused k c S s.finish ∨ ∃ t, s.finish = (.ok, t) ∧ Ended off k c S t := by
  unfold RS.finish
  obtain ⟨e, hc⟩ | ⟨hns, t, e, ht, _⟩ := h.look
  · rw [e]
    refine .inr ⟨_, rfl, sess, h.reach, h.held.lookFinal, fun hk => ?_⟩
    subst hk
    have := h.held.none
    rw [hc] at this
    cases this
  · rw [e]
    dsimp only
    obtain ⟨u, e1, O, e2, hu, hi⟩ | ⟨u, ss, e2, hu, hd⟩ := gzip_source (data := []) (fut := []) (fin := true) ht hmax fun _ => ⟨rfl, rfl, hS⟩
    · rw [e2]
      exact .inl (.of hu hi)
    · rw [e2]
      refine .inr ⟨_, rfl, ss, hu.reach, hu.held.lookFinal, fun hk => hd rfl ?_⟩
      subst hk
      rw [ht.held.none]
      nofun

theorem Ended.valid {W n : Nat} {D : List Byte} {t : RS} (h : Ended off k c S t) (hv : Verif.Deflate.decompressSpan W S c.limit .gzip = .ok (n, D)) :
    Done k c (D.drop off) [.final] t := by
  obtain ⟨sess, hr, ⟨ds, h1, h2, h3, h4, h5⟩, hd⟩ := h
  have hpre : sess.output <+: D := by
    obtain ⟨res, d, _, _, _, _, hp, _⟩ := Verif.Deflate.stream_valid W hv hr 0 0 false nofun
    exact (List.prefix_append _ _).trans hp
  refine ⟨ds, h1, h2, h3.trans ?_, fun hk ht => ?_, h5⟩
  · obtain ⟨z, rfl⟩ := hpre
    rw [List.drop_append]
    exact List.prefix_append _ _
  · obtain ⟨a, b⟩ := hd hk
    obtain ⟨m, hm⟩ := Verif.Deflate.stream_finished W hr a b
    have := OneShot.unique (W := W) (S := S) (limit := c.limit) (format := .gzip) ⟨m, hm⟩ ⟨n, hv⟩
    rw [← this]
    exact h4 hk ht

theorem Ended.invalid {W : Nat} {e : Verif.Deflate.Fail} {t : RS} (h : Ended off none c S t) (hv : Verif.Deflate.decompressSpan W S c.limit .gzip = .error e) : False := by
  obtain ⟨sess, hr, _, hd⟩ := h
  obtain ⟨a, b⟩ := hd rfl
  obtain ⟨m, hm⟩ := Verif.Deflate.stream_finished W hr a b
  rw [hv] at hm
  cases hm

theorem Refused.valid {W n : Nat} {D : List Byte} {r : Pushed × RS} (h : Refused k c S r)
    (hv : Verif.Deflate.decompressSpan W S c.limit .gzip = .ok (n, D)) : False := by
  obtain ⟨_, _, hi⟩ := h
  -- the memory of the one-shot decoder does not matter
  obtain ⟨res, d, e, hs, _⟩ := Verif.Deflate.stream_completes (s := ⟨.fresh .gzip c.limit, S, []⟩) W hv .start D.length (by simp)
  have hr := Session.Reaches.call (format := .gzip) (limit := c.limit) (S := S) S.length D.length true .start (fun _ => Nat.le_refl _)
    (by rw [List.take_length]; exact e)
  obtain ⟨o, hb, ho, hd⟩ := hr.inv 0
  have hp := hr.process 0 0 false nofun
  obtain ⟨res', d', e', _, _, _, _, _, _, h7⟩ := Verif.Deflate.stream_valid (s := ⟨.fresh .gzip c.limit, S, []⟩) W hv .start S.length D.length true (fun _ => Nat.le_refl _)
  rw [show ([] : List Byte) ++ res.produced = res.produced from rfl] at *
  rw [List.take_length] at e'
  rw [e] at e'
  cases e'
  obtain ⟨a, b, _⟩ := h7 hs
  exact hi _ ((hd a _).2 ⟨b, rfl⟩)

end Verif.FileIo
