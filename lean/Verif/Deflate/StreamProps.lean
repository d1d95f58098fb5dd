import Verif.Deflate.StreamCall
/-!
# C24: streaming decompression does not depend on how input and output are cut

A `Session` is what a caller that follows the documented contract (Compression.hpp:64-80) has: the object, the part of the stream `S` not consumed
yet, and everything produced so far, in order. Every call offers some first part of what is left, with an output buffer of any size; `Flush::finish`
is only passed together with all that is left. `Reaches` ranges over all such histories, of any length.

The yardstick is the one-shot decoder `decompressSpan` with a buffer of `limit` bytes, where `limit` is the streaming object's `maxOutputSize`.
-/
namespace Verif.Deflate
open Verif.Bytes (Byte)

structure Session where
  dec : Dec
  rest : List Byte
  output : List Byte

/-- the sessions over the stream `S` that got no error so far -/
inductive Session.Reaches (format : Format) (limit : Nat) (S : List Byte) : Session → Prop
  | start : Reaches format limit S ⟨.fresh format limit, S, []⟩
  | call {s : Session} {res : StreamResult} {d : Dec} (offered room : Nat) (finish : Bool) : Reaches format limit S s →
      (finish = true → s.rest.length ≤ offered) → s.dec.process (s.rest.take offered) room finish = (.ok res, d) →
      Reaches format limit S ⟨d, s.rest.drop res.consumed, s.output ++ res.produced⟩

variable {format : Format} {limit : Nat} {S : List Byte} {s : Session} (W : Nat)

/-- `D` is what the one-shot decoder writes -/
abbrev OneShot (W : Nat) (S : List Byte) (limit : Nat) (format : Format) (D : List Byte) : Prop := ∃ n, decompressSpan W S limit format = .ok (n, D)

theorem OneShot.unique {D D' : List Byte} (h : OneShot W S limit format D) (h' : OneShot W S limit format D') : D = D' := by
  obtain ⟨n, h⟩ := h
  obtain ⟨n', h'⟩ := h'
  rw [h] at h'
  exact (Prod.mk.inj (Except.ok.inj h')).2

theorem Session.Reaches.inv (h : s.Reaches format limit S) :
    ∃ o, Between W S s.rest (OneShot W S limit format) s.dec o ∧ o.data = s.output ∧
      (s.dec.finished = true → ∀ D, OneShot W S limit format D ↔ s.rest = [] ∧ D = s.output) := by
  induction h with
  | start =>
    refine ⟨_, between_fresh format limit, rfl, fun h => ?_⟩
    cases format <;> cases h
  | @call s res d offered room finish _ hf e ih =>
    obtain ⟨o, hb, ho, _⟩ := ih
    have hc := process_ok hb offered room finish hf
    rw [e] at hc
    cases hc with
    | @ok _ _ o' a1 a2 a3 a4 a5 a6 a7 a8 a9 a10 =>
      refine ⟨o', a1, by rw [a3, ho], fun hfin D => ?_⟩
      rw [a8 hfin D, a3, ho]

/-- **C24, finished means one-shot.** When the decoder is finished and the stream was consumed, the concatenation of everything produced, over any number
of calls with any sizes, is exactly what the one-shot decoder writes for the stream. -/
theorem stream_finished (h : s.Reaches format limit S) (hfin : s.dec.finished = true) (hrest : s.rest = []) :
    ∃ n, decompressSpan W S limit format = .ok (n, s.output) := by
  obtain ⟨o, _, _, hd⟩ := h.inv W
  exact (hd hfin _).2 ⟨hrest, rfl⟩

/-- **C24, independence of the chunking.** Two sessions over the same stream that both come to the end have produced the same bytes. -/
theorem stream_independent {s' : Session} (h : s.Reaches format limit S) (h' : s'.Reaches format limit S) (hfin : s.dec.finished = true) (hrest : s.rest = [])
    (hfin' : s'.dec.finished = true) (hrest' : s'.rest = []) : s.output = s'.output :=
  OneShot.unique 0 (stream_finished 0 h hfin hrest) (stream_finished 0 h' hfin' hrest')

/-- **C24, a valid stream is never refused.** If the one-shot decoder accepts the stream, then no call fails, whatever the sizes; what was produced so far is a first
part of the one-shot output; a call stays within what it was given; `needInput` is never reported at the end of the stream, and otherwise leaves at most five bytes
of the offer; `needOutput` is reported only when the buffer is full and more output is to come; `done` means that everything was produced. -/
theorem stream_valid {n : Nat} {D : List Byte} (hv : decompressSpan W S limit format = .ok (n, D)) (h : s.Reaches format limit S) (offered room : Nat)
    (finish : Bool) (hf : finish = true → s.rest.length ≤ offered) :
    ∃ res d, s.dec.process (s.rest.take offered) room finish = (.ok res, d) ∧
      res.consumed ≤ offered ∧ res.consumed ≤ s.rest.length ∧ res.produced.length ≤ room ∧ s.output ++ res.produced <+: D ∧
      (res.status = .needInput → finish = false ∧ (s.rest.take offered).length ≤ res.consumed + 5) ∧
      (res.status = .needOutput → res.produced.length = room ∧ (s.output ++ res.produced).length < D.length) ∧
      (res.status = .done → d.finished = true ∧ s.rest.drop res.consumed = [] ∧ s.output ++ res.produced = D) := by
  obtain ⟨o, hb, ho, _⟩ := h.inv W
  have hc := process_ok hb offered room finish hf
  generalize s.dec.process (s.rest.take offered) room finish = y at hc
  have hv : OneShot W S limit format D := ⟨n, hv⟩
  cases hc with
  | fail k => exact absurd hv (k D)
  | @ok res d' o' a1 a2 a3 a4 a5 a6 a7 a8 a9 a10 =>
    rw [List.length_take] at a2
    have hdata : o'.data = s.output ++ res.produced := by rw [a3, ho]
    refine ⟨res, d', rfl, by omega, by omega, a4, by rw [← hdata]; exact a5 D hv, fun h => ⟨(a9 h).1, ?_⟩, fun h => ⟨(a10 h).1, ?_⟩, fun h => ?_⟩
    · have := (a9 h).2
      omega
    · rw [← hdata]; exact (a10 h).2 D hv
    · have := (a8 (a6.1 h) D).1 hv
      exact ⟨a6.1 h, this.1, by rw [← hdata]; exact this.2.symm⟩

/-- **C24, a large enough buffer at the end.** With all that is left of the stream, `Flush::finish` and exactly as much room as there is output to come, the call completes. -/
theorem stream_completes {n : Nat} {D : List Byte} (hv : decompressSpan W S limit format = .ok (n, D)) (h : s.Reaches format limit S) (room : Nat)
    (hroom : D.length ≤ s.output.length + room) :
    ∃ res d, s.dec.process s.rest room true = (.ok res, d) ∧ res.status = .done ∧ res.consumed = s.rest.length ∧ s.output ++ res.produced = D := by
  obtain ⟨res, d, e, h1, h2, h3, h4, h5, h6, h7⟩ := stream_valid W hv h s.rest.length room true (fun _ => Nat.le_refl _)
  rw [List.take_length] at e
  have hs : res.status = .done := by
    cases hst : res.status with
    | needInput => exact absurd (h5 hst).1 (by decide)
    | needOutput =>
      obtain ⟨a, b⟩ := h6 hst
      rw [List.length_append] at b
      omega
    | done => rfl
  obtain ⟨_, a, b⟩ := h7 hs
  refine ⟨res, d, e, hs, ?_, b⟩
  have := congrArg List.length a
  rw [List.length_drop, List.length_nil] at this
  omega

/-- **C24, an invalid stream is never accepted.** If the one-shot decoder rejects the stream, no session ever gets to its end. -/
theorem stream_invalid {e : Fail} (hv : decompressSpan W S limit format = .error e) (h : s.Reaches format limit S) :
    ¬ (s.dec.finished = true ∧ s.rest = []) := by
  rintro ⟨h1, h2⟩
  obtain ⟨n, h3⟩ := stream_finished W h h1 h2
  rw [hv] at h3
  cases h3

/-- **C24, errors are real.** In a session without an error, a call returns a result or one of the documented errors; it fails only if the one-shot decoder rejects
the stream as well. No access is out of range and every loop ends (`Fail.ub`, `Fail.fuel`). -/
theorem stream_error {e : Fail} {d : Dec} (h : s.Reaches format limit S) (offered room : Nat) (finish : Bool) (hf : finish = true → s.rest.length ≤ offered)
    (he : s.dec.process (s.rest.take offered) room finish = (.error e, d)) :
    (∃ x, e = .err x) ∧ ∃ e', decompressSpan W S limit format = .error e' := by
  obtain ⟨o, hb, ho, _⟩ := h.inv W
  have hc := process_ok hb offered room finish hf
  rw [he] at hc
  cases hc with
  | @fail x _ k =>
    refine ⟨⟨x, rfl⟩, ?_⟩
    cases e2 : decompressSpan W S limit format with
    | error e' => exact ⟨e', rfl⟩
    | ok p => exact absurd ⟨p.1, e2⟩ (k p.2)

/-- the loop of the documentation after the end of the source: calls with `Flush::finish` and a buffer of `room` bytes until the decoder is done — Compression.hpp:66-71 -/
def drain (room : Nat) : Nat → Session → Option (List Byte)
  | 0, _ => none
  | n + 1, s =>
    match s.dec.process s.rest room true with
    | (.error _, _) => none
    | (.ok res, d) => if res.status = .done then some (s.output ++ res.produced) else drain room n ⟨d, s.rest.drop res.consumed, s.output ++ res.produced⟩

/-- **C24, the loop ends.** From any point of any session over a valid stream, a loop of calls with a non-empty buffer of any size comes to its end, with the one-shot
output, after at most one call for each byte still to come and one more. -/
theorem stream_drains {n : Nat} {D : List Byte} (hv : decompressSpan W S limit format = .ok (n, D)) {room : Nat} (hroom : 0 < room) :
    ∀ (k : Nat) (s : Session), s.Reaches format limit S → D.length < s.output.length + k → drain room k s = some D
  | 0, s, h, hk => by
    have hp := (stream_valid W hv h 0 0 false nofun)
    obtain ⟨res, d, _, _, _, _, h4, _⟩ := hp
    have := h4.length_le
    rw [List.length_append] at this
    omega
  | k + 1, s, h, hk => by
    obtain ⟨res, d, e, h1, h2, h3, h4, h5, h6, h7⟩ := stream_valid W hv h s.rest.length room true (fun _ => Nat.le_refl _)
    have e' := e
    rw [List.take_length] at e'
    rw [drain, e']
    dsimp only
    cases hst : res.status with
    | needInput => exact absurd (h5 hst).1 (by decide)
    | needOutput =>
      rw [if_neg nofun]
      refine stream_drains hv hroom k _ (.call _ _ _ h (fun _ => Nat.le_refl _) e) ?_
      rw [List.length_append, (h6 hst).1]
      omega
    | done =>
      rw [if_pos rfl, (h7 hst).2.2]

/-! ## concrete sessions -/

/-- zlib: "abc" in a stored block, cut in the middle of the header, the block and the trailer; the output is taken byte by byte -/
private def exZlib : List Byte := [0x78#8, 0x01#8, 0x01#8, 3#8, 0#8, 0xfc#8, 0xff#8, 0x61#8, 0x62#8, 0x63#8, 0x02#8, 0x4d#8, 0x01#8, 0x27#8]

private instance {α : Type} [DecidableEq α] : DecidableEq (Res α)
  | .ok a, .ok b => if h : a = b then isTrue (by rw [h]) else isFalse (fun e => h (by injection e))
  | .error a, .error b => if h : a = b then isTrue (by rw [h]) else isFalse (fun e => h (by injection e))
  | .ok _, .error _ => isFalse nofun
  | .error _, .ok _ => isFalse nofun

example : ∃ n, decompressSpan 4 exZlib 100 .zlib = .ok (n, [0x61#8, 0x62#8, 0x63#8]) := ⟨3, by decide +kernel⟩

example :
    let d0 := Dec.fresh .zlib 100
    let c1 := d0.process (exZlib.take 5) 0 false
    let c2 := c1.2.process ((exZlib.drop 3).take 6) 1 false
    let c3 := c2.2.process (exZlib.drop 8) 1 true
    let c4 := c3.2.process (exZlib.drop 9) 1 true
    c1.1 = .ok ⟨3, [], .needInput⟩ ∧ c2.1 = .ok ⟨5, [0x61#8], .needOutput⟩ ∧ c3.1 = .ok ⟨1, [0x62#8], .needOutput⟩ ∧
      c4.1 = .ok ⟨5, [0x63#8], .done⟩ ∧ c4.2.finished = true := by decide +kernel

example : drain 2 3 ⟨.fresh .zlib 100, exZlib, []⟩ = some [0x61#8, 0x62#8, 0x63#8] := by decide +kernel

/-- gzip: a member "hi" with a name and a header checksum, then a member "!" -/
private def exGzip : List Byte := [0x1f#8, 0x8b#8, 0x08#8, 0x0a#8, 0x00#8, 0x00#8, 0x00#8, 0x00#8, 0x00#8, 0xff#8, 0x61#8, 0x00#8, 0x58#8, 0xa2#8, 0x01#8, 0x02#8, 0x00#8, 0xfd#8, 0xff#8, 0x68#8, 0x69#8, 0xac#8, 0x2a#8, 0x93#8, 0xd8#8, 0x02#8, 0x00#8, 0x00#8, 0x00#8, 0x1f#8, 0x8b#8, 0x08#8, 0x00#8, 0x00#8, 0x00#8, 0x00#8, 0x00#8, 0x00#8, 0xff#8, 0x01#8, 0x01#8, 0x00#8, 0xfe#8, 0xff#8, 0x21#8, 0xd3#8, 0xff#8, 0x6b#8, 0x9e#8, 0x01#8, 0x00#8, 0x00#8, 0x00#8]

example : ∃ n, decompressSpan 4 exGzip 100 .gzip = .ok (n, [0x68#8, 0x69#8, 0x21#8]) := ⟨3, by decide +kernel⟩

/-- the session that offers eight bytes a call, with room for one byte -/
private def bytewise : Nat → Session → Option Session
  | 0, s => some s
  | n + 1, s => match s.dec.process (s.rest.take 8) 1 false with
    | (.error _, _) => none
    | (.ok res, d) => bytewise n ⟨d, s.rest.drop res.consumed, s.output ++ res.produced⟩

example : ((bytewise 6 ⟨.fresh .gzip 100, exGzip, []⟩).bind (drain 1 4)) = some [0x68#8, 0x69#8, 0x21#8] := by decide +kernel

/-! ## a claim of the documentation that does not hold -/

/-- **Finding.** "errors are sticky: once `process()` fails it keeps failing and produces nothing until `reset()`" (Compression.hpp:79) does not hold: after a bad block type
was reported, the same object accepts the next bytes as a new block, produces their content and reports `done`. -/
theorem stream_errors_not_sticky :
    let bad := (Dec.fresh .rawDeflate 100).process [0x07#8] 10 false
    let next := bad.2.process [0x00#8, 0x00#8, 0xff#8, 0xff#8, 0x01#8, 0x01#8, 0x00#8, 0xfe#8, 0xff#8, 0x41#8] 10 true
    bad.1 = .error (.err .invalidBlockType) ∧ next.1 = .ok ⟨10, [0x41#8], .done⟩ := by decide +kernel

end Verif.Deflate
