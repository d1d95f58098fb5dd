import Verif.Deflate.EncoderInv
import Verif.Deflate.Props
import Verif.Deflate.StreamProps
/-!
# C55: streaming compression loses nothing, however input and output are cut

An `EncSession` is what a caller of `StreamCompressor` has: the object, the bytes it took so far (the first `consumed` of what every call offered), the bytes
it handed out so far, and whether `Flush::finish` was passed yet. `Reaches` ranges over all histories of successful calls, with input pieces and output buffers of
any sizes and `Flush::finish` at any time.

The yardstick is the one-shot decoder `decompressSpan`; with C24 the statements carry over to the streaming decoder.
-/
namespace Verif.Deflate
open Verif.Bytes (Byte)

structure EncSession where
  enc : Enc
  fed : List Byte
  output : List Byte
  asked : Bool

inductive EncSession.Reaches (format : Format) (level : Level) (blockBytes : Nat) : EncSession → Prop
  | start : Reaches format level blockBytes ⟨.fresh format level blockBytes, [], [], false⟩
  | call {s : EncSession} {res : StreamResult} {e : Enc} (input : List Byte) (room : Nat) (finish : Bool) : Reaches format level blockBytes s →
      s.enc.process input room finish = .ok (res, e) →
      Reaches format level blockBytes ⟨e, s.fed ++ input.take res.consumed, s.output ++ res.produced, s.asked || finish⟩

variable {format : Format} {level : Level} {blockBytes : Nat} {s : EncSession}

/-- a complete container is decoded -/
theorem Sealed.decode {fed bytes : List Byte} (h : Sealed format level fed bytes) (W : Nat) {capacity : Nat} (hcap : fed.length ≤ capacity) :
    decompressSpan W bytes capacity format = .ok (fed.length, fed) := by
  obtain ⟨body, rfl, h2⟩ := h
  have h3 : ∀ trailer : List Byte, decodeDeflate (body ++ trailer) (⟨[], capacity, 0⟩ : Span) = .ok (body.length, ⟨fed, capacity, 0⟩) := fun t =>
    h2 [] t capacity 0 (by rw [List.length_nil]; omega)
  unfold decompressSpan
  cases format with
  | rawDeflate =>
    have h4 : decodeRaw (headBytes .rawDeflate level ++ body ++ tailBytes 0 fed .rawDeflate) (⟨[], capacity, 0⟩ : Span) = .ok (fed.length, ⟨fed, capacity, 0⟩) := by
      unfold decodeRaw
      have e : headBytes .rawDeflate level ++ body ++ tailBytes 0 fed .rawDeflate = body := by simp [headBytes, tailBytes]
      have h5 := h3 []
      rw [List.append_nil] at h5
      rw [e, h5]
      simp only [ne_eq, not_true_eq_false, if_false]
      rfl
    dsimp only [decompressInto]
    rw [h4]
  | zlib =>
    dsimp only [decompressInto]
    rw [decodeZlib_spec h3]
  | gzip =>
    dsimp only [decompressInto]
    rw [decodeGzip_spec h3]

/-- the object at the loop of a call -/
private def Enc.entered (e : Enc) : Enc := if e.started then e else { e.queueHeader with started := true }

/-- one call, from the loop -/
private theorem process_eq {e : Enc} {fed prev : List Byte} (h : e.Holds format level fed prev) (hf : e.finished = false) (input : List Byte) (room : Nat) (finish : Bool) :
    ∃ e' rest out, CallDone format level finish room e.entered fed prev input [] e' rest out ∧ e.entered.Holds format level fed prev ∧
      e.process input room finish = .ok (⟨input.length - rest.length, out,
        if e'.finished then .done else if e'.pendingPos < e'.pending.length then .needOutput else .needInput⟩, e') := by
  have hh : e.entered.Holds format level fed prev ∧ e.entered.started = true ∧ e.entered.finished = false := by
    rw [Enc.entered]
    cases hs : e.started with
    | true => rw [if_pos rfl]; exact ⟨h, hs, hf⟩
    | false =>
      rw [if_neg (by decide)]
      refine ⟨h.start hs, rfl, ?_⟩
      rw [queueHeader_eq]; exact hf
  obtain ⟨e', rest, out, g1, g2⟩ := go_ok finish room prev (2 * input.length + 4) e.entered fed input [] (by rw [List.append_nil]; exact hh.1) hh.2.1 hh.2.2
    (Nat.zero_le _) (by rw [Enc.todo]; split <;> split <;> omega)
  refine ⟨e', rest, out, g2, hh.1, ?_⟩
  rw [Enc.process, if_neg (by rw [hf]; decide)]
  show (match Enc.go finish room (2 * input.length + 4) e.entered input [] with | .error f => _ | .ok (e, rest, out) => _) = _
  rw [g1]

private theorem EncSession.Reaches.inv (h : s.Reaches format level blockBytes) : s.enc.Holds format level s.fed s.output ∧ (s.asked = false → s.enc.finalQueued = false) := by
  induction h with
  | start => exact ⟨holds_fresh format level blockBytes, fun _ => rfl⟩
  | @call s res e input room finish _ hp ih =>
    obtain ⟨ih, ih2⟩ := ih
    cases hf : s.enc.finished with
    | true =>
      rw [Enc.process, if_pos hf] at hp
      split at hp
      · cases hp
      · obtain ⟨rfl, rfl⟩ := Prod.mk.inj (Except.ok.inj hp)
        simp only [List.take_zero, List.append_nil]
        refine ⟨ih, fun ha => ih2 ?_⟩
        rw [Bool.or_eq_false_iff] at ha
        exact ha.1
    | false =>
      obtain ⟨e', rest, out, g, hh, k⟩ := process_eq ih hf input room finish
      rw [k] at hp
      obtain ⟨rfl, rfl⟩ := Prod.mk.inj (Except.ok.inj hp)
      obtain ⟨used, hu, hg⟩ := g.used
      dsimp only
      have htake : input.take (input.length - rest.length) = used := by
        rw [hu, List.length_append, Nat.add_sub_cancel]
        exact List.take_left
      rw [htake]
      refine ⟨hg, fun ha => ?_⟩
      rw [Bool.or_eq_false_iff] at ha
      cases hq : e'.finalQueued with
      | false => rfl
      | true =>
        rcases g.sealing hq with hx | ⟨hx, _⟩
        · have hx' : s.enc.entered.finalQueued = s.enc.finalQueued := by
            rw [Enc.entered]
            split
            · rfl
            · rw [queueHeader_eq]
          rw [hx', ih2 ha.1] at hx
          cases hx
        · rw [ha.2] at hx; cases hx

/-- **C55, round trip.** When the encoder is finished, then what it handed out, over any number of calls with any sizes, is restored by the one-shot decoder to exactly the
bytes it took, for any buffer that is large enough. There is no limit on the size of the input. -/
theorem encode_roundtrip (h : s.Reaches format level blockBytes) (hfin : s.enc.finished = true) (W : Nat) {capacity : Nat} (hcap : s.fed.length ≤ capacity) :
    decompressSpan W s.output capacity format = .ok (s.fed.length, s.fed) := by
  have hi := h.inv.1
  obtain ⟨hq, hp⟩ := hi.done hfin
  have hs := hi.sealed hq
  rw [hp, List.drop_nil, List.append_nil] at hs
  exact hs.decode W hcap

/-- **C55, round trip through both streaming objects.** A streaming decoder that is given what the streaming encoder handed out restores what the encoder took; the two may
cut their input and output in any ways. -/
theorem encode_roundtrip_stream (h : s.Reaches format level blockBytes) (hfin : s.enc.finished = true) {limit : Nat} (hlim : s.fed.length ≤ limit) {d : Session}
    (hd : d.Reaches format limit s.output) :
    (d.dec.finished = true → d.rest = [] → d.output = s.fed) ∧
    (∀ room, 0 < room → drain room (s.fed.length + 1) d = some s.fed) ∧
    (∀ offered room finish, (finish = true → d.rest.length ≤ offered) → ∃ res d', d.dec.process (d.rest.take offered) room finish = (.ok res, d')) := by
  have hv := encode_roundtrip h hfin 0 hlim
  refine ⟨fun h1 h2 => ?_, fun room hr => ?_, fun offered room finish hf => ?_⟩
  · obtain ⟨n, hn⟩ := stream_finished 0 hd h1 h2
    rw [hv] at hn
    exact (Prod.mk.inj (Except.ok.inj hn)).2.symm
  · exact stream_drains 0 hv hr _ d hd (by omega)
  · obtain ⟨res, d', e, _⟩ := stream_valid 0 hv hd offered room finish hf
    exact ⟨res, d', e⟩

/-- **C55, every call.** At any point of any history a call succeeds, with one exception: input for an encoder that is finished is refused with `trailingData`. There is no access out
of range, no failed assertion and no endless loop. A call takes and hands out no more than it was given; `done` is reported exactly when the encoder is finished; `needOutput` only with the output
buffer full; `needInput` only with the output buffer full, or, when `Flush::finish` was not passed, with all input taken. -/
theorem encode_call (h : s.Reaches format level blockBytes) (input : List Byte) (room : Nat) (finish : Bool) :
    (s.enc.finished = true ∧ input ≠ [] ∧ s.enc.process input room finish = .error (.err .trailingData)) ∨
    ∃ res e, s.enc.process input room finish = .ok (res, e) ∧ res.consumed ≤ input.length ∧ res.produced.length ≤ room ∧
      (res.status = .done ↔ e.finished = true) ∧
      (res.status = .needOutput → res.produced.length = room) ∧
      (res.status = .needInput → res.produced.length = room ∨ (finish = false ∧ res.consumed = input.length)) := by
  have hi := h.inv.1
  cases hf : s.enc.finished with
  | true =>
    rw [Enc.process, if_pos hf]
    by_cases hne : input ≠ []
    · rw [if_pos hne]; exact .inl ⟨rfl, hne, rfl⟩
    · rw [if_neg hne]
      exact .inr ⟨_, _, rfl, Nat.zero_le _, Nat.zero_le _, ⟨fun _ => hf, fun _ => rfl⟩, nofun, nofun⟩
  | false =>
    obtain ⟨e', rest, out, g, hh, k⟩ := process_eq hi hf input room finish
    refine .inr ⟨_, _, k, Nat.sub_le _ _, g.fits, ?_, ?_, ?_⟩ <;> dsimp only
    · cases e'.finished with
      | true => exact ⟨fun _ => rfl, fun _ => rfl⟩
      | false =>
        rw [if_neg (by decide)]
        split <;> exact ⟨nofun, nofun⟩
    · intro hst
      by_cases hlt : out.length < room
      · rcases g.short hlt with hx | ⟨_, _, hx, _⟩
        · rw [hx, if_pos rfl] at hst; cases hst
        · rw [hx] at hst
          split at hst
          · cases hst
          · split at hst
            · rename_i hlt2
              exact absurd hlt2 (Nat.not_lt_zero _)
            · cases hst
      · have := g.fits; omega
    · intro hst
      by_cases hlt : out.length < room
      · rcases g.short hlt with hx | ⟨hx, hr, _⟩
        · rw [hx, if_pos rfl] at hst; cases hst
        · exact .inr ⟨hx, by rw [hr]; exact Nat.sub_zero _⟩
      · exact .inl (by have := g.fits; omega)

/-- the loop that compresses the rest of a source: calls with `Flush::finish` until the encoder is done; the buffer of call `i` has `rooms i` bytes -/
def encodeAll (rooms : Nat → Nat) : Nat → Enc → List Byte → List Byte → Option (List Byte)
  | 0, _, _, _ => none
  | n + 1, e, left, out =>
    match e.process left (rooms 0) true with
    | .error _ => none
    | .ok (res, e) =>
      if res.status = .done then some (out ++ res.produced)
      else encodeAll (fun i => rooms (i + 1)) n e (left.drop res.consumed) (out ++ res.produced)

private theorem encodeAll_done : ∀ (a b : Nat) (rooms : Nat → Nat) (e : Enc) (fed left out : List Byte), (∀ i, 0 < rooms i) → e.Holds format level fed out → e.finished = false →
    (e.finalQueued = true → left = []) → e.entered.todo left = a → e.entered.queued ≤ b →
    ∃ n bytes, encodeAll rooms n e left out = some bytes ∧ Sealed format level (fed ++ left) bytes := by
  intro a
  induction a using Nat.strongRecOn with
  | _ a iha =>
    intro b
    induction b using Nat.strongRecOn with
    | _ b ihb =>
      intro rooms e fed left out hrooms h hf hq ha hb
      obtain ⟨e', rest, out', g, hh, k⟩ := process_eq h hf left (rooms 0) true
      obtain ⟨used, hu, hg⟩ := g.used
      have hent : e.entered.finalQueued = e.finalQueued := by
        rw [Enc.entered]
        split
        · rfl
        · rw [queueHeader_eq]
      have hent' : e'.entered = e' := by rw [Enc.entered, if_pos g.started]
      have hdrop : left.drop (left.length - rest.length) = rest := by
        rw [hu, List.length_append, Nat.add_sub_cancel]
        exact List.drop_left
      have hsl : e'.finalQueued = true → rest = [] := fun hx => by
        rcases g.sealing hx with hy | hy
        · rw [hent] at hy
          have := hq hy
          rw [this] at hu
          exact (List.append_eq_nil_iff.1 hu.symm).2
        · exact hy.2
      cases hfin : e'.finished with
      | true =>
        obtain ⟨h1, h2⟩ := hg.done hfin
        have hsealed := hg.sealed h1
        rw [h2, List.drop_nil, List.append_nil] at hsealed
        refine ⟨1, out ++ out', ?_, ?_⟩
        · rw [encodeAll, k]
          dsimp only
          rw [hfin, if_pos rfl, if_pos rfl]
        · rw [hu, hsl h1, List.append_nil]; exact hsealed
      | false =>
        have hfull : out'.length = rooms 0 := by
          by_cases hlt : out'.length < rooms 0
          · rcases g.short hlt with hx | ⟨hx, _⟩
            · rw [hfin] at hx; cases hx
            · cases hx
          · have := g.fits; omega
        have hr := hrooms 0
        have next : ∃ n bytes, encodeAll (fun i => rooms (i + 1)) n e' rest (out ++ out') = some bytes ∧ Sealed format level (fed ++ used ++ rest) bytes := by
          rcases g.progress with hp | ⟨hp1, hp2⟩
          · exact iha (e'.todo rest) (by omega) _ _ e' _ rest _ (fun i => hrooms _) hg hfin hsl (by rw [hent']) (Nat.le_refl _)
          · rw [List.length_nil] at hp2
            exact ihb e'.queued (by omega) _ e' _ rest _ (fun i => hrooms _) hg hfin hsl (by rw [hent', hp1, ha]) (by rw [hent']; exact Nat.le_refl _)
        obtain ⟨n, bytes, n1, n2⟩ := next
        refine ⟨n + 1, bytes, ?_, by rw [hu, ← List.append_assoc]; exact n2⟩
        rw [encodeAll, k]
        dsimp only
        rw [hdrop, if_neg, n1]
        rw [hfin, if_neg (by decide)]
        split <;> exact nofun

/-- **C55, the loop ends.** From any point of any history in which `Flush::finish` was not passed yet, a loop of calls that offer the rest of the source with `Flush::finish`, with buffers of
any sizes but zero, comes to its end; all that was handed out is restored by the one-shot decoder to all that was taken before, followed by the rest. -/
theorem encode_completes (h : s.Reaches format level blockBytes) (hasked : s.asked = false) (left : List Byte) (rooms : Nat → Nat) (hrooms : ∀ i, 0 < rooms i) :
    ∃ n bytes, encodeAll rooms n s.enc left s.output = some bytes ∧
      ∀ W capacity, (s.fed ++ left).length ≤ capacity → decompressSpan W bytes capacity format = .ok ((s.fed ++ left).length, s.fed ++ left) := by
  obtain ⟨hi, ha⟩ := h.inv
  have hq := ha hasked
  have hf : s.enc.finished = false := by
    cases hf : s.enc.finished with
    | false => rfl
    | true => rw [(hi.done hf).1] at hq; cases hq
  obtain ⟨n, bytes, h1, h2⟩ := encodeAll_done _ _ rooms s.enc s.fed left s.output hrooms hi hf (fun hx => by rw [hq] at hx; cases hx) rfl (Nat.le_refl _)
  exact ⟨n, bytes, h1, fun W capacity hc => h2.decode W hc⟩

/-- **C55, a finished encoder.** A finished encoder stays as it is: it hands out nothing more, and reports `done`, or refuses input. -/
theorem encode_finished {e : Enc} (h : e.finished = true) (input : List Byte) (room : Nat) (finish : Bool) :
    e.process input room finish = if input = [] then .ok (⟨0, [], .done⟩, e) else .error (.err .trailingData) := by
  rw [Enc.process, if_pos h]
  by_cases hi : input = []
  · rw [if_pos hi, if_neg (by simpa using hi)]
  · rw [if_neg hi, if_pos hi]

/-! ## concrete histories -/

/-- what a call said, and the object after it -/
private def said (r : Res (StreamResult × Enc)) : Option StreamResult := match r with | .ok p => some p.1 | .error _ => none
private def next (r : Res (StreamResult × Enc)) : Enc := match r with | .ok p => p.2 | .error _ => .fresh .gzip .fast 1

/-- three bytes with blocks of two: the first call has room for one byte only, the second finishes -/
example :
    let c1 := (Enc.fresh .rawDeflate .fast 2).process [0x61#8, 0x62#8, 0x63#8] 1 false
    let c2 := (next c1).process [0x63#8] 100 true
    said c1 = some ⟨2, [0x4a#8], .needOutput⟩ ∧ said c2 = some ⟨1, [0x4c#8, 0x02#8, 0x2c#8, 0x19#8, 0x00#8], .done⟩ ∧ (next c2).finished = true := by decide +kernel

example : decompressSpan 8 [0x4a#8, 0x4c#8, 0x02#8, 0x2c#8, 0x19#8, 0x00#8] 100 .rawDeflate = .ok (3, [0x61#8, 0x62#8, 0x63#8]) := by decide +kernel

example : encodeAll (fun _ => 2) 10 (Enc.fresh .zlib .best 2) [0x61#8, 0x62#8, 0x63#8] [] =
    some [0x78#8, 0xda#8, 0x4a#8, 0x4c#8, 0x02#8, 0x2c#8, 0x19#8, 0x00#8, 0x02#8, 0x4d#8, 0x01#8, 0x27#8] := by decide +kernel

/-! ## a status that misleads -/

/-- `done` is only reported by a call that leaves room in its buffer (or when it was reported before). -/
theorem encode_done_leaves_room (h : s.Reaches format level blockBytes) (hf : s.enc.finished = false) {input : List Byte} {room : Nat} {finish : Bool} {res : StreamResult} {e : Enc}
    (hp : s.enc.process input room finish = .ok (res, e)) (hd : res.status = .done) : res.produced.length < room := by
  obtain ⟨e', rest, out, g, hh, k⟩ := process_eq h.inv.1 hf input room finish
  rw [k] at hp
  obtain ⟨rfl, rfl⟩ := Prod.mk.inj (Except.ok.inj hp)
  dsimp only at hd ⊢
  apply g.done
  cases hfin : e'.finished with
  | true => rfl
  | false =>
    rw [hfin, if_neg (by decide)] at hd
    split at hd <;> cases hd

/-- **Finding.** "`status` says why the call returned; act on it" (Compression.hpp:78) misleads at the end of a stream: when the last byte fills the output buffer, the call reports
`needInput`, although it was passed `Flush::finish`, has taken everything, and has handed out a complete container. A loop that drains while `needOutput` is reported leaves the encoder
unfinished; the loop of the project's own test (core/test/qa_Compression.cpp:289-291) takes this for an error. -/
theorem encode_needInput_after_finish :
    let c := (Enc.fresh .zlib .fast 2).process [] 8 true
    said c = some ⟨0, [0x78#8, 0x01#8, 0x03#8, 0x00#8, 0x00#8, 0x00#8, 0x00#8, 0x01#8], .needInput⟩ ∧ (next c).finished = false ∧
      decompressSpan 8 [0x78#8, 0x01#8, 0x03#8, 0x00#8, 0x00#8, 0x00#8, 0x00#8, 0x01#8] 0 .zlib = .ok (0, []) ∧
      said ((next c).process [] 1 true) = some ⟨0, [], .done⟩ := by decide +kernel

end Verif.Deflate
