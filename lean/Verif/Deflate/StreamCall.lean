import Verif.Deflate.StreamGzip
/-! # Streaming decoder: calls of `process` -/
namespace Verif.Deflate
open Verif.Bytes (Byte)

variable {W : Nat} {S : List Byte}

/-- the decoder at the begin of a call -/
def Dec.begin (d : Dec) (chunk : List Byte) (room : Nat) : Dec := { d with reader := d.reader.setInput chunk, out := d.out.setTarget room }

/-- what holds between two calls, when `B` is what is left of the stream `S`, and `P D` says that `D` is the output of `S` -/
def Between (W : Nat) (S B : List Byte) (P : List Byte → Prop) (d : Dec) (o : Span) : Prop :=
  ∃ T pre, ∀ chunk fut room, B = chunk ++ fut → DInv S fut chunk o.data (d.begin chunk room) o T pre ∧
    ∀ D, P D ↔ DResumes W S fut (d.begin chunk room) o T pre D

theorem between_next {fut chunk prev : List Byte} {d : Dec} {o : Span} {T : Nat} {pre : List Byte} {P : List Byte → Prop}
    (hI : DInv S fut chunk prev d o T pre) (hP : ∀ D, P D ↔ DResumes W S fut d o T pre D) : Between W S (d.reader.rest ++ fut) P d.release o := by
  refine ⟨T, pre, fun chunk2 fut2 room hB => ?_⟩
  have hlen : d.reader.rest.length + fut.length = chunk2.length + fut2.length := by
    have := congrArg List.length hB
    simpa using this
  have hw := hI.within
  have hfull : (d.reader.setInput chunk2).full fut2 T = d.reader.full fut T := by
    simp only [Reader.full, Reader.setInput, ← hB, hlen]
  have hsuf : chunk2 ++ fut2 <:+ S := hB ▸ hI.suffix
  have hst := hI.state
  refine ⟨⟨⟨hw.acc, hw.count, Nat.zero_le _, rfl⟩, hI.out.nextCall room, hsuf, ?_⟩, fun D => ?_⟩
  · simp only [StateInv, Dec.begin, Dec.release, Reader.setInput] at hst ⊢
    cases e : d.state <;> simp only [e] at hst ⊢ <;> first | exact hst | (rw [hlen] at hst; exact hst)
  · rw [hP]
    have hfull2 : ({ d.reader with rest := [] } : Reader).setInput chunk2 = d.reader.setInput chunk2 := rfl
    have hrest : (d.reader.setInput chunk2).rest = chunk2 := rfl
    simp only [DResumes, Dec.begin, Dec.release, hfull2, hfull, hrest, hB]

theorem between_fresh (format : Format) (limit : Nat) :
    Between W S S (fun D => ∃ n, decompressSpan W S limit format = .ok (n, D)) (.fresh format limit) ⟨[], limit, 0⟩ := by
  refine ⟨S.length, [], fun chunk fut room hB => ?_⟩
  have hlen : S.length = chunk.length + fut.length := by rw [hB, List.length_append]
  have hout : OutRel ((StreamOut.fresh limit).setTarget room) ⟨[], limit, 0⟩ [] := (OutRel.fresh limit).firstCall rfl room
  have hw : (⟨chunk, 0, 0, 0⟩ : Reader).Within chunk := ⟨Nat.lt_succ_self 0, Nat.zero_lt_succ 7, Nat.zero_le _, rfl⟩
  have hfull : (⟨chunk, 0, 0, 0⟩ : Reader).full fut S.length = Reader.new S := by
    rw [Reader.full, hlen, Nat.sub_self, hB]; rfl
  have hspan : ∀ D, (∃ n, decompressSpan W S limit format = .ok (n, D)) ↔ ∃ q, decompressInto W S (⟨[], limit, 0⟩ : Span) format = .ok q ∧ D = q.2.data := by
    intro D
    rw [decompressSpan]
    cases decompressInto W S (⟨[], limit, 0⟩ : Span) format with
    | error e => exact ⟨fun ⟨_, h⟩ => (by cases h), fun ⟨_, h, _⟩ => (by cases h)⟩
    | ok q => exact ⟨fun ⟨_, h⟩ => ⟨q, rfl, by cases h; rfl⟩, fun ⟨_, h, hd⟩ => ⟨q.1, by cases h; rw [hd]⟩⟩
  have hsuf : chunk ++ fut <:+ S := by rw [hB]; exact List.suffix_refl _
  cases format with
  | rawDeflate =>
    refine ⟨⟨hw, hout, hsuf, InflateOk.fresh, by show chunk.length + fut.length ≤ S.length; omega⟩, fun D => ?_⟩
    refine (hspan D).trans (raw_iff.trans ?_)
    show _ ↔ ∃ F, Resumes .fresh ((⟨chunk, 0, 0, 0⟩ : Reader).full fut S.length) ⟨[], limit, 0⟩ F ∧ F.1.rest = [] ∧ D = F.2.data
    rw [hfull]
    exact Iff.rfl
  | zlib =>
    refine ⟨⟨hw, hout, hsuf, rfl, Nat.zero_le _, rfl, rfl⟩, fun D => ?_⟩
    refine (hspan D).trans (zlib_iff.trans ?_)
    show _ ↔ ZHead D [] (chunk ++ fut) ⟨[], limit, 0⟩
    rw [hB]
  | gzip =>
    refine ⟨⟨hw, hout, hsuf, rfl, rfl, rfl, nofun, nofun⟩, fun D => ?_⟩
    refine (hspan D).trans (gzip_iff.trans ?_)
    show _ ↔ GHead (GBody W S D ⟨[], limit, 0⟩) [] (chunk ++ fut)
    rw [hB]

/-- what was written so far is the begin of the output -/
theorem between_prefix {B : List Byte} {P : List Byte → Prop} {d : Dec} {o : Span} {D : List Byte} (hb : Between W S B P d o) (hD : P D) : o.data <+: D := by
  obtain ⟨T, pre, hb⟩ := hb
  obtain ⟨hI, hP⟩ := hb B [] D.length (List.append_nil B).symm
  obtain ⟨h1, h2⟩ := stepGo_ok (W := W) (finish := true) (fun _ => rfl) (d.begin B D.length).fuel _ o T pre hI dMeasure_lt
  generalize (d.begin B D.length).stepGo true (d.begin B D.length).fuel = y at h1 h2
  have hD := (hP D).1 hD
  cases h2 with
  | advanced => exact absurd rfl (h1 _)
  | fail k => exact absurd hD (k D)
  | @stop p d1 o1 T1 pre1 k1 k2 k3 k4 k5 k6 =>
    have hD := (k3 D).1 hD
    have hdata := k1.out.data
    cases p with
    | needInput => exact absurd (k4 rfl).1 (by decide)
    | needOutput =>
      obtain ⟨a, _, b⟩ := k5 rfl
      have hroom : d1.out.room = D.length := k2
      have hlt := b D hD
      simp only [StreamOut.full, decide_eq_true_eq] at a
      rw [hdata, List.length_append] at hlt
      omega
    | finished =>
      simp only [DResumes, (k6 rfl).1] at hD
      rw [hD.2, hdata]
      exact List.prefix_append _ _

/-- the result of a call -/
inductive CallOk (W : Nat) (S B chunk : List Byte) (P : List Byte → Prop) (o : Span) (room : Nat) (finish : Bool) : Except Fail StreamResult × Dec → Prop
  | ok {res d' o'} : Between W S (B.drop res.consumed) P d' o' → res.consumed ≤ chunk.length → o'.data = o.data ++ res.produced → res.produced.length ≤ room →
      (∀ D, P D → o'.data <+: D) →
      (res.status = .done ↔ d'.finished = true) → (res.status = .done → res.consumed = chunk.length) →
      (d'.finished = true → ∀ D, P D ↔ B.drop res.consumed = [] ∧ D = o'.data) →
      (res.status = .needInput → finish = false ∧ chunk.length < res.consumed + 6) →
      (res.status = .needOutput → res.produced.length = room ∧ ∀ D, P D → o'.data.length < D.length) → CallOk W S B chunk P o room finish (.ok res, d')
  | fail {x d'} : (∀ D, ¬ P D) → CallOk W S B chunk P o room finish (.error (.err x), d')

theorem process_ok {B : List Byte} {P : List Byte → Prop} {d : Dec} {o : Span} (hb : Between W S B P d o) (n room : Nat) (finish : Bool)
    (hf : finish = true → B.length ≤ n) :
    CallOk W S B (B.take n) P o room finish (d.process (B.take n) room finish) := by
  obtain ⟨T, pre, hb⟩ := hb
  obtain ⟨hI, hP⟩ := hb (B.take n) (B.drop n) room (List.take_append_drop n B).symm
  have hf' : finish = true → B.drop n = [] := fun h => List.drop_eq_nil_iff.2 (hf h)
  obtain ⟨h1, h2⟩ := stepGo_ok (W := W) hf' (d.begin (B.take n) room).fuel _ o T pre hI dMeasure_lt
  rw [Dec.process]
  show CallOk W S B (B.take n) P o room finish (match (d.begin (B.take n) room).stepGo finish (d.begin (B.take n) room).fuel with
    | .advanced d => (.error .fuel, d.release)
    | .fail e d => (.error e, d.release)
    | .stop p d => (.ok ⟨d.reader.pos, d.out.out, if d.state = .done then .done else if p = .needOutput then .needOutput else .needInput⟩, d.release))
  generalize (d.begin (B.take n) room).stepGo finish (d.begin (B.take n) room).fuel = y at h1 h2 ⊢
  cases h2 with
  | advanced => exact absurd rfl (h1 _)
  | fail k => exact .fail fun D hD => k D ((hP D).1 hD)
  | @stop p d1 o1 T1 pre1 k1 k2 k3 k4 k5 k6 =>
    dsimp only
    have hP1 : ∀ D, P D ↔ DResumes W S (B.drop n) d1 o1 T1 pre1 D := fun D => (hP D).trans (k3 D)
    have hw := k1.within
    have hpos := hw.pos
    have hB : B.drop d1.reader.pos = d1.reader.rest ++ B.drop n := by
      rw [hw.rest]
      conv => lhs; rw [← List.take_append_drop n B]
      rw [List.drop_append_of_le_length hpos]
    have hroom : d1.out.room = room := k2
    have hlen : d1.reader.rest.length = (B.take n).length - d1.reader.pos := by rw [hw.rest, List.length_drop]
    have hst : (if d1.state = .done then Status.done else if p = .needOutput then .needOutput else .needInput) = .done ↔ d1.state = .done := by
      by_cases e : d1.state = .done
      · rw [if_pos e]; exact ⟨fun _ => e, fun _ => rfl⟩
      · rw [if_neg e]
        refine ⟨fun h => ?_, fun h => absurd h e⟩
        split at h <;> cases h
    have hfin : d1.state = .done → d1.reader.rest = [] := by
      intro e
      cases p with
      | needInput => exact absurd e (k4 rfl).2.2
      | needOutput => exact absurd e (k5 rfl).2.1
      | finished => exact (k6 rfl).2
    refine .ok (o' := o1) (by rw [hB]; exact between_next k1 hP1) hpos k1.out.data (by rw [← hroom]; exact k1.out.room) (fun D hD => ?_) ?_ ?_ ?_ ?_ ?_
    · exact between_prefix (between_next k1 hP1) hD
    · rw [hst]
      show _ ↔ decide (d1.state = .done) = true
      rw [decide_eq_true_eq]
    · intro h
      have := hfin (hst.1 h)
      rw [this, List.length_nil] at hlen
      show d1.reader.pos = _
      omega
    · intro h D
      have hd : d1.state = .done := of_decide_eq_true h
      rw [hP1, hB]
      simp only [DResumes, hd]
    · intro h
      cases p with
      | needInput =>
        obtain ⟨a, b, _⟩ := k4 rfl
        refine ⟨a, ?_⟩
        rw [Reader.left] at b
        show _ < d1.reader.pos + 6
        omega
      | needOutput =>
        dsimp only at h
        rw [if_neg (k5 rfl).2.1, if_pos rfl] at h
        cases h
      | finished =>
        dsimp only at h
        rw [if_pos (k6 rfl).1] at h
        cases h
    · intro h
      cases p with
      | needInput =>
        dsimp only at h
        rw [if_neg (k4 rfl).2.2, if_neg nofun] at h
        cases h
      | needOutput =>
        have := (k5 rfl).1
        simp only [StreamOut.full, decide_eq_true_eq] at this
        refine ⟨by rw [← hroom]; exact this, fun D hD => (k5 rfl).2.2 D ((hP1 D).1 hD)⟩
      | finished =>
        dsimp only at h
        rw [if_pos (k6 rfl).1] at h
        cases h

end Verif.Deflate
