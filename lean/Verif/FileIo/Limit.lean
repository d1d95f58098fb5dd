import Verif.Deflate.StreamProps
/-!
The streaming decoder never hands out more bytes than its bound, whatever it is given.
-/
namespace Verif.Deflate
open Verif.Bytes (Byte)

def IStep.o : IStep → StreamOut
  | .advanced _ _ o => o
  | .stop _ _ _ o => o
  | .fail _ _ _ o => o

def DStep.d : DStep → Dec
  | .advanced d => d
  | .stop _ d => d
  | .fail _ d => d

theorem starve_limit (f : Bool) (s : Inflate) (r : Reader) (o : StreamOut) : (starve f s r o).o.limit = o.limit := by
  unfold starve; split <;> rfl

theorem starveBack_limit (f : Bool) (s : Inflate) (r b : Reader) (o : StreamOut) : (starveBack f s r b o).o.limit = o.limit := by
  unfold starveBack; split <;> rfl

theorem flush_limit (o : StreamOut) : o.flush.limit = o.limit := by
  unfold StreamOut.flush; split <;> rfl

theorem append_limit {o o' : StreamOut} {b : Byte} (h : o.append b = .ok (some o')) : o'.limit = o.limit := by
  unfold StreamOut.append at h
  split at h
  · cases h
  · split at h <;> cases h
    rfl

theorem copyGo_limit (distance : Nat) : ∀ (n : Nat) (o : StreamOut), (StreamOut.copyGo distance n o).2.2.limit = o.limit
  | 0, _ => rfl
  | n + 1, o => by
    unfold StreamOut.copyGo
    split
    · rfl
    · split
      · rfl
      · exact copyGo_limit distance n o
      · rename_i h
        exact (copyGo_limit distance n _).trans (append_limit h)

theorem pendingStep_limit (s : Inflate) (r : Reader) (o : StreamOut) : (pendingStep s r o).o.limit = o.limit := by
  have h : (o.copy s.pendingDistance s.pendingLength).2.2.limit = o.limit := by
    unfold StreamOut.copy; split
    · rfl
    · exact copyGo_limit _ _ _
  unfold pendingStep
  split <;> rename_i e <;> rw [e] at h <;> exact h

theorem inflateStep_limit (s : Inflate) (r : Reader) (o : StreamOut) (f : Bool) : (inflateStep s r o f).o.limit = o.limit := by
  unfold inflateStep
  split
  · exact pendingStep_limit _ _ _
  · split
    · rfl
    · unfold headerStep
      split
      · exact starve_limit _ _ _ _
      · dsimp only
        repeat' split
        all_goals rfl
    · unfold storedLengthStep
      split
      · exact starve_limit _ _ _ _
      · dsimp only
        split <;> rfl
    · unfold storedDataStep
      split
      · split <;> rfl
      · split
        · rfl
        · split
          · exact starve_limit _ _ _ _
          · split
            · rfl
            · rfl
            · rename_i h
              exact append_limit h
    · unfold dynamicHeaderStep
      split
      · exact starve_limit _ _ _ _
      · dsimp only
        split <;> rfl
    · unfold codeLengthsStep
      split
      · split
        · exact starve_limit _ _ _ _
        · split <;> rfl
      · split <;> rfl
    · unfold lengthsStep treesStep
      split
      · split
        · exact starve_limit _ _ _ _
        · rfl
        · rfl
        · split
          · rfl
          · split
            · rfl
            · split
              · exact starveBack_limit _ _ _ _ _
              · split <;> rfl
      · repeat' split
        all_goals rfl
    · unfold symbolStep matchStep
      split
      · exact starve_limit _ _ _ _
      · rfl
      · rfl
      · split
        · split
          · rfl
          · split
            · rfl
            · rfl
            · rename_i h
              exact append_limit h
        · split
          · split <;> rfl
          · split
            · rfl
            · split
              · rfl
              · split
                · exact starveBack_limit _ _ _ _ _
                · split
                  · exact starveBack_limit _ _ _ _ _
                  · rfl
                  · rfl
                  · split
                    · rfl
                    · split
                      · exact starveBack_limit _ _ _ _ _
                      · rfl

theorem inflateGo_limit (f : Bool) : ∀ (n : Nat) (s : Inflate) (r : Reader) (o : StreamOut), (inflateGo f n s r o).o.limit = o.limit
  | 0, _, _, _ => rfl
  | n + 1, s, r, o => by
    have h := inflateStep_limit s r o f
    unfold inflateGo
    split <;> rename_i e <;> rw [e] at h
    · exact (inflateGo_limit f n _ _ _).trans h
    · exact h
    · exact h

theorem byteStep_limit (d : Dec) (f : Bool) (k : Byte → Dec → DStep) (hk : ∀ b d, (k b d).d.out.limit = d.out.limit) :
    (d.byteStep f k).d.out.limit = d.out.limit := by
  unfold Dec.byteStep
  split
  · split <;> rfl
  · exact hk _ _

theorem headerByteStep_limit (d : Dec) (f : Bool) (k : Byte → Dec → DStep) (hk : ∀ b d, (k b d).d.out.limit = d.out.limit) :
    (d.headerByteStep f k).d.out.limit = d.out.limit :=
  byteStep_limit d f _ (fun b _ => hk b _)

theorem inflateWith_limit (d : Dec) (f : Bool) (next : Dec → Dec) (hn : ∀ d, (next d).out.limit = d.out.limit) :
    (d.inflateWith f next).d.out.limit = d.out.limit := by
  have h := inflateGo_limit f (inflateFuel d.reader d.out) d.inflate d.reader d.out
  unfold Dec.inflateWith
  split <;> rename_i e <;> rw [e] at h
  · exact h
  · exact h
  · exact (hn _).trans h
  · exact h

theorem nextOptional_limit (d : Dec) (n : Nat) : (d.nextOptional n).out.limit = d.out.limit := by
  unfold Dec.nextOptional
  repeat' split
  all_goals first | rfl | exact flush_limit _

theorem step_limit (d : Dec) (f : Bool) : (d.step f).d.out.limit = d.out.limit := by
  unfold Dec.step
  split
  · split <;> rfl
  · exact inflateWith_limit _ _ _ fun _ => rfl
  · unfold Dec.zlibHeaderStep
    split
    · split
      · rfl
      · split <;> rfl
    · exact byteStep_limit _ _ _ fun _ _ => rfl
  · unfold Dec.dictionaryStep
    split
    · exact byteStep_limit _ _ _ fun _ _ => rfl
    · rfl
  · exact inflateWith_limit _ _ _ fun _ => rfl
  · unfold Dec.zlibTrailerStep
    split
    · exact byteStep_limit _ _ _ fun _ _ => rfl
    · dsimp only
      split <;> exact flush_limit _
  · unfold Dec.gzipHeaderStep
    split
    · refine headerByteStep_limit _ _ _ fun _ _ => ?_
      split
      · rfl
      · split <;> rfl
    · split
      · rfl
      · dsimp only
        split
        · rfl
        · exact nextOptional_limit _ _
  · unfold Dec.extraLengthStep
    split
    · exact headerByteStep_limit _ _ _ fun _ _ => rfl
    · rfl
  · unfold Dec.extraStep
    split
    · exact headerByteStep_limit _ _ _ fun _ _ => rfl
    · exact nextOptional_limit _ _
  · unfold Dec.stringStep
    refine headerByteStep_limit _ _ _ fun _ _ => ?_
    split
    · exact nextOptional_limit _ _
    · rfl
  · unfold Dec.stringStep
    refine headerByteStep_limit _ _ _ fun _ _ => ?_
    split
    · exact nextOptional_limit _ _
    · rfl
  · unfold Dec.headerCrcStep
    split
    · exact byteStep_limit _ _ _ fun _ _ => rfl
    · split
      · rfl
      · exact flush_limit _
  · exact inflateWith_limit _ _ _ fun _ => rfl
  · unfold Dec.gzipTrailerStep
    split
    · exact byteStep_limit _ _ _ fun _ _ => rfl
    · dsimp only
      split
      · exact flush_limit _
      · split <;> exact flush_limit _
  · split
    · split <;> rfl
    · rfl

theorem stepGo_limit (f : Bool) : ∀ (n : Nat) (d : Dec), (Dec.stepGo f n d).d.out.limit = d.out.limit
  | 0, _ => rfl
  | n + 1, d => by
    have h := step_limit d f
    unfold Dec.stepGo
    split <;> rename_i e <;> rw [e] at h
    · exact (stepGo_limit f n _).trans h
    · exact h
    · exact h

theorem process_limit (d : Dec) (input : List Byte) (room : Nat) (f : Bool) : (d.process input room f).2.out.limit = d.out.limit := by
  have h := stepGo_limit f (d.begin input room).fuel (d.begin input room)
  have h' : (d.process input room f).2 = ((d.begin input room).stepGo f (d.begin input room).fuel).d.release := by
    unfold Dec.process
    show (Prod.snd (α := Except Fail StreamResult) (β := Dec) _) = _
    dsimp only
    have e : ({ d with reader := d.reader.setInput input, out := d.out.setTarget room } : Dec) = d.begin input room := rfl
    rw [e]
    cases (d.begin input room).stepGo f (d.begin input room).fuel <;> rfl
  rw [h']
  exact (flush_limit _).trans h

/-- What a session produced stays within the bound. -/
theorem Session.Reaches.limit {format : Format} {limit : Nat} {S : List Byte} {s : Session} (h : s.Reaches format limit S) :
    s.dec.out.limit = limit ∧ s.output.length ≤ limit := by
  have hl : s.dec.out.limit = limit := by
    induction h with
    | start => rfl
    | @call s res d offered room finish _ _ e ih =>
      have := process_limit s.dec (s.rest.take offered) room finish
      rw [e] at this
      exact this.trans ih
  refine ⟨hl, ?_⟩
  obtain ⟨o, ⟨T, pre, hb⟩, ho, _⟩ := h.inv 0
  obtain ⟨hI, _⟩ := hb [] s.rest 0 rfl
  have h1 := hI.out.limit
  have h2 := hI.out.le
  rw [ho] at h2
  have h3 : (s.dec.begin [] 0).out.limit = s.dec.out.limit := rfl
  omega

/-- A call in a session that got no error: an error that the one-shot decoder reports too, or a result. -/
theorem Session.Reaches.process {format : Format} {limit : Nat} {S : List Byte} {s : Session} (h : s.Reaches format limit S) (offered room : Nat)
    (finish : Bool) (hf : finish = true → s.rest.length ≤ offered) :
    (∃ e d, s.dec.process (s.rest.take offered) room finish = (.error e, d) ∧ ∀ D, ¬ OneShot 0 S limit format D) ∨
    ∃ res d, s.dec.process (s.rest.take offered) room finish = (.ok res, d) ∧
      Session.Reaches format limit S ⟨d, s.rest.drop res.consumed, s.output ++ res.produced⟩ ∧ res.consumed ≤ (s.rest.take offered).length ∧
      (res.status = .needInput → finish = false) ∧ (res.status = .needOutput → res.produced.length = room) ∧
      (res.status = .done → d.finished = true ∧ res.consumed = (s.rest.take offered).length) := by
  obtain ⟨o, hb, ho, _⟩ := h.inv 0
  have hc := process_ok hb offered room finish hf
  have hr := fun res d => Session.Reaches.call (res := res) (d := d) offered room finish h hf
  generalize s.dec.process (s.rest.take offered) room finish = y at hc hr
  cases hc with
  | @fail x d' k => exact .inl ⟨_, _, rfl, k⟩
  | @ok res d' o' a1 a2 a3 a4 a5 a6 a7 a8 a9 a10 =>
    exact .inr ⟨res, d', rfl, hr res d' rfl, a2, fun h => (a9 h).1, fun h => (a10 h).1, fun h => ⟨a6.1 h, a7 h⟩⟩

end Verif.Deflate
