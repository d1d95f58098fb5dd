import Verif.Http.Model

/-!
# Property C172: what an HTTP source publishes and what an HTTP sink sends
-/

namespace Verif.Http

/-- The messages that arrived. -/
def arrived : List Event → List Msg
  | [] => []
  | .arrive m :: es => m :: arrived es
  | .call _ :: es => arrived es

/-- The content of messages: bytes that are not empty. -/
def content (ms : List Msg) : List (List UInt8) := ms.filterMap fun m => m.data.bind fun b => if b = [] then none else some b

/-- A message that lets a source go on: bytes, and not the last. -/
def Plain (m : Msg) : Prop := m.data ≠ none ∧ m.final = false

/-- How a source ends, by the last message it took. -/
def Ends (taken : List Msg) : Option Out → Prop
  | none => ∀ m ∈ taken, Plain m
  | some .done => ∃ ms m, taken = ms ++ [m] ∧ (∀ x ∈ ms, Plain x) ∧ m.data ≠ none ∧ m.final = true
  | some .thrown => ∃ ms m, taken = ms ++ [m] ∧ (∀ x ∈ ms, Plain x) ∧ m.data = none
  | some _ => False

theorem content_append (a b : List Msg) : content (a ++ b) = content a ++ content b := List.filterMap_append

theorem source_from (es : List Event) (s : Source) : ∃ taken left,
    s.queue ++ arrived es = taken ++ left ∧ (runSource s es).1.published = s.published ++ content taken ∧ Ends taken (runSource s es).2 ∧
      ((runSource s es).2 = none → left = (runSource s es).1.queue) := by
  induction es generalizing s with
  | nil => exact ⟨[], s.queue, by simp [arrived], by simp [runSource, content], by simp [runSource, Ends], fun _ => rfl⟩
  | cons e es ih =>
    cases e with
    | arrive m =>
      obtain ⟨t, l, h1, h2, h3, h4⟩ := ih { s with queue := s.queue ++ [m] }
      exact ⟨t, l, by simpa [arrived] using h1, h2, h3, h4⟩
    | call room =>
      unfold runSource arrived
      by_cases hr : room = 0
      · simp only [source, hr, if_true]
        exact ih s
      · cases hq : s.queue with
        | nil =>
          simp only [source, hr, if_false, hq]
          have := ih s
          rw [hq] at this
          exact this
        | cons m q =>
          cases hd : m.data with
          | none =>
            simp only [source, hr, if_false, hq, hd]
            exact ⟨[m], q ++ arrived es, by simp, by simp [content, hd], ⟨[], m, by simp, by simp, hd⟩, by simp⟩
          | some bytes =>
            have hc : content [m] = if bytes = [] then [] else [bytes] := by
              by_cases hb : bytes = [] <;> simp [content, hd, hb]
            cases hf : m.final with
            | true =>
              simp only [source, hr, if_false, hq, hd, hf, if_true]
              refine ⟨[m], q ++ arrived es, by simp, ?_, ⟨[], m, by simp, by simp, by simp [hd], hf⟩, by simp⟩
              rw [hc]
              by_cases hb : bytes = [] <;> simp [hb]
            | false =>
              simp only [source, hr, if_false, hq, hd, hf, Bool.false_eq_true]
              obtain ⟨t, l, h1, h2, h3, h4⟩ := ih ⟨q, if bytes = [] then s.published else s.published ++ [bytes]⟩
              have hp : Plain m := ⟨by simp [hd], hf⟩
              refine ⟨m :: t, l, by simpa using h1, ?_, ?_, h4⟩
              · rw [h2, show m :: t = [m] ++ t from rfl, content_append, hc]
                by_cases hb : bytes = [] <;> simp [hb]
              · revert h3
                cases (runSource ⟨q, if bytes = [] then s.published else s.published ++ [bytes]⟩ es).2 with
                | none =>
                  intro h3 x hx
                  rcases List.mem_cons.mp hx with rfl | hx
                  · exact hp
                  · exact h3 x hx
                | some o =>
                  cases o with
                  | done =>
                    rintro ⟨ms, x, e1, e2, e3, e4⟩
                    refine ⟨m :: ms, x, by simp [e1], fun y hy => ?_, e3, e4⟩
                    rcases List.mem_cons.mp hy with rfl | hy
                    · exact hp
                    · exact e2 y hy
                  | thrown =>
                    rintro ⟨ms, x, e1, e2, e3⟩
                    refine ⟨m :: ms, x, by simp [e1], fun y hy => ?_, e3⟩
                    rcases List.mem_cons.mp hy with rfl | hy
                    · exact hp
                    · exact e2 y hy
                  | ok => exact fun h => h
                  | noInput => exact fun h => h
                  | noOutput => exact fun h => h

/-- However messages arrive and the source is called: it has published the content of the first messages, each once and in order; it is done
exactly at the final message, fails exactly at an error, and until then the other messages wait. -/
theorem source_publishes (es : List Event) : ∃ taken left, arrived es = taken ++ left ∧ (runSource {} es).1.published = content taken ∧
    Ends taken (runSource {} es).2 ∧ ((runSource {} es).2 = none → left = (runSource {} es).1.queue) := by
  obtain ⟨t, l, h1, h2, h3, h4⟩ := source_from es {}
  exact ⟨t, l, by simpa using h1, by simpa using h2, h3, h4⟩

example : (runSource {} [.call 1, .arrive ⟨some [1, 2], false⟩, .arrive ⟨some [], false⟩, .call 0, .call 5, .call 1, .arrive ⟨some [3], true⟩, .call 1]).1.published =
    [[1, 2], [3]] := by decide

/-- The calls whose bytes are sent, as a specification: those that find no request under way. -/
def Sends (s : Sink) (c : Call) : Prop := c.bytes ≠ [] ∧ (s.writer = true → c.finished = true ∧ c.result = true) ∧ c.opens = true

/-- A call sends all of its bytes as one request, or nothing. -/
theorem sink_call (s : Sink) (c : Call) :
    (Sends s c → (sink s c).1.posts = s.posts ++ [c.bytes] ∧ (sink s c).2 = .ok ∧ (sink s c).1.writer = true) ∧
    (¬ Sends s c → (sink s c).1.posts = s.posts) := by
  unfold Sends sink post
  by_cases hb : c.bytes = []
  · simp [hb]
  · cases hw : s.writer <;> cases hf : c.finished <;> cases hr : c.result <;> cases ho : c.opens <;> simp [hb]

theorem sink_sub (cs : List Call) (s : Sink) : ∃ l, (runSink s cs).posts = s.posts ++ l ∧ l.Sublist (cs.map (·.bytes)) := by
  induction cs generalizing s with
  | nil => exact ⟨[], by simp [runSink], List.Sublist.refl _⟩
  | cons c cs ih =>
    have hcall : ∃ l, (sink s c).1.posts = s.posts ++ l ∧ l.Sublist [c.bytes] := by
      by_cases h : Sends s c
      · exact ⟨[c.bytes], ((sink_call s c).1 h).1, List.Sublist.refl _⟩
      · exact ⟨[], by simp [(sink_call s c).2 h], by simp⟩
    obtain ⟨l1, e1, s1⟩ := hcall
    have stop : ∃ l, (sink s c).1.posts = s.posts ++ l ∧ l.Sublist ((c :: cs).map (·.bytes)) :=
      ⟨l1, e1, s1.trans (by simp)⟩
    have go : ∃ l, (runSink (sink s c).1 cs).posts = s.posts ++ l ∧ l.Sublist ((c :: cs).map (·.bytes)) := by
      obtain ⟨l2, e2, s2⟩ := ih (sink s c).1
      exact ⟨l1 ++ l2, by rw [e2, e1, List.append_assoc], s1.append s2⟩
    unfold runSink
    cases hs : sink s c with
    | mk s' o =>
      rw [hs] at stop go
      cases o <;> first | exact stop | exact go

/-- The requests are inputs of calls, whole, in order, none twice. -/
theorem sink_order (cs : List Call) : (runSink {} cs).posts.Sublist (cs.map (·.bytes)) := by
  obtain ⟨l, e, h⟩ := sink_sub cs {}
  rw [e]; simpa using h

theorem sink_from (cs : List Call) (s : Sink) (h : ∀ c ∈ cs, c.bytes ≠ [] ∧ c.finished = true ∧ c.result = true ∧ c.opens = true) :
    (runSink s cs).posts = s.posts ++ cs.map (·.bytes) ∧ (runSink s cs).consumed = s.consumed ++ (cs.map (·.bytes)).flatten := by
  induction cs generalizing s with
  | nil => simp [runSink]
  | cons c cs ih =>
    obtain ⟨h1, h2, h3, h4⟩ := h c (by simp)
    have hs : sink s c = (⟨true, s.posts ++ [c.bytes], s.consumed ++ c.bytes⟩, .ok) := by
      unfold sink post
      cases hw : s.writer <;> simp [h1, h2, h3, h4]
    unfold runSink
    rw [hs]
    dsimp only
    obtain ⟨e1, e2⟩ := ih ⟨true, s.posts ++ [c.bytes], s.consumed ++ c.bytes⟩ (fun x hx => h x (by simp [hx]))
    rw [e1, e2]
    simp

/-- Every byte is sent, if every request has finished well when the next call comes. Missing: this for requests that take longer, where it is
false (`busy_lost`). -/
theorem sink_all_partial (cs : List Call) (h : ∀ c ∈ cs, c.bytes ≠ [] ∧ c.finished = true ∧ c.result = true ∧ c.opens = true) :
    (runSink {} cs).posts = cs.map (·.bytes) ∧ (runSink {} cs).posts.flatten = (runSink {} cs).consumed := by
  obtain ⟨e1, e2⟩ := sink_from cs {} h
  rw [e1, e2]
  simp

/-- The finding: while a request is under way, all bytes given to the sink are consumed and not sent, with status `OK`. -/
theorem busy_lost (s : Sink) (c : Call) (hw : s.writer = true) (hb : c.bytes ≠ []) (hf : c.finished = false) :
    (sink s c).2 = .ok ∧ (sink s c).1.posts = s.posts ∧ (sink s c).1.consumed = s.consumed ++ c.bytes ∧ (sink s c).1.writer = true := by
  simp [sink, hw, hb, hf]

/-- With that, consumed bytes are not always those sent. -/
theorem not_all_sent : ¬ ∀ cs : List Call, (runSink {} cs).posts.flatten = (runSink {} cs).consumed := by
  intro h
  have := h [⟨[1, 2], true, true, true⟩, ⟨[3, 4], false, true, true⟩, ⟨[5], true, true, true⟩]
  exact absurd this (by decide)

/-- A failed request is reported at the next call, whose bytes are neither consumed nor sent. -/
theorem failure_reported (s : Sink) (c : Call) (hw : s.writer = true) (hb : c.bytes ≠ []) (hf : c.finished = true) (hr : c.result = false) :
    (sink s c).2 = .thrown ∧ (sink s c).1.posts = s.posts ∧ (sink s c).1.consumed = s.consumed := by
  simp [sink, hw, hb, hf, hr]

example : (runSink {} [⟨[1, 2], true, true, true⟩, ⟨[3, 4], false, true, true⟩, ⟨[5], true, true, true⟩]).posts = [[1, 2], [5]] := by decide

end Verif.Http
