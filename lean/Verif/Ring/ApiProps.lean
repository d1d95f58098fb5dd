import Verif.Ring.ApiModel
import Verif.Ring.Lemmas
/-!
# Properties of reservation, publication and consumption requests (C05, C06)
-/
namespace Verif.Ring.Api

/-! ## Specification -/

/-- the amounts requested by `publish` calls. -/
def requested : List WOp → List Nat
  | [] => []
  | .publish k :: os => k :: requested os
  | _ :: os => requested os

/-- what a span of `n` must publish: the sum of the requests, or what the release policy says if there was none. -/
def mustPublish (policy : Policy) (n : Nat) (ks : List Nat) : Option Nat :=
  if ks ≠ [] then some ks.sum
  else match policy with
    | .terminate => none
    | .processAll => some n
    | .processNone => some 0

/-- the plain life of a span: it is copied, published through, its copies are destroyed. -/
def plain : WOp → Bool
  | .copy | .publish _ | .drop => true
  | _ => false

/-- a writer between two spans. -/
structure Idle (w : Writer) : Prop where
  inst : w.inst = 0
  span : w.spanLen = 0
  res : w.reserve = w.pub
  off : w.offset = w.pub

/-! ## C05 -/

theorem run_plain (policy : Policy) (n : Nat) : ∀ (ops : List WOp) (w w' : Writer), (∀ o ∈ ops, plain o) → 0 < w.inst → w.spanLen = n →
    w.req.getD 0 ≤ n → w.run policy ops = some w' → w'.inst = 0 →
    ∃ k, (if w.req.isSome ∨ requested ops ≠ [] then some (w.req.getD 0 + (requested ops).sum) else mustPublish policy n []) = some k ∧ k ≤ n ∧
      w'.pub = w.offset + k ∧ w'.reserve = w'.pub ∧ w'.offset = w'.pub ∧ w'.spanLen = 0 ∧ w'.size = w.size ∧ w'.minReader = w.minReader := by
  intro ops
  induction ops with
  | nil => intro w w' _ hi _ _ hr h0; simp [Writer.run] at hr; subst hr; omega
  | cons o os ih =>
    intro w w' hp hi hn hq hr h0
    have hpo := hp o List.mem_cons_self
    have hpos := fun o' ho' => hp o' (List.mem_cons_of_mem _ ho')
    simp only [Writer.run, Writer.op, if_neg (by omega : ¬ w.inst = 0)] at hr
    cases o with
    | copy =>
      simp only [Option.bind_some] at hr
      exact ih { w with inst := w.inst + 1 } w' hpos (by dsimp only; omega) hn hq hr h0
    | assign => simp [plain] at hpo
    | reserve m => simp [plain] at hpo
    | publish k =>
      simp only [Writer.publish] at hr
      split at hr
      · next hk =>
        simp only [Option.bind_some] at hr
        have hh := fun a b c => ih _ w' hpos a b c hr h0
        obtain ⟨j, h1, h2⟩ := hh (by dsimp only; omega) (by dsimp only; omega) (by dsimp only [Option.getD_some]; omega)
        refine ⟨j, ?_, h2⟩
        simp only [Option.isSome_some, true_or, ↓reduceIte, Option.getD_some] at h1
        simp only [requested, ne_eq, reduceCtorEq, not_false_eq_true, or_true, ↓reduceIte, List.sum_cons]
        rw [← h1]; congr 1; omega
      · simp at hr
    | drop =>
      simp only [Writer.drop] at hr
      by_cases hl : w.inst - 1 = 0
      · rw [if_neg (by simpa using hl)] at hr
        have fin : ∀ (v : Writer), v.inst = 0 → v.run policy os = some w' → os = [] ∧ w' = v := by
          intro v hv hr
          cases os with
          | nil => simp [Writer.run] at hr; exact ⟨rfl, hr.symm⟩
          | cons o' os' => simp [Writer.run, Writer.op, hv] at hr
        cases hreq : w.req with
        | some q =>
          rw [hreq] at hr
          simp only [Option.bind_some] at hr
          obtain ⟨rfl, rfl⟩ := fin _ (by simp [Writer.flush]; exact hl) hr
          refine ⟨q, by simp [requested], by rw [hreq] at hq; exact hq, ?_⟩
          simp [Writer.flush, hreq]
        | none =>
          rw [hreq] at hr
          cases policy with
          | terminate => simp at hr
          | processAll =>
            simp [Writer.publish, hreq] at hr
            obtain ⟨rfl, rfl⟩ := fin _ (by simp [Writer.flush]; exact hl) hr
            exact ⟨n, by simp [requested, mustPublish], Nat.le_refl _, by simp [Writer.flush, hn]⟩
          | processNone =>
            simp [Writer.publish, hreq] at hr
            obtain ⟨rfl, rfl⟩ := fin _ (by simp [Writer.flush]; exact hl) hr
            exact ⟨0, by simp [requested, mustPublish], Nat.zero_le _, by simp [Writer.flush]⟩
      · rw [if_pos (by simpa using hl)] at hr
        simp only [Option.bind_some] at hr
        exact ih { w with inst := w.inst - 1 } w' hpos (by dsimp only; omega) hn hq hr h0

/-- **C05** A reservation of `n` slots that goes through any life — copies, publish requests, destruction of the copies in any
order — and ends without tripping an assertion publishes exactly the sum of the requests, or what the release policy says if
there was none; the rest is free again: the next reservation starts right behind the published samples. -/
theorem span_publishes_exactly (policy : Policy) (w w1 w' : Writer) (n : Nat) (ops : List WOp) (hidle : Idle w) (hn : 0 < n)
    (hres : w.tryReserve n = some w1) (hgot : w1.spanLen = n) (hops : ∀ o ∈ ops, plain o) (hrun : w1.run policy ops = some w') (hend : w'.inst = 0) :
    ∃ k, mustPublish policy n (requested ops) = some k ∧ k ≤ n ∧ w'.pub = w.pub + k ∧ Idle w' ∧ w'.size = w.size ∧ w'.minReader = w.minReader := by
  obtain ⟨i1, i2, i3, i4⟩ := hidle
  simp only [Writer.tryReserve, i2, ne_eq, not_true_eq_false, false_and, ↓reduceIte] at hres
  rw [if_neg (by omega)] at hres
  split at hres
  · cases hres
  split at hres
  · cases hres; simp at hgot; omega
  cases hres
  obtain ⟨k, h1, h2, h3, h4, h5, h6, h7, h8⟩ := run_plain policy n ops _ w' hops (by dsimp only; omega) rfl (by simp) hrun hend
  refine ⟨k, ?_, h2, ?_, ⟨hend, h6, h4, h5⟩, h7, h8⟩
  · unfold mustPublish at h1 ⊢
    by_cases hr : requested ops = []
    · simpa [hr] using h1
    · simpa [hr] using h1
  · rw [h3]; simp; omega

/-- **C05** An empty reservation — nothing asked for, or not enough space — leaves the published position alone. -/
theorem empty_span_publishes_nothing (policy : Policy) (hpol : policy ≠ .terminate) (w w1 w' : Writer) (n : Nat) (hidle : Idle w)
    (hres : w.tryReserve n = some w1) (hgot : w1.spanLen = 0) (hrun : w1.run policy [.drop] = some w') :
    w'.pub = w.pub ∧ w'.reserve = w.pub ∧ w'.inst = 0 := by
  obtain ⟨i1, i2, i3, i4⟩ := hidle
  simp only [Writer.tryReserve, i2, ne_eq, not_true_eq_false, false_and, ↓reduceIte] at hres
  have : w1 = { w with req := none, inst := w.inst + 1 } := by
    split at hres
    · cases hres; rw [i2]
    · split at hres
      · cases hres
      split at hres
      · cases hres; rw [i2]
      · cases hres; simp at hgot; omega
  subst this
  simp [Writer.run, Writer.op, Writer.drop, i1] at hrun
  cases policy with
  | terminate => exact absurd rfl hpol
  | processAll => simp [Writer.publish, Writer.flush] at hrun; subst hrun; simp [i4, i2]
  | processNone => simp [Writer.publish, Writer.flush] at hrun; subst hrun; simp [i4]

/-- **C05** The slots not published are available to the next reservation: it succeeds exactly up to
`size - (published - slowest reader)`. -/
theorem reserve_after_release (w w1 : Writer) (n : Nat) (hidle : Idle w) (hs64 : w.size < 2 ^ 64) (hmin : w.minReader ≤ w.pub)
    (hfull : w.pub ≤ w.minReader + w.size) (hn : 0 < n) (hres : w.tryReserve n = some w1) :
    w1.spanLen = n ∧ w1.offset = w.pub ↔ n ≤ w.size - (w.pub - w.minReader) := by
  obtain ⟨i1, i2, i3, i4⟩ := hidle
  simp only [Writer.tryReserve, i2, ne_eq, not_true_eq_false, false_and, ↓reduceIte] at hres
  rw [if_neg (by omega), i3, Verif.Ring.capacity_eq hs64 hmin hfull] at hres
  split at hres
  · cases hres
  split at hres
  · cases hres; simp [i2]; omega
  · cases hres; simp; omega

def w0 : Writer := ⟨8, 3, 5, 5, 5, 0, some 0, 0⟩

/-- 6 slots reserved, two publish requests, a copy: 3 samples published -/
example : Idle w0 ∧ (w0.tryReserve 6).map (·.spanLen) = some 6 ∧
    ((w0.tryReserve 6).bind fun w => w.run .processNone [.copy, .publish 1, .drop, .publish 2, .drop]).map (fun w => (w.pub, w.inst, w.reserve)) = some (8, 0, 8) ∧
    ((w0.tryReserve 6).bind fun w => w.run .processAll [.copy, .drop, .drop]).map (·.pub) = some 11 ∧
    ((w0.tryReserve 6).bind fun w => w.run .processNone [.copy, .drop, .drop]).map (·.pub) = some 5 ∧
    ((w0.tryReserve 6).bind fun w => w.run .terminate [.drop]) = none ∧
    ((w0.tryReserve 6).bind fun w => w.run .processNone [.publish 7]) = none :=
  ⟨⟨rfl, rfl, rfl, rfl⟩, by decide, by decide, by decide, by decide, by decide, by decide⟩

/-! ### Where it fails -/

/-- **C05 (negative)** Reserving again while a span with a pending publish request is still alive: the request (1 sample) is
forgotten and slots the producer never published (2 of the first reservation) become visible. -/
theorem second_reserve_exposes_unpublished :
    ((w0.tryReserve 3).bind fun w => w.run .processNone [.publish 1, .reserve 2, .publish 2, .drop, .drop]).map (·.pub) = some (w0.pub + 5) := by decide

/-- **C05 (negative)** Copy-assigning a span to another copy of it counts one copy too many: after both are destroyed nothing is
published, and nor is anything a later span of this writer publishes. -/
theorem assigned_span_never_publishes :
    ((w0.tryReserve 3).bind fun w => w.run .processNone [.copy, .assign, .publish 3, .drop, .drop]).map (·.pub) = some w0.pub ∧
    ((w0.tryReserve 3).bind fun w => (w.run .processNone [.copy, .assign, .publish 3, .drop, .drop]).bind fun w =>
      (w.tryReserve 1).bind fun w => w.run .processNone [.publish 1, .drop]).map (·.pub) = some w0.pub := by decide

/-- **C05 (negative)** A writer created when samples have already been published (for instance after the first writer was
destroyed) starts with offset 0: an empty reservation through it moves the published position back to 0, behind the readers. -/
theorem fresh_writer_rewinds :
    (((Writer.fresh 8 5 5).tryReserve 0).bind fun w => w.run .processNone [.drop]).map (fun w => (w.pub, w.reserve)) = some (0, 0) ∧
    (((Writer.fresh 8 5 0).tryReserve 4).bind fun w => w.run .processAll [.drop]).map (fun w => (w.pub, w.reserve)) = some (0, 0) := by decide

/-! ## C06 -/

/-- operations other than copy assignment and unchecked consumption. -/
def rplain : ROp → Bool
  | .assign | .tryConsumeUnchecked _ => false
  | _ => true

structure RInv (r : Reader) : Prop where
  le : r.cursor ≤ r.pub
  live : 0 < r.inst → ∃ f, r.first = some f ∧ f ≤ r.available
  dead : r.inst = 0 → r.first = none ∧ r.req = none
  req : ∀ k, r.req = some k → k ≤ r.available

theorem rinv_fresh (p : Nat) : RInv (Reader.fresh p) :=
  ⟨Nat.le_refl _, fun h => by simp [Reader.fresh] at h, fun _ => ⟨rfl, rfl⟩, fun k h => by simp [Reader.fresh] at h⟩

theorem rinv_op {r r' : Reader} (h : RInv r) (o : ROp) (ho : rplain o) (hr : r.op o = some r') : RInv r' := by
  obtain ⟨h1, h2, h3, h4⟩ := h
  cases o with
  | assign => simp [rplain] at ho
  | tryConsumeUnchecked k => simp [rplain] at ho
  | publish k =>
    simp only [Reader.op, Option.some.injEq] at hr; subst hr
    refine ⟨by dsimp only; omega, ?_, h3, ?_⟩
    · intro hi; obtain ⟨f, e, hf⟩ := h2 hi
      exact ⟨f, e, by simp [Reader.available] at *; omega⟩
    · intro q hq; have := h4 q hq; simp [Reader.available] at *; omega
  | copy =>
    simp only [Reader.op] at hr
    split at hr
    · cases hr
    · cases hr
      exact ⟨h1, fun _ => h2 (by omega), fun hi => by simp at hi, h4⟩
  | get n =>
    simp only [Reader.op, Reader.get] at hr
    split at hr
    · cases hr
    next hq =>
    simp only [Option.not_isSome_iff_eq_none] at hq
    have hreq : ∀ (q : Nat), r.req = some q → q ≤ r.available := h4
    cases n with
    | some n =>
      dsimp only at hr
      split at hr
      · next hn =>
        cases hf : r.first with
        | none => rw [hf] at hr; cases hr; exact ⟨h1, fun _ => ⟨n, rfl, hn⟩, fun hi => by simp at hi, h4⟩
        | some f =>
          rw [hf] at hr; cases hr
          refine ⟨h1, fun _ => ?_, fun hi => by simp at hi, h4⟩
          rcases Nat.eq_zero_or_pos r.inst with h0 | h0
          · have := (h3 h0).1; rw [hf] at this; cases this
          · obtain ⟨f', e, hf'⟩ := h2 h0; rw [hf] at e; cases e; exact ⟨f, rfl, hf'⟩
      · cases hr
    | none =>
      dsimp only at hr
      cases hf : r.first with
      | none => rw [hf] at hr; cases hr; exact ⟨h1, fun _ => ⟨_, rfl, Nat.le_refl _⟩, fun hi => by simp at hi, h4⟩
      | some f =>
        rw [hf] at hr; cases hr
        refine ⟨h1, fun _ => ?_, fun hi => by simp at hi, h4⟩
        rcases Nat.eq_zero_or_pos r.inst with h0 | h0
        · have := (h3 h0).1; rw [hf] at this; cases this
        · obtain ⟨f', e, hf'⟩ := h2 h0; rw [hf] at e; cases e; exact ⟨f, rfl, hf'⟩
  | tryConsume k =>
    simp only [Reader.op] at hr
    split at hr
    · cases hr
    · next hi =>
      obtain ⟨f, e, hf⟩ := h2 (by omega)
      simp only [Reader.tryConsume, e] at hr
      split at hr
      · cases hr; exact ⟨h1, h2, h3, h4⟩
      · split at hr
        · cases hr; exact ⟨h1, h2, h3, h4⟩
        · next hk =>
          cases hr
          refine ⟨h1, fun _ => ⟨f, rfl, hf⟩, fun h => absurd h hi, ?_⟩
          intro q hq; cases hq
          simp only [Reader.available] at *; omega
  | drop p =>
    simp only [Reader.op] at hr
    split at hr
    · cases hr
    next hi =>
    obtain ⟨f, e, hf⟩ := h2 (by omega)
    simp only [Reader.drop] at hr
    split at hr
    · next hl =>
      cases hr
      exact ⟨h1, fun _ => h2 (by omega), fun h => absurd h hl, h4⟩
    · next hl =>
      have hl : r.inst - 1 = 0 := by simpa using hl
      have pf : ∀ (b : Bool) (k : Nat), k ≤ r.available → RInv (Reader.perform b { r with inst := r.inst - 1 } k) := by
        intro b k hk
        simp only [Reader.perform]
        split
        · exact ⟨h1, fun h => by simp [hl] at h, fun _ => ⟨rfl, rfl⟩, fun q hq => by cases hq⟩
        · split
          · exact ⟨h1, fun h => by simp [hl] at h, fun _ => ⟨rfl, rfl⟩, fun q hq => by cases hq⟩
          · refine ⟨?_, fun h => by simp [hl] at h, fun _ => ⟨rfl, rfl⟩, fun q hq => by cases hq⟩
            simp only [Reader.available] at *; omega
      cases hq : r.req with
      | some k => rw [hq] at hr; cases hr; exact pf false k (h4 k hq)
      | none =>
        rw [hq] at hr
        cases p with
        | terminate => cases hr
        | processAll => cases hr; simp only [e, Option.getD_some]; have := pf true f hf; rw [e, hq] at this; exact this
        | processNone => cases hr; have := pf true 0 (Nat.zero_le _); rw [e, hq] at this; rw [e]; exact this

theorem rinv_run : ∀ (ops : List ROp) {r r' : Reader}, RInv r → (∀ o ∈ ops, rplain o) → r.run ops = some r' → RInv r' := by
  intro ops
  induction ops with
  | nil => intro r r' h _ hr; simp [Reader.run] at hr; exact hr ▸ h
  | cons o os ih =>
    intro r r' h hp hr
    simp only [Reader.run] at hr
    cases ho : r.op o with
    | none => rw [ho] at hr; cases hr
    | some r1 =>
      rw [ho] at hr
      exact ih (rinv_op h o (hp o List.mem_cons_self) ho) (fun o' h' => hp o' (List.mem_cons_of_mem _ h')) hr

/-- states of a reader after any history of publications, gets, copies, consume requests and span destructions. -/
def Reachable (r : Reader) : Prop := ∃ p ops, (∀ o ∈ ops, rplain o) ∧ (Reader.fresh p).run ops = some r

theorem Reachable.inv {r : Reader} (h : Reachable r) : RInv r := by
  obtain ⟨p, ops, h1, h2⟩ := h
  exact rinv_run ops (rinv_fresh p) h1 h2

/-- **C06** The reader is never past the published position. -/
theorem reader_never_past_published {r : Reader} (h : Reachable r) : r.cursor ≤ r.pub := h.inv.le

/-- **C06** On a live span, a consume request is accepted exactly if it is the first accepted one of that span and does not ask
for more than is published; a rejected request has no effect, an accepted one does not move the reader yet. -/
theorem consume_accepted_iff {r : Reader} (h : Reachable r) (hlive : 0 < r.inst) (k : Nat) :
    ((r.tryConsume k).2 = true ↔ r.req = none ∧ k ≤ r.pub - r.cursor) ∧
    ((r.tryConsume k).2 = false → (r.tryConsume k).1 = r) ∧
    ((r.tryConsume k).2 = true → (r.tryConsume k).1 = { r with req := some k }) := by
  obtain ⟨f, e, hf⟩ := h.inv.live hlive
  simp only [Reader.available] at hf
  simp only [Reader.tryConsume, e, Reader.available]
  cases hq : r.req with
  | some q => simp
  | none =>
    simp only [Option.isSome_none, Bool.false_eq_true, ↓reduceIte]
    split
    · exact ⟨by simp; omega, by simp, by simp⟩
    · exact ⟨by simp; omega, by simp, by simp⟩

/-- what destroying the last copy of the reader's span consumes. -/
def mustConsume (policy : Policy) (r : Reader) : Option Nat :=
  match r.req with
  | some k => some k
  | none =>
    match policy with
    | .terminate => none
    | .processAll => r.first
    | .processNone => some 0

/-- **C06** The reader moves only when the last copy of its span is destroyed, and then by exactly the accepted request — or,
without one, by the whole first span (`ProcessAll`) or not at all (`ProcessNone`); afterwards no span and no request is left. -/
theorem drop_moves_exactly {r r' : Reader} (h : Reachable r) (policy : Policy) (hr : r.op (.drop policy) = some r') :
    (r.inst = 1 → ∃ k, mustConsume policy r = some k ∧ k ≤ r.pub - r.cursor ∧ r'.cursor = r.cursor + k ∧ r'.req = none ∧ r'.first = none ∧ r'.inst = 0) ∧
    (r.inst ≠ 1 → r' = { r with inst := r.inst - 1 }) := by
  have hI := h.inv
  simp only [Reader.op] at hr
  split at hr
  · cases hr
  next hi =>
  obtain ⟨f, e, hf⟩ := hI.live (by omega)
  simp only [Reader.available] at hf
  simp only [Reader.drop] at hr
  refine ⟨fun h1 => ?_, fun h1 => ?_⟩
  · rw [if_neg (by simp [h1])] at hr
    unfold mustConsume
    cases hq : r.req with
    | some k =>
      rw [hq] at hr; cases hr
      refine ⟨k, rfl, hI.req k hq, ?_⟩
      simp [Reader.perform, h1]
    | none =>
      rw [hq] at hr
      cases policy with
      | terminate => cases hr
      | processAll =>
        cases hr
        refine ⟨f, e, hf, ?_⟩
        simp only [e, Option.getD_some, Reader.perform, Reader.available, true_and]
        split
        · next h0 => subst h0; simp [h1]
        · rw [if_neg (by omega)]; simp [h1]
      | processNone =>
        cases hr
        exact ⟨0, rfl, Nat.zero_le _, by simp [Reader.perform, h1]⟩
  · rw [if_pos (by omega)] at hr
    cases hr; rfl

/-- **C06** Nothing but destroying the last copy of a span moves the reader. -/
theorem only_drop_moves {r r' : Reader} (o : ROp) (hr : r.op o = some r') (ho : ∀ p, o ≠ .drop p) : r'.cursor = r.cursor := by
  cases o with
  | drop p => exact absurd rfl (ho p)
  | publish k => cases hr; rfl
  | copy => simp only [Reader.op] at hr; split at hr <;> cases hr; rfl
  | assign => simp only [Reader.op] at hr; split at hr <;> cases hr; rfl
  | tryConsume k =>
    simp only [Reader.op] at hr; split at hr <;> cases hr
    simp only [Reader.tryConsume]; split
    · rfl
    · split
      · split <;> rfl
      · rfl
  | tryConsumeUnchecked k =>
    simp only [Reader.op] at hr; split at hr <;> cases hr
    simp only [Reader.tryConsumeUnchecked]; split <;> rfl
  | get n =>
    simp only [Reader.op, Reader.get] at hr
    (repeat' split at hr) <;> cases hr <;> rfl

/-- **C06** A span opened inside another one (for instance by a block's tag handling) is never longer than the first, and
`get()` alone returns everything published. -/
theorem get_length {r r' : Reader} {n : Nat} (h : Reachable r) (req : Option Nat) (hr : r.get req = some (r', n)) :
    n ≤ r.pub - r.cursor ∧ (r.inst = 0 → req = none → n = r.pub - r.cursor) ∧ (∀ f, r.first = some f → n ≤ f) := by
  have hI := h.inv
  show n ≤ r.available ∧ (r.inst = 0 → req = none → n = r.available) ∧ _
  simp only [Reader.get] at hr
  split at hr
  · cases hr
  cases req with
  | some m =>
    dsimp only at hr
    by_cases hm : m ≤ r.available
    · rw [if_pos hm] at hr
      cases hf : r.first with
      | none => rw [hf] at hr; cases hr; exact ⟨by assumption, fun _ e => (by cases e), fun f e => (by cases e)⟩
      | some f =>
        rw [hf] at hr; cases hr
        exact ⟨by omega, fun _ e => (by cases e), fun f' e => by cases e; omega⟩
    · rw [if_neg hm] at hr; cases hr
  | none =>
    dsimp only at hr
    cases hf : r.first with
    | none => rw [hf] at hr; cases hr; exact ⟨Nat.le_refl _, fun _ _ => rfl, fun f e => (by cases e)⟩
    | some f =>
      rw [hf] at hr; cases hr
      exact ⟨by omega, fun h0 _ => (by have := (hI.dead h0).1; rw [hf] at this; cases this), fun f' e => by cases e; omega⟩

/-- a reachable reader with a nested span and a pending request -/
example : ∃ r, Reachable r ∧ r = ⟨9, 4, some 5, some 3, 2, 0⟩ ∧ (r.tryConsume 1).2 = false ∧ r.op (.drop .processNone) = some { r with inst := 1 } :=
  ⟨_, ⟨4, [.publish 5, .get none, .get (some 2), .tryConsume 6, .tryConsume 3], by decide, rfl⟩, rfl, by decide, by decide⟩

/-! ### Where it fails -/

/-- **C06 (negative)** Copy-assigning a reader span: after both copies are gone the accepted request is never carried out. -/
theorem assigned_span_never_consumes :
    ((Reader.fresh 0).run [.publish 5, .get none, .copy, .assign, .tryConsume 3, .drop .processNone, .drop .processNone]).map
      (fun r => (r.cursor, r.inst, r.req)) = some (0, 1, some 3) := by decide

/-- **C06 (negative)** The unchecked request `tryConsume<false>` moves the reader past the published position. -/
theorem unchecked_consume_passes_published :
    ((Reader.fresh 0).run [.publish 5, .get none, .tryConsumeUnchecked 8, .drop .processNone]).map (fun r => (r.cursor, r.pub)) = some (8, 5) := by decide

end Verif.Ring.Api
