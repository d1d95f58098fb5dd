import Verif.Chunk.BufferLemmas
/-!
# C26 — serialised tags stay intact until every reader has passed them
-/
namespace Verif.Chunk

/-- **C26.** After any history of reservations, stores, publications, reader attach/detach/consume steps, house-keeping
passes and writes by other owners of memory: whatever a reader can still see is stored in a chunk the buffer owns, and the
bytes found there are the bytes that were stored. -/
theorem readable_blob_is_intact {cb : Nat} (hcb : headerBytes ≤ cb) {s : Sys} (h : SReach cb s) {p : Nat} {d : Desc}
    (hr : s.readable p d) : d.place.addr ∈ s.buf.owned ∧ s.bytesAt d.place = d.blob := by
  have hp := (sinv_reach hcb h).live p d (Or.inl hr)
  refine ⟨hp.owned, ?_⟩
  refine List.ext_getElem (by simp [Sys.bytesAt, hp.len]) ?_
  intro j h1 h2
  simp only [Sys.bytesAt, List.getElem_map, List.getElem_range]
  rw [hp.bytes j h2]
  simp [h2]

/-- **C26 (release).** A chunk given back by house-keeping holds no blob that a reader can still see. -/
theorem released_chunk_is_consumed {cb : Nat} (hcb : headerBytes ≤ cb) {s : Sys} (h : SReach cb s) (m : Nat)
    (hok : (Op.houseKeeping m).ok s) (a : Nat) (hgone : a ∉ (s.step (.houseKeeping m)).buf.owned) {p : Nat} {d : Desc}
    (hr : s.readable p d) : d.place.addr ≠ a := by
  have h' := SReach.step (.houseKeeping m) h hok
  have := (readable_blob_is_intact hcb h' (p := p) (d := d) hr).1
  exact fun e => hgone (e ▸ this)

/-- **C26 (no write outside a chunk).** A blob is stored behind the header and inside the chunk. -/
theorem stored_blob_is_inside_chunk {cb : Nat} (hcb : headerBytes ≤ cb) {s : Sys} (h : SReach cb s) (i : Nat) (blob : List Nat)
    (answer : Option Nat) (hok : (Op.store i blob answer).ok s) (st : Stored)
    (e : (s.buf.serialise blob (s.pub + i) answer).2 = some st) :
    ∃ hd, (s.buf.serialise blob (s.pub + i) answer).1.head = some hd ∧ st.addr = hd.addr ∧ headerBytes ≤ st.off ∧
      st.off + blob.length ≤ hd.size := by
  have inv := sinv_reach hcb h
  cases he : s.buf.serialise blob (s.pub + i) answer with
  | mk b' r =>
  rw [he] at e; dsimp only at e; subst e
  cases hn : s.buf.needsChunk blob.length with
  | false =>
    obtain ⟨hd, hh, hfit, e'⟩ := serialise_old (answer := answer) (pos := s.pub + i) hn
    rw [he] at e'
    obtain ⟨rfl, e2⟩ := Prod.mk.inj e'
    cases e2
    exact ⟨hd, hh, rfl, (inv.buf.hd hd hh).2.1, hfit⟩
  | true =>
    rw [serialise_new hn] at he
    cases answer with
    | none => dsimp only at he; obtain ⟨_, e2⟩ := Prod.mk.inj he; cases e2
    | some a =>
      dsimp only at he
      obtain ⟨rfl, e2⟩ := Prod.mk.inj he
      cases e2
      exact ⟨_, rfl, rfl, Nat.le_refl _, wanted_ge inv.buf.cb _⟩

/-- **C26 (nothing is kept for ever).** Once every blob that was offered belongs to a published descriptor and house-keeping
sees all readers caught up, the buffer owns no chunk any more. -/
theorem drained_buffer_owns_nothing {cb : Nat} (hcb : headerBytes ≤ cb) {s : Sys} (h : SReach cb s)
    (hatt : s.attempted ≤ s.pub) (hst : s.storedTop ≤ s.pub) : (s.step (.houseKeeping s.pub)).buf.owned = [] := by
  have inv := sinv_reach hcb h
  obtain ⟨r1, r2, r3⟩ := releaseSealed_spec s.pub s.buf.sealed
  have hnil : (releaseSealed s.pub s.buf.sealed).1 = [] := by
    cases hx : (releaseSealed s.pub s.buf.sealed).1 with
    | nil => rfl
    | cons c rest =>
      have h1 := r3 c (by rw [hx]; rfl)
      have h2 := inv.tops.sealedTop c (by rw [← r1, hx]; simp)
      omega
  show (s.buf.houseKeeping s.pub).owned = []
  unfold Buf.houseKeeping
  dsimp only
  rw [hnil]
  split
  · rfl
  · next hc =>
    cases hh : s.buf.head with
    | none => simp [Buf.owned, hh]
    | some hd =>
      exfalso
      have := inv.tops.headTop (by rw [hh]; rfl)
      exact hc ⟨rfl, by simp [hh], by omega⟩

/-- run a list of calls. -/
def Sys.run (s : Sys) (os : List Op) : Sys := os.foldl Sys.step s

/-- every call in the list is permitted when it is made. -/
def okRun : Sys → List Op → Prop
  | _, [] => True
  | s, o :: os => o.ok s ∧ okRun (s.step o) os

theorem reach_run {cb : Nat} {s : Sys} (h : SReach cb s) (os : List Op) (hok : okRun s os) : SReach cb (s.run os) := by
  induction os generalizing s with
  | nil => exact h
  | cons o os ih => exact ih (SReach.step o h hok.1) hok.2

/-- a history: two tags of 20 bytes in 48-byte chunks, so that the second needs a new chunk; the reader has taken the first;
house-keeping frees the first chunk; somebody else overwrites it. -/
def demo : List Op :=
  [.attach, .reserve 2, .store 0 (List.replicate 20 7) (some 100), .store 1 (List.replicate 20 8) (some 101), .publish 2,
   .consume 0 1, .houseKeeping 1, .foreign 100 30 5]

/-- non-vacuity: in that history the second tag is readable, and only its chunk is still owned. -/
example : ∃ s, SReach 48 s ∧ s.readable 1 ⟨⟨101, 24, 20⟩, List.replicate 20 8⟩ ∧ s.buf.owned = [101] := by
  refine ⟨(Sys.init 48 fun _ _ => 0).run demo, reach_run (SReach.init _) _ ?_, ?_, by decide +kernel⟩
  · refine ⟨trivial, rfl, ⟨⟨_, rfl, by decide, by decide⟩, ?_⟩, ⟨⟨_, rfl, by decide, by decide⟩, ?_⟩, ⟨_, rfl, by decide⟩,
      ⟨0, rfl, by decide⟩, ⟨by decide, ?_⟩, ?_, trivial⟩
    · intro a e; cases e; exact List.not_mem_nil
    · intro a e; cases e; decide +kernel
    · intro p hp
      have : p = 1 := by
        have hp : p ∈ [1] := hp
        simpa using hp
      omega
    · show (100 : Nat) ∉ _
      decide +kernel
  · exact ⟨rfl, by decide, 1, by decide +kernel, by decide⟩

/-- **C26 is limited to storing in slot order.** `storeBlob` accepts any slot; storing slot 1 before slot 0 seals the chunk of
slot 1 with the threshold of slot 0, and house-keeping then gives that chunk back while slot 1 is still unread. -/
theorem out_of_order_store_frees_readable_blob :
    let s := (Sys.init 48 fun _ _ => 0).run [.attach, .reserve 2, .store 1 (List.replicate 20 8) (some 100),
      .store 0 (List.replicate 20 7) (some 101), .publish 2, .houseKeeping 0]
    s.readable 1 ⟨⟨100, 24, 20⟩, List.replicate 20 8⟩ ∧ s.buf.owned = [101] := by
  exact ⟨⟨rfl, by decide, 0, by decide +kernel, by decide⟩, by decide +kernel⟩

end Verif.Chunk
