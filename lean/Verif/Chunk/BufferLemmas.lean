import Verif.Chunk.BufferSpec
/-! Helper lemmas for the chunk buffer. -/
namespace Verif.Chunk

structure BInv (b : Buf) : Prop where
  cb : headerBytes ≤ b.chunkBytes
  nodup : b.owned.Nodup
  hd : ∀ h, b.head = some h → h.size = b.headSize ∧ headerBytes ≤ b.headOffset ∧ b.headOffset ≤ h.size

/-- a descriptor at position `p` is backed by memory the buffer owns. -/
structure Placed (b : Buf) (p : Nat) (d : Desc) : Prop where
  off : headerBytes ≤ d.place.off
  len : d.place.len = d.blob.length
  bytes : ∀ j, j < d.blob.length → b.mem d.place.addr (d.place.off + j) = d.blob.getD j 0
  own : (∃ h, b.head = some h ∧ d.place.addr = h.addr ∧ d.place.off + d.place.len ≤ b.headOffset ∧ p ≤ b.headLastWritten) ∨
    (∃ c ∈ b.sealed, d.place.addr = c.addr ∧ p < c.threshold ∧ d.place.off + d.place.len ≤ c.size)

theorem Placed.owned {b : Buf} {p : Nat} {d : Desc} (h : Placed b p d) : d.place.addr ∈ b.owned := by
  rcases h.own with ⟨h, e1, e2, _⟩ | ⟨c, hc, e, _⟩
  · simp [Buf.owned, e1, e2]
  · simp only [Buf.owned, List.mem_append, List.mem_map]; exact Or.inr ⟨c, hc, e.symm⟩

theorem writeHeader_off {mem : Nat → Nat → Nat} {a x o : Nat} (h : headerBytes ≤ o) : writeHeader mem a x o = mem x o := by
  simp only [writeHeader]; rw [if_neg]; omega

theorem sealHead_mem {b : Buf} {h : Block} {t x o : Nat} (ho : headerBytes ≤ o) : (b.sealHead h t).mem x o = b.mem x o := by
  simp only [Buf.sealHead]
  cases b.sealed.getLast? <;> simp only [writeHeader_off ho]

/-- storing where nothing is placed. -/
theorem store_at_end {b : Buf} {h : Block} (hh : b.head = some h) (inv : BInv b) (blob : List Nat) (pos : Nat)
    (hfit : b.headOffset + blob.length ≤ h.size) :
    let b' := { b with mem := writeBlob b.mem h.addr b.headOffset blob, headOffset := b.headOffset + blob.length, headLastWritten := pos }
    BInv b' ∧ (∀ p d, Placed b p d → p ≤ pos → Placed b' p d) ∧ Placed b' pos ⟨⟨h.addr, b.headOffset, blob.length⟩, blob⟩ ∧
      b'.owned = b.owned := by
  obtain ⟨e1, e2, e3⟩ := inv.hd h hh
  refine ⟨⟨inv.cb, inv.nodup, ?_⟩, ?_, ?_, rfl⟩
  · intro h' e
    rw [show _ = some h from hh] at e; cases e
    exact ⟨e1, by dsimp only; omega, hfit⟩
  · intro p d hp hle
    refine ⟨hp.off, hp.len, ?_, ?_⟩
    · intro j hj
      rw [← hp.bytes j hj]
      show writeBlob b.mem h.addr b.headOffset blob d.place.addr (d.place.off + j) = _
      simp only [writeBlob]
      rw [if_neg]
      rintro ⟨ea, el, _⟩
      rcases hp.own with ⟨h', q1, q2, q3, q4⟩ | ⟨c, hc, q1, q2, q3⟩
      · have := hp.len; omega
      · have nd := inv.nodup
        simp only [Buf.owned, hh] at nd
        simp at nd
        exact nd.1 c hc (q1.symm.trans ea)
    · rcases hp.own with ⟨h', q1, q2, q3, q4⟩ | h2
      · exact Or.inl ⟨h', q1, q2, by dsimp only; omega, hle⟩
      · exact Or.inr h2
  · refine ⟨e2, rfl, ?_, Or.inl ⟨h, hh, rfl, Nat.le_refl _, Nat.le_refl _⟩⟩
    intro j hj
    show writeBlob b.mem h.addr b.headOffset blob h.addr (b.headOffset + j) = _
    simp [writeBlob, hj]

/-- the state after the (optional) sealing, before the pool has answered: no head. -/
def Buf.sealed1 (b : Buf) (pos : Nat) : Buf :=
  match b.head with
  | some h => { b.sealHead h pos with head := none }
  | none => b

theorem sealed1_ok {b : Buf} (inv : BInv b) (pos : Nat) :
    BInv (b.sealed1 pos) ∧ (b.sealed1 pos).head = none ∧ (b.sealed1 pos).owned.Perm b.owned ∧
      (b.sealed1 pos).chunkBytes = b.chunkBytes ∧ (∀ p d, Placed b p d → p < pos → Placed (b.sealed1 pos) p d) := by
  unfold Buf.sealed1
  split
  · next h hh =>
    have own : ({ b.sealHead h pos with head := none } : Buf).owned.Perm b.owned := by
      simp only [Buf.owned, Buf.sealHead, hh]
      simp
    refine ⟨⟨inv.cb, own.nodup_iff.mpr inv.nodup, fun h' e => by cases e⟩, rfl, own, rfl, ?_⟩
    intro p d hp hlt
    obtain ⟨e1, e2, e3⟩ := inv.hd h hh
    refine ⟨hp.off, hp.len, ?_, ?_⟩
    · intro j hj
      show (b.sealHead h pos).mem _ _ = _
      rw [sealHead_mem (by have := hp.off; omega)]
      exact hp.bytes j hj
    · rcases hp.own with ⟨h', q1, q2, q3, q4⟩ | ⟨c, hc, q⟩
      · rw [hh] at q1; cases q1
        exact Or.inr ⟨⟨h.addr, pos, b.headSize⟩, by simp [Buf.sealHead], q2, hlt, by dsimp only; omega⟩
      · exact Or.inr ⟨c, by simp [Buf.sealHead, hc], q⟩
  · next hh =>
    exact ⟨inv, hh, List.Perm.refl _, rfl, fun p d hp _ => hp⟩

/-- `serialise` in terms of the two stages. -/
theorem serialise_new {b : Buf} {blob : List Nat} {pos : Nat} {answer : Option Nat} (hn : b.needsChunk blob.length = true) :
    b.serialise blob pos answer =
      match answer with
      | none => ({ b.sealed1 pos with headSize := 0, headOffset := headerBytes }, none)
      | some a =>
        let c := { b.sealed1 pos with head := some ⟨a, b.wanted blob.length⟩, headSize := b.wanted blob.length, headOffset := headerBytes }
        ({ c with mem := writeBlob c.mem a headerBytes blob, headOffset := headerBytes + blob.length, headLastWritten := pos },
          some ⟨a, headerBytes, blob.length⟩) := by
  obtain ⟨cb, head, ho, hs, hl, sl, mem⟩ := b
  unfold Buf.serialise
  simp only [hn, ↓reduceIte]
  cases answer with
  | none =>
    dsimp only
    simp only [Buf.sealed1]
    cases head <;> rfl
  | some a =>
    dsimp only
    simp only [Buf.sealed1]
    cases head <;> rfl

theorem serialise_old {b : Buf} {blob : List Nat} {pos : Nat} {answer : Option Nat} (hn : b.needsChunk blob.length = false) :
    ∃ h, b.head = some h ∧ b.headOffset + blob.length ≤ h.size ∧ b.serialise blob pos answer =
      ({ b with mem := writeBlob b.mem h.addr b.headOffset blob, headOffset := b.headOffset + blob.length, headLastWritten := pos },
        some ⟨h.addr, b.headOffset, blob.length⟩) := by
  unfold Buf.serialise
  simp only [hn]
  simp only [Buf.needsChunk] at hn
  split at hn
  · cases hn
  · next h hh =>
    refine ⟨h, hh, by simpa using hn, ?_⟩
    simp [hh]

theorem wanted_ge {b : Buf} (h : headerBytes ≤ b.chunkBytes) (need : Nat) : headerBytes + need ≤ b.wanted need := by
  simp only [Buf.wanted]; split <;> omega

theorem serialise_ok {b : Buf} (inv : BInv b) (blob : List Nat) (pos : Nat) (answer : Option Nat)
    (hans : ∀ a, answer = some a → a ∉ b.owned) {b' : Buf} {r : Option Stored} (e : b.serialise blob pos answer = (b', r)) :
    BInv b' ∧ (∀ p d, Placed b p d → p < pos → Placed b' p d) ∧ (∀ st, r = some st → Placed b' pos ⟨st, blob⟩) := by
  cases hn : b.needsChunk blob.length with
  | false =>
    obtain ⟨h, hh, hfit, e'⟩ := serialise_old (answer := answer) (pos := pos) hn
    rw [e] at e'
    obtain ⟨rfl, rfl⟩ := Prod.mk.inj e'
    obtain ⟨i1, i2, i3, i4⟩ := store_at_end hh inv blob pos hfit
    exact ⟨i1, fun p d hp hlt => i2 p d hp (Nat.le_of_lt hlt), fun st est => by cases est; exact i3⟩
  | true =>
    rw [serialise_new hn] at e
    obtain ⟨j1, j2, j3, j4, j5⟩ := sealed1_ok inv pos
    cases answer with
    | none =>
      dsimp only at e
      obtain ⟨rfl, rfl⟩ := Prod.mk.inj e
      refine ⟨⟨j1.cb, j1.nodup, ?_⟩, ?_, fun st est => by cases est⟩
      · intro h e; rw [show _ = none from j2] at e; cases e
      · intro p d hp hlt
        obtain ⟨k1, k2, k3, k4⟩ := j5 p d hp hlt
        refine ⟨k1, k2, k3, ?_⟩
        rcases k4 with ⟨h, q, _⟩ | k4
        · rw [j2] at q; cases q
        · exact Or.inr k4
    | some a =>
      dsimp only at e
      obtain ⟨rfl, rfl⟩ := Prod.mk.inj e
      have hw := wanted_ge inv.cb blob.length
      let c : Buf := { b.sealed1 pos with head := some ⟨a, b.wanted blob.length⟩, headSize := b.wanted blob.length, headOffset := headerBytes }
      have hnot : a ∉ (b.sealed1 pos).owned := fun hm => hans a rfl (j3.subset hm)
      have hown0 : (b.sealed1 pos).owned = (b.sealed1 pos).sealed.map (·.addr) := by simp [Buf.owned, j2]
      have inv' : BInv c := by
        refine ⟨j1.cb, ?_, ?_⟩
        · show ((some (Block.mk a _)).map (·.addr)).toList ++ (b.sealed1 pos).sealed.map (·.addr) |>.Nodup
          rw [← hown0]
          simp only [Option.map_some, Option.toList_some, List.singleton_append, List.nodup_cons]
          exact ⟨hnot, j1.nodup⟩
        · intro h e
          have e : some (Block.mk a (b.wanted blob.length)) = some h := e
          cases e
          exact ⟨rfl, Nat.le_refl _, by show headerBytes ≤ b.wanted blob.length; omega⟩
      obtain ⟨i1, i2, i3, i4⟩ := store_at_end (b := c) (h := ⟨a, b.wanted blob.length⟩) rfl inv' blob pos hw
      refine ⟨i1, ?_, fun st est => by cases est; exact i3⟩
      intro p d hp hlt
      refine i2 p d ?_ (Nat.le_of_lt hlt)
      obtain ⟨k1, k2, k3, k4⟩ := j5 p d hp hlt
      refine ⟨k1, k2, k3, ?_⟩
      rcases k4 with ⟨h, q, _⟩ | k4
      · rw [j2] at q; cases q
      · exact Or.inr k4

theorem releaseSealed_spec (m : Nat) (l : List SealedChunk) :
    (releaseSealed m l).2 ++ (releaseSealed m l).1 = l ∧ (∀ c ∈ (releaseSealed m l).2, c.threshold ≤ m) ∧
      (∀ c, (releaseSealed m l).1.head? = some c → m < c.threshold) := by
  induction l with
  | nil => simp [releaseSealed]
  | cons c rest ih =>
    simp only [releaseSealed]
    split
    · next h => simp [h]
    · next h =>
      obtain ⟨i1, i2, i3⟩ := ih
      refine ⟨by simpa using i1, ?_, i3⟩
      intro x hx
      simp at hx
      rcases hx with rfl | hx
      · omega
      · exact i2 x hx

theorem hk_ok {b : Buf} (inv : BInv b) (m : Nat) :
    BInv (b.houseKeeping m) ∧ (b.houseKeeping m).owned.Sublist b.owned ∧
      (∀ p d, Placed b p d → m ≤ p → Placed (b.houseKeeping m) p d) := by
  obtain ⟨r1, r2, _⟩ := releaseSealed_spec m b.sealed
  have sub : (releaseSealed m b.sealed).1.Sublist b.sealed := by
    have h := List.sublist_append_right (releaseSealed m b.sealed).2 (releaseSealed m b.sealed).1
    rw [r1] at h; exact h
  have keep : ∀ p, m ≤ p → ∀ c ∈ b.sealed, p < c.threshold → c ∈ (releaseSealed m b.sealed).1 := by
    intro p hp c hc hlt
    rw [← r1] at hc
    rcases List.mem_append.mp hc with hc | hc
    · have := r2 c hc; omega
    · exact hc
  have own1 : ((b.head.map (·.addr)).toList ++ (releaseSealed m b.sealed).1.map (·.addr)).Sublist b.owned :=
    (List.Sublist.refl _).append (sub.map _)
  unfold Buf.houseKeeping
  dsimp only
  split
  · next hc =>
    obtain ⟨c1, c2, c3⟩ := hc
    have own2 : (({ b with sealed := (releaseSealed m b.sealed).1, head := none, headOffset := 0, headSize := 0 } : Buf).owned).Sublist b.owned := by
      simp only [Buf.owned, Option.map_none, Option.toList_none, List.nil_append]
      exact (List.sublist_append_right _ _).trans own1
    refine ⟨⟨inv.cb, inv.nodup.sublist own2, fun h e => by cases e⟩, own2, ?_⟩
    intro p d hp hm
    refine ⟨hp.off, hp.len, hp.bytes, ?_⟩
    rcases hp.own with ⟨h, q1, q2, q3, q4⟩ | ⟨c, hc, q1, q2, q3⟩
    · omega
    · exact Or.inr ⟨c, keep p hm c hc q2, q1, q2, q3⟩
  · refine ⟨⟨inv.cb, inv.nodup.sublist own1, inv.hd⟩, own1, ?_⟩
    intro p d hp hm
    refine ⟨hp.off, hp.len, hp.bytes, ?_⟩
    rcases hp.own with h | ⟨c, hc, q1, q2, q3⟩
    · exact Or.inl h
    · exact Or.inr ⟨c, keep p hm c hc q2, q1, q2, q3⟩

/-- the positions recorded in the bookkeeping are positions for which a blob was offered. -/
structure Tops (b : Buf) (attempted storedTop : Nat) : Prop where
  sealedTop : ∀ c ∈ b.sealed, c.threshold ≤ attempted
  headTop : b.head.isSome → b.headLastWritten < storedTop

theorem tops_serialise {b b' : Buf} {att top : Nat} (h : Tops b att top) {blob : List Nat} {pos : Nat} {answer : Option Nat}
    {r : Option Stored} (e : b.serialise blob pos answer = (b', r)) :
    Tops b' (max att pos) (if r.isSome then max top (pos + 1) else top) := by
  cases hn : b.needsChunk blob.length with
  | false =>
    obtain ⟨hd, hh, hfit, e'⟩ := serialise_old (answer := answer) (pos := pos) hn
    rw [e] at e'
    obtain ⟨rfl, rfl⟩ := Prod.mk.inj e'
    refine ⟨fun c hc => ?_, fun _ => ?_⟩
    · have := h.sealedTop c hc; omega
    · simp; omega
  | true =>
    rw [serialise_new hn] at e
    have hs : ∀ c ∈ (b.sealed1 pos).sealed, c.threshold ≤ max att pos := by
      intro c hc
      unfold Buf.sealed1 at hc
      split at hc
      · next hd hh =>
        simp [Buf.sealHead] at hc
        rcases hc with hc | rfl
        · have := h.sealedTop c hc; omega
        · dsimp only; omega
      · have := h.sealedTop c hc; omega
    have hnone : (b.sealed1 pos).head = none := by
      unfold Buf.sealed1
      split
      · rfl
      · next hh => exact hh
    cases answer with
    | none =>
      dsimp only at e
      obtain ⟨rfl, rfl⟩ := Prod.mk.inj e
      exact ⟨hs, fun hh => by rw [show _ = none from hnone] at hh; cases hh⟩
    | some a =>
      dsimp only at e
      obtain ⟨rfl, rfl⟩ := Prod.mk.inj e
      exact ⟨hs, fun hh => by simp; omega⟩

theorem tops_hk {b : Buf} {att top : Nat} (h : Tops b att top) (m : Nat) : Tops (b.houseKeeping m) att top := by
  obtain ⟨r1, _, _⟩ := releaseSealed_spec m b.sealed
  have sub : ∀ c ∈ (releaseSealed m b.sealed).1, c ∈ b.sealed := by
    intro c hc; rw [← r1]; exact List.mem_append_right _ hc
  unfold Buf.houseKeeping
  dsimp only
  split
  · exact ⟨fun c hc => h.sealedTop c (sub c hc), fun hh => by cases hh⟩
  · exact ⟨fun c hc => h.sealedTop c (sub c hc), h.headTop⟩

/-- descriptors that are or may still become readable. -/
def Sys.live (s : Sys) (p : Nat) (d : Desc) : Prop :=
  s.readable p d ∨ ∃ sp i, s.span = some sp ∧ sp.descs i = some d ∧ p = s.pub + i

structure SInv (chunkBytes : Nat) (s : Sys) : Prop where
  cb : s.buf.chunkBytes = chunkBytes
  buf : BInv s.buf
  rd : ∀ r ∈ s.readers, r ≤ s.pub
  spn : ∀ sp, s.span = some sp → ∀ i d, sp.descs i = some d → i < sp.next
  live : ∀ p d, s.live p d → Placed s.buf p d
  tops : Tops s.buf s.attempted s.storedTop

theorem cb_serialise {b b' : Buf} {blob : List Nat} {pos : Nat} {answer : Option Nat}
    {r : Option Stored} (e : b.serialise blob pos answer = (b', r)) : b'.chunkBytes = b.chunkBytes := by
  cases hn : b.needsChunk blob.length with
  | false =>
    obtain ⟨hd, hh, hfit, e'⟩ := serialise_old (answer := answer) (pos := pos) hn
    rw [e] at e'
    obtain ⟨rfl, rfl⟩ := Prod.mk.inj e'; rfl
  | true =>
    rw [serialise_new hn] at e
    have : (b.sealed1 pos).chunkBytes = b.chunkBytes := by unfold Buf.sealed1; split <;> rfl
    cases answer with
    | none => dsimp only at e; obtain ⟨rfl, rfl⟩ := Prod.mk.inj e; exact this
    | some a => dsimp only at e; obtain ⟨rfl, rfl⟩ := Prod.mk.inj e; exact this

theorem sinv_step {cb : Nat} {s : Sys} (h : SInv cb s) (o : Op) (hok : o.ok s) : SInv cb (s.step o) := by
  obtain ⟨hcb, hb, hrd, hsp, hlive, htop⟩ := h
  cases o with
  | reserve n =>
    refine ⟨hcb, hb, hrd, ?_, ?_, htop⟩
    · intro sp e i d hd; cases e; cases hd
    · rintro p d (hr | ⟨sp, i, e, hd, _⟩)
      · exact hlive p d (Or.inl hr)
      · cases e; cases hd
  | store i blob answer =>
    obtain ⟨⟨sp, hs, hi, hnx⟩, hans⟩ := hok
    simp only [Sys.step, hs]
    cases he : s.buf.serialise blob (s.pub + i) answer with
    | mk b' r =>
    obtain ⟨k1, k2, k3⟩ := serialise_ok hb blob (s.pub + i) answer hans he
    have kt := tops_serialise htop he
    have kc := cb_serialise he
    have old : ∀ p d, s.live p d → Placed b' p d := by
      intro p d hl
      refine k2 p d (hlive p d hl) ?_
      rcases hl with ⟨_, h2, _⟩ | ⟨sp', j, e, hd, rfl⟩
      · omega
      · rw [hs] at e; cases e
        have := hsp sp hs j d hd
        omega
    cases r with
    | none => exact ⟨kc.trans hcb, k1, hrd, fun sp' e => hsp sp' (hs.trans e), fun p d hl => old p d (by
        rcases hl with hr | ⟨sp', j, e, hd, hp⟩
        · exact Or.inl hr
        · exact Or.inr ⟨sp', j, hs.trans e, hd, hp⟩), by simpa using kt⟩
    | some st =>
      refine ⟨kc.trans hcb, k1, hrd, ?_, ?_, by simpa using kt⟩
      · intro sp' e j d hd
        cases e
        dsimp only at hd ⊢
        split at hd
        · omega
        · have := hsp sp hs j d hd; omega
      · rintro p d (hr | ⟨sp', j, e, hd, hp⟩)
        · exact old p d (Or.inl hr)
        · cases e
          dsimp only at hd hp
          split at hd
          · next hj => cases hd; subst hj hp; exact k3 st rfl
          · exact old p d (Or.inr ⟨sp, j, hs, hd, hp⟩)
  | publish k =>
    obtain ⟨sp, hs, hk⟩ := hok
    simp only [Sys.step, hs]
    refine ⟨hcb, hb, ?_, ?_, ?_, htop⟩
    · intro r hr; have := hrd r hr; dsimp only; omega
    · intro sp' e; cases e
    · rintro p d (⟨e, h2, h3⟩ | ⟨sp', j, e, _, _⟩)
      · dsimp only at e h2 h3
        split at e
        · next hp => exact hlive p d (Or.inr ⟨sp, p - s.pub, hs, e, by omega⟩)
        · next hp => exact hlive p d (Or.inl ⟨e, by omega, h3⟩)
      · cases e
  | attach =>
    refine ⟨hcb, hb, ?_, hsp, ?_, htop⟩
    · intro r hr
      have hr : r ∈ s.readers ++ [s.pub] := hr
      simp at hr
      rcases hr with hr | rfl
      · exact hrd r hr
      · exact Nat.le_refl _
    · rintro p d (⟨e, h2, r, hr, hle⟩ | hx)
      · have hr : r ∈ s.readers ++ [s.pub] := hr
        have h2 : p < s.pub := h2
        simp at hr
        rcases hr with hr | rfl
        · exact hlive p d (Or.inl ⟨e, h2, r, hr, hle⟩)
        · omega
      · exact hlive p d (Or.inr hx)
  | detach r =>
    refine ⟨hcb, hb, fun x hx => hrd x (List.mem_of_mem_eraseIdx hx), hsp, ?_, htop⟩
    rintro p d (⟨e, h2, x, hx, hle⟩ | hx)
    · exact hlive p d (Or.inl ⟨e, h2, x, List.mem_of_mem_eraseIdx hx, hle⟩)
    · exact hlive p d (Or.inr hx)
  | consume r k =>
    obtain ⟨q, hq, hle⟩ := hok
    have hgd : s.readers.getD r 0 = q := by simp [List.getD, hq]
    refine ⟨hcb, hb, ?_, hsp, ?_, htop⟩
    · intro x hx
      rcases List.mem_or_eq_of_mem_set (show x ∈ s.readers.set r (s.readers.getD r 0 + k) from hx) with hx | rfl
      · exact hrd x hx
      · rw [hgd]; exact hle
    · rintro p d (⟨e, h2, x, hx, hxp⟩ | hx)
      · rcases List.mem_or_eq_of_mem_set (show x ∈ s.readers.set r (s.readers.getD r 0 + k) from hx) with hx | rfl
        · exact hlive p d (Or.inl ⟨e, h2, x, hx, hxp⟩)
        · rw [hgd] at hxp
          exact hlive p d (Or.inl ⟨e, h2, q, List.mem_of_getElem? hq, by omega⟩)
      · exact hlive p d (Or.inr hx)
  | houseKeeping m =>
    obtain ⟨hm, hmr⟩ := hok
    obtain ⟨k1, k2, k3⟩ := hk_ok hb m
    have kcb : (s.buf.houseKeeping m).chunkBytes = s.buf.chunkBytes := by
      unfold Buf.houseKeeping; dsimp only; split <;> rfl
    refine ⟨kcb.trans hcb, k1, hrd, hsp, ?_, tops_hk htop m⟩
    intro p d hl
    refine k3 p d (hlive p d hl) ?_
    rcases hl with ⟨_, h2, x, hx, hxp⟩ | ⟨sp, j, _, _, rfl⟩
    · exact Nat.le_trans (hmr x hx) hxp
    · show m ≤ s.pub + j; omega
  | foreign a o v =>
    have hok : a ∉ s.buf.owned := hok
    refine ⟨hcb, ⟨hb.cb, hb.nodup, hb.hd⟩, hrd, hsp, ?_, ⟨htop.1, htop.2⟩⟩
    intro p d hl
    have hp := hlive p d hl
    refine ⟨hp.off, hp.len, ?_, hp.own⟩
    intro j hj
    rw [← hp.bytes j hj]
    show (if d.place.addr = a ∧ _ then v else s.buf.mem _ _) = _
    rw [if_neg]
    rintro ⟨e, _⟩
    exact hok (e ▸ hp.owned)

theorem sinv_reach {cb : Nat} (hcb : headerBytes ≤ cb) {s : Sys} (h : SReach cb s) : SInv cb s := by
  induction h with
  | init mem =>
    refine ⟨rfl, ⟨hcb, List.nodup_nil, fun h e => (by cases e)⟩, fun r hr => (by cases hr), fun sp e => (by cases e), ?_, ?_⟩
    · rintro p d (⟨_, h2, _⟩ | ⟨sp, i, e, _⟩)
      · cases h2
      · cases e
    · exact ⟨fun c hc => (by cases hc), fun hh => by cases hh⟩
  | step o _ hok ih => exact sinv_step ih o hok

end Verif.Chunk
