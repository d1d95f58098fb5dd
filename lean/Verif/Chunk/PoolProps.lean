import Verif.Chunk.PoolSpec
/-!
# C25 — chunk pool accounting
-/
namespace Verif.Chunk

structure PInv (chunkBytes maxChunks : Nat) (w : World) : Prop where
  cb : w.pool.chunkBytes = chunkBytes
  mx : w.pool.maxChunks = maxChunks
  fc : w.pool.freeCount = w.pool.free.length
  rc : w.pool.residentChunks = w.pool.live.length
  cap : w.pool.live.length ≤ maxChunks
  perm : w.pool.live.Perm (w.held ++ w.heldBig ++ w.pool.free.map (fun a => ⟨a, chunkBytes⟩))
  nodup : (w.pool.live.map (·.addr)).Nodup
  std : ∀ c ∈ w.held, c.size = chunkBytes
  big : ∀ c ∈ w.heldBig, 0 < c.size

theorem reclaim_go {p : Pool} {keep : Nat} (free : List Nat) (n r : Nat) (live : List Block) (other : List Block)
    (hn : n = free.length) (hr : r = live.length)
    (hp : live.Perm (other ++ free.map (fun a => ⟨a, p.chunkBytes⟩))) :
    ∃ q, Pool.reclaim.go p keep free n r live = some q ∧ q.chunkBytes = p.chunkBytes ∧ q.maxChunks = p.maxChunks ∧
      q.freeCount = q.free.length ∧ q.residentChunks = q.live.length ∧ q.free <:+ free ∧ q.live.Sublist live ∧
      q.free.length = min keep free.length ∧
      q.live.Perm (other ++ q.free.map (fun a => ⟨a, p.chunkBytes⟩)) := by
  induction free generalizing n r live with
  | nil =>
    subst hn hr
    refine ⟨_, by simp [Pool.reclaim.go]; rfl, ?_⟩
    simp
    simpa using hp
  | cons a rest ih =>
    unfold Pool.reclaim.go
    by_cases h : n > keep
    · have hm : (⟨a, p.chunkBytes⟩ : Block) ∈ live := hp.symm.subset (by simp)
      rw [if_pos h, if_pos hm]
      have hp' : (live.erase ⟨a, p.chunkBytes⟩).Perm (other ++ rest.map (fun a => ⟨a, p.chunkBytes⟩)) := by
        have h1 := List.perm_cons_erase hm
        have h2 : live.Perm (⟨a, p.chunkBytes⟩ :: (other ++ rest.map (fun a => ⟨a, p.chunkBytes⟩))) := by
          refine hp.trans ?_
          simp only [List.map_cons]
          exact List.perm_middle
        exact (List.Perm.cons_inv (h1.symm.trans h2))
      obtain ⟨q, e1, e2, e3, e4, e5, e6, e7, e8, e9⟩ := ih (n - 1) (r - 1) _ (by simp at hn; omega)
        (by rw [List.length_erase_of_mem hm, hr]) hp'
      refine ⟨q, e1, e2, e3, e4, e5, e6.trans (List.suffix_cons a rest), e7.trans List.erase_sublist, ?_, e9⟩
      simp at hn ⊢; omega
    · rw [if_neg h]
      refine ⟨_, rfl, rfl, rfl, hn, hr, List.suffix_refl _, List.Sublist.refl _, ?_, hp⟩
      simp at hn ⊢; omega

theorem pinv_step {cb mx : Nat} (hcb : 0 < cb) {w : World} (h : PInv cb mx w) (o : PoolOp) (hok : o.ok w) :
    ∃ w', w.step o = some w' ∧ PInv cb mx w' := by
  obtain ⟨h1, h2, h3, h4, h5, h6, h7, h8, h9⟩ := h
  cases o with
  | acquire fresh =>
    simp only [World.step, Pool.acquire]
    split
    · next p c heq =>
      split at heq
      · next a rest hf =>
        simp at heq; obtain ⟨e1, e2⟩ := heq; subst e1 e2
        refine ⟨_, rfl, h1, h2, ?_, h4, h5, ?_, h7, ?_, h9⟩
        · simp [hf] at h3 ⊢; omega
        · rw [hf] at h6
          refine h6.trans ?_
          dsimp only
          rw [h1, List.map_cons]
          simp only [List.cons_append]
          exact List.perm_middle
        · intro c hc; simp at hc; rcases hc with e | e
          · rw [e]; exact h1
          · exact h8 c e
      · next hf =>
        split at heq
        · simp at heq
        · next hlt =>
          simp at heq; obtain ⟨e1, e2⟩ := heq; subst e1 e2
          refine ⟨_, rfl, h1, h2, h3, ?_, ?_, ?_, ?_, ?_, h9⟩
          · simp [h4]
          · simp; omega
          · simpa [h1] using h6
          · simp only [List.map_cons, List.nodup_cons]
            refine ⟨?_, h7⟩
            intro hm
            obtain ⟨b, hb, e⟩ := List.mem_map.mp hm
            exact hok b hb e
          · intro c hc; simp at hc; rcases hc with e | e
            · rw [e]; exact h1
            · exact h8 c e
    · next p heq =>
      split at heq
      · simp at heq
      · split at heq
        · simp at heq; subst heq
          exact ⟨_, rfl, h1, h2, h3, h4, h5, h6, h7, h8, h9⟩
        · simp at heq
  | release c =>
    have hc : c.size = cb := h8 c hok
    refine ⟨_, rfl, ?_⟩
    have : c = ⟨c.addr, cb⟩ := by rw [← hc]
    simp only [Pool.release]
    rw [if_neg (by omega)]
    refine ⟨h1, h2, by simp [h3], h4, h5, ?_, h7, fun b hb => h8 b (List.mem_of_mem_erase hb), h9⟩
    refine h6.trans ?_
    dsimp only
    rw [List.map_cons, ← this]
    have hp := List.perm_cons_erase hok
    refine ((hp.append_right _).append_right _).trans ?_
    simp only [List.cons_append]
    exact List.perm_middle.symm
  | acquireOversized bytes fresh =>
    obtain ⟨hb, hfr⟩ := hok
    simp only [World.step, Pool.acquireOversized]
    split
    · next p c heq =>
      split at heq
      · simp at heq
      · next hlt =>
        simp at heq; obtain ⟨e1, e2⟩ := heq; subst e1 e2
        refine ⟨_, rfl, h1, h2, h3, ?_, ?_, ?_, ?_, h8, ?_⟩
        · simp [h4]
        · simp; omega
        · dsimp only
          refine (h6.cons _).trans ?_
          simp only [List.append_assoc, List.cons_append]
          exact List.perm_middle.symm
        · simp only [List.map_cons, List.nodup_cons]
          refine ⟨?_, h7⟩
          intro hm
          obtain ⟨b, hb, e⟩ := List.mem_map.mp hm
          exact hfr b hb e
        · intro c hc; simp at hc; rcases hc with e | e
          · rw [e]; exact hb
          · exact h9 c e
    · next p heq =>
      split at heq
      · simp at heq; subst heq
        exact ⟨_, rfl, h1, h2, h3, h4, h5, h6, h7, h8, h9⟩
      · simp at heq
  | releaseOversized c =>
    have hc : 0 < c.size := h9 c hok
    have hm : c ∈ w.pool.live := by
      apply h6.symm.subset
      simp only [List.mem_append]
      exact Or.inl (Or.inr hok)
    refine ⟨_, by simp only [World.step, Pool.releaseOversized]; rw [if_neg (by omega), if_pos hm]; rfl, ?_⟩
    refine ⟨h1, h2, h3, ?_, ?_, ?_, ?_, h8, fun b hb => h9 b (List.mem_of_mem_erase hb)⟩
    · simp [List.length_erase_of_mem hm, h4]
    · simp only [List.length_erase_of_mem hm]; omega
    · dsimp only
      have e1 := List.perm_cons_erase hm
      have e2 := List.perm_cons_erase hok
      have : w.pool.live.Perm (c :: (w.held ++ w.heldBig.erase c ++ w.pool.free.map (fun a => ⟨a, cb⟩))) := by
        refine h6.trans ?_
        refine ((e2.append_left _).append_right _).trans ?_
        simp only [List.append_assoc, List.cons_append]
        exact List.perm_middle
      exact List.Perm.cons_inv (e1.symm.trans this)
    · exact h7.sublist (List.erase_sublist.map _)
  | reclaim keep =>
    obtain ⟨q, e1, e2, e3, e4, e5, e6, e7, e8, e9⟩ := reclaim_go (p := w.pool) (keep := keep) w.pool.free w.pool.freeCount w.pool.residentChunks
      w.pool.live (w.held ++ w.heldBig) h3 h4 (by rw [h1]; exact h6)
    refine ⟨{ w with pool := q }, by simp [World.step, Pool.reclaim, e1], ?_⟩
    refine ⟨e2.trans h1, e3.trans h2, e4, e5, ?_, ?_, ?_, h8, h9⟩
    · have := e7.length_le; dsimp only; omega
    · rw [h1] at e9; exact e9
    · exact h7.sublist (e7.map _)

theorem pinv_reach {cb mx : Nat} (hcb : 0 < cb) {w : World} (h : Reach cb mx w) : PInv cb mx w := by
  induction h with
  | init =>
    refine ⟨rfl, rfl, rfl, rfl, Nat.zero_le _, ?_, ?_, ?_, ?_⟩
    · exact List.Perm.nil
    · exact List.nodup_nil
    · intro c hc; cases hc
    · intro c hc; cases hc
  | step o _ hok e ih =>
    obtain ⟨w', e', h'⟩ := pinv_step hcb ih o hok
    rw [e] at e'
    exact (Option.some.inj e') ▸ h'

/-- **C25 (safety of the calls).** After any history of permitted calls every further permitted call is well defined: no
null list head is followed and upstream is only ever asked to take back a block it has handed out, with its size. -/
theorem pool_calls_are_safe {cb mx : Nat} (hcb : 0 < cb) {w : World} (h : Reach cb mx w) (o : PoolOp) (hok : o.ok w) :
    ∃ w', w.step o = some w' := by
  obtain ⟨w', e, _⟩ := pinv_step hcb (pinv_reach hcb h) o hok
  exact ⟨w', e⟩

/-- **C25 (accounting).** At any time the blocks obtained from upstream are exactly the chunks in use and the chunks on the
free list, no two of them at the same address; they never number more than the cap; and the reported numbers are right. -/
theorem pool_accounting {cb mx : Nat} (hcb : 0 < cb) {w : World} (h : Reach cb mx w) :
    w.pool.live.Perm (w.held ++ w.heldBig ++ w.pool.free.map (fun a => ⟨a, cb⟩)) ∧
    ((w.held ++ w.heldBig).map (·.addr) ++ w.pool.free).Nodup ∧
    w.pool.live.length ≤ mx ∧
    w.pool.residentChunks = w.held.length + w.heldBig.length + w.pool.free.length ∧
    w.pool.freeCount = w.pool.free.length := by
  obtain ⟨h1, h2, h3, h4, h5, h6, h7, h8, h9⟩ := pinv_reach hcb h
  refine ⟨h6, ?_, h5, ?_, h3⟩
  · have := ((h6.map (·.addr)).nodup_iff).mp h7
    simpa [List.map_append, Function.comp_def] using this
  · rw [h4, h6.length_eq]; simp only [List.length_append, List.length_map]

/-- **C25 (no chunk is handed out twice).** A chunk returned by `acquire` or `acquireOversized` is not in use by anybody and
has the requested size. -/
theorem acquired_chunk_was_free {cb mx : Nat} (hcb : 0 < cb) {w : World} (h : Reach cb mx w) (fresh bytes : Nat)
    (hf : ∀ b ∈ w.pool.live, b.addr ≠ fresh) (c : Block) :
    ((w.pool.acquire fresh).2 = some c → c.size = cb ∧ ∀ b ∈ w.held ++ w.heldBig, b.addr ≠ c.addr) ∧
    ((w.pool.acquireOversized bytes fresh).2 = some c → c.size = bytes ∧ ∀ b ∈ w.held ++ w.heldBig, b.addr ≠ c.addr) := by
  have acc := pool_accounting hcb h
  have inv := pinv_reach hcb h
  have hfresh : ∀ b ∈ w.held ++ w.heldBig, b.addr ≠ fresh := by
    intro b hb
    exact hf b (acc.1.symm.subset (List.mem_append_left _ hb))
  constructor
  · intro he
    simp only [Pool.acquire] at he
    split at he
    · next a rest hfr =>
      simp at he; subst he
      refine ⟨inv.cb, ?_⟩
      intro b hb e
      have := (List.nodup_append.mp acc.2.1).2.2
      exact this _ (List.mem_map.mpr ⟨b, hb, rfl⟩) a (by simp [hfr]) e
    · split at he
      · simp at he
      · simp at he; subst he; exact ⟨inv.cb, hfresh⟩
  · intro he
    simp only [Pool.acquireOversized] at he
    split at he
    · simp at he
    · simp at he; subst he; exact ⟨rfl, hfresh⟩

/-- **C25 (back-pressure).** `acquire` is refused exactly if every resident chunk is in use and their number has reached the
cap. -/
theorem acquire_refused_iff {cb mx : Nat} (hcb : 0 < cb) {w : World} (h : Reach cb mx w) (fresh : Nat) :
    (w.pool.acquire fresh).2 = none ↔ w.pool.free = [] ∧ w.held.length + w.heldBig.length = mx := by
  have acc := pool_accounting hcb h
  have inv := pinv_reach hcb h
  have hl := acc.1.length_eq
  simp at hl
  simp only [Pool.acquire]
  split
  · next a rest hf => simp [hf]
  · next hf =>
    rw [hf] at hl
    have a1 := acc.2.2.1; have a2 := acc.2.2.2.1; have a3 := inv.mx
    rw [hf] at a2
    simp only [List.length_nil] at a2 hl
    split
    · next hg => exact ⟨fun _ => ⟨hf, by omega⟩, fun _ => rfl⟩
    · next hg => simp only [reduceCtorEq, false_iff]; rintro ⟨_, e⟩; omega

/-- **C25 (return policy).** `reclaimToUpstream(keep)` leaves `min keep free` chunks on the free list and touches no chunk
in use. -/
theorem reclaim_keeps {cb mx : Nat} (hcb : 0 < cb) {w w' : World} (h : Reach cb mx w) (keep : Nat)
    (e : w.step (.reclaim keep) = some w') :
    w'.pool.free.length = min keep w.pool.free.length ∧ w'.held = w.held ∧ w'.heldBig = w.heldBig := by
  have inv := pinv_reach hcb h
  obtain ⟨q, e1, e2, e3, e4, e5, e6, e7, e8, e9⟩ := reclaim_go (p := w.pool) (keep := keep) w.pool.free w.pool.freeCount w.pool.residentChunks
    w.pool.live (w.held ++ w.heldBig) inv.fc inv.rc (by rw [inv.cb]; exact inv.perm)
  simp [World.step, Pool.reclaim, e1] at e
  subst e
  exact ⟨e8, rfl, rfl⟩

/-- non-vacuity: a history that uses every call. -/
example : ∃ w, Reach 64 3 w ∧ w.pool.free.length = 1 ∧ w.held.length = 1 ∧ w.heldBig.length = 1 := by
  refine ⟨⟨⟨64, 3, [2], 1, 3, [⟨3, 500⟩, ⟨2, 64⟩, ⟨1, 64⟩]⟩, [⟨1, 64⟩], [⟨3, 500⟩]⟩, ?_, rfl, rfl, rfl⟩
  refine Reach.step (w := ⟨⟨64, 3, [], 0, 3, [⟨3, 500⟩, ⟨2, 64⟩, ⟨1, 64⟩]⟩, [⟨2, 64⟩, ⟨1, 64⟩], [⟨3, 500⟩]⟩) (.release ⟨2, 64⟩) ?_ (by decide +kernel) (by decide +kernel)
  refine Reach.step (w := ⟨⟨64, 3, [], 0, 2, [⟨2, 64⟩, ⟨1, 64⟩]⟩, [⟨2, 64⟩, ⟨1, 64⟩], []⟩) (.acquireOversized 500 3) ?_ (by decide +kernel) (by decide +kernel)
  refine Reach.step (w := ⟨⟨64, 3, [], 0, 1, [⟨1, 64⟩]⟩, [⟨1, 64⟩], []⟩) (.acquire 2) ?_ (by decide +kernel) (by decide +kernel)
  exact Reach.step (w := ⟨Pool.init 64 3, [], []⟩) (.acquire 1) Reach.init (by decide +kernel) (by decide +kernel)

/-- Remark: idle chunks on the free list count against the cap of `acquireOversized`, which neither uses nor returns them, so
an oversized request can be refused although nothing is in use. -/
theorem oversized_refused_while_idle :
    ∃ w, Reach 64 1 w ∧ w.held = [] ∧ w.heldBig = [] ∧ (w.pool.acquireOversized 500 7).2 = none := by
  refine ⟨⟨⟨64, 1, [1], 1, 1, [⟨1, 64⟩]⟩, [], []⟩, ?_, rfl, rfl, by decide⟩
  refine Reach.step (w := ⟨⟨64, 1, [], 0, 1, [⟨1, 64⟩]⟩, [⟨1, 64⟩], []⟩) (.release ⟨1, 64⟩) ?_ (by decide +kernel) (by decide +kernel)
  exact Reach.step (w := ⟨Pool.init 64 1, [], []⟩) (.acquire 1) Reach.init (by decide +kernel) (by decide +kernel)

end Verif.Chunk
