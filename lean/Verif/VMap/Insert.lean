import Verif.VMap.Assign
/-! Lemmas: new entries. -/
namespace Verif.VMap
open Verif.Bytes

theorem Alloc.step {m m' : VMap} {l : List Reg} {n : Nat} (h : Alloc m m' l n) : Step m m' n := ⟨h.moves.fixed, h.bound⟩

/-- rows for one more entry, also if the rows are copied again -/
def Slot (m : VMap) : Prop := m.rows.length + 2 ≤ m.entryCapacity

theorem Slot.room {m : VMap} (hl : Layout m) (hs : Slot m) : m.rows.length < m.rowRoom := by
  obtain ⟨e, h1, h2, h3⟩ := hl
  unfold VMap.rowRoom
  unfold Slot at hs
  omega

theorem ensureSlot_ok {m : VMap} {d : Dict} (h : Inv m d) (hfit : Fits m 0) (hc : d.length < 43689) :
    ∃ m' ok, m.ensureSlot = some (m', ok) ∧ Step m m' 0 ∧
      ((ok = true ∧ Inv m' d ∧ Slot m') ∨ (ok = false ∧ m.fixed = true ∧ m'.overflow = true ∧ Inv m' d)) := by
  obtain ⟨cs, hmem⟩ := h.mem
  have hlen := h.len
  unfold VMap.ensureSlot
  by_cases h1 : m.entryCapacity ≤ m.rows.length + 1
  · rw [if_pos h1]
    cases hf : m.fixed with
    | true =>
      refine ⟨_, false, rfl, ⟨hf.symm, by simp only [VMap.total]; omega⟩, .inr ⟨rfl, rfl, rfl, ?_⟩⟩
      refine h.kept (cs := cs) ?_ ⟨rfl, rfl, rfl, rfl, rfl, hf.symm, rfl, fun _ _ => rfl⟩
      exact Mem.rows (m := m) hmem _ rfl rfl rfl rfl
    | false =>
      rw [if_neg (by decide)]
      have hfit : m.total + m.total / 2 + 0 + 600 < 2 ^ 32 := by
        rcases hfit with hh | hh
        · rw [hf] at hh; exact absurd hh (by decide)
        · exact hh
      obtain ⟨e, e1, e2, e3⟩ := h.layout
      have hb := grow_bound e1 e2 e3 hmem.used (entries := m.rows.length + 2) (payload := m.used) (n := 0) (by omega) (by omega) rfl rfl
      obtain ⟨m', g1, g2, g3, g4, g5, g6, g7, g8⟩ := grow_ok hmem hf (entries := m.rows.length + 2) (payload := m.used) (shrink := false) rfl rfl (by omega)
      rw [g1]
      have hrl : m'.rows.length = m.rows.length := by rw [g3.rows, List.length_map]
      refine ⟨m', true, rfl, ⟨g3.fixed, ?_⟩, .inl ⟨rfl, h.moved g3 ⟨_, g4, g5, ?_⟩ ⟨cs.map (shift m.base m'.base), ?_⟩, ?_⟩⟩
      · show m'.base + m'.pool.length ≤ _
        rw [g4, g6]; omega
      · rw [hrl]; exact hb.2.2.2
      · rw [g3.rows, flatMap_rebase]; exact g2
      · unfold Slot
        rw [hrl, g5, if_neg (by decide)]
        omega
  · rw [if_neg h1]
    exact ⟨m, true, rfl, ⟨rfl, by omega⟩, .inl ⟨rfl, h, by unfold Slot; omega⟩⟩

/-- a new row's key is stored -/
theorem storeKey_ok {m : VMap} {d : Dict} {key : Key} (h : Inv m d) (hs : Slot m) (hfit : Fits m (key.length + 1)) :
    ∃ m' o, m.storeKey key = some (m', o) ∧ Step m m' (key.length + 1) ∧
      ((o = none ∧ m.fixed = true ∧ m'.overflow = true ∧ Inv m' d) ∨
       ∃ ref, o = some ref ∧ Inv m' d ∧ m'.rows.length < m'.rowRoom ∧ (∃ cs, Mem m' (ref.regs ++ m'.rows.flatMap Row.regs) cs) ∧ KeyIs m' ref key) := by
  obtain ⟨cs, hmem⟩ := h.mem
  unfold VMap.storeKey
  have hstep : ∀ n, Step m m n := fun n => ⟨rfl, by omega⟩
  by_cases h1 : lookupId key ≠ 0
  · rw [if_pos h1]
    exact ⟨m, _, rfl, hstep _, .inr ⟨_, rfl, h, hs.room h.layout, ⟨cs, hmem⟩, by omega, lookupId_found h1⟩⟩
  · rw [if_neg h1]
    by_cases h2 : key.length ≤ kMaxInlineKeyLength
    · rw [if_pos h2]
      exact ⟨m, _, rfl, hstep _, .inr ⟨_, rfl, h, hs.room h.layout, ⟨cs, hmem⟩, rfl, h2⟩⟩
    · rw [if_neg h2]
      dsimp only [Option.bind_eq_bind]
      obtain ⟨m', o, g1, g2⟩ := appendPayload_ok hmem (Mem.placed (x := []) hmem) h.layout (bs := key) (guards := 1) (by omega) hfit
      rw [g1]
      dsimp only [Option.bind_some]
      have hroom := h.room
      have hl : (key ++ List.replicate 1 0#8).length = key.length + 1 := by simp
      unfold Appended at g2
      rw [hl] at g2
      rcases g2 with ⟨rfl, hf, ho, hk, cs1, hm1⟩ | ⟨off, cs1, rfl, hm1, hal, hpk⟩
      · refine ⟨m', none, rfl, hk.step _, .inl ⟨rfl, ?_, ho, h.kept hm1 hk⟩⟩
        rcases hf with hf | hf
        · exact hf
        · rcases hfit with hf2 | hf2
          · exact hf2
          · omega
      · have hm1' : Mem m' ([(off, key.length + 1)] ++ m'.rows.flatMap Row.regs) cs1 := by
          rw [hal.moves.rows, flatMap_rebase]
          exact hm1
        refine ⟨m', _, rfl, hal.step, .inr ⟨.spilled off key.length, rfl, h.moved hal.moves hal.layout ⟨cs1, hm1'.drop⟩, ?_, ⟨cs1, hm1'⟩, ?_⟩⟩
        · have := hal.slots
          rw [hal.moves.rows, List.length_map]
          unfold Slot at hs
          omega
        · have := peek_sub hpk 0 key.length (by omega)
          rw [Nat.add_zero, List.drop_zero, List.take_left' rfl] at this
          exact this

theorem Inv.push {m : VMap} {d : Dict} {key : Key} {ref : KeyRef} (h : Inv m d) (hr : m.rows.length < m.rowRoom) (hc : m.rows.length + 1 < 65536)
    (hm : ∃ cs, Mem m (ref.regs ++ m.rows.flatMap Row.regs) cs) (hk : KeyIs m ref key) (hn : key ∉ d.map (·.1)) :
    Inv { m with rows := m.rows ++ [⟨ref, 0, false, false, false, 0, 0⟩] } (d ++ [(key, .unset)]) := by
  obtain ⟨cs, hmem⟩ := hm
  have hsplit : ∀ (i : Nat) (r : Row) (e : Key × Val), (m.rows ++ [(⟨ref, 0, false, false, false, 0, 0⟩ : Row)])[i]? = some r →
      (d ++ [(key, Val.unset)])[i]? = some e → (m.rows[i]? = some r ∧ d[i]? = some e) ∨ (r = ⟨ref, 0, false, false, false, 0, 0⟩ ∧ e = (key, .unset)) := by
    intro i r e h1 h2
    rw [List.getElem?_append] at h1 h2
    rw [h.len] at h1
    split at h1
    · rename_i hlt
      rw [if_pos hlt] at h2
      exact .inl ⟨h1, h2⟩
    · rename_i hlt
      rw [if_neg hlt] at h2
      rw [List.getElem?_singleton] at h1 h2
      split at h1
      · rename_i h0
        rw [if_pos h0] at h2
        simp only [Option.some.injEq] at h1 h2
        exact .inr ⟨h1.symm, h2.symm⟩
      · simp at h1
  refine ⟨⟨cs, ?_⟩, ?_, ?_, ?_, ?_, ?_, ?_⟩
  · refine Mem.rows (m := m) ?_ _ rfl rfl rfl rfl
    dsimp only
    rw [List.flatMap_append]
    have : [(⟨ref, 0, false, false, false, 0, 0⟩ : Row)].flatMap Row.regs = ref.regs := by simp [Row.regs]
    rw [this]
    exact hmem.perm List.perm_append_comm
  · obtain ⟨e, h1, h2, h3⟩ := h.layout
    refine ⟨e, h1, h2, ?_⟩
    unfold VMap.rowRoom at hr
    simp only [List.length_append, List.length_singleton]
    omega
  · simp only [List.length_append, List.length_singleton]; exact hc
  · simp only [List.length_append, List.length_singleton, h.len]
  · intro i r e h1 h2
    rcases hsplit i r e h1 h2 with ⟨h3, h4⟩ | ⟨rfl, rfl⟩
    · exact (h.key i r e h3 h4).same rfl fun g hg => ⟨rfl, by
        have := hmem.inside g (List.mem_append_left _ (List.mem_append_right _ (List.mem_flatMap.2 ⟨r, List.mem_of_getElem? h3, by simp [Row.regs, hg]⟩)))
        have hu := hmem.used
        omega⟩
    · exact hk.same rfl fun g hg => ⟨rfl, by
        have := hmem.inside g (List.mem_append_left _ (List.mem_append_left _ hg))
        have hu := hmem.used
        omega⟩
  · intro i r e h1 h2
    rcases hsplit i r e h1 h2 with ⟨h3, h4⟩ | ⟨rfl, rfl⟩
    · exact (h.val i r e h3 h4).same fun _ => rfl
    · exact .inl ⟨rfl, rfl⟩
  · rw [List.map_append, List.nodup_append]
    refine ⟨h.keys, by simp, ?_⟩
    intro a ha b hb
    simp at hb
    subst hb
    intro he
    exact hn (he ▸ ha)

theorem Inv.pop {m : VMap} {d : Dict} {e : Key × Val} (h : Inv m (d ++ [e])) : Inv { m with rows := m.rows.take d.length } d := by
  obtain ⟨cs, hmem⟩ := h.mem
  have hl := h.len
  simp only [List.length_append, List.length_singleton] at hl
  have hget : ∀ (i : Nat) (r : Row) (x : Key × Val), (m.rows.take d.length)[i]? = some r → d[i]? = some x → m.rows[i]? = some r ∧ (d ++ [e])[i]? = some x := by
    intro i r x h1 h2
    have hlt := (List.getElem?_eq_some_iff.1 h2).1
    rw [List.getElem?_take, if_pos hlt] at h1
    exact ⟨h1, by rw [List.getElem?_append_left hlt]; exact h2⟩
  refine ⟨⟨cs, ?_⟩, ?_, ?_, ?_, ?_, ?_, ?_⟩
  · refine Mem.rows (m := m) ?_ _ rfl rfl rfl rfl
    have hh := hmem
    rw [← List.take_append_drop d.length m.rows, List.flatMap_append] at hh
    exact (hh.perm List.perm_append_comm).drop
  · obtain ⟨c, h1, h2, h3⟩ := h.layout
    exact ⟨c, h1, h2, by dsimp only; rw [List.length_take]; omega⟩
  · have := h.count
    dsimp only; rw [List.length_take]; omega
  · dsimp only; rw [List.length_take]; omega
  · intro i r x h1 h2
    obtain ⟨h3, h4⟩ := hget i r x h1 h2
    exact (h.key i r x h3 h4).same rfl fun g hg => ⟨rfl, by
      have := hmem.inside g (List.mem_append_left _ (List.mem_flatMap.2 ⟨r, List.mem_of_getElem? h3, by simp [Row.regs, hg]⟩))
      have hu := hmem.used
      omega⟩
  · intro i r x h1 h2
    obtain ⟨h3, h4⟩ := hget i r x h1 h2
    exact (h.val i r x h3 h4).same fun _ => rfl
  · have := h.keys
    rw [List.map_append, List.nodup_append] at this
    exact this.1

/-- the argument means the same in another state: it is not in the map -/
theorem Means.other {m : VMap} {a : Arg} {v : Val} (h : Means m a v) (ho : a.outside) (m' : VMap) : Means m' a v := by
  cases h with
  | scalar h1 h2 h3 => exact .scalar h1 h2 h3
  | big h1 => exact .big h1
  | @text s _ h1 h2 =>
    cases s with
    | given x => exact .text h1 h2
    | inside => exact absurd ho (by simp [Arg.outside])
  | map h1 h2 => exact .map h1 h2
  | tensor h1 h2 h3 h4 => exact .tensor h1 h2 h3 h4
  | @value s _ _ h1 h2 =>
    cases s with
    | given x => exact .value h1 h2
    | inside => exact absurd ho (by simp [Arg.outside])

/-- address space for storing `n` bytes under a new key: the blob may grow three times -/
def Plenty (m : VMap) (n : Nat) : Prop := m.fixed = true ∨ 4 * m.total + 6 * n + 5000 ≤ 2 ^ 32

theorem insertNew_ok {m : VMap} {d : Dict} {key : Key} {a : Arg} {v : Val} (h : Inv m d) (hn : key ∉ d.map (·.1)) (ha : Means m a v) (ho : a.outside)
    (hc : d.length < 43689) (hfit : Plenty m (key.length + a.size)) :
    ∃ m' ok, m.insertNew key a = some (m', ok) ∧ m'.fixed = m.fixed ∧ Put m m' ok d (d ++ [(key, v)]) := by
  unfold VMap.insertNew
  dsimp only [Option.bind_eq_bind]
  obtain ⟨m1, ok1, g1, s1, g2⟩ := ensureSlot_ok h (by
    rcases hfit with hh | hh
    · exact .inl hh
    · exact .inr (by omega)) hc
  rw [g1]
  dsimp only [Option.bind_some]
  rcases g2 with ⟨rfl, hi1, hs1⟩ | ⟨rfl, hf, hov, hi1⟩
  rotate_left
  · exact ⟨m1, false, rfl, s1.fixed, .inr ⟨rfl, hf, hov, hi1⟩⟩
  have hroom := hs1.room hi1.layout
  rw [if_neg (by decide), if_neg (by omega)]
  have hb1 := s1.bound
  obtain ⟨m2, o, k1, s2, k2⟩ := storeKey_ok (key := key) hi1 hs1 (by
    rcases hfit with hh | hh
    · exact .inl (s1.fixed.trans hh)
    · exact .inr (by omega))
  rw [k1]
  dsimp only [Option.bind_some]
  have hb2 := s2.bound
  rcases k2 with ⟨rfl, hf, hov, hi2⟩ | ⟨ref, rfl, hi2, hroom2, hm2, hk2⟩
  · exact ⟨m2, false, rfl, s2.fixed.trans s1.fixed, .inr ⟨rfl, s1.fixed ▸ hf, hov, hi2⟩⟩
  have hl2 := hi2.len
  dsimp only
  rw [if_neg (by omega), if_neg (by omega)]
  have hi3 := hi2.push hroom2 (by omega) hm2 hk2 hn
  have hd3 : (d ++ [(key, Val.unset)])[m2.rows.length]? = some (key, .unset) := by rw [hl2]; simp
  obtain ⟨m4, ok4, p1, s4, p2⟩ := assignAt_ok hi3 hd3 (ha.other ho _) (by
    rcases hfit with hh | hh
    · exact .inl (s2.fixed.trans (s1.fixed.trans hh))
    · refine .inr ?_
      show m2.total + m2.total / 2 + (a.size + 32) + 600 < 2 ^ 32
      omega)
  rw [p1]
  dsimp only [Option.bind_some]
  have hfx : m4.fixed = m.fixed := s4.fixed.trans (s2.fixed.trans s1.fixed)
  rcases p2 with ⟨rfl, hi4⟩ | ⟨rfl, hf4, hov4, hi4⟩
  · refine ⟨m4, true, rfl, hfx, .inl ⟨rfl, ?_⟩⟩
    rw [hl2, List.set_append_right _ _ (Nat.le_refl _), Nat.sub_self, List.set_cons_zero] at hi4
    exact hi4
  · refine ⟨_, false, rfl, hfx, .inr ⟨rfl, ?_, hov4, ?_⟩⟩
    · exact (s2.fixed.trans s1.fixed) ▸ hf4
    · rw [hl2]; exact hi4.pop

end Verif.VMap
