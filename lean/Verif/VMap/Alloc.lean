import Verif.VMap.Mem
/-! Lemmas: storing bytes in the pool. -/
namespace Verif.VMap
open Verif.Bytes

/-- bytes of the allocation -/
def VMap.total (m : VMap) : Nat := m.base + m.pool.length

/-- the rows in front of the pool -/
def Layout (m : VMap) : Prop := ∃ e, m.base = 32 + 48 * e ∧ m.entryCapacity = e % 65536 ∧ m.rows.length ≤ e

/-- offsets of rows lie in the pool -/
def Placed (m : VMap) : Prop := ∀ r ∈ m.rows, (r.hasRec = true → m.base ≤ r.off) ∧ ∀ off len, r.key = .spilled off len → m.base ≤ off

theorem Row.rebase_self {r : Row} {b : Nat} (h1 : r.hasRec = true → b ≤ r.off) (h2 : ∀ off len, r.key = .spilled off len → b ≤ off) : r.rebase b b = r := by
  obtain ⟨key, vt, hasRec, nested, tensor, off, len⟩ := r
  unfold Row.rebase
  dsimp only at *
  congr 1
  · cases key with
    | canonical id => rfl
    | inline name => rfl
    | spilled o l => have := h2 o l rfl; dsimp only; congr 1; omega
  · cases hasRec with
    | false => rfl
    | true => have := h1 rfl; simp; omega

theorem Row.rebase_rebase {r : Row} {a b c : Nat} (h1 : r.hasRec = true → a ≤ r.off) : (r.rebase a b).rebase b c = r.rebase a c := by
  obtain ⟨key, vt, hasRec, nested, tensor, off, len⟩ := r
  unfold Row.rebase
  dsimp only at *
  congr 1
  · cases key with
    | canonical id => rfl
    | inline name => rfl
    | spilled o l => dsimp only; congr 1; omega
  · cases hasRec with
    | false => rfl
    | true => have := h1 rfl; simp

theorem Placed.rebase {m : VMap} (h : Placed m) : m.rows.map (·.rebase m.base m.base) = m.rows := by
  conv => rhs; rw [← List.map_id m.rows]
  exact List.map_congr_left fun r hr => Row.rebase_self (h r hr).1 (h r hr).2

theorem Moves.placed {m m' : VMap} {l : List Reg} (h : Moves m m' l) : Placed m' := by
  intro r hr
  rw [h.rows] at hr
  obtain ⟨x, hx, rfl⟩ := List.mem_map.1 hr
  unfold Row.rebase
  dsimp only
  refine ⟨fun hh => by rw [if_pos hh]; omega, fun off len hk => ?_⟩
  cases hxk : x.key with
  | canonical id => rw [hxk] at hk; simp at hk
  | inline name => rw [hxk] at hk; simp at hk
  | spilled o n => rw [hxk] at hk; simp at hk; omega

theorem Kept.moves {m m' : VMap} {l : List Reg} (h : Kept m m' l) (hp : Placed m) (hl : ∀ g ∈ l, m.base ≤ g.1) : Moves m m' l := by
  refine ⟨?_, h.fixed, fun _ => h.base, fun g hg => ?_⟩
  · rw [h.base, hp.rebase, h.rows]
  · rw [h.base, show m.base + (g.1 - m.base) = g.1 by have := hl g hg; omega]
    exact h.data g hg

theorem Moves.trans {m m' m'' : VMap} {l : List Reg} (h : Moves m m' l) (h' : Moves m' m'' (l.map (shift m.base m'.base)))
    (hp : Placed m) (hg : m.gen ≤ m'.gen) (hg' : m'.gen ≤ m''.gen) : Moves m m'' l := by
  refine ⟨?_, h'.fixed.trans h.fixed, fun he => ?_, fun g hg => ?_⟩
  · rw [h'.rows, h.rows, List.map_map]
    refine List.map_congr_left fun r hr => ?_
    exact Row.rebase_rebase (hp r hr).1
  · rw [h'.gen (by omega), h.gen (by omega)]
  · have := h'.data _ (List.mem_map.2 ⟨g, hg, rfl⟩)
    unfold shift at this
    dsimp only at this
    rw [show m'.base + (g.1 - m.base) - m'.base = g.1 - m.base by omega] at this
    rw [this]
    exact h.data g hg

/-- result of an allocation -/
structure Alloc (m m' : VMap) (l : List Reg) (n : Nat) : Prop where
  moves : Moves m m' l
  layout : Layout m'
  bound : m'.total ≤ m.total + m.total / 2 + n + 600
  gen : m.gen ≤ m'.gen
  slots : m.entryCapacity ≤ m'.rowRoom

/-- enough address space for `n` more bytes -/
def Fits (m : VMap) (n : Nat) : Prop := m.fixed = true ∨ m.total + m.total / 2 + n + 600 < 2 ^ 32

theorem grow_bound {m : VMap} {e n : Nat} (he : m.base = 32 + 48 * e) (hc : m.entryCapacity = e % 65536) (hr : m.rows.length ≤ e) (hu : m.used ≤ m.pool.length)
    {entries payload : Nat} (h1 : entries ≤ m.rows.length + 2) (h2 : payload ≤ m.used + n + 31) {e' p' : Nat}
    (he' : e' = if false = true then max entries m.rows.length else max (max entries m.rows.length) (max (m.entryCapacity + m.entryCapacity / 2) 8))
    (hp' : p' = if false = true then max payload m.used else max (max payload m.used) (m.pool.length + m.pool.length / 2)) :
    32 + 48 * e' + p' ≤ m.total + m.total / 2 + n + 600 ∧ entries ≤ e' ∧ payload ≤ p' ∧ m.rows.length ≤ e' := by
  rw [if_neg (by decide)] at he' hp'
  unfold VMap.total
  have : m.entryCapacity ≤ e := by omega
  omega

theorem bump_ok {m : VMap} {l cs : List Reg} (h : Mem m l cs) (n : Nat) (hn : m.used + n ≤ m.pool.length) :
    Mem { m with used := m.used + n } ((m.base + m.used, n) :: l) cs := by
  refine ⟨?_, ?_, ?_, h.big, hn, h.total, h.base⟩
  · exact Chain.congr (m := m) (fun _ _ => rfl) h.chain
  · rw [List.cons_append, List.pairwise_cons]
    refine ⟨fun r hr => ?_, h.disj⟩
    have := h.inside r hr
    unfold Disj; dsimp only; omega
  · intro r hr
    rw [List.cons_append] at hr
    rcases List.mem_cons.1 hr with rfl | hr
    · dsimp only; omega
    · have := h.inside r hr
      dsimp only; omega

/-- store the bytes of a region just allocated -/
theorem fill_ok {m : VMap} {l cs : List Reg} {off : Nat} {bs : List Byte} (h : Mem m ((off, bs.length) :: l) cs) :
    ∃ m', m.poke off bs = some m' ∧ Mem m' ((off, bs.length) :: l) cs ∧ Kept m m' l ∧ m'.peek off bs.length = some bs := by
  have hin := h.inside (off, bs.length) (by simp)
  have hu := h.used
  dsimp only at hin
  obtain ⟨m', h1, hs⟩ := poke_stored (m := m) (off := off) (bs := bs) hin.1 (by omega)
  have hd := h.disj
  rw [List.cons_append, List.pairwise_cons] at hd
  exact ⟨m', h1, h.poke hs, hs.kept fun g hg => hd.1 g (List.mem_append_left _ hg), hs.same⟩

theorem shift_self {b : Nat} {l : List Reg} (h : ∀ g ∈ l, b ≤ g.1) : l.map (shift b b) = l := by
  conv => rhs; rw [← List.map_id l]
  refine List.map_congr_left fun g hg => ?_
  have := h g hg
  unfold shift
  rw [show b + (g.1 - b) = g.1 by omega]; rfl

theorem Layout.kept {m m' : VMap} (h : Layout m) (hb : m'.base = m.base) (hc : m'.entryCapacity = m.entryCapacity) (hr : m'.rows = m.rows) : Layout m' := by
  unfold Layout
  rw [hb, hc, hr]
  exact h

theorem Mem.low {m : VMap} {l cs : List Reg} (h : Mem m l cs) : ∀ g ∈ l, m.base ≤ g.1 := fun g hg => (h.inside g (List.mem_append_left _ hg)).1

theorem Kept.alloc {m m' : VMap} {l cs : List Reg} (h : Kept m m' l) (hm : Mem m l cs) (hp : Placed m) (hl : Layout m) (n : Nat) : Alloc m m' l n := by
  refine ⟨h.moves hp hm.low, hl.kept h.base h.cap h.rows, ?_, Nat.le_of_eq h.gen.symm, ?_⟩
  · unfold VMap.total; rw [h.base, h.len]; omega
  · obtain ⟨e, h1, h2, _⟩ := hl
    unfold VMap.rowRoom
    rw [h.base]; omega

/-- outcome of storing `bs` in a new region -/
def Appended (m m' : VMap) (l : List Reg) (bs : List Byte) (o : Option Nat) : Prop :=
  (o = none ∧ (m.fixed = true ∨ 2 ^ 32 ≤ m.used + 16 + bs.length) ∧ m'.overflow = true ∧ Kept m m' l ∧ ∃ cs, Mem m' l cs) ∨
  ∃ off cs, o = some off ∧ Mem m' ((off, bs.length) :: l.map (shift m.base m'.base)) cs ∧ Alloc m m' l bs.length ∧ m'.peek off bs.length = some bs

theorem Alloc.kept {m m' m'' : VMap} {l : List Reg} {n : Nat} (h : Alloc m m' l n) {u : Nat}
    (hk : Kept { m' with used := u } m'' (l.map (shift m.base m'.base))) : Alloc m m'' l n := by
  refine ⟨⟨?_, ?_, ?_, ?_⟩, h.layout.kept hk.base hk.cap hk.rows, ?_, ?_, ?_⟩
  · rw [hk.rows, hk.base]; exact h.moves.rows
  · rw [hk.fixed]; exact h.moves.fixed
  · rw [hk.gen, hk.base]; exact h.moves.gen
  · intro g hg
    have := hk.data _ (List.mem_map.2 ⟨g, hg, rfl⟩)
    unfold shift at this
    rw [hk.base, this]
    exact h.moves.data g hg
  · have := h.bound
    unfold VMap.total at *
    rw [hk.base, hk.len]; exact this
  · rw [hk.gen]; exact h.gen
  · have := h.slots
    unfold VMap.rowRoom at *
    rw [hk.base]; exact this

/-- make room: grow if the pool has not `need` bytes -/
theorem room_ok {m : VMap} {l cs : List Reg} (h : Mem m l cs) (hp : Placed m) (hl : Layout m) {need n : Nat} (hn : need ≤ m.used + n + 31)
    (hfit : Fits m n) (hf : ¬(m.pool.length < need ∧ m.fixed = true)) :
    ∃ m' cs', (if m.pool.length < need then m.grow m.rows.length need false else some m) = some m' ∧
      Mem m' (l.map (shift m.base m'.base)) cs' ∧ Alloc m m' l n ∧ need ≤ m'.pool.length ∧ m'.used = m.used := by
  by_cases hc : m.pool.length < need
  · rw [if_pos hc]
    have hff : m.fixed = false := by cases hmf : m.fixed <;> simp_all
    have hfit : m.total + m.total / 2 + n + 600 < 2 ^ 32 := by
      rcases hfit with hh | hh
      · rw [hff] at hh; exact absurd hh (by decide)
      · exact hh
    obtain ⟨e, h1, h2, h3⟩ := hl
    have hb := grow_bound h1 h2 h3 h.used (entries := m.rows.length) (payload := need) (n := n) (by omega) hn rfl rfl
    obtain ⟨m', g1, g2, g3, g4, g5, g6, g7, g8⟩ := grow_ok h hff (entries := m.rows.length) (payload := need) (shrink := false) rfl rfl (by omega)
    refine ⟨m', _, g1, g2, ⟨g3, ⟨_, g4, g5, ?_⟩, ?_, by omega, ?_⟩, by rw [g6]; exact hb.2.2.1, g7⟩
    · rw [g3.rows, List.length_map]; exact hb.2.2.2
    · show m'.base + m'.pool.length ≤ _
      rw [g4, g6]; exact hb.1
    · unfold VMap.rowRoom
      rw [g4, if_neg (by decide)]; omega
  · rw [if_neg hc]
    refine ⟨m, cs, rfl, ?_, (Kept.refl m l).alloc h hp hl _, by omega, rfl⟩
    rw [shift_self h.low]; exact h

theorem appendPayload_ok {m : VMap} {l cs : List Reg} (h : Mem m l cs) (hp : Placed m) (hl : Layout m) {bs : List Byte} {guards : Nat}
    (hb : 0 < bs.length + guards) (hfit : Fits m (bs.length + guards)) :
    ∃ m' o, m.appendPayload bs guards = some (m', o) ∧ Appended m m' l (bs ++ List.replicate guards 0#8) o := by
  have hlen : (bs ++ List.replicate guards 0#8).length = bs.length + guards := by simp
  unfold VMap.appendPayload Appended
  rw [hlen]
  dsimp only [Option.bind_eq_bind]
  rcases popFit_ok h hb with h1 | ⟨m1, off, cs1, h1, hm1, hk1⟩
  · rw [h1]
    dsimp only [Option.bind_some]
    by_cases ho : 2 ^ 32 - 1 - m.used < bs.length + guards
    · rw [if_pos ho]
      exact ⟨_, _, rfl, .inl ⟨rfl, .inr (by omega), rfl, ⟨rfl, rfl, rfl, rfl, rfl, rfl, rfl, fun _ _ => rfl⟩, cs, h.rows _ rfl rfl rfl rfl⟩⟩
    · rw [if_neg ho]
      by_cases hc : m.pool.length < m.used + (bs.length + guards) ∧ m.fixed = true
      · rw [if_pos hc]
        exact ⟨_, _, rfl, .inl ⟨rfl, .inl hc.2, rfl, ⟨rfl, rfl, rfl, rfl, rfl, rfl, rfl, fun _ _ => rfl⟩, cs, h.rows _ rfl rfl rfl rfl⟩⟩
      · rw [if_neg hc]
        obtain ⟨m1, cs1, h2, hm1, ha1, hr1, hu1⟩ := room_ok h hp hl (need := m.used + (bs.length + guards)) (n := bs.length + guards) (by omega) hfit hc
        rw [h2]
        dsimp only [Option.bind_some]
        have hbm := bump_ok hm1 (bs.length + guards) (by omega)
        rw [← hlen] at hbm
        obtain ⟨m2, h3, hm2, hk2, hpk⟩ := fill_ok hbm
        rw [hlen] at h3 hm2 hpk
        rw [h3]
        refine ⟨_, _, rfl, .inr ⟨_, cs1, rfl, ?_, ha1.kept hk2, hpk⟩⟩
        rw [hk2.base]; exact hm2
  · rw [h1]
    dsimp only [Option.bind_some]
    rw [← hlen] at hm1
    obtain ⟨m2, h2, hm2, hk2, hpk⟩ := fill_ok hm1
    rw [h2]
    rw [hlen] at hm2 hpk
    refine ⟨_, _, rfl, .inr ⟨off, cs1, rfl, ?_, (hk1.trans hk2).alloc h hp hl _, hpk⟩⟩
    rw [(hk1.trans hk2).base, shift_self h.low]
    exact hm2

/-- what `_appendValueRecord` writes -/
def recordBytes (vt ct flags : Nat) (content : List Byte) : List Byte :=
  recHeader (align (8 + content.length)) vt ct flags ++ content ++ List.replicate (align (8 + content.length) - 8 - content.length) 0#8

theorem align_ge (n : Nat) : n ≤ align n ∧ 16 ≤ align n ∧ align n ≤ n + 16 ∧ align n % 16 = 0 := by unfold align; omega

theorem recHeader_length (a b c d : Nat) : (recHeader a b c d).length = 8 := by simp [recHeader]

theorem recordBytes_length (vt ct flags : Nat) (content : List Byte) : (recordBytes vt ct flags content).length = align (8 + content.length) := by
  have := align_ge (8 + content.length)
  simp only [recordBytes, List.length_append, recHeader_length, List.length_replicate]
  omega

theorem appendRecord_ok {m : VMap} {l cs : List Reg} (h : Mem m l cs) (hp : Placed m) (hl : Layout m) {vt ct flags : Nat} {content : List Byte}
    (hfit : Fits m (align (8 + content.length))) :
    ∃ m' o, m.appendRecord vt ct flags content = some (m', o) ∧ Appended m m' l (recordBytes vt ct flags content) o := by
  have hlen := recordBytes_length vt ct flags content
  have ha := align_ge (8 + content.length)
  unfold VMap.appendRecord Appended
  rw [hlen]
  dsimp only [Option.bind_eq_bind]
  rw [← recordBytes]
  rcases popFit_ok h (bytes := align (8 + content.length)) (by omega) with h1 | ⟨m1, off, cs1, h1, hm1, hk1⟩
  · rw [h1]
    dsimp only [Option.bind_some]
    by_cases ho : 2 ^ 32 - 1 - (m.used + 15) / 16 * 16 < align (8 + content.length)
    · rw [if_pos ho]
      exact ⟨_, _, rfl, .inl ⟨rfl, .inr (by omega), rfl, ⟨rfl, rfl, rfl, rfl, rfl, rfl, rfl, fun _ _ => rfl⟩, cs, h.rows _ rfl rfl rfl rfl⟩⟩
    · rw [if_neg ho]
      by_cases hc : m.pool.length < (m.used + 15) / 16 * 16 + align (8 + content.length) ∧ m.fixed = true
      · rw [if_pos hc]
        exact ⟨_, _, rfl, .inl ⟨rfl, .inl hc.2, rfl, ⟨rfl, rfl, rfl, rfl, rfl, rfl, rfl, fun _ _ => rfl⟩, cs, h.rows _ rfl rfl rfl rfl⟩⟩
      · rw [if_neg hc]
        obtain ⟨m1, cs1, h2, hm1, ha1, hr1, hu1⟩ := room_ok h hp hl (need := (m.used + 15) / 16 * 16 + align (8 + content.length))
          (n := align (8 + content.length)) (by omega) hfit hc
        rw [h2]
        dsimp only [Option.bind_some]
        have hbm := bump_ok hm1 (((m.used + 15) / 16 * 16 - m.used) + align (8 + content.length)) (by omega)
        rw [hu1, show m.used + ((m.used + 15) / 16 * 16 - m.used + align (8 + content.length)) = (m.used + 15) / 16 * 16 + align (8 + content.length) by
          omega] at hbm
        have hsp := hbm.split ((m.used + 15) / 16 * 16 - m.used) (by dsimp only; omega)
        dsimp only at hsp
        rw [show m1.base + m.used + ((m.used + 15) / 16 * 16 - m.used) = m1.base + (m.used + 15) / 16 * 16 by omega,
          show (m.used + 15) / 16 * 16 - m.used + align (8 + content.length) - ((m.used + 15) / 16 * 16 - m.used) = align (8 + content.length) by omega] at hsp
        have hsp' : Mem { m1 with used := (m.used + 15) / 16 * 16 + align (8 + content.length) }
            ((m1.base + m.used, (List.replicate ((m.used + 15) / 16 * 16 - m.used) 0#8).length) ::
              (m1.base + (m.used + 15) / 16 * 16, align (8 + content.length)) :: l.map (shift m.base m1.base)) cs1 := by
          rw [List.length_replicate]; exact hsp
        obtain ⟨m2, h3, hm2, hk2, _⟩ := fill_ok hsp'
        have hm2 := Mem.drop (l := [_]) hm2
        rw [← hlen] at hm2
        obtain ⟨m3, h4, hm3, hk3, hpk⟩ := fill_ok hm2
        rw [hlen] at hm3 hpk
        rw [hu1, h3]
        dsimp only [Option.bind_some]
        rw [h4]
        refine ⟨_, _, rfl, .inr ⟨_, cs1, rfl, ?_, ha1.kept ((hk2.mono (by simp +contextual)).trans hk3), hpk⟩⟩
        rw [hk3.base, hk2.base]; exact hm3
  · rw [h1]
    dsimp only [Option.bind_some]
    rw [← hlen] at hm1
    obtain ⟨m2, h2, hm2, hk2, hpk⟩ := fill_ok hm1
    rw [h2]
    rw [hlen] at hm2 hpk
    refine ⟨_, _, rfl, .inr ⟨off, cs1, rfl, ?_, (hk1.trans hk2).alloc h hp hl _, hpk⟩⟩
    rw [(hk1.trans hk2).base, shift_self h.low]
    exact hm2

end Verif.VMap
