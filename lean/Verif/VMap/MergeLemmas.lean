import Verif.VMap.Merge
import Verif.VMap.Ops
/-! Lemmas about `merge`. -/
namespace Verif.VMap
open Verif.Bytes

/-- nothing moved; what is in `l` is as before -/
structure Stay (m m' : VMap) (l : List Reg) : Prop where
  cap : m'.entryCapacity = m.entryCapacity
  base : m'.base = m.base
  len : m'.pool.length = m.pool.length
  fixed : m'.fixed = m.fixed
  data : ∀ g ∈ l, m'.peek g.1 g.2 = m.peek g.1 g.2

theorem Stay.refl (m : VMap) (l : List Reg) : Stay m m l := ⟨rfl, rfl, rfl, rfl, fun _ _ => rfl⟩

theorem Stay.trans {m m' m'' : VMap} {l : List Reg} (h : Stay m m' l) (h' : Stay m' m'' l) : Stay m m'' l :=
  ⟨h'.cap.trans h.cap, h'.base.trans h.base, h'.len.trans h.len, h'.fixed.trans h.fixed, fun g hg => (h'.data g hg).trans (h.data g hg)⟩

theorem Stay.mono {m m' : VMap} {l l' : List Reg} (h : Stay m m' l) (hs : ∀ g ∈ l', g ∈ l) : Stay m m' l' :=
  ⟨h.cap, h.base, h.len, h.fixed, fun g hg => h.data g (hs g hg)⟩

theorem Stay.rows {m m' : VMap} {l : List Reg} (h : Stay m m' l) (rs rs' : List Row) : Stay { m with rows := rs } { m' with rows := rs' } l :=
  ⟨h.cap, h.base, h.len, h.fixed, h.data⟩

theorem Kept.stay {m m' : VMap} {l : List Reg} (h : Kept m m' l) : Stay m m' l := ⟨h.cap, h.base, h.len, h.fixed, h.data⟩

/-- storing bytes when there is room, or in a fixed buffer -/
theorem appendPayload_stay {m : VMap} {l cs : List Reg} {bs : List Byte} (h : Mem m l cs)
    (hr : m.fixed = true ∨ m.used + bs.length ≤ m.pool.length) :
    ∃ m' o, m.appendPayload bs 0 = some (m', o) ∧ Stay m m' l ∧ m'.rows = m.rows ∧
      ((o = none ∧ m.fixed = true ∧ m'.overflow = true ∧ ∃ cs, Mem m' l cs) ∨
       ∃ off cs, o = some off ∧ Mem m' ((off, bs.length) :: l) cs ∧ m'.peek off bs.length = some bs ∧ m'.used ≤ m.used + bs.length) := by
  have ht := h.total
  unfold VMap.appendPayload
  dsimp only [Option.bind_eq_bind]
  rw [Nat.add_zero, List.replicate_zero, List.append_nil]
  have hpop : m.popFit bs.length = some (m, none) ∨
      ∃ m' off cs', m.popFit bs.length = some (m', some off) ∧ Mem m' ((off, bs.length) :: l) cs' ∧ Kept m m' l := by
    by_cases hb : 0 < bs.length
    · exact popFit_ok h hb
    · left
      unfold VMap.popFit
      rw [if_pos (.inr (by omega))]
  rcases hpop with h1 | ⟨m1, off, cs1, h1, hm1, hk1⟩
  · rw [h1]
    dsimp only [Option.bind_some]
    by_cases ho : 2 ^ 32 - 1 - m.used < bs.length
    · rw [if_pos ho]
      exact ⟨_, none, rfl, ⟨rfl, rfl, rfl, rfl, fun _ _ => rfl⟩, rfl, .inl ⟨rfl, by
        rcases hr with hr | hr
        · exact hr
        · omega, rfl, cs, h.rows _ rfl rfl rfl rfl⟩⟩
    · rw [if_neg ho]
      by_cases hc : m.pool.length < m.used + bs.length ∧ m.fixed = true
      · rw [if_pos hc]
        exact ⟨_, none, rfl, ⟨rfl, rfl, rfl, rfl, fun _ _ => rfl⟩, rfl, .inl ⟨rfl, hc.2, rfl, cs, h.rows _ rfl rfl rfl rfl⟩⟩
      · rw [if_neg hc]
        have hroom : m.used + bs.length ≤ m.pool.length := by
          rcases hr with hr | hr
          · apply Decidable.byContradiction
            intro hn
            exact hc ⟨by omega, hr⟩
          · exact hr
        rw [if_neg (by omega)]
        dsimp only [Option.bind_some]
        have hbm := bump_ok h bs.length hroom
        obtain ⟨m2, h3, hm2, hk2, hpk⟩ := fill_ok hbm
        rw [h3]
        refine ⟨m2, _, rfl, ⟨hk2.cap, hk2.base, hk2.len, hk2.fixed, hk2.data⟩, hk2.rows, .inr ⟨_, cs, rfl, hm2, hpk, ?_⟩⟩
        rw [hk2.used]
        exact Nat.le_refl _
  · rw [h1]
    dsimp only [Option.bind_some]
    obtain ⟨m2, h2, hm2, hk2, hpk⟩ := fill_ok hm1
    rw [h2]
    refine ⟨m2, _, rfl, (hk1.trans hk2).stay, (hk1.trans hk2).rows, .inr ⟨off, cs1, rfl, hm2, hpk, ?_⟩⟩
    rw [(hk1.trans hk2).used]
    omega

/-- the bytes a merged row owns: no more than what is read from it -/
def KeyRef.tight : KeyRef → List Reg
  | .spilled off len => [(off, len)]
  | _ => []

def Row.tight (r : Row) : List Reg := (if r.hasRec then [(r.off, r.len)] else []) ++ r.key.tight

/-- bytes needed for a copy of the row -/
def Row.need (s : Row) : Nat := (if s.hasRec then s.len else 0) + match s.key with
  | .spilled _ len => len
  | _ => 0

/-- the key of a copied row -/
def KeyCopy (m : VMap) (key : Key) : KeyRef → KeyRef → Prop
  | .spilled _ len, k => len = key.length ∧ ∃ off, k = .spilled off len ∧ m.peek off len = some key
  | k', k => k = k'

theorem mergeKey_ok {m : VMap} {l cs : List Reg} {s : Row} {key : Key} {pre : List Row} (h : Mem m l cs) (hrows : m.rows = pre ++ [s])
    (hr : m.fixed = true ∨ m.used + (s.key.tight.map (·.2)).sum ≤ m.pool.length)
    (hk : ∀ off len, s.key = .spilled off len → len = key.length) :
    ∃ m' ok, m.mergeKey pre.length s key = some (m', ok) ∧ Stay m m' l ∧
      ((ok = false ∧ m.fixed = true ∧ m'.overflow = true ∧ m'.rows = pre ++ [s] ∧ ∃ cs, Mem m' l cs) ∨
       (ok = true ∧ ∃ k cs, m'.rows = pre ++ [{ s with key := k }] ∧ Mem m' (k.tight ++ l) cs ∧ KeyCopy m' key s.key k ∧
         m'.used ≤ m.used + (s.key.tight.map (·.2)).sum)) := by
  unfold VMap.mergeKey
  have hsame : ∀ k, s.key = k → ({ s with key := k } : Row) = s := fun k hk => by rw [← hk]
  cases hs : s.key with
  | canonical id =>
    exact ⟨m, true, rfl, .refl _ _, .inr ⟨rfl, s.key, cs, hrows, by rw [hs]; exact h, by rw [hs]; rfl, by omega⟩⟩
  | inline name =>
    exact ⟨m, true, rfl, .refl _ _, .inr ⟨rfl, s.key, cs, hrows, by rw [hs]; exact h, by rw [hs]; rfl, by omega⟩⟩
  | spilled off len =>
    have hl := hk off len hs
    have hsum : (s.key.tight.map (·.2)).sum = key.length := by rw [hs, ← hl]; simp [KeyRef.tight]
    rw [hsum] at hr
    dsimp only [Option.bind_eq_bind]
    obtain ⟨m', o, g1, g2, g3, g4⟩ := appendPayload_stay h (bs := key) hr
    rw [g1]
    dsimp only [Option.bind_some]
    rcases g4 with ⟨rfl, x1, x2, x3⟩ | ⟨noff, cs', rfl, x1, x2, x3⟩
    · exact ⟨m', false, rfl, g2, .inl ⟨rfl, x1, x2, g3.trans hrows, x3⟩⟩
    · have hget : m'.rows[pre.length]? = some s := by rw [g3, hrows]; simp
      dsimp only
      rw [hget]
      dsimp only [Option.bind_some]
      refine ⟨_, true, rfl, g2.rows _ _, .inr ⟨rfl, .spilled noff key.length, cs', ?_, ?_, ⟨hl, noff, by rw [hl], ?_⟩, ?_⟩⟩
      · dsimp only
        rw [g3, hrows, set_split]
      · exact Mem.rows (m := m') x1 _ rfl rfl rfl rfl
      · rw [hl]; exact x2
      · dsimp only
        simp only [KeyRef.tight, List.map_cons, List.map_nil, List.sum_cons, List.sum_nil]
        omega

theorem mergeRecord_ok {m o : VMap} {l cs : List Reg} {s r : Row} {bs : List Byte} {pre : List Row} (h : Mem m l cs) (hrows : m.rows = pre ++ [r])
    (hh : r.hasRec = s.hasRec) (hlen : r.len = s.len)
    (hr : m.fixed = true ∨ m.used + (if s.hasRec then s.len else 0) ≤ m.pool.length)
    (hbs : s.hasRec = true → o.peek s.off s.len = some bs) :
    ∃ m' ok, m.mergeRecord o pre.length s = some (m', ok) ∧ Stay m m' l ∧
      ((ok = false ∧ m.fixed = true ∧ m'.overflow = true ∧ m'.rows = pre ++ [r] ∧ ∃ cs, Mem m' l cs) ∨
       (ok = true ∧ ∃ off cs, m'.rows = pre ++ [{ r with off := off }] ∧ Mem m' ((if s.hasRec then [(off, s.len)] else []) ++ l) cs ∧
         (s.hasRec = true → m'.peek off s.len = some bs) ∧ m'.used ≤ m.used + (if s.hasRec then s.len else 0))) := by
  unfold VMap.mergeRecord
  cases hs : s.hasRec with
  | false =>
    exact ⟨m, true, rfl, .refl _ _, .inr ⟨rfl, r.off, cs, hrows, h, fun hx => absurd hx (by decide), by omega⟩⟩
  | true =>
    have hb := hbs hs
    have hl := peek_length hb
    rw [if_pos rfl]
    dsimp only [Option.bind_eq_bind]
    rw [hb]
    dsimp only [Option.bind_some]
    rw [hs, if_pos rfl] at hr
    obtain ⟨m', ofs, g1, g2, g3, g4⟩ := appendPayload_stay h (bs := bs) (by rw [hl]; exact hr)
    rw [g1]
    dsimp only [Option.bind_some]
    rcases g4 with ⟨rfl, x1, x2, x3⟩ | ⟨noff, cs', rfl, x1, x2, x3⟩
    · exact ⟨m', false, rfl, g2, .inl ⟨rfl, x1, x2, g3.trans hrows, x3⟩⟩
    · have hget : m'.rows[pre.length]? = some r := by rw [g3, hrows]; simp
      dsimp only
      rw [hget]
      dsimp only [Option.bind_some]
      rw [hl] at x1 x2 x3
      refine ⟨_, true, rfl, g2.rows _ _, .inr ⟨rfl, noff, cs', ?_, ?_, fun _ => x2, x3⟩⟩
      · dsimp only
        rw [g3, hrows, set_split]
      · exact Mem.rows (m := m') x1 _ rfl rfl rfl rfl

/-- room for `n` more rows and `g` more bytes, or a fixed buffer -/
def Ready (m : VMap) (n g : Nat) : Prop := m.fixed = true ∨ (m.rows.length + n + 1 ≤ m.entryCapacity ∧ m.used + g ≤ m.pool.length)

theorem need_eq (s : Row) : s.need = (if s.hasRec then s.len else 0) + (s.key.tight.map (·.2)).sum := by
  unfold Row.need
  cases s.key <;> simp [KeyRef.tight]

theorem ensureSlot_stay {m : VMap} (hl : Layout m) (hr : m.fixed = true ∨ m.rows.length + 2 ≤ m.entryCapacity) :
    (m.ensureSlot = some ({ m with overflow := true }, false) ∧ m.fixed = true) ∨
    (m.ensureSlot = some (m, true) ∧ m.rows.length < m.rowRoom ∧ m.rows.length + 1 < 65536) := by
  unfold VMap.ensureSlot
  by_cases h1 : m.entryCapacity ≤ m.rows.length + 1
  · rw [if_pos h1]
    have hf : m.fixed = true := by
      rcases hr with hr | hr
      · exact hr
      · omega
    rw [if_pos hf]
    exact .inl ⟨rfl, hf⟩
  · rw [if_neg h1]
    obtain ⟨e, h2, h3, h4⟩ := hl
    refine .inr ⟨rfl, ?_, by omega⟩
    unfold VMap.rowRoom
    omega

theorem mergeRow_ok {m o : VMap} {l cs : List Reg} {s : Row} {key : Key} {bs : List Byte} (h : Mem m l cs) (hl : Layout m) (hr : Ready m 1 s.need)
    (hbs : s.hasRec = true → o.peek s.off s.len = some bs) (hk : ∀ off len, s.key = .spilled off len → len = key.length) :
    ∃ m' ok, m.mergeRow o s key = some (m', ok) ∧ Stay m m' l ∧
      ((ok = false ∧ m.fixed = true ∧ m'.overflow = true ∧ m'.rows = m.rows ∧ ∃ cs, Mem m' l cs) ∨
       (ok = true ∧ ∃ k off cs, m'.rows = m.rows ++ [{ s with key := k, off := off }] ∧ m.rows.length < m.rowRoom ∧ m.rows.length + 1 < 65536 ∧
         Mem m' ((Row.tight { s with key := k, off := off }) ++ l) cs ∧ KeyCopy m' key s.key k ∧ (s.hasRec = true → m'.peek off s.len = some bs) ∧
         m'.used ≤ m.used + s.need)) := by
  have hneed := need_eq s
  unfold VMap.mergeRow
  dsimp only [Option.bind_eq_bind]
  rcases ensureSlot_stay hl (by
    rcases hr with hr | hr
    · exact .inl hr
    · exact .inr hr.1) with ⟨g1, hf⟩ | ⟨g1, hroom, hcnt⟩
  · rw [g1]
    exact ⟨_, false, rfl, ⟨rfl, rfl, rfl, rfl, fun _ _ => rfl⟩, .inl ⟨rfl, hf, rfl, rfl, cs, h.rows _ rfl rfl rfl rfl⟩⟩
  rw [g1]
  dsimp only [Option.bind_some]
  rw [if_neg (by decide), if_neg (by omega), if_neg (by omega)]
  have h0 : Mem { m with rows := m.rows ++ [s] } l cs := h.rows _ rfl rfl rfl rfl
  have htake : ∀ r : Row, (m.rows ++ [r]).take m.rows.length = m.rows := fun r => List.take_left' rfl
  obtain ⟨m1, ok1, k1, st1, k2⟩ := mergeKey_ok (key := key) h0 rfl (by
    rcases hr with hr | hr
    · exact .inl hr
    · refine .inr ?_
      have := hr.2
      dsimp only
      omega) hk
  rw [k1]
  dsimp only [Option.bind_some]
  rcases k2 with ⟨rfl, x1, x2, x3, cs1, x4⟩ | ⟨rfl, k, cs1, x1, x2, x3, x4⟩
  · refine ⟨_, false, rfl, ⟨st1.cap, st1.base, st1.len, st1.fixed, st1.data⟩, .inl ⟨rfl, x1, x2, ?_, cs1, Mem.rows (m := m1) x4 _ rfl rfl rfl rfl⟩⟩
    dsimp only
    rw [x3, htake]
  rw [if_neg (by decide)]
  obtain ⟨m2, ok2, r1, st2, r2⟩ := mergeRecord_ok (o := o) (s := s) (bs := bs) x2 x1 rfl rfl (by
    rcases hr with hr | hr
    · exact .inl (st1.fixed.trans hr)
    · refine .inr ?_
      have := hr.2
      have h3 := st1.len
      dsimp only at x4 h3
      omega) hbs
  rw [r1]
  dsimp only [Option.bind_some]
  have hst : Stay m m2 l := by
    have h2 := st2.mono (l' := l) fun g hg => List.mem_append_right _ hg
    exact ⟨h2.cap.trans st1.cap, h2.base.trans st1.base, h2.len.trans st1.len, h2.fixed.trans st1.fixed, fun g hg => (h2.data g hg).trans (st1.data g hg)⟩
  rcases r2 with ⟨rfl, y1, y2, y3, cs2, y4⟩ | ⟨rfl, off, cs2, y1, y2, y3, y4⟩
  · refine ⟨_, false, rfl, ⟨hst.cap, hst.base, hst.len, hst.fixed, hst.data⟩, .inl ⟨rfl, st1.fixed.symm.trans y1, y2, ?_, cs2,
      Mem.rows (m := m2) y4.drop _ rfl rfl rfl rfl⟩⟩
    dsimp only
    rw [y3, htake]
  · rw [if_neg (by decide)]
    refine ⟨m2, true, rfl, hst, .inr ⟨rfl, k, off, cs2, y1, hroom, hcnt, ?_, ?_, y3, ?_⟩⟩
    · unfold Row.tight
      dsimp only
      rw [List.append_assoc]
      exact y2
    · cases hs : s.key with
      | canonical id => rw [hs] at x3; exact x3
      | inline name => rw [hs] at x3; exact x3
      | spilled koff klen =>
        rw [hs] at x3
        obtain ⟨z1, noff, rfl, z2⟩ := x3
        refine ⟨z1, noff, rfl, ?_⟩
        rw [← z2]
        exact st2.data (noff, klen) (by simp [KeyRef.tight])
    · dsimp only at x4
      omega

/-! ### Holding a dictionary, also with merged rows -/

/-- bytes inside a live region -/
def In (live : List Reg) (off n : Nat) : Prop := ∃ g ∈ live, g.1 ≤ off ∧ off + n ≤ g.1 + g.2

def ValHeld (m : VMap) (live : List Reg) (r : Row) (v : Val) : Prop :=
  (r.hasRec = false ∧ v = .unset) ∨ (r.hasRec = true ∧ ∃ n bs, In live r.off n ∧ m.peek r.off n = some bs ∧ decode bs = some v)

def KeyHeld (m : VMap) (live : List Reg) (key : KeyRef) (k : Key) : Prop :=
  KeyIs m key k ∧ ∀ off len, key = .spilled off len → In live off len

structure Held (m : VMap) (d : Dict) (live : List Reg) : Prop where
  mem : ∃ cs, Mem m live cs
  layout : Layout m
  count : m.rows.length < 65536
  len : m.rows.length = d.length
  key : ∀ (i : Nat) (r : Row) (e : Key × Val), m.rows[i]? = some r → d[i]? = some e → KeyHeld m live r.key e.1
  val : ∀ (i : Nat) (r : Row) (e : Key × Val), m.rows[i]? = some r → d[i]? = some e → ValHeld m live r e.2

theorem Inv.held {m : VMap} {d : Dict} (h : Inv m d) : Held m d (m.rows.flatMap Row.regs) := by
  refine ⟨h.mem, h.layout, h.count, h.len, fun i r e hr he => ⟨h.key i r e hr he, fun off len hk => ?_⟩, fun i r e hr he => ?_⟩
  · refine ⟨(off, len + 1), List.mem_flatMap.2 ⟨r, List.mem_of_getElem? hr, ?_⟩, Nat.le_refl _, by dsimp only; omega⟩
    simp [Row.regs, hk, KeyRef.regs]
  · rcases h.val i r e hr he with hx | ⟨h1, h2, ct, fl, c, h3, h4, _⟩
    · exact .inl hx
    · refine .inr ⟨h1, align r.len, _, ⟨(r.off, align r.len), List.mem_flatMap.2 ⟨r, List.mem_of_getElem? hr, ?_⟩, Nat.le_refl _, Nat.le_refl _⟩, h3, h4⟩
      simp [Row.regs, h1]

theorem In.append {live : List Reg} {off n : Nat} (h : In live off n) (new : List Reg) : In (new ++ live) off n := by
  obtain ⟨g, h1, h2⟩ := h
  exact ⟨g, List.mem_append_right _ h1, h2⟩

/-- a part of a live region is as before -/
theorem In.peek {m m' : VMap} {live cs : List Reg} {off n : Nat} (h : In live off n) (hm : Mem m live cs) (hs : Stay m m' live) : m'.peek off n = m.peek off n := by
  obtain ⟨g, hg, h1, h2⟩ := h
  have hin := hm.inside g (List.mem_append_left _ hg)
  have hu := hm.used
  have h0 := peek_some (m := m) (off := g.1) (n := g.2) hin.1 (by omega)
  have h3 := peek_sub h0 (off - g.1) n (by omega)
  have h4 := peek_sub ((hs.data g hg).trans h0) (off - g.1) n (by omega)
  rw [show g.1 + (off - g.1) = off by omega] at h3 h4
  rw [h3, h4]

theorem KeyHeld.stay {m m' : VMap} {live cs : List Reg} {key : KeyRef} {k : Key} (h : KeyHeld m live key k) (hm : Mem m live cs) (hs : Stay m m' live) :
    KeyHeld m' live key k := by
  refine ⟨?_, h.2⟩
  have h1 := h.1
  cases hk : key with
  | canonical id => rw [hk] at h1; exact h1
  | inline name => rw [hk] at h1; exact h1
  | spilled off len =>
    rw [hk] at h1
    exact ((h.2 off len hk).peek hm hs).trans h1

theorem ValHeld.stay {m m' : VMap} {live cs : List Reg} {r : Row} {v : Val} (h : ValHeld m live r v) (hm : Mem m live cs) (hs : Stay m m' live) :
    ValHeld m' live r v := by
  rcases h with h | ⟨h1, n, bs, h2, h3, h4⟩
  · exact .inl h
  · exact .inr ⟨h1, n, bs, h2, (h2.peek hm hs).trans h3, h4⟩

theorem ValHeld.append {m : VMap} {live : List Reg} {r : Row} {v : Val} (h : ValHeld m live r v) (new : List Reg) : ValHeld m (new ++ live) r v := by
  rcases h with h | ⟨h1, n, bs, h2, h3, h4⟩
  · exact .inl h
  · exact .inr ⟨h1, n, bs, h2.append new, h3, h4⟩

theorem KeyHeld.append {m : VMap} {live : List Reg} {key : KeyRef} {k : Key} (h : KeyHeld m live key k) (new : List Reg) : KeyHeld m (new ++ live) key k :=
  ⟨h.1, fun off len hk => (h.2 off len hk).append new⟩

theorem Held.stay {m m' : VMap} {d : Dict} {live cs : List Reg} (h : Held m d live) (hs : Stay m m' live) (hr : m'.rows = m.rows) (hm : Mem m' live cs) :
    Held m' d live := by
  obtain ⟨cs0, h0⟩ := h.mem
  refine ⟨⟨cs, hm⟩, h.layout.kept hs.base hs.cap hr, hr ▸ h.count, hr ▸ h.len, ?_, ?_⟩
  · intro i r e h1 h2
    rw [hr] at h1
    exact (h.key i r e h1 h2).stay h0 hs
  · intro i r e h1 h2
    rw [hr] at h1
    exact (h.val i r e h1 h2).stay h0 hs

theorem snoc_get {rows : List Row} {d : Dict} {r0 : Row} {e0 : Key × Val} (hl : rows.length = d.length) {i : Nat} {r : Row} {e : Key × Val}
    (h1 : (rows ++ [r0])[i]? = some r) (h2 : (d ++ [e0])[i]? = some e) : (rows[i]? = some r ∧ d[i]? = some e) ∨ (r = r0 ∧ e = e0) := by
  rw [List.getElem?_append] at h1 h2
  rw [hl] at h1
  split at h1
  · rename_i hlt
    rw [if_pos hlt] at h2
    exact .inl ⟨h1, h2⟩
  · rename_i hlt
    rw [if_neg hlt] at h2
    rw [List.getElem?_singleton] at h1 h2
    split at h1
    · rename_i h0
      rw [if_pos h0] at h2
      simp only [Option.some.injEq] at h1 h2
      exact .inr ⟨h1.symm, h2.symm⟩
    · simp at h1

theorem Held.push {m m' : VMap} {d : Dict} {live new cs : List Reg} {r : Row} {k : Key} {v : Val} (h : Held m d live) (hs : Stay m m' live)
    (hr : m'.rows = m.rows ++ [r]) (hroom : m.rows.length < m.rowRoom) (hc : m.rows.length + 1 < 65536) (hm : Mem m' (new ++ live) cs)
    (hk : KeyHeld m' new r.key k) (hv : ValHeld m' new r v) : Held m' (d ++ [(k, v)]) (new ++ live) := by
  obtain ⟨cs0, h0⟩ := h.mem
  have hin : ∀ {off n}, In new off n → In (new ++ live) off n := fun ⟨g, h1, h2⟩ => ⟨g, List.mem_append_left _ h1, h2⟩
  refine ⟨⟨cs, hm⟩, ?_, ?_, ?_, ?_, ?_⟩
  · obtain ⟨e, h1, h2, h3⟩ := h.layout
    refine ⟨e, hs.base.trans h1, hs.cap.trans h2, ?_⟩
    unfold VMap.rowRoom at hroom
    rw [hr, List.length_append, List.length_singleton]
    omega
  · rw [hr, List.length_append, List.length_singleton]; exact hc
  · rw [hr]; simp [h.len]
  · intro i r' e h1 h2
    rw [hr] at h1
    rcases snoc_get h.len h1 h2 with ⟨h3, h4⟩ | ⟨rfl, rfl⟩
    · exact ((h.key i r' e h3 h4).stay h0 hs).append new
    · exact ⟨hk.1, fun off len hx => hin (hk.2 off len hx)⟩
  · intro i r' e h1 h2
    rw [hr] at h1
    rcases snoc_get h.len h1 h2 with ⟨h3, h4⟩ | ⟨rfl, rfl⟩
    · exact ((h.val i r' e h3 h4).stay h0 hs).append new
    · rcases hv with hv | ⟨h3, n, bs, h4, h5⟩
      · exact .inl hv
      · exact .inr ⟨h3, n, bs, hin h4, h5⟩

theorem Held.find {m : VMap} {d : Dict} {live : List Reg} (h : Held m d live) (key : Key) : m.find key = some (d.findIdx? (·.1 == key)) := by
  unfold VMap.find
  rw [findIn_ok key m.rows d 0 h.len fun i r e h1 h2 => (h.key i r e h1 h2).1]
  congr 1
  cases d.findIdx? (·.1 == key) <;> simp

theorem ValHeld.read {m : VMap} {live : List Reg} {r : Row} {v : Val} (h : ValHeld m live r v) (hb : 32 ≤ m.base) : m.readVal r = some v := by
  unfold VMap.readVal
  rcases h with ⟨h1, h2⟩ | ⟨h1, n, bs, _, h2, h3⟩
  · rw [h1, h2]; rfl
  · obtain ⟨h4, h5⟩ := peek_eq_some.1 h2
    rw [h1, if_pos (by simp; omega), if_pos h4.1]
    have := decode_append ((m.pool.drop (r.off - m.base)).drop n) h3
    rw [← h5, List.take_append_drop] at this
    exact this

theorem Held.contents {m : VMap} {d : Dict} {live : List Reg} (h : Held m d live) : m.contents = some d := by
  obtain ⟨cs, hm⟩ := h.mem
  refine mapM_read m.rows d h.len fun i r e h1 h2 => ?_
  unfold VMap.read
  rw [(h.key i r e h1 h2).1.read]
  dsimp only [Option.bind_eq_bind, Option.bind_some]
  rw [(h.val i r e h1 h2).read hm.base]
  rfl

theorem Held.lookup {m : VMap} {d : Dict} {live : List Reg} (h : Held m d live) (k : Key) : m.lookup k = some (d.get k) := by
  obtain ⟨cs, hm⟩ := h.mem
  unfold VMap.lookup
  rw [h.find]
  dsimp only [Option.bind_eq_bind, Option.bind_some]
  cases hf : d.findIdx? (·.1 == k) with
  | none => dsimp only; rw [get_none (found_none hf)]
  | some i =>
    obtain ⟨pre, v, post, rfl, hl, hn⟩ := found_some hf
    have hd : (pre ++ (k, v) :: post)[i]? = some (k, v) := by rw [← hl]; simp
    have hil : i < m.rows.length := by rw [h.len]; exact (List.getElem?_eq_some_iff.1 hd).1
    obtain ⟨r, hri⟩ : ∃ r, m.rows[i]? = some r := ⟨_, List.getElem?_eq_getElem hil⟩
    dsimp only
    rw [hri, Option.bind_some, (h.val i r _ hri hd).read hm.base, get_split hn]
    rfl

/-! ### The loop -/

/-- copies of these rows own as much as rows written by the other operations -/
def Row.tidy (s : Row) : Prop := (s.hasRec = true → s.len % 16 = 0) ∧ ∀ off len, s.key ≠ .spilled off len

theorem Row.tight_regs {s : Row} (h : s.tidy) (hl : s.hasRec = true → 0 < s.len) : s.tight = s.regs := by
  unfold Row.tight Row.regs
  have hk : s.key.tight = s.key.regs := by
    cases hk : s.key with
    | canonical id => rfl
    | inline name => rfl
    | spilled off len => exact absurd hk (h.2 off len)
  rw [hk]
  cases hh : s.hasRec with
  | false => rfl
  | true =>
    have h1 := h.1 hh
    have h2 := hl hh
    rw [if_pos rfl, if_pos rfl, show align s.len = s.len by unfold align; omega]

theorem Inv.append {m m' : VMap} {d : Dict} {r : Row} {k : Key} {v : Val} {cs : List Reg} (h : Inv m d) (hs : Stay m m' (m.rows.flatMap Row.regs))
    (hr : m'.rows = m.rows ++ [r]) (hroom : m.rows.length < m.rowRoom) (hc : m.rows.length + 1 < 65536) (hm : Mem m' (r.regs ++ m.rows.flatMap Row.regs) cs)
    (hk : KeyIs m' r.key k) (hv : ValIs m' r v) (hn : k ∉ d.map (·.1)) : Inv m' (d ++ [(k, v)]) := by
  obtain ⟨cs0, h0⟩ := h.mem
  have hin : ∀ x ∈ m.rows, ∀ g ∈ x.regs, (m'.peek g.1 g.2 = m.peek g.1 g.2) ∧ m.base ≤ g.1 ∧ g.1 + g.2 ≤ m.base + m.pool.length := by
    intro x hx g hg
    have hg' : g ∈ m.rows.flatMap Row.regs := List.mem_flatMap.2 ⟨x, hx, hg⟩
    have h1 := h0.inside g (List.mem_append_left _ hg')
    have h2 := h0.used
    exact ⟨hs.data g hg', h1.1, by omega⟩
  refine ⟨⟨cs, ?_⟩, ?_, ?_, ?_, ?_, ?_, ?_⟩
  · rw [hr, List.flatMap_append]
    have : [r].flatMap Row.regs = r.regs := by simp
    rw [this]
    exact hm.perm List.perm_append_comm
  · obtain ⟨e, h1, h2, h3⟩ := h.layout
    refine ⟨e, hs.base.trans h1, hs.cap.trans h2, ?_⟩
    unfold VMap.rowRoom at hroom
    rw [hr, List.length_append, List.length_singleton]
    omega
  · rw [hr, List.length_append, List.length_singleton]; exact hc
  · rw [hr]; simp [h.len]
  · intro i r' e h1 h2
    rw [hr] at h1
    rcases snoc_get h.len h1 h2 with ⟨h3, h4⟩ | ⟨rfl, rfl⟩
    · exact (h.key i r' e h3 h4).same hs.base fun g hg => hin r' (List.mem_of_getElem? h3) g (by simp [Row.regs, hg])
    · exact hk
  · intro i r' e h1 h2
    rw [hr] at h1
    rcases snoc_get h.len h1 h2 with ⟨h3, h4⟩ | ⟨rfl, rfl⟩
    · exact (h.val i r' e h3 h4).same fun hh => (hin r' (List.mem_of_getElem? h3) (r'.off, align r'.len) (by simp [Row.regs, hh])).1
    · exact hv
  · rw [List.map_append, List.nodup_append]
    refine ⟨h.keys, by simp, ?_⟩
    intro a ha b hb
    simp at hb
    subst hb
    intro he
    exact hn (he ▸ ha)

/-- a row of the source and its entry -/
def Good (o : VMap) (p : Row × (Key × Val)) : Prop := KeyIs o p.1.key p.2.1 ∧ ValIs o p.1 p.2.2

/-- bytes to copy of a source row -/
theorem Good.bytes {o : VMap} {s : Row} {e : Key × Val} (h : Good o (s, e)) :
    ∃ bs, (s.hasRec = true → o.peek s.off s.len = some bs ∧ decode bs = some e.2 ∧ 0 < s.len) ∧ (s.hasRec = false → e.2 = .unset) := by
  rcases h.2 with ⟨h1, h2⟩ | ⟨h1, h2, ct, fl, c, h3, h4, h5, h6, h7, h8, h9⟩
  · dsimp only at h1 h2
    exact ⟨[], fun hx => by rw [h1] at hx; exact absurd hx (by decide), fun _ => h2⟩
  · dsimp only at h1 h2 h3 h9
    have ha := align_ge s.len
    have := peek_sub h3 0 s.len (by omega)
    rw [Nat.add_zero, List.drop_zero] at this
    exact ⟨_, fun _ => ⟨this, h9.1, h2⟩, fun hx => by rw [h1] at hx; exact absurd hx (by decide)⟩

theorem KeyCopy.keyIs {m o : VMap} {k0 k : KeyRef} {key : Key} (h : KeyCopy m key k0 k) (hk : KeyIs o k0 key) : KeyHeld m k.tight k key := by
  cases k0 with
  | canonical id =>
    cases h
    exact ⟨hk, fun _ _ hx => nomatch hx⟩
  | inline name =>
    cases h
    exact ⟨hk, fun _ _ hx => nomatch hx⟩
  | spilled off len =>
    obtain ⟨h1, noff, rfl, h2⟩ := h
    refine ⟨h2, fun o' l' hx => ?_⟩
    simp only [KeyRef.spilled.injEq] at hx
    obtain ⟨rfl, rfl⟩ := hx
    exact ⟨(noff, len), by simp [KeyRef.tight], Nat.le_refl _, Nat.le_refl _⟩

theorem KeyCopy.same {m : VMap} {k0 k : KeyRef} {key : Key} (h : KeyCopy m key k0 k) (hk : ∀ off len, k0 ≠ .spilled off len) : k = k0 := by
  cases k0 with
  | canonical id => exact h
  | inline name => exact h
  | spilled off len => exact absurd rfl (hk off len)

/-- what the loop moves and what it leaves, if it stops after `n` entries -/
def movedOf (d : Dict) (ps : List (Row × (Key × Val))) (n : Nat) : List (Row × (Key × Val)) := (ps.take n).filter fun p => !d.has p.2.1
def leftOf (d : Dict) (ps : List (Row × (Key × Val))) (n : Nat) : List (Row × (Key × Val)) := (ps.take n).filter (fun p => d.has p.2.1) ++ ps.drop n

theorem mergeLoop_ok {o : VMap} : ∀ (ps : List (Row × (Key × Val))) (d : Dict) (m : VMap) (live : List Reg), (∀ p ∈ ps, Good o p) →
    (ps.map (·.2.1)).Nodup → Held m d live → Ready m ps.length (ps.map (·.1.need)).sum →
    ∃ m' live' n, n ≤ ps.length ∧ VMap.mergeLoop o (ps.map (·.1)) m = some (m', (leftOf d ps n).map (·.1)) ∧ m'.fixed = m.fixed ∧
      Held m' (d ++ (movedOf d ps n).map (·.2)) live' ∧ (n = ps.length ∨ (m.fixed = true ∧ m'.overflow = true)) ∧
      (Inv m d → live.Perm (m.rows.flatMap Row.regs) → (∀ p ∈ ps, p.1.tidy) → Inv m' (d ++ (movedOf d ps n).map (·.2)))
  | [], d, m, live, _, _, h, _ => by
    refine ⟨m, live, 0, Nat.le_refl _, rfl, rfl, by simpa [movedOf] using h, .inl rfl, fun hi _ _ => by simpa [movedOf] using hi⟩
  | (s, (k, v)) :: ps, d, m, live, hg, hnd, h, hr => by
    have hgs := hg (s, (k, v)) (by simp)
    have hg' : ∀ p ∈ ps, Good o p := fun p hp => hg p (by simp [hp])
    rw [List.map_cons, List.nodup_cons] at hnd
    dsimp only at hnd
    rw [List.map_cons, VMap.mergeLoop, KeyIs.read hgs.1]
    dsimp only [Option.bind_eq_bind, Option.bind_some]
    rw [h.find k]
    dsimp only [Option.bind_some]
    rw [List.length_cons, List.map_cons, List.sum_cons] at hr
    cases hf : d.findIdx? (·.1 == k) with
    | some i =>
      have hk : d.has k = true := by
        obtain ⟨pre, w, post, rfl, _, _⟩ := found_some hf
        exact has_split
      obtain ⟨m', live', n, g1, g2, g3, g4, g5, g6⟩ := mergeLoop_ok ps d m live hg' hnd.2 h (by
        rcases hr with hr | hr
        · exact .inl hr
        · exact .inr (by omega))
      have e1 : movedOf d ((s, (k, v)) :: ps) (n + 1) = movedOf d ps n := by
        unfold movedOf
        rw [List.take_succ_cons, List.filter_cons, if_neg (by simp [hk])]
      have e2 : leftOf d ((s, (k, v)) :: ps) (n + 1) = (s, (k, v)) :: leftOf d ps n := by
        unfold leftOf
        rw [List.take_succ_cons, List.filter_cons, if_pos (by simpa using hk), List.drop_succ_cons]; rfl
      refine ⟨m', live', n + 1, by simpa using g1, ?_, g3, ?_, ?_, ?_⟩
      · dsimp only
        rw [g2, e2]; rfl
      · rw [e1]; exact g4
      · rcases g5 with g5 | g5
        · left; rw [g5]; rfl
        · exact .inr g5
      · rw [e1]
        exact fun hi hp ht => g6 hi hp fun p hp => ht p (by simp [hp])
    | none =>
      have hk := found_none hf
      dsimp only
      obtain ⟨bs, hb1, hb2⟩ := hgs.bytes
      obtain ⟨cs, hm⟩ := h.mem
      obtain ⟨m1, ok, g1, st, g2⟩ := mergeRow_ok (o := o) (s := s) (key := k) (bs := bs) hm h.layout (by
        rcases hr with hr | hr
        · exact .inl hr
        · dsimp only at hr
          exact .inr (by omega)) (fun hx => (hb1 hx).1) (fun off len hx => by
          have hki := hgs.1
          dsimp only at hki
          rw [hx] at hki
          exact (peek_length hki).symm)
      rw [g1]
      dsimp only [Option.bind_some]
      rcases g2 with ⟨rfl, x1, x2, x3, cs1, x4⟩ | ⟨rfl, kr, off, cs1, x1, x2, x3, x4, x5, x6, x7⟩
      · rw [if_neg (by decide)]
        refine ⟨m1, live, 0, Nat.zero_le _, rfl, st.fixed, ?_, .inr ⟨x1, x2⟩, ?_⟩
        · simpa [movedOf] using h.stay st x3 x4
        · intro hi hp _
          have hst := st.mono (l' := m.rows.flatMap Row.regs) fun g hg => hp.mem_iff.2 hg
          obtain ⟨cs0, h0⟩ := hi.mem
          have : Inv m1 d := by
            refine hi.moved ⟨?_, st.fixed, fun _ => st.base, fun g hg => ?_⟩ (hi.layout.kept st.base st.cap x3) ⟨cs1, ?_⟩
            · rw [x3, st.base]; exact (Mem.placed (x := []) h0).rebase.symm
            · rw [st.base, show m.base + (g.1 - m.base) = g.1 by have := h0.low g hg; omega]
              exact hst.data g hg
            · rw [x3]; exact x4.perm hp
          simpa [movedOf] using this
      · rw [if_pos rfl]
        have hkey : KeyHeld m1 kr.tight kr k := x5.keyIs hgs.1
        have hheld : Held m1 (d ++ [(k, v)]) (Row.tight { s with key := kr, off := off } ++ live) := by
          refine h.push st x1 x2 x3 x4 ⟨hkey.1, fun o' l' hx => ?_⟩ ?_
          · obtain ⟨g, y1, y2⟩ := hkey.2 o' l' hx
            exact ⟨g, by unfold Row.tight; exact List.mem_append_right _ y1, y2⟩
          · cases hh : s.hasRec with
            | false => exact .inl ⟨rfl, hb2 hh⟩
            | true =>
              refine .inr ⟨rfl, s.len, bs, ⟨(off, s.len), ?_, Nat.le_refl _, Nat.le_refl _⟩, x6 hh, (hb1 hh).2.1⟩
              unfold Row.tight
              simp [hh]
        have hrl : m1.rows.length = m.rows.length + 1 := by rw [x1]; simp
        have hnk : ∀ p ∈ ps, p.2.1 ≠ k := fun p hp he => hnd.1 (List.mem_map.2 ⟨p, hp, he⟩)
        have hhas : ∀ p ∈ ps, Dict.has (d ++ [(k, v)]) p.2.1 = d.has p.2.1 := by
          intro p hp
          unfold Dict.has
          rw [List.any_append]
          have : [(k, v)].any (·.1 == p.2.1) = false := by
            simpa using fun he => hnk p hp he.symm
          rw [this, Bool.or_false]
        obtain ⟨m', live', n, y1, y2, y3, y4, y5, y6⟩ := mergeLoop_ok ps (d ++ [(k, v)]) m1 _ hg' hnd.2 hheld (by
          rcases hr with hr | hr
          · exact .inl (st.fixed.trans hr)
          · refine .inr ?_
            rw [hrl, st.cap, st.len]
            dsimp only at hr
            omega)
        have e1 : movedOf d ((s, (k, v)) :: ps) (n + 1) = (s, (k, v)) :: movedOf (d ++ [(k, v)]) ps n := by
          unfold movedOf
          rw [List.take_succ_cons, List.filter_cons, if_pos (by simpa using hk)]
          congr 1
          refine List.filter_congr fun p hp => ?_
          rw [hhas p (List.mem_of_mem_take hp)]
        have e2 : leftOf d ((s, (k, v)) :: ps) (n + 1) = leftOf (d ++ [(k, v)]) ps n := by
          unfold leftOf
          rw [List.take_succ_cons, List.filter_cons, if_neg (by simp [hk]), List.drop_succ_cons]
          congr 1
          refine List.filter_congr fun p hp => ?_
          rw [hhas p (List.mem_of_mem_take hp)]
        have e3 : d ++ (movedOf d ((s, (k, v)) :: ps) (n + 1)).map (·.2) = (d ++ [(k, v)]) ++ (movedOf (d ++ [(k, v)]) ps n).map (·.2) := by
          rw [e1]; simp
        refine ⟨m', live', n + 1, by simpa using y1, ?_, y3.trans st.fixed, ?_, ?_, ?_⟩
        · rw [e2]; exact y2
        · rw [e3]; exact y4
        · rcases y5 with y5 | y5
          · left; rw [y5]; rfl
          · exact .inr ⟨st.fixed ▸ y5.1, y5.2⟩
        · rw [e3]
          intro hi hp ht
          have hts := ht (s, (k, v)) (by simp)
          have hkr : kr = s.key := x5.same hts.2
          subst hkr
          have htid : Row.tidy { s with off := off } := hts
          have hregs : Row.tight { s with key := s.key, off := off } = Row.regs { s with off := off } :=
            Row.tight_regs htid fun hx => (hb1 hx).2.2
          have hst := st.mono (l' := m.rows.flatMap Row.regs) fun g hg => hp.mem_iff.2 hg
          refine y6 (hi.append (r := { s with off := off }) hst x1 x2 x3 (cs := cs1) ?_ hkey.1 ?_ ?_) ?_ fun p hp => ht p (by simp [hp])
          · rw [← hregs]
            exact x4.perm (hp.append_left _)
          · rcases hgs.2 with hx | ⟨h1, h2, ct, fl, c, h3, h4⟩
            · exact .inl hx
            · refine .inr ⟨h1, h2, ct, fl, c, ?_, h4⟩
              dsimp only at h1 h2 h3 ⊢
              have hal : align s.len = s.len := by
                have := hts.1 h1
                dsimp only at this
                unfold align; omega
              rw [hal] at h3 ⊢
              rw [x6 h1, ← h3, (hb1 h1).1]
          · intro hmem
            rw [has_iff.2 hmem] at hk; exact absurd hk (by decide)
          · rw [x1, List.flatMap_append, hregs]
            have : [({ s with key := s.key, off := off } : Row)].flatMap Row.regs = Row.regs { s with off := off } := by simp
            rw [this]
            exact (hp.append_left _).trans List.perm_append_comm

end Verif.VMap
