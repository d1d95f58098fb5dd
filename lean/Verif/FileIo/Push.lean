import Verif.FileIo.Model
import Verif.FileIo.Spec
/-!
What `pushData` publishes and keeps, for any pieces it is given and any moment at which the reader is cancelled.
-/
namespace Verif.FileIo
open Verif.Bytes (Byte)

/-- The bound for the size of a message. -/
def Cfg.largest (c : Cfg) : Option Nat := if c.chunkBytes = npos ∨ c.align = npos then none else some (max (max 1 c.align) c.chunkBytes)

/-- Messages of whole units. -/
structure Whole (c : Cfg) (ds : List (List Byte)) : Prop where
  nonempty : ∀ p ∈ ds, p ≠ []
  small : ∀ p ∈ ds, ∀ n, c.largest = some n → p.length ≤ n
  aligned : ∀ p ∈ ds, p.length % c.unit = 0

theorem Whole.nil {c : Cfg} : Whole c [] := ⟨nofun, nofun, nofun⟩

theorem Whole.push {c : Cfg} {ds : List (List Byte)} {p : List Byte} (h : Whole c ds) (h1 : p ≠ []) (h2 : ∀ n, c.largest = some n → p.length ≤ n)
    (h3 : p.length % c.unit = 0) : Whole c (ds ++ [p]) := by
  refine ⟨fun q hq => ?_, fun q hq => ?_, fun q hq => ?_⟩ <;>
    rcases List.mem_append.1 hq with hq | hq
  · exact h.nonempty q hq
  · rw [List.mem_singleton.1 hq]; exact h1
  · exact h.small q hq
  · rw [List.mem_singleton.1 hq]; exact h2
  · exact h.aligned q hq
  · rw [List.mem_singleton.1 hq]; exact h3

theorem Whole.cut {c : Cfg} {ds : List (List Byte)} (h : Whole c ds) : Cut c.unit c.largest ds :=
  ⟨h.nonempty, h.small, fun p hp => h.aligned p (List.dropLast_subset ds hp)⟩

theorem Whole.cut_push {c : Cfg} {ds : List (List Byte)} {p : List Byte} (h : Whole c ds) (h1 : p ≠ []) (h2 : p.length < c.unit) :
    Cut c.unit c.largest (ds ++ [p]) := by
  refine ⟨fun q hq => ?_, fun q hq => ?_, fun q hq => ?_⟩
  · rcases List.mem_append.1 hq with hq | hq
    · exact h.nonempty q hq
    · rw [List.mem_singleton.1 hq]; exact h1
  · rcases List.mem_append.1 hq with hq | hq
    · exact h.small q hq
    · rw [List.mem_singleton.1 hq]
      intro n hn
      rw [Cfg.largest] at hn
      split at hn
      · cases hn
      · cases hn
        rw [Cfg.unit] at h2
        omega
  · rw [List.dropLast_concat] at hq
    exact h.aligned q hq

theorem unit_pos (c : Cfg) : 0 < c.unit := by rw [Cfg.unit]; omega

theorem cut_ok (c : Cfg) (n : Nat) (h : c.unit ≤ n) :
    c.unit ≤ c.cut n ∧ c.cut n ≤ n ∧ c.cut n % c.unit = 0 ∧ ∀ m, c.largest = some m → c.cut n ≤ m := by
  have key : ∀ x, c.unit ≤ x → c.unit ≤ x - x % c.unit ∧ x - x % c.unit ≤ x ∧ (x - x % c.unit) % c.unit = 0 := by
    intro x hx
    have h1 := Nat.div_add_mod x c.unit
    have h2 : x - x % c.unit = c.unit * (x / c.unit) := by omega
    refine ⟨?_, Nat.sub_le _ _, ?_⟩
    · rw [h2]
      exact Nat.le_mul_of_pos_right _ (Nat.div_pos hx (unit_pos c))
    · rw [h2]
      exact Nat.mul_mod_right _ _
  have hu : c.unit ≤ max c.unit c.chunkBytes := Nat.le_max_left _ _
  simp only [Cfg.cut]
  by_cases hc : c.chunkBytes = npos
  · rw [if_pos hc, if_pos rfl]
    obtain ⟨a, b, d⟩ := key n h
    refine ⟨a, b, d, fun m hm => ?_⟩
    rw [Cfg.largest, if_pos (.inl hc)] at hm
    cases hm
  · rw [if_neg hc]
    by_cases hc2 : max c.unit c.chunkBytes = npos
    · rw [if_pos hc2]
      obtain ⟨a, b, d⟩ := key n h
      refine ⟨a, b, d, fun m hm => ?_⟩
      have hal : c.align = npos := by
        have hn : npos = 18446744073709551615 := rfl
        rw [Cfg.unit] at hc2
        omega
      rw [Cfg.largest, if_pos (.inr hal)] at hm
      cases hm
    · rw [if_neg hc2]
      obtain ⟨a, b, d⟩ := key (min (max c.unit c.chunkBytes) n) (by omega)
      refine ⟨a, by omega, d, fun m hm => ?_⟩
      rw [Cfg.largest] at hm
      split at hm
      · cases hm
      · cases hm
        rw [← Cfg.unit]
        omega

/-- How often the worker may still look before it sees the request, after `n` messages. -/
def Left (k : Option Nat) (n : Nat) (s : RS) : Prop :=
  match k with
  | none => s.cancel = none
  | some k => ∃ j, s.cancel = some j ∧ n + j ≤ k

/-- The parts of the state that `pushData` leaves alone. -/
structure Frame (s t : RS) : Prop where
  cfg : t.cfg = s.cfg
  dec : t.dec = s.dec
  codecPending : t.codecPending = s.codecPending
  skip : t.skip = s.skip
  seen : t.seen = s.seen

theorem Frame.rfl' {s : RS} : Frame s s := ⟨rfl, rfl, rfl, rfl, rfl⟩
theorem Frame.trans {s t u : RS} (a : Frame s t) (b : Frame t u) : Frame s u :=
  ⟨b.cfg.trans a.cfg, b.dec.trans a.dec, b.codecPending.trans a.codecPending, b.skip.trans a.skip, b.seen.trans a.seen⟩

/-- A look changes nothing but the number of looks to come. -/
inductive Looked (s : RS) : Bool × RS → Prop
  | seen : s.cancel = some 0 → Looked s (true, s)
  | never : s.cancel = none → Looked s (false, s)
  | later {n : Nat} : s.cancel = some (n + 1) → Looked s (false, { s with cancel := some n })

theorem look_ok (s : RS) : Looked s s.look := by
  unfold RS.look
  split
  · exact .never ‹_›
  · exact .seen ‹_›
  · exact .later ‹_›

/-- What was published of the first bytes `R`, when `held` are held back. -/
structure Mid (k : Option Nat) (c : Cfg) (R : List Byte) (s : RS) (held : List Byte) : Prop where
  cfg : s.cfg = c
  ex : ∃ ds, s.published = ds.map .data ∧ Whole c ds ∧ ds.flatten <+: R ∧ (s.cancel ≠ some 0 → ds.flatten ++ held = R) ∧ Left k ds.length s

/-- The same in the middle of an operation that saw no request. -/
structure Now (k : Option Nat) (c : Cfg) (R : List Byte) (s : RS) (held : List Byte) : Prop where
  cfg : s.cfg = c
  ex : ∃ ds, s.published = ds.map .data ∧ Whole c ds ∧ ds.flatten ++ held = R ∧ Left k ds.length s

variable {k : Option Nat} {c : Cfg} {R held : List Byte} {s : RS}

theorem Now.mid (h : Now k c R s held) : Mid k c R s held := by
  obtain ⟨h0, ds, h1, h2, h3, h4⟩ := h
  exact ⟨h0, ds, h1, h2, ⟨held, h3⟩, fun _ => h3, h4⟩

theorem Left.cases {n : Nat} (h : Left k n s) (hc : s.cancel ≠ some 0) :
    (s.cancel = none ∧ k = none) ∨ ∃ j m, s.cancel = some (j + 1) ∧ k = some m ∧ n + (j + 1) ≤ m := by
  cases k with
  | none => exact .inl ⟨h, rfl⟩
  | some m =>
    obtain ⟨j, h1, h2⟩ := h
    cases j with
    | zero => exact absurd h1 hc
    | succ j => exact .inr ⟨j, m, h1, rfl, h2⟩

theorem Mid.weaken {R' held' : List Byte} (h : Mid k c R s held) (hc : s.cancel = some 0) (hR : R <+: R') : Mid k c R' s held' := by
  obtain ⟨h0, ds, h1, h2, h3, h4, h5⟩ := h
  exact ⟨h0, ds, h1, h2, h3.trans hR, fun x => absurd hc x, h5⟩

theorem Mid.looked {p : Bool × RS} (h : Mid k c R s held) (hl : Looked s p) :
    (p = (true, s) ∧ s.cancel = some 0) ∨ ∃ t, p = (false, t) ∧ t.pending = s.pending ∧ Frame s t ∧ Now k c R t held := by
  obtain ⟨h0, ds, h1, h2, h3, h4, h5⟩ := h
  cases hl with
  | seen a => exact .inl ⟨rfl, a⟩
  | never a =>
    refine .inr ⟨s, rfl, rfl, .rfl', ⟨h0, ds, h1, h2, h4 (by rw [a]; nofun), h5⟩⟩
  | @later n a =>
    refine .inr ⟨_, rfl, rfl, ⟨rfl, rfl, rfl, rfl, rfl⟩, ⟨h0, ds, h1, h2, h4 (by rw [a]; nofun), ?_⟩⟩
    cases k with
    | none => rw [Left, a] at h5; cases h5
    | some m =>
      obtain ⟨j, h6, h7⟩ := h5
      rw [a] at h6; cases h6
      exact ⟨n, rfl, by omega⟩

/-- `publishDataMessage` of the first of the bytes held. -/
theorem publishData_ok {p rest : List Byte} (h : Mid k c R s (p ++ rest)) (h1 : p ≠ []) (h2 : ∀ n, c.largest = some n → p.length ≤ n)
    (h3 : p.length % c.unit = 0) : Mid k c R (s.publishData p) rest ∧ Frame s (s.publishData p) ∧ (s.publishData p).pending = s.pending := by
  obtain ⟨h0, ds, g1, g2, g3, g4, g5⟩ := h
  have hl := look_ok s
  unfold RS.publishData
  generalize s.look = q at hl
  cases hl with
  | seen a => exact ⟨⟨h0, ds, g1, g2, g3, fun x => absurd a x, g5⟩, .rfl', rfl⟩
  | never a =>
    dsimp only
    rw [if_neg h1]
    refine ⟨⟨h0, ds ++ [p], ?_, g2.push h1 h2 h3, ?_, fun _ => ?_, ?_⟩, ⟨rfl, rfl, rfl, rfl, rfl⟩, rfl⟩
    · show s.published ++ [_] = _
      rw [g1, List.map_append]; rfl
    · have := g4 (by rw [a]; nofun)
      rw [← this, List.flatten_append]
      exact ⟨rest, by simp⟩
    · have := g4 (by rw [a]; nofun)
      rw [← this, List.flatten_append]
      simp
    · cases k with
      | none => exact g5
      | some m => obtain ⟨j, h6, h7⟩ := g5; rw [a] at h6; cases h6
  | @later n a =>
    dsimp only
    rw [if_neg h1]
    have e := g4 (by rw [a]; nofun)
    refine ⟨⟨h0, ds ++ [p], ?_, g2.push h1 h2 h3, ?_, fun _ => ?_, ?_⟩, ⟨rfl, rfl, rfl, rfl, rfl⟩, rfl⟩
    · show s.published ++ [_] = _
      rw [g1, List.map_append]; rfl
    · rw [← e, List.flatten_append]
      exact ⟨rest, by simp⟩
    · rw [← e, List.flatten_append]
      simp
    · cases k with
      | none => rw [Left, a] at g5; cases g5
      | some m =>
        obtain ⟨j, h6, h7⟩ := g5
        rw [a] at h6; cases h6
        exact ⟨n, rfl, by rw [List.length_append, List.length_singleton]; omega⟩

theorem pushLoop_ok : ∀ (f : Nat) (s : RS) (data : List Byte), data.length < f → Mid k c R s data →
    Mid k c R (RS.pushLoop f s data).1 (RS.pushLoop f s data).2 ∧ (RS.pushLoop f s data).2.length < c.unit ∧ Frame s (RS.pushLoop f s data).1 ∧
      (RS.pushLoop f s data).1.pending = s.pending
  | 0, _, _, hf, _ => absurd hf (Nat.not_lt_zero _)
  | f + 1, s, data, hf, h => by
    have hcfg := h.cfg
    rw [RS.pushLoop, hcfg]
    split
    · rename_i hlt
      exact ⟨h, hlt, .rfl', rfl⟩
    · rename_i hge
      obtain ⟨a, b, d, e⟩ := cut_ok c data.length (by omega)
      have hu := unit_pos c
      dsimp only
      rw [if_neg (by omega)]
      have hlen : (data.take (c.cut data.length)).length = c.cut data.length := by rw [List.length_take]; omega
      obtain ⟨g1, g2, g3⟩ := publishData_ok (p := data.take (c.cut data.length)) (rest := data.drop (c.cut data.length))
        (by rw [List.take_append_drop]; exact h) (by intro hn; rw [hn] at hlen; simp at hlen; omega) (by rw [hlen]; exact e) (by rw [hlen]; exact d)
      obtain ⟨i1, i2, i3, i4⟩ := pushLoop_ok f _ (data.drop (c.cut data.length)) (by rw [List.length_drop]; omega) g1
      exact ⟨i1, i2, g2.trans i3, i4.trans g3⟩

theorem pushRest_ok {data : List Byte} (h : Mid k c R s data) (hp : s.pending = []) :
    Mid k c R (s.pushRest data) (s.pushRest data).pending ∧ (s.pushRest data).pending.length < c.unit ∧ Frame s (s.pushRest data) := by
  obtain ⟨a, b, d, e⟩ := pushLoop_ok (data.length + 1) s data (Nat.lt_succ_self _) h
  have hpend : (s.pushRest data).pending = (RS.pushLoop (data.length + 1) s data).2 := by
    show (RS.pushLoop (data.length + 1) s data).1.pending ++ (RS.pushLoop (data.length + 1) s data).2 = _
    rw [e, hp, List.nil_append]
  rw [hpend]
  exact ⟨⟨a.cfg, a.ex⟩, b, ⟨d.cfg, d.dec, d.codecPending, d.skip, d.seen⟩⟩

/-- `pushData`: the bytes given are published or held back, in order. -/
theorem pushData_ok {data : List Byte} (h : Mid k c R s s.pending) (hp : s.cancel ≠ some 0 → s.pending.length < c.unit) :
    Mid k c (R ++ data) (s.pushData data) (s.pushData data).pending ∧
      ((s.pushData data).cancel ≠ some 0 → (s.pushData data).pending.length < c.unit) ∧ Frame s (s.pushData data) := by
  unfold RS.pushData
  by_cases hd : data = []
  · rw [if_pos hd, hd, List.append_nil]
    exact ⟨h, hp, .rfl'⟩
  · rw [if_neg hd]
    obtain ⟨e, hc⟩ | ⟨t, e, hpend, hfr, hn⟩ := h.looked (look_ok s)
    · rw [e]
      exact ⟨h.weaken hc (List.prefix_append _ _), fun x => absurd hc x, .rfl'⟩
    · have hns : s.cancel ≠ some 0 := by
        intro hz
        rw [RS.look, hz] at e
        cases e
      have hp' := hp hns
      rw [e]
      dsimp only
      rw [hpend]
      obtain ⟨g0, ds, g1, g2, g3, g4⟩ := hn
      have hcfg : t.cfg = c := g0
      split
      · rename_i hnil
        have hm : Mid k c (R ++ data) t data := by
          refine Now.mid ⟨g0, ds, g1, g2, ?_, g4⟩
          rw [← g3, hnil, List.append_nil]
        obtain ⟨a, b, d⟩ := pushRest_ok hm (hpend.trans hnil)
        exact ⟨a, fun _ => b, hfr.trans d⟩
      · rename_i hne
        rw [hcfg]
        split
        · rename_i hlt
          refine ⟨Now.mid ⟨rfl, ds, g1, g2, ?_, g4⟩, fun _ => ?_, hfr.trans ⟨hcfg.symm, rfl, rfl, rfl, rfl⟩⟩
          · show ds.flatten ++ (s.pending ++ data) = _
            rw [← List.append_assoc, g3]
          · show (s.pending ++ data).length < _
            rw [List.length_append]; exact hlt
        · rename_i hge
          obtain ⟨a, b, d, x⟩ := cut_ok c (s.pending.length + data.length) (by omega)
          generalize c.cut (s.pending.length + data.length) = n at a b d x
          have hlen : (s.pending ++ data.take (n - s.pending.length)).length = n := by
            rw [List.length_append, List.length_take]; omega
          have hu := unit_pos c
          have hm : Mid k c (R ++ data) t ((s.pending ++ data.take (n - s.pending.length)) ++ data.drop (n - s.pending.length)) := by
            refine Now.mid ⟨g0, ds, g1, g2, ?_, g4⟩
            rw [List.append_assoc, List.take_append_drop, ← List.append_assoc, g3]
          obtain ⟨i1, i2, i3⟩ := publishData_ok hm (by intro hz; rw [hz] at hlen; simp at hlen; omega) (by rw [hlen]; exact x) (by rw [hlen]; exact d)
          have hm2 : Mid k c (R ++ data) { t.publishData (s.pending ++ data.take (n - s.pending.length)) with pending := [] } (data.drop (n - s.pending.length)) :=
            ⟨i1.cfg, i1.ex⟩
          obtain ⟨j1, j2, j3⟩ := pushRest_ok hm2 rfl
          exact ⟨j1, fun _ => j2, (hfr.trans i2).trans ⟨j3.cfg, j3.dec, j3.codecPending, j3.skip, j3.seen⟩⟩

end Verif.FileIo
