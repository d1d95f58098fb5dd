import Verif.VMap.Ops
/-!
# Property maps: theorems

C56 — a property map is a dictionary in insertion order.
-/
namespace Verif.VMap
open Verif.Bytes

/-! ## C56 -/

theorem step_ok {m : VMap} {d : Dict} {op : Op} (h : Inv m d) (hw : op.Within m m.rows.length) :
    ∃ m' ok d', m.step op = some (m', ok) ∧ m'.fixed = m.fixed ∧ Dict.Step d op ok d' ∧ Granted m.fixed d op ok ∧ Inv m' d' := by
  cases op with
  | emplace k a =>
    obtain ⟨⟨v, hv⟩, ho, hc, hf⟩ := hw
    obtain ⟨m', ok, g1, g2, g3⟩ := emplace_ok (key := k) h (hv m) ho (h.len ▸ hc) hf
    rcases g3 with ⟨x1, rfl, rfl⟩ | ⟨x1, ⟨rfl, x2⟩ | ⟨rfl, x2, _, x3⟩⟩
    · exact ⟨m', false, d, g1, g2, .notEmplaced, .inr (by rw [x1]; rfl), h⟩
    · refine ⟨m', true, _, g1, g2, .emplaced hv x1, .inr (by rw [x1]; rfl), ?_⟩
      unfold Dict.add at x2
      rw [x1] at x2; exact x2
    · exact ⟨m', false, d, g1, g2, .notEmplaced, .inl x2, x3⟩
  | assign k a =>
    obtain ⟨⟨v, hv⟩, ho, hc, hf⟩ := hw
    obtain ⟨m', ok, g1, g2, g3⟩ := insertOrAssign_ok (key := k) h (hv m) ho (h.len ▸ hc) hf
    rcases g3 with ⟨rfl, x2⟩ | ⟨rfl, x2, _, x3⟩
    · exact ⟨m', true, _, g1, g2, .assigned hv, .inr rfl, x2⟩
    · exact ⟨m', false, d, g1, g2, .notAssigned, .inl x2, x3⟩
  | erase k =>
    obtain ⟨m', g1, g2, _, g3⟩ := erase_ok h k
    exact ⟨m', _, _, g1, g2, .erase, trivial, g3⟩
  | clear => exact ⟨_, true, [], rfl, rfl, .clear, trivial, clear_ok h⟩
  | reserve e p =>
    obtain ⟨m', g1, g2, g3⟩ := reserve_ok h hw
    exact ⟨m', true, d, by simp only [VMap.step, g1, Option.map_some], g2, .reserve, trivial, g3⟩
  | shrink =>
    obtain ⟨m', g1, g2, g3⟩ := shrink_ok h
    exact ⟨m', true, d, by simp only [VMap.step, g1, Option.map_some], g2, .shrink, trivial, g3⟩

theorem run_ok : ∀ (ops : List Op) {m : VMap} {d : Dict}, Inv m d → Within m ops →
    ∃ m' oks d', m.run ops = some (m', oks) ∧ m'.fixed = m.fixed ∧ Dict.Run m.fixed d ops oks d' ∧ Inv m' d'
  | [], m, d, h, _ => ⟨m, [], d, rfl, rfl, .nil, h⟩
  | op :: ops, m, d, h, hw => by
    obtain ⟨m1, ok, d1, g1, g2, g3, g4, g5⟩ := step_ok h hw.1
    obtain ⟨m2, oks, d2, k1, k2, k3, k4⟩ := run_ok ops g5 (hw.2 m1 ok g1)
    refine ⟨m2, ok :: oks, d2, ?_, k2.trans g2, .cons g3 g4 (g2 ▸ k3), k4⟩
    unfold VMap.run
    rw [g1]
    dsimp only [Option.bind_eq_bind, Option.bind_some]
    rw [k1]
    rfl

/-- **C56** For every history of `emplace`, `insert_or_assign`, `erase`, `clear`, `reserve` and `shrink_to_fit` on a map that starts empty, in memory of its own or
in a fixed buffer, and stays within the limits: no undefined behaviour; iterating yields exactly the entries of a dictionary in insertion order that underwent
the same history, every key looks up to its value there, and stores are refused only by a fixed buffer or because `emplace` found the key. -/
theorem map_is_dictionary_partial (entries payload : Nat) (fixed : Bool) (hsize : 32 + 48 * entries + payload < 2 ^ 32) (ops : List Op)
    (hw : Within { VMap.fresh entries payload with fixed := fixed } ops) :
    ∃ m oks d, ({ VMap.fresh entries payload with fixed := fixed }).run ops = some (m, oks) ∧ Dict.Run fixed [] ops oks d ∧
      m.contents = some d ∧ ∀ k, m.lookup k = some (d.get k) := by
  have h0 : Inv { VMap.fresh entries payload with fixed := fixed } [] := by
    have h := fresh_ok hsize
    obtain ⟨cs, hmem⟩ := h.mem
    exact ⟨⟨cs, Mem.rows (m := VMap.fresh entries payload) hmem _ rfl rfl rfl rfl⟩, h.layout, h.count, h.len, by simp, by simp, h.keys⟩
  obtain ⟨m, oks, d, g1, _, g3, g4⟩ := run_ok ops h0 hw
  exact ⟨m, oks, d, g1, g3, contents_ok g4, lookup_ok g4⟩

/-- **C56**, storing a value of the map itself: after any history, a string or value that lies in the map may be passed to `insert_or_assign` for a key that is
there (for new keys see `own_value`). -/
theorem assign_own_value (entries payload : Nat) (hsize : 32 + 48 * entries + payload < 2 ^ 32) (ops : List Op) (hw : Within (VMap.fresh entries payload) ops)
    (k : Key) (a : Arg) (v : Val) (m : VMap) (oks : List Bool) (hrun : (VMap.fresh entries payload).run ops = some (m, oks)) (ha : Means m a v)
    (hk : m.lookup k ≠ some none) (hs : m.base + m.pool.length + (m.base + m.pool.length) / 2 + a.size + 632 < 2 ^ 32) :
    ∃ (m' : VMap) (d : Dict), m.contents = some d ∧ m.insertOrAssign k a = some (m', true) ∧ m'.contents = some (d.put k v) := by
  obtain ⟨m1, oks1, d, g1, g2, g3, g4⟩ := run_ok ops (fresh_ok hsize) hw
  rw [hrun] at g1
  simp only [Option.some.injEq, Prod.mk.injEq] at g1
  obtain ⟨rfl, rfl⟩ := g1
  have hd : d.has k = true := by
    cases hh : d.has k with
    | true => rfl
    | false => exact absurd (by rw [lookup_ok g4, get_none hh]) hk
  obtain ⟨m', ok, k1, k2, k3⟩ := assign_ok g4 ha hd (.inr (by unfold VMap.total; omega))
  rcases k3 with ⟨rfl, x⟩ | ⟨_, x, _⟩
  · exact ⟨m', d, contents_ok g4, k1, contents_ok x⟩
  · rw [g2] at x; exact absurd x (by simp [VMap.fresh])

/-! ### A history that meets the hypotheses -/

/-- the sizes of `Within`, for computing -/
def sizesOk (m : VMap) : List Op → Bool
  | [] => true
  | op :: ops =>
    (match op with
      | .emplace k a | .assign k a =>
        decide (m.rows.length < 43689) && (m.fixed || decide (4 * (m.base + m.pool.length) + 6 * (k.length + a.size) + 5000 ≤ 2 ^ 32))
      | .reserve e p => m.fixed || decide (48 * e + p + 2 * (m.base + m.pool.length) + 1000 < 2 ^ 32)
      | _ => true) &&
    match m.step op with
      | some (m', _) => sizesOk m' ops
      | none => false

/-- the arguments of `Within` -/
def argsOk : Op → Prop
  | .emplace _ a => (∃ v, ∀ m, Means m a v) ∧ a.outside
  | .assign _ a => (∃ v, ∀ m, Means m a v) ∧ a.outside
  | _ => True

theorem within_of : ∀ (ops : List Op) (m : VMap), sizesOk m ops = true → (∀ op ∈ ops, argsOk op) → Within m ops
  | [], _, _, _ => trivial
  | op :: ops, m, h, ha => by
    unfold sizesOk at h
    rw [Bool.and_eq_true] at h
    have h0 := ha op (by simp)
    refine ⟨?_, ?_⟩
    · cases op with
      | emplace k a =>
        have h1 := h.1
        simp only [Bool.and_eq_true, Bool.or_eq_true, decide_eq_true_eq] at h1
        exact ⟨h0.1, h0.2, h1⟩
      | assign k a =>
        have h1 := h.1
        simp only [Bool.and_eq_true, Bool.or_eq_true, decide_eq_true_eq] at h1
        exact ⟨h0.1, h0.2, h1⟩
      | reserve e p =>
        have h1 := h.1
        simp only [Bool.or_eq_true, decide_eq_true_eq] at h1
        exact h1
      | erase k => trivial
      | clear => trivial
      | shrink => trivial
    · intro m' ok hs
      have h2 := h.2
      rw [hs] at h2
      exact within_of ops m' h2 fun op hop => ha op (by simp [hop])

def longKey : Key := List.replicate 41 0x6B#8

/-- a number under a standard name, a string under a long name, replaced by a longer one, a complex number, a matrix, an erased entry, a number stored in the
freed memory, a number replaced by a string -/
def demo : List Op :=
  [.emplace (chars "gr:sample_rate") (.scalar 10 [0, 0, 0x80, 0x3F]), .emplace longKey (.text (.given (chars "hello"))),
   .emplace (chars "z") (.big (List.replicate 16 1)), .assign longKey (.text (.given (List.replicate 70 0x61#8))),
   .emplace (chars "m") (.tensor 2 [2, 3] [1, 2, 3, 4, 5, 6]), .emplace (chars "z") (.scalar 1 [1]), .reserve 20 100, .erase (chars "z"),
   .assign (chars "n") (.scalar 5 [1, 2, 3, 4, 5, 6, 7, 8]), .shrink, .assign (chars "gr:sample_rate") (.text (.given (chars "fast"))), .erase (chars "none")]

theorem demo_within : Within { VMap.fresh 3 0 with fixed := false } demo := by
  refine within_of _ _ (by decide +kernel) ?_
  intro op hop
  simp only [demo, List.mem_cons, List.not_mem_nil, or_false] at hop
  rcases hop with rfl | rfl | rfl | rfl | rfl | rfl | rfl | rfl | rfl | rfl | rfl | rfl
  · exact ⟨⟨_, fun _ => .scalar (by decide) (by decide) (by decide)⟩, trivial⟩
  · exact ⟨⟨_, fun _ => .text rfl (by decide +kernel)⟩, trivial⟩
  · exact ⟨⟨_, fun _ => .big (by decide)⟩, trivial⟩
  · exact ⟨⟨_, fun _ => .text rfl (by decide +kernel)⟩, trivial⟩
  · exact ⟨⟨_, fun _ => .tensor (by decide) (by decide) (by decide) (by decide)⟩, trivial⟩
  · exact ⟨⟨_, fun _ => .scalar (by decide) (by decide) (by decide)⟩, trivial⟩
  · trivial
  · trivial
  · exact ⟨⟨_, fun _ => .scalar (by decide) (by decide) (by decide)⟩, trivial⟩
  · trivial
  · exact ⟨⟨_, fun _ => .text rfl (by decide +kernel)⟩, trivial⟩
  · trivial

/-- what the history leaves behind -/
example : ((({ VMap.fresh 3 0 with fixed := false } : VMap).run demo).bind fun r => r.1.contents) =
    some [(chars "gr:sample_rate", .text (chars "fast")), (longKey, .text (List.replicate 70 0x61#8)), (chars "m", .tensor 2 [2, 3] [1, 2, 3, 4, 5, 6]),
      (chars "n", .scalar 5 [1, 2, 3, 4, 5, 6, 7, 8])] := by decide +kernel

example : ∃ m oks d, ({ VMap.fresh 3 0 with fixed := false } : VMap).run demo = some (m, oks) ∧ Dict.Run false [] demo oks d ∧ m.contents = some d ∧
    ∀ k, m.lookup k = some (d.get k) := map_is_dictionary_partial 3 0 false (by decide) demo demo_within

/-- a fixed buffer refuses what does not fit and stays intact -/
example : ((({ VMap.fresh 4 40 with fixed := true } : VMap).run
    [.emplace (chars "a") (.scalar 1 [1]), .emplace (chars "b") (.text (.given (List.replicate 90 0x61#8))), .emplace (chars "c") (.scalar 2 [7])]).bind
      fun r => r.1.contents.map (·, r.2)) = some ([(chars "a", .scalar 1 [1]), (chars "c", .scalar 2 [7])], [true, false, true]) := by decide +kernel

/-- a string of the map stored under another key of the map -/
example : (((VMap.fresh 8 0).run [.emplace (chars "a") (.text (.given (chars "hello"))), .emplace (chars "b") (.scalar 1 [1])]).bind fun r =>
    (r.1.insertOrAssign (chars "b") (.text (.inside r.1.gen (r.1.base + 8) 5))).bind fun r => r.1.contents) =
    some [(chars "a", .text (chars "hello")), (chars "b", .text (chars "hello"))] := by decide +kernel

/-! ### What lies beyond the limits -/

/-- A string with a zero byte is cut off there when read. -/
theorem embedded_zero : ∃ m, (VMap.fresh 8 0).emplace (chars "a") (.text (.given [0x41, 0, 0x42])) = some (m, true) ∧
    m.lookup (chars "a") = some (some (.text [0x41])) := by
  refine ⟨_, rfl, ?_⟩
  decide +kernel

/-- Assigning an empty `Value` reports success and leaves the old value. -/
theorem assign_empty_value : ∃ m m', (VMap.fresh 8 0).emplace (chars "a") (.scalar 1 [1]) = some (m, true) ∧
    m.insertOrAssign (chars "a") (.value (.given (recHeader 16 0 0 0 ++ List.replicate 8 0))) = some (m', true) ∧
    m'.lookup (chars "a") = some (some (.scalar 1 [1])) := by
  refine ⟨_, _, rfl, rfl, ?_⟩
  decide +kernel

/-- seven entries where there is room for eight rows (one is kept free) -/
def seven : List Op := (List.range 7).map fun i => .emplace [BitVec.ofNat 8 (0x61 + i)] (.text (.given (chars "hello")))

/-- Emplacing a value of the map under a new key when the rows are full: the rows move first and the value is read from memory that was given back. -/
theorem own_value : ∃ m oks, (VMap.fresh 8 200).run seven = some (m, oks) ∧ m.lookup (chars "a") = some (some (.text (chars "hello"))) ∧
    Means m (.text (.inside m.gen (m.base + 8) 5)) (.text (chars "hello")) ∧ m.emplace (chars "new") (.text (.inside m.gen (m.base + 8) 5)) = none := by
  have h : ((VMap.fresh 8 200).run seven).any (fun r => r.1.lookup (chars "a") == some (some (.text (chars "hello"))) &&
      r.1.peek (r.1.base + 8) 5 == some (chars "hello") &&
      (r.1.emplace (chars "new") (.text (.inside r.1.gen (r.1.base + 8) 5))).isNone) = true := by decide +kernel
  obtain ⟨⟨m, oks⟩, h1, h2⟩ := (Option.any_eq_true _ _).1 h
  simp only [Bool.and_eq_true, beq_iff_eq, Option.isNone_iff_eq_none] at h2
  refine ⟨m, oks, h1, h2.1.1, .text ?_ (by decide +kernel), h2.2⟩
  unfold Src.get
  dsimp only
  rw [if_pos rfl]
  exact h2.1.2

/-- With the 65536th entry the map becomes empty, and the store reports success. -/
theorem entry_65536 (m : VMap) (key : Key) (a : Arg) (hr : m.rows.length = 65535) (hcap : m.entryCapacity < 65536) (hfixed : m.fixed = false)
    (hfree : m.freeHead = 0) (hu : m.used ≤ m.pool.length) (hb : 32 ≤ m.base) (hs : m.base + 2 * m.pool.length + 10000000 < 2 ^ 32)
    (hf : m.find key = some none) (hk : key.length ≤ 34) : ∃ m', m.emplace key a = some (m', true) ∧ m'.contents = some [] := by
  unfold VMap.emplace
  rw [hf]
  dsimp only [Option.bind_eq_bind, Option.bind_some]
  unfold VMap.insertNew
  dsimp only [Option.bind_eq_bind]
  have hmem : Mem m [] [] := ⟨hfree, by simp, by simp, by simp, hu, by omega, hb⟩
  obtain ⟨m1, g1, _, g3, g4, g5, g6, g7, g8⟩ := grow_ok hmem hfixed (entries := m.rows.length + 2) (payload := m.used) (shrink := false) rfl rfl (by
    rw [if_neg (by decide), if_neg (by decide)]; omega)
  have hes : m.ensureSlot = some (m1, true) := by
    unfold VMap.ensureSlot
    rw [if_pos (by omega), hfixed, if_neg (by decide), g1]; rfl
  rw [hes]
  have hrl : m1.rows.length = 65535 := by rw [g3.rows, List.length_map, hr]
  have hroom : m1.rows.length < m1.rowRoom := by
    unfold VMap.rowRoom
    rw [g4, if_neg (by decide), hrl]; omega
  dsimp only [Option.bind_some]
  rw [if_neg (by decide), if_neg (by omega)]
  have hst : ∃ ref, m1.storeKey key = some (m1, some ref) := by
    unfold VMap.storeKey
    split
    · exact ⟨_, rfl⟩
    · rw [if_pos (show key.length ≤ kMaxInlineKeyLength from hk)]; exact ⟨_, rfl⟩
  obtain ⟨ref, hst⟩ := hst
  rw [hst]
  dsimp only [Option.bind_some]
  rw [if_neg (by omega), if_pos (by omega)]
  exact ⟨_, rfl, rfl⟩

theorem find_replicate {m : VMap} {r : Row} {key : Key} (h : m.keyMatches r key = some false) : ∀ n i, m.findIn key (List.replicate n r) i = some none
  | 0, _ => rfl
  | n + 1, i => by
    rw [List.replicate_succ, VMap.findIn, h]
    dsimp only [Option.bind_eq_bind, Option.bind_some]
    rw [if_neg (by decide)]
    exact find_replicate h n (i + 1)

/-- a map with 65535 entries -/
example : ∃ m', ({ VMap.fresh 65536 0 with rows := List.replicate 65535 ⟨.inline (chars "x"), 0, false, false, false, 0, 0⟩ } : VMap).emplace (chars "new")
    (.scalar 1 [1]) = some (m', true) ∧ m'.contents = some [] :=
  entry_65536 _ _ _ List.length_replicate (by decide) rfl rfl (Nat.zero_le _) (by decide) (by decide) (find_replicate rfl _ _) (by decide)

/-- Growing multiplies the row array and the pool by one and a half each: a map of more than 2.7 GiB whose rows are full cannot take even a number under a short
key, although 1.3 GiB of address space are left — the 32-bit size of the new blob wraps and the old content is copied into an allocation that is too small. -/
theorem growth_wraps (m : VMap) (key : Key) (a : Arg) (hfixed : m.fixed = false) (hfull : m.entryCapacity ≤ m.rows.length + 1)
    (hs : 2863311510 ≤ m.pool.length) (hf : m.find key = some none) : m.emplace key a = none ∧ m.insertOrAssign key a = none := by
  have hes : m.ensureSlot = none := by
    unfold VMap.ensureSlot
    rw [if_pos hfull, hfixed, if_neg (by decide)]
    unfold VMap.grow
    rw [hfixed, if_neg (by decide)]
    dsimp only
    rw [if_pos (.inl (by rw [if_neg (by decide), if_neg (by decide)]; omega))]
    rfl
  have hin : m.insertNew key a = none := by
    unfold VMap.insertNew
    rw [hes]; rfl
  unfold VMap.emplace VMap.insertOrAssign
  rw [hf]
  exact ⟨hin, hin⟩

/-- an empty map with a pool of that size -/
example (n : Nat) (hn : 2863311510 ≤ n) : (VMap.fresh 1 n).emplace (chars "a") (.scalar 1 [1]) = none := by
  refine (growth_wraps _ _ _ rfl ?_ ?_ rfl).1
  · show 1 % 65536 ≤ 0 + 1
    decide
  · show 2863311510 ≤ (List.replicate n 0xAA#8).length
    rw [List.length_replicate]; exact hn

end Verif.VMap
