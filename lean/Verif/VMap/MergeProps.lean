import Verif.VMap.MergeLemmas
import Verif.VMap.Props
/-!
# Merging property maps: theorems

C57 — `merge` moves the entries whose keys are not there and leaves the others in the source.
-/
namespace Verif.VMap
open Verif.Bytes

theorem Mem.sub {m : VMap} {l l' cs : List Reg} (h : Mem m l cs) (hs : l'.Sublist l) : Mem m l' cs := by
  have hsub : (l' ++ cs).Sublist (l ++ cs) := hs.append (List.Sublist.refl cs)
  exact ⟨h.chain, h.disj.sublist hsub, fun g hg => h.inside g (hsub.subset hg), h.big, h.used, h.total, h.base⟩

theorem sublist_flatMap {α β : Type} (f : α → List β) {l l' : List α} (h : l'.Sublist l) : (l'.flatMap f).Sublist (l.flatMap f) := by
  induction h with
  | slnil => exact List.Sublist.refl _
  | cons a _ ih => rw [List.flatMap_cons]; exact ih.trans (List.sublist_append_right _ _)
  | cons_cons a _ ih => rw [List.flatMap_cons, List.flatMap_cons]; exact (List.Sublist.refl _).append ih

theorem Inv.pairs {o : VMap} {e : Dict} (h : Inv o e) : (o.rows.zip e).map (·.1) = o.rows ∧ (o.rows.zip e).map (·.2) = e ∧ ∀ p ∈ o.rows.zip e, Good o p := by
  refine ⟨List.map_fst_zip (Nat.le_of_eq h.len), List.map_snd_zip (Nat.le_of_eq h.len.symm), ?_⟩
  intro p hp
  obtain ⟨i, hi, hpi⟩ := List.getElem_of_mem hp
  have hz : (o.rows.zip e)[i]? = some p := by rw [List.getElem?_eq_getElem hi, hpi]
  obtain ⟨h1, h2⟩ := List.getElem?_zip_eq_some.1 hz
  exact ⟨h.key i p.1 p.2 h1 h2, h.val i p.1 p.2 h1 h2⟩

/-- a map without some of its entries, whose bytes are not used again -/
theorem Inv.sub {o : VMap} {e : Dict} {ks : List (Row × (Key × Val))} (h : Inv o e) (hs : ks.Sublist (o.rows.zip e)) :
    Inv { o with rows := ks.map (·.1) } (ks.map (·.2)) := by
  obtain ⟨p1, p2, p3⟩ := h.pairs
  obtain ⟨cs, hm⟩ := h.mem
  have hrs : (ks.map (·.1)).Sublist o.rows := by
    have := hs.map (·.1)
    rwa [p1] at this
  have hgood : ∀ (i : Nat) (r : Row) (x : Key × Val), (ks.map (·.1))[i]? = some r → (ks.map (·.2))[i]? = some x → Good o (r, x) := by
    intro i r x h1 h2
    rw [List.getElem?_map] at h1 h2
    obtain ⟨p, h3, rfl⟩ := Option.map_eq_some_iff.1 h1
    rw [h3] at h2
    simp only [Option.map_some, Option.some.injEq] at h2
    subst h2
    exact p3 p (hs.subset (List.mem_of_getElem? h3))
  refine ⟨⟨cs, Mem.rows (m := o) (hm.sub ?_) _ rfl rfl rfl rfl⟩, ?_, ?_, by simp, ?_, ?_, ?_⟩
  · exact sublist_flatMap Row.regs hrs
  · obtain ⟨c, h1, h2, h3⟩ := h.layout
    have := hrs.length_le
    exact ⟨c, h1, h2, by dsimp only; omega⟩
  · have := hrs.length_le
    have := h.count
    dsimp only; omega
  · intro i r x h1 h2
    have := (hgood i r x h1 h2).1
    dsimp only at this ⊢
    unfold KeyIs at this ⊢
    exact this
  · intro i r x h1 h2
    exact (hgood i r x h1 h2).2
  · have := hs.map (·.2.1)
    refine List.Nodup.sublist (l₂ := (o.rows.zip e).map (·.2.1)) (by rw [List.map_map]; exact this) ?_
    rw [show (o.rows.zip e).map (·.2.1) = e.map (·.1) from by rw [← p2, List.map_map, p2]; rfl]
    exact h.keys

/-- the limits of `merge`: few enough entries and sizes well below 4 GiB, unless the buffer is fixed -/
def MergeWithin (m o : VMap) : Prop :=
  m.fixed = true ∨ (m.rows.length + o.rows.length < 43689 ∧ m.entryCapacity < 43690 ∧
    48 * (m.rows.length + o.rows.length) + (m.used + o.mergeGrowth) + 2 * (m.base + m.pool.length) + 1000 < 2 ^ 32)

theorem reserve_ready {m : VMap} {d : Dict} {n g : Nat} (h : Inv m d) (hw : m.fixed = true ∨ (m.rows.length + n < 43689 ∧ m.entryCapacity < 43690 ∧
    48 * (m.rows.length + n) + (m.used + g) + 2 * (m.base + m.pool.length) + 1000 < 2 ^ 32)) :
    ∃ m', m.reserve (m.rows.length + n) (m.used + g) = some m' ∧ m'.fixed = m.fixed ∧ Inv m' d ∧ Ready m' n g := by
  obtain ⟨m', g1, g2, g3⟩ := reserve_ok (entries := m.rows.length + n) (payload := m.used + g) h (by
    rcases hw with hw | hw
    · exact .inl hw
    · exact .inr (by unfold VMap.total; omega))
  refine ⟨m', g1, g2, g3, ?_⟩
  rcases hw with hw | ⟨w1, w2, w3⟩
  · exact .inl (g2.trans hw)
  cases hf : m.fixed with
  | true => exact .inl (g2.trans hf)
  | false =>
    right
    unfold VMap.reserve at g1
    dsimp only at g1
    split at g1
    · obtain ⟨cs, hmem⟩ := h.mem
      have hu := hmem.used
      obtain ⟨e, e1, e2, e3⟩ := h.layout
      obtain ⟨m1, k1, _, k3, k4, k5, k6, k7, _⟩ := grow_ok hmem hf (entries := max (m.rows.length + n + 1) (m.rows.length + 1)) (payload := m.used + g)
        (shrink := false) rfl rfl (by rw [if_neg (by decide), if_neg (by decide)]; omega)
      rw [k1] at g1
      simp only [Option.some.injEq] at g1
      subst g1
      rw [if_neg (by decide)] at k5 k6
      have hrl : m1.rows.length = m.rows.length := by rw [k3.rows, List.length_map]
      rw [hrl, k5, k6, k7]
      omega
    · simp only [Option.some.injEq] at g1
      subst g1
      omega

theorem merge_ok {m o : VMap} {d e : Dict} (hm : Inv m d) (ho : Inv o e) (hw : MergeWithin m o) :
    ∃ m' o' live n, n ≤ e.length ∧ m.merge o = some (m', o') ∧ m'.fixed = m.fixed ∧ o'.fixed = o.fixed ∧ (n = e.length ∨ (m.fixed = true ∧ m'.overflow = true)) ∧
      Held m' (d ++ (e.take n).filter fun x => !d.has x.1) live ∧ Inv o' ((e.take n).filter (fun x => d.has x.1) ++ e.drop n) ∧
      ((∀ r ∈ o.rows, r.tidy) → Inv m' (d ++ (e.take n).filter fun x => !d.has x.1)) := by
  obtain ⟨p1, p2, p3⟩ := ho.pairs
  unfold VMap.merge
  by_cases hz : o.rows = []
  · rw [if_pos hz]
    have he : e = [] := by have := ho.len; rw [hz] at this; exact List.length_eq_zero_iff.1 this.symm
    subst he
    refine ⟨m, o, m.rows.flatMap Row.regs, 0, Nat.le_refl _, rfl, rfl, rfl, .inl rfl, ?_, by simpa using ho, fun _ => by simpa using hm⟩
    simpa using hm.held
  rw [if_neg hz]
  obtain ⟨m1, g1, g2, g3, g4⟩ := reserve_ready (n := o.rows.length) (g := o.mergeGrowth) hm hw
  dsimp only [Option.bind_eq_bind]
  rw [g1]
  dsimp only [Option.bind_some]
  have hlen : (o.rows.zip e).length = o.rows.length := by rw [List.length_zip, ← ho.len, Nat.min_self]
  have hkeys : (o.rows.zip e).map (·.2.1) = e.map (·.1) := by
    have : (o.rows.zip e).map (·.2.1) = ((o.rows.zip e).map (·.2)).map (·.1) := by rw [List.map_map]; rfl
    rw [this, p2]
  have hgrow : ((o.rows.zip e).map (·.1.need)).sum = o.mergeGrowth := by
    have : (o.rows.zip e).map (·.1.need) = ((o.rows.zip e).map (·.1)).map Row.need := by rw [List.map_map]; rfl
    rw [this, p1]; rfl
  obtain ⟨m', live, n, k1, k2, k3, k4, k5, k6⟩ := mergeLoop_ok (o.rows.zip e) d m1 _ p3 (by rw [hkeys]; exact ho.keys) g3.held (by
    rw [hlen, hgrow]; exact g4)
  rw [p1] at k2
  rw [k2]
  dsimp only [Option.bind_some]
  have hmv : (movedOf d (o.rows.zip e) n).map (·.2) = (e.take n).filter fun x => !d.has x.1 := by
    unfold movedOf
    conv => rhs; rw [← p2, ← List.map_take, List.filter_map]
    rfl
  have hlf : (leftOf d (o.rows.zip e) n).map (·.2) = (e.take n).filter (fun x => d.has x.1) ++ e.drop n := by
    unfold leftOf
    rw [List.map_append, List.map_drop, p2]
    congr 1
    conv => rhs; rw [← p2, ← List.map_take, List.filter_map]
    rfl
  have hel : (o.rows.zip e).length = e.length := hlen.trans ho.len
  refine ⟨m', _, live, n, by omega, rfl, k3.trans g2, rfl, ?_, ?_, ?_, ?_⟩
  · rcases k5 with k5 | k5
    · exact .inl (k5.trans hel)
    · exact .inr ⟨g2 ▸ k5.1, k5.2⟩
  · rw [← hmv]; exact k4
  · rw [← hlf]
    refine ho.sub ?_
    unfold leftOf
    conv => rhs; rw [← List.take_append_drop n (o.rows.zip e)]
    exact List.Sublist.append List.filter_sublist (List.Sublist.refl _)
  · intro ht
    rw [← hmv]
    refine k6 g3 (List.Perm.refl _) fun p hp => ht p.1 ?_
    rw [← p1]
    exact List.mem_map.2 ⟨p, hp, rfl⟩

theorem start_ok (entries payload : Nat) (fixed : Bool) (hsize : 32 + 48 * entries + payload < 2 ^ 32) :
    Inv { VMap.fresh entries payload with fixed := fixed } [] := by
  have h := fresh_ok hsize
  obtain ⟨cs, hmem⟩ := h.mem
  exact ⟨⟨cs, Mem.rows (m := VMap.fresh entries payload) hmem _ rfl rfl rfl rfl⟩, h.layout, h.count, h.len, by simp, by simp, h.keys⟩

/-- a map as some history within the limits left it, and what it holds -/
def Reached (m : VMap) (d : Dict) : Prop :=
  ∃ entries payload fixed ops oks, 32 + 48 * entries + payload < 2 ^ 32 ∧ Within { VMap.fresh entries payload with fixed := fixed } ops ∧
    ({ VMap.fresh entries payload with fixed := fixed } : VMap).run ops = some (m, oks) ∧ m.contents = some d

theorem Reached.inv {m : VMap} {d : Dict} (h : Reached m d) : Inv m d := by
  obtain ⟨entries, payload, fixed, ops, oks, h1, h2, h3, h4⟩ := h
  obtain ⟨m1, oks1, d1, g1, _, _, g4⟩ := run_ok ops (start_ok entries payload fixed h1) h2
  rw [h3] at g1
  simp only [Option.some.injEq, Prod.mk.injEq] at g1
  obtain ⟨rfl, rfl⟩ := g1
  rw [contents_ok g4] at h4
  simp only [Option.some.injEq] at h4
  exact h4 ▸ g4

/-- **C57** For all maps that histories within the limits leave behind: `merge` has no undefined behaviour. It goes through the source's first `n` entries — all of
them, unless the target is a fixed buffer that is full and says so. Afterwards the target holds what it held and, behind that, those of the `n` entries
whose keys it did not have, in their order and with their values; the source holds the others. Every key of either looks up to its value. -/
theorem merge_moves_entries {m o : VMap} {d e : Dict} (hm : Reached m d) (ho : Reached o e) (hw : MergeWithin m o) :
    ∃ m' o' n, n ≤ e.length ∧ m.merge o = some (m', o') ∧ (n = e.length ∨ (m.fixed = true ∧ m'.overflow = true)) ∧
      m'.contents = some (d ++ (e.take n).filter fun x => !d.has x.1) ∧ o'.contents = some ((e.take n).filter (fun x => d.has x.1) ++ e.drop n) ∧
      (∀ k, m'.lookup k = some (Dict.get (d ++ (e.take n).filter fun x => !d.has x.1) k)) ∧
      ∀ k, o'.lookup k = some (Dict.get ((e.take n).filter (fun x => d.has x.1) ++ e.drop n) k) := by
  obtain ⟨m', o', live, n, h1, h2, _, _, h3, h4, h5, _⟩ := merge_ok hm.inv ho.inv hw
  exact ⟨m', o', n, h1, h2, h3, h4.contents, contents_ok h5, h4.lookup, lookup_ok h5⟩

/-- **C57**, afterwards: the source is a dictionary for every further history. -/
theorem merge_source_usable {m o m' o' : VMap} {d e e' : Dict} (hm : Reached m d) (ho : Reached o e) (hw : MergeWithin m o) (hr : m.merge o = some (m', o'))
    (hc : o'.contents = some e') (ops : List Op) (hops : Within o' ops) :
    ∃ o'' oks e'', o'.run ops = some (o'', oks) ∧ Dict.Run o'.fixed e' ops oks e'' ∧ o''.contents = some e'' ∧ ∀ k, o''.lookup k = some (e''.get k) := by
  obtain ⟨m1, o1, live, n, h1, h2, _, _, h3, h4, h5, _⟩ := merge_ok hm.inv ho.inv hw
  rw [hr] at h2
  simp only [Option.some.injEq, Prod.mk.injEq] at h2
  obtain ⟨rfl, rfl⟩ := h2
  rw [contents_ok h5] at hc
  simp only [Option.some.injEq] at hc
  subst hc
  obtain ⟨o'', oks, e'', g1, _, g3, g4⟩ := run_ok ops h5 hops
  exact ⟨o'', oks, e'', g1, g3, contents_ok g4, lookup_ok g4⟩

/-- **C57**, afterwards (partial): the target is a dictionary for every further history if every record of the source fills its last 16 bytes and no key of the
source is longer than 34 characters. Without that it is not: `merge_then_assign`, `merge_then_erase`, `merge_then_assign_loses_key`. -/
theorem merge_target_usable_partial {m o m' o' : VMap} {d e d' : Dict} (hm : Reached m d) (ho : Reached o e) (hw : MergeWithin m o)
    (ht : ∀ r ∈ o.rows, (r.hasRec = true → r.len % 16 = 0) ∧ ∀ off len, r.key ≠ .spilled off len) (hr : m.merge o = some (m', o'))
    (hc : m'.contents = some d') (ops : List Op) (hops : Within m' ops) :
    ∃ m'' oks d'', m'.run ops = some (m'', oks) ∧ Dict.Run m'.fixed d' ops oks d'' ∧ m''.contents = some d'' ∧ ∀ k, m''.lookup k = some (d''.get k) := by
  obtain ⟨m1, o1, live, n, h1, h2, _, _, h3, h4, h5, h6⟩ := merge_ok hm.inv ho.inv hw
  rw [hr] at h2
  simp only [Option.some.injEq, Prod.mk.injEq] at h2
  obtain ⟨rfl, rfl⟩ := h2
  have hi := h6 ht
  rw [contents_ok hi] at hc
  simp only [Option.some.injEq] at hc
  subst hc
  obtain ⟨m'', oks, d'', g1, _, g3, g4⟩ := run_ok ops hi hops
  exact ⟨m'', oks, d'', g1, g3, contents_ok g4, lookup_ok g4⟩

/-! ### Maps that meet the hypotheses -/

theorem reached_of {m : VMap} {d : Dict} (entries payload : Nat) (fixed : Bool) (ops : List Op) (h1 : 32 + 48 * entries + payload < 2 ^ 32)
    (h2 : sizesOk { VMap.fresh entries payload with fixed := fixed } ops = true) (h3 : ∀ op ∈ ops, argsOk op) (oks : List Bool)
    (h4 : ({ VMap.fresh entries payload with fixed := fixed } : VMap).run ops = some (m, oks)) (h5 : m.contents = some d) : Reached m d :=
  ⟨entries, payload, fixed, ops, oks, h1, within_of ops _ h2 h3, h4, h5⟩

def target : List Op := [.emplace (chars "a") (.scalar 1 [1]), .emplace (chars "b") (.scalar 4 [1, 2, 3, 4]), .erase (chars "a")]

def source : List Op :=
  [.emplace (chars "x") (.text (.given (chars "0123456789"))), .emplace longKey (.scalar 1 [0]), .emplace (chars "b") (.scalar 1 [1])]

theorem target_args : ∀ op ∈ target, argsOk op := by
  intro op hop
  simp only [target, List.mem_cons, List.not_mem_nil, or_false] at hop
  rcases hop with rfl | rfl | rfl
  · exact ⟨⟨_, fun _ => .scalar (by decide) (by decide) (by decide)⟩, trivial⟩
  · exact ⟨⟨_, fun _ => .scalar (by decide) (by decide) (by decide)⟩, trivial⟩
  · trivial

theorem source_args : ∀ op ∈ source, argsOk op := by
  intro op hop
  simp only [source, List.mem_cons, List.not_mem_nil, or_false] at hop
  rcases hop with rfl | rfl | rfl
  · exact ⟨⟨_, fun _ => .text rfl (by decide +kernel)⟩, trivial⟩
  · exact ⟨⟨_, fun _ => .scalar (by decide) (by decide) (by decide)⟩, trivial⟩
  · exact ⟨⟨_, fun _ => .scalar (by decide) (by decide) (by decide)⟩, trivial⟩

/-- two reachable maps within the limits -/
example : ∃ m o d e, Reached m d ∧ Reached o e ∧ MergeWithin m o ∧ d = [(chars "b", .scalar 4 [1, 2, 3, 4])] ∧
    e = [(chars "x", .text (chars "0123456789")), (longKey, .scalar 1 [0]), (chars "b", .scalar 1 [1])] := by
  have h : ((({ VMap.fresh 8 0 with fixed := false } : VMap).run target).bind fun a => (({ VMap.fresh 8 0 with fixed := false } : VMap).run source).map fun b =>
      a.1.contents == some [(chars "b", .scalar 4 [1, 2, 3, 4])] &&
      b.1.contents == some [(chars "x", .text (chars "0123456789")), (longKey, .scalar 1 [0]), (chars "b", .scalar 1 [1])] &&
      (decide (a.1.rows.length + b.1.rows.length < 43689) && decide (a.1.entryCapacity < 43690) &&
        decide (48 * (a.1.rows.length + b.1.rows.length) + (a.1.used + b.1.mergeGrowth) + 2 * (a.1.base + a.1.pool.length) + 1000 < 2 ^ 32))) = some true := by
    decide +kernel
  obtain ⟨⟨m, oks⟩, h1, h2⟩ := Option.bind_eq_some_iff.1 h
  obtain ⟨⟨o, oks'⟩, h3, h4⟩ := Option.map_eq_some_iff.1 h2
  simp only [Bool.and_eq_true, beq_iff_eq, decide_eq_true_eq] at h4
  exact ⟨m, o, _, _, reached_of 8 0 false target (by decide) (by decide +kernel) target_args oks h1 h4.1.1,
    reached_of 8 0 false source (by decide) (by decide +kernel) source_args oks' h3 h4.1.2, .inr ⟨h4.2.1.1, h4.2.1.2, h4.2.2⟩, rfl, rfl⟩

/-- what merging them yields -/
example : ((({ VMap.fresh 8 0 with fixed := false } : VMap).run target).bind fun a => (({ VMap.fresh 8 0 with fixed := false } : VMap).run source).bind fun b =>
    (a.1.merge b.1).bind fun r => r.1.contents.bind fun x => r.2.contents.map fun y => (x, y)) =
    some ([(chars "b", .scalar 4 [1, 2, 3, 4]), (chars "x", .text (chars "0123456789")), (longKey, .scalar 1 [0])], [(chars "b", .scalar 1 [1])]) := by
  decide +kernel

/-- a fixed buffer takes what fits and the source keeps the rest -/
example : ((({ VMap.fresh 4 60 with fixed := true } : VMap).run [.emplace (chars "b") (.scalar 1 [1])]).bind fun a =>
    (({ VMap.fresh 8 0 with fixed := false } : VMap).run source).bind fun b =>
    (a.1.merge b.1).bind fun r => r.1.contents.bind fun x => r.2.contents.map fun y => (x, y, r.1.overflow)) =
    some ([(chars "b", .scalar 1 [1]), (chars "x", .text (chars "0123456789"))], [(longKey, .scalar 1 [0]), (chars "b", .scalar 1 [1])], true) := by
  decide +kernel

/-- a source whose copies may be overwritten -/
example : (({ VMap.fresh 8 0 with fixed := false } : VMap).run target).any fun b =>
    b.1.rows.all fun r => r.len % 16 == 0 && (match r.key with | .spilled .. => false | _ => true) := by decide +kernel

/-! ### What `merge` leaves behind -/

/-- A merged string is copied without the padding of its record, but overwriting it in place assumes the padding: merging one string into an empty map and then
storing a shorter one under the same key writes behind the end of the allocation. -/
theorem merge_then_assign : ∃ o m' o', (VMap.fresh 8 0).emplace (chars "x") (.text (.given (chars "0123456789"))) = some (o, true) ∧
    (VMap.fresh 8 0).merge o = some (m', o') ∧ m'.lookup (chars "x") = some (some (.text (chars "0123456789"))) ∧
    m'.insertOrAssign (chars "x") (.text (.given (chars "hello"))) = none := by
  refine ⟨_, _, _, rfl, rfl, ?_⟩
  decide +kernel

/-- Erasing a merged string gives the free list more bytes than it has: the next string is written behind the end of the allocation. -/
theorem merge_then_erase : ∃ o m' o' m'', (VMap.fresh 8 0).emplace (chars "x") (.text (.given (chars "0123456789"))) = some (o, true) ∧
    (VMap.fresh 8 0).merge o = some (m', o') ∧ m'.erase (chars "x") = some (m'', true) ∧
    m''.emplace (chars "y") (.text (.given (chars "0123456789"))) = none := by
  refine ⟨_, _, _, _, rfl, rfl, rfl, ?_⟩
  decide +kernel

/-- With a long key behind the string, storing a shorter string overwrites the key: the other entry can no longer be found. -/
theorem merge_then_assign_loses_key : ∃ o m' o' m'', (VMap.fresh 8 0).run
      [.emplace (chars "x") (.text (.given (chars "0123456789"))), .emplace longKey (.scalar 1 [1])] = some (o, [true, true]) ∧
    (VMap.fresh 8 0).merge o = some (m', o') ∧ m'.lookup longKey = some (some (.scalar 1 [1])) ∧
    m'.insertOrAssign (chars "x") (.text (.given (chars "hello"))) = some (m'', true) ∧ m''.lookup longKey = some none := by
  have h : ((VMap.fresh 8 0).run [.emplace (chars "x") (.text (.given (chars "0123456789"))), .emplace longKey (.scalar 1 [1])]).any (fun r =>
      r.2 == [true, true] && ((VMap.fresh 8 0).merge r.1).any fun s => s.1.lookup longKey == some (some (.scalar 1 [1])) &&
        (s.1.insertOrAssign (chars "x") (.text (.given (chars "hello")))).any fun t => t.2 && t.1.lookup longKey == some none) = true := by decide +kernel
  obtain ⟨⟨o, oks⟩, h1, h2⟩ := (Option.any_eq_true _ _).1 h
  simp only [Bool.and_eq_true, beq_iff_eq] at h2
  obtain ⟨rfl, h2⟩ := h2
  obtain ⟨⟨m', o'⟩, h3, h4⟩ := (Option.any_eq_true _ _).1 h2
  simp only [Bool.and_eq_true, beq_iff_eq] at h4
  obtain ⟨⟨m'', ok⟩, h5, h6⟩ := (Option.any_eq_true _ _).1 h4.2
  simp only [Bool.and_eq_true, beq_iff_eq] at h6
  obtain ⟨rfl, h6⟩ := h6
  exact ⟨o, m', o', m'', h1, h3, h4.1, h5, h6⟩

end Verif.VMap
