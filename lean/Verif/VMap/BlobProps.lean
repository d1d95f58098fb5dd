import Verif.VMap.BlobAccept
import Verif.VMap.MergeProps
/-!
# C58: the bytes of property maps

`blob()` is the memory of a map, `from_blob` checks received bytes and makes a map of them.
-/
namespace Verif.VMap
open Verif.Bytes

/-! ### Own bytes -/

/-- **C58**, round trip: the bytes of any map of plain values, sent with anything behind them to an aligned address, become a map with the same contents in the same order,
and a dictionary for every further history. Missing: nested maps and tensors of more than 2^24 elements, see `nested_map_refused` and `large_tensor_refused`. -/
theorem blob_round_trip_partial {m : VMap} {d : Dict} (h : Reached m d) (hd : ∀ e ∈ d, e.2.plain = true) (slack extra : List Byte)
    (hs : 32 + 48 * m.rows.length + slack.length = m.base) (addr : Nat) (ha : addr % 16 = 0) :
    ∃ m', fromBlob addr (m.blob slack ++ extra) = .ok m' ∧ m'.contents = some d ∧ (∀ k, m'.lookup k = some (d.get k)) ∧
      ∀ ops, Within m' ops → ∃ m'' oks d'', m'.run ops = some (m'', oks) ∧ Dict.Run m'.fixed d ops oks d'' ∧ m''.contents = some d'' ∧
        ∀ k, m''.lookup k = some (d''.get k) := by
  have hi := h.inv.reread
  refine ⟨m.reread, fromBlob_ok h.inv hs extra hd ha, contents_ok hi, lookup_ok hi, fun ops hops => ?_⟩
  obtain ⟨m'', oks, d'', g1, _, g3, g4⟩ := run_ok ops hi hops
  exact ⟨m'', oks, d'', g1, g3, contents_ok g4, lookup_ok g4⟩

/-- **C58**, whatever the values are: if the bytes of a map are accepted, the contents are the same. -/
theorem accepted_own_bytes {m m' : VMap} {d : Dict} (h : Reached m d) (slack extra : List Byte) (hs : 32 + 48 * m.rows.length + slack.length = m.base) (addr : Nat)
    (hok : fromBlob addr (m.blob slack ++ extra) = .ok m') : m'.contents = some d ∧ ∀ k, m'.lookup k = some (d.get k) := by
  have hi := h.inv.reread
  obtain ⟨u, _, h2⟩ := bind_ok hok
  have h2 : (Except.ok (VMap.ofBlob (m.blob slack ++ extra)) : Check VMap) = .ok m' := h2
  simp only [Except.ok.injEq] at h2
  rw [ofBlob_blob h.inv hs] at h2
  subst h2
  exact ⟨contents_ok hi, lookup_ok hi⟩

/-- **C58**, copies: a copy of any map has the same contents, and is a dictionary for every further history. -/
theorem copy_same {m : VMap} {d : Dict} (h : Reached m d) (slack : List Byte) (hs : 32 + 48 * m.rows.length + slack.length = m.base) :
    (m.copy slack).contents = some d ∧ (∀ k, (m.copy slack).lookup k = some (d.get k)) ∧
      ∀ ops, Within (m.copy slack) ops → ∃ m'' oks d'', (m.copy slack).run ops = some (m'', oks) ∧ Dict.Run false d ops oks d'' ∧ m''.contents = some d'' ∧
        ∀ k, m''.lookup k = some (d''.get k) := by
  have hi := h.inv.reread
  have hc : m.copy slack = m.reread := by
    unfold VMap.copy
    have := ofBlob_blob h.inv hs []
    rwa [List.append_nil] at this
  rw [hc]
  refine ⟨contents_ok hi, lookup_ok hi, fun ops hops => ?_⟩
  obtain ⟨m'', oks, d'', g1, _, g3, g4⟩ := run_ok ops hi hops
  exact ⟨m'', oks, d'', g1, g3, contents_ok g4, lookup_ok g4⟩

/-! ### Foreign bytes -/

/-- **C58**, safety: whatever bytes are received at whatever address, checking them reads nothing outside them. -/
theorem fromBlob_safe (addr : Nat) (bs : List Byte) : fromBlob addr bs ≠ .error .ub := by
  refine Safe.bind (validate_safe 33 (by decide) true addr bs) fun _ _ => ?_
  exact Safe.ok _

theorem findIn_total {m : VMap} {key : Key} : ∀ (rows : List Row) (i : Nat), (∀ r ∈ rows, ∃ b, m.keyMatches r key = some b) → ∃ x, m.findIn key rows i = some x
  | [], _, _ => ⟨_, rfl⟩
  | r :: rows, i, h => by
    obtain ⟨b, hb⟩ := h r (List.mem_cons_self ..)
    unfold VMap.findIn
    rw [hb]
    dsimp only [Option.bind_eq_bind, Option.bind_some]
    cases b with
    | true => exact ⟨_, rfl⟩
    | false => exact findIn_total rows (i + 1) fun s hs => h s (List.mem_cons_of_mem _ hs)

/-- what the checks know about a row -/
theorem accepted_row {addr : Nat} {bs : List Byte} {m : VMap} (h : fromBlob addr bs = .ok m) {r : Row} (hr : r ∈ m.rows) : ∃ e : Packed, e.row = r ∧
    ∃ u, checkRow (validate 32) false addr bs m.base (m.base + m.pool.length) e = .ok u := by
  obtain ⟨u, h1, h2⟩ := bind_ok h
  have h2 : (Except.ok (VMap.ofBlob bs) : Check VMap) = .ok m := h2
  simp only [Except.ok.injEq] at h2
  subst h2
  obtain ⟨_, _, _, _, k1, k2, _, k3⟩ := validate_ok h1
  obtain ⟨i, hi, rfl⟩ := List.mem_map.1 hr
  obtain ⟨u, hu⟩ := k3 i (List.mem_range.1 hi)
  refine ⟨_, rfl, u, ?_⟩
  have : (VMap.ofBlob bs).base + (VMap.ofBlob bs).pool.length = field bs 12 4 := by
    show field bs 16 4 + ((bs.take (field bs 12 4)).drop (field bs 16 4)).length = _
    rw [List.length_drop, List.length_take]
    omega
  rw [this]
  exact hu

/-- bytes of an accepted blob and of its map -/
theorem accepted_peek {addr : Nat} {bs x : List Byte} {m : VMap} (h : fromBlob addr bs = .ok m) {off n : Nat} (hb : m.base ≤ off)
    (hn : off + n ≤ m.base + m.pool.length) (hx : readAt bs off n = .ok x) : m.peek off n = some x := by
  obtain ⟨u, h1, h2⟩ := bind_ok h
  have h2 : (Except.ok (VMap.ofBlob bs) : Check VMap) = .ok m := h2
  simp only [Except.ok.injEq] at h2
  subst h2
  obtain ⟨_, _, _, _, k1, k2, _, _⟩ := validate_ok h1
  obtain ⟨_, rfl⟩ := readAt_ok.1 hx
  refine peek_eq_some.2 ⟨⟨hb, hn⟩, ?_⟩
  have hb' : field bs 16 4 ≤ off := hb
  have hn' : off + n ≤ field bs 16 4 + ((bs.take (field bs 12 4)).drop (field bs 16 4)).length := hn
  rw [List.length_drop, List.length_take] at hn'
  show (((bs.take (field bs 12 4)).drop (field bs 16 4)).drop (off - field bs 16 4)).take n = _
  rw [List.drop_drop, List.drop_take, List.take_take, Nat.min_eq_left (by omega), show field bs 16 4 + (off - field bs 16 4) = off by omega]

/-- the checks of the key of a row -/
theorem accepted_key {inner : Bool → Nat → List Byte → Check Unit} {deep : Bool} {addr : Nat} {bs : List Byte} {base total : Nat} {e : Packed} {u : Unit}
    (h : checkRow inner deep addr bs base total e = .ok u) :
    ¬(e.keyId = kSpilledKeyId ∧ (field e.inlineKey 0 4 < base ∨ total < field e.inlineKey 0 4 ∨ total - field e.inlineKey 0 4 < field e.inlineKey 4 4)) := by
  unfold checkRow at h
  split at h
  · obtain ⟨_, _, h⟩ := bind_ok h
    obtain ⟨_, _, h⟩ := bind_ok h
    obtain ⟨_, _, h⟩ := bind_ok h
    obtain ⟨_, _, h⟩ := bind_ok h
    obtain ⟨_, _, h⟩ := bind_ok h
    obtain ⟨_, _, h⟩ := bind_ok h
    split at h
    · obtain ⟨_, _, h⟩ := bind_ok h
      obtain ⟨_, _, h⟩ := bind_ok h
      obtain ⟨_, _, h⟩ := bind_ok h
      obtain ⟨_, _, h⟩ := bind_ok h
      obtain ⟨_, _, h⟩ := bind_ok h
      exact reject_ok h
    · obtain ⟨_, _, h⟩ := bind_ok h
      obtain ⟨_, _, h⟩ := bind_ok h
      exact reject_ok h
  · obtain ⟨_, _, h⟩ := bind_ok h
    obtain ⟨_, _, h⟩ := bind_ok h
    exact reject_ok h

/-- the checks of the record of a row -/
theorem accepted_record {inner : Bool → Nat → List Byte → Check Unit} {deep : Bool} {addr : Nat} {bs : List Byte} {base total : Nat} {e : Packed} {u : Unit}
    (h : checkRow inner deep addr bs base total e = .ok u) (hr : bit e.flags 2 = true) : base ≤ e.off ∧ e.off + e.len ≤ total ∧ 8 ≤ e.len ∧
    ∃ head, readAt bs e.off 8 = .ok head ∧ field head 0 4 = align32 e.len ∧ field head 7 1 = 8 ∧ (bit e.flags 8 = true ∨ bit e.flags 16 = true →
      ∃ sub u', readAt bs (e.off + 8) (e.len - 8) = .ok sub ∧ inner (bit e.flags 8) (addr + e.off + 8) sub = .ok u') := by
  unfold checkRow at h
  rw [hr, if_pos rfl] at h
  obtain ⟨_, h1, h⟩ := bind_ok h
  obtain ⟨_, h2, h⟩ := bind_ok h
  obtain ⟨head, h3, h⟩ := bind_ok h
  obtain ⟨_, h4, h⟩ := bind_ok h
  obtain ⟨_, h5, h⟩ := bind_ok h
  obtain ⟨_, h6, h⟩ := bind_ok h
  have h1 := reject_ok h1
  have h2 := reject_ok h2
  have h4 := reject_ok h4
  have h5 := reject_ok h5
  refine ⟨by omega, by omega, by omega, head, h3, by omega, by omega, fun hc => ?_⟩
  rw [if_pos hc] at h
  obtain ⟨_, _, h⟩ := bind_ok h
  obtain ⟨_, _, h⟩ := bind_ok h
  obtain ⟨sub, h7, h⟩ := bind_ok h
  obtain ⟨u', h8, h⟩ := bind_ok h
  exact ⟨sub, u', h7, h8⟩

/-- **C58**, keys of foreign maps: in a map made of received bytes every key can be read and every search ends without leaving the memory. -/
theorem accepted_keys {addr : Nat} {bs : List Byte} {m : VMap} (h : fromBlob addr bs = .ok m) :
    (∀ r ∈ m.rows, ∃ k, m.readKey r = some k) ∧ ∀ k, ∃ x, m.find k = some x := by
  have hsp : ∀ r ∈ m.rows, ∀ off len, r.key = .spilled off len → ∃ k, m.peek off len = some k := by
    intro r hr off len hk
    obtain ⟨e, rfl, u, hu⟩ := accepted_row h hr
    have hu := accepted_key hu
    have hk : e.key = .spilled off len := hk
    unfold Packed.key at hk
    split at hk
    · simp at hk
    · split at hk
      · rename_i hid
        simp only [KeyRef.spilled.injEq] at hk
        exact ⟨_, peek_some (by omega) (by omega)⟩
      · simp at hk
  refine ⟨fun r hr => ?_, fun k => findIn_total _ _ fun r hr => ?_⟩
  · unfold VMap.readKey
    cases hk : r.key with
    | canonical id => exact ⟨_, rfl⟩
    | inline name => exact ⟨_, rfl⟩
    | spilled off len => exact hsp r hr off len hk
  · unfold VMap.keyMatches
    cases hk : r.key with
    | canonical id => exact ⟨_, rfl⟩
    | inline name => exact ⟨_, rfl⟩
    | spilled off len =>
      dsimp only
      split
      · exact ⟨_, rfl⟩
      · obtain ⟨x, hx⟩ := hsp r hr off len hk
        exact ⟨_, by rw [hx]; rfl⟩

/-- what the checks do not ask: the record fits its row -/
def Consistent (m : VMap) (r : Row) : Prop :=
  r.hasRec = true → r.off + align r.len ≤ m.base + m.pool.length ∧ ∀ head, m.peek r.off 8 = some head →
    (head.getD 5 0 = 3#8 → r.tensor = true ∧ r.nested = false ∧ m.peek (r.off + 8) 1 = some [head.getD 4 0]) ∧ (head.getD 5 0 = 4#8 → r.nested = true) ∧
    (head.getD 4 0 = 13#8 → head.getD 5 0 = 1#8 → 24 ≤ align r.len)

theorem find_bound {m : VMap} {key : Key} : ∀ (rows : List Row) (i : Nat) {j : Nat}, m.findIn key rows i = some (some j) → ∃ r, rows[j - i]? = some r ∧ i ≤ j
  | [], i, j, h => by simp [VMap.findIn] at h
  | r :: rows, i, j, h => by
    unfold VMap.findIn at h
    dsimp only [Option.bind_eq_bind] at h
    obtain ⟨b, _, h⟩ := Option.bind_eq_some_iff.1 h
    cases b with
    | true =>
      rw [if_pos rfl] at h
      simp only [Option.some.injEq] at h
      subst h
      exact ⟨r, by simp, Nat.le_refl _⟩
    | false =>
      rw [if_neg (by decide)] at h
      obtain ⟨s, h1, h2⟩ := find_bound rows (i + 1) h
      refine ⟨s, ?_, by omega⟩
      rw [show j - i = (j - (i + 1)) + 1 by omega, List.getElem?_cons_succ]
      exact h1

theorem leNat_get (l : List Byte) (i : Nat) (h : i < l.length) : leNat ((l.drop i).take 1) = (l.getD i 0).toNat := by
  rw [List.drop_eq_getElem_cons h, List.getD_eq_getElem?_getD, List.getElem?_eq_getElem h, List.take_succ_cons, List.take_zero]
  rfl

theorem readable_tensor {inner : Bool → Nat → List Byte → Check Unit} {addr vt : Nat} {p sub : List Byte} {n : Nat} {u : Unit} (hs : (p.drop 8).take n = sub)
    (hl : 8 + n ≤ p.length) (h : checkTensor inner addr sub = .ok u) (hv : field sub 0 1 = vt) : ∃ v, tensorAt p 8 vt = some v := by
  have hsl : sub.length = n := by rw [← hs, List.length_take, List.length_drop]; omega
  unfold checkTensor at h
  obtain ⟨_, h1, h⟩ := bind_ok h
  obtain ⟨head, h2, h⟩ := bind_ok h
  obtain ⟨_, h3, h⟩ := bind_ok h
  obtain ⟨_, h4, h⟩ := bind_ok h
  obtain ⟨_, h5, h⟩ := bind_ok h
  obtain ⟨_, h6, h⟩ := bind_ok h
  have h1 := reject_ok h1
  obtain ⟨_, rfl⟩ := readAt_ok.1 h2
  have h3 := reject_ok h3
  have h5 := reject_ok h5
  unfold extentsBytes at h h5
  have hh : (sub.drop 0).take 8 = (p.drop 8).take 8 := by
    rw [List.drop_zero, ← hs, List.take_take, Nat.min_eq_left (by omega)]
  have hf0 : field ((sub.drop 0).take 8) 0 1 = vt := by
    rw [← hv]
    unfold field
    rw [List.drop_zero, List.drop_zero, List.take_take]
    rfl
  rw [hf0] at h
  rw [hh] at h h3 h5
  have f4 : field ((p.drop 8).take 8) 4 4 = leNat (((p.drop 8).take 8).drop 4) := by
    unfold field
    rw [List.take_of_length_le (by simp; omega)]
  rw [f4] at h
  unfold tensorAt
  dsimp only [Option.bind_eq_bind]
  rw [bytesAt_eq_some.2 ⟨by omega, rfl⟩, Option.bind_some]
  split
  · exact ⟨_, rfl⟩
  · rename_i hc
    have hr : field ((p.drop 8).take 8) 1 1 = leNat ((((p.drop 8).take 8).drop 1).take 1) := rfl
    have hvar : bit (field ((p.drop 8).take 8) 2 1) 1 = false := by
      unfold bit
      have : field ((p.drop 8).take 8) 2 1 = leNat ((((p.drop 8).take 8).drop 2).take 1) := rfl
      rw [this, Nat.div_one]
      simp only [beq_eq_false_iff_ne, ne_eq]
      omega
    rw [hvar, Bool.not_false, if_pos rfl] at h
    obtain ⟨_, h7, h⟩ := bind_ok h
    have h7 := reject_ok h7
    have h8 := reject_ok h
    rw [Nat.not_lt, Nat.le_div_iff_mul_le (by omega)] at h8
    rw [hr] at h5 h8
    rw [bytesAt_eq_some.2 ⟨by omega, rfl⟩, Option.bind_some, bytesAt_eq_some.2 ⟨by omega, rfl⟩, Option.bind_some]
    exact ⟨_, rfl⟩

theorem readable_record {addr : Nat} {bs : List Byte} {m : VMap} (h : fromBlob addr bs = .ok m) {r : Row} (hr : r ∈ m.rows) (hc : Consistent m r) :
    ∃ v, m.readVal r = some v := by
  have htot : m.base + m.pool.length < 2 ^ 32 := by
    obtain ⟨u, h1, h2⟩ := bind_ok h
    have h2 : (Except.ok (VMap.ofBlob bs) : Check VMap) = .ok m := h2
    simp only [Except.ok.injEq] at h2
    subst h2
    obtain ⟨_, _, _, _, k1, k2, _, _⟩ := validate_ok h1
    show field bs 16 4 + ((bs.take (field bs 12 4)).drop (field bs 16 4)).length < _
    rw [List.length_drop, List.length_take]
    have := field_lt bs 12 4
    omega
  obtain ⟨e, he, u, hu⟩ := accepted_row h hr
  unfold VMap.readVal
  cases hh : r.hasRec with
  | false => exact ⟨_, rfl⟩
  | true =>
    by_cases h0 : r.off = 0
    · rw [h0]; exact ⟨_, rfl⟩
    rw [Bool.true_and, decide_eq_true h0, if_pos rfl]
    have e1 : bit e.flags 2 = true := by rw [← he] at hh; exact hh
    have e2 : e.off = r.off := by rw [← he]; rfl
    have e3 : e.len = r.len := by rw [← he]; rfl
    have e4 : bit e.flags 8 = r.nested := by rw [← he]; rfl
    have e5 : bit e.flags 16 = r.tensor := by rw [← he]; rfl
    obtain ⟨q1, q2, q3, head, q4, q5, q6, q7⟩ := accepted_record hu e1
    simp only [e2, e3, e4, e5] at q1 q2 q3 q4 q5 q7
    obtain ⟨c1, c2⟩ := hc hh
    have hal := align_ge r.len
    rw [if_pos q1]
    have hpk := accepted_peek h q1 (by omega) q4
    obtain ⟨c3, c4, c5⟩ := c2 head hpk
    obtain ⟨_, hhead⟩ := peek_eq_some.1 hpk
    have hsub : ∀ off n x, m.peek (r.off + off) n = some x → ((m.pool.drop (r.off - m.base)).drop off).take n = x := by
      intro off n x hx
      obtain ⟨g1, g2⟩ := peek_eq_some.1 hx
      rw [List.drop_drop, show r.off - m.base + off = r.off + off - m.base by omega]
      exact g2
    have hplen : (m.pool.drop (r.off - m.base)).length = m.base + m.pool.length - r.off := by rw [List.length_drop]; omega
    generalize m.pool.drop (r.off - m.base) = p at hhead hsub hplen
    have hl8 : head.length = 8 := by rw [← hhead, List.length_take]; omega
    rw [align_32 (by omega)] at q5
    have q5 : leNat (head.take 4) = align r.len := q5
    have q6 : leNat ((head.drop 7).take 1) = 8 := q6
    have b4 := leNat_get head 4 (by omega)
    have b5 := leNat_get head 5 (by omega)
    unfold decode
    dsimp only [Option.bind_eq_bind]
    have hb0 : bytesAt p 0 8 = some head := bytesAt_eq_some.2 ⟨by omega, by rw [List.drop_zero]; exact hhead⟩
    rw [hb0, Option.bind_some, q5, q6]
    have toB : ∀ (x : Byte) (n : Nat), n < 256 → x.toNat = n → x = BitVec.ofNat 8 n := by
      intro x n hn hx
      apply BitVec.eq_of_toNat_eq
      rw [hx, BitVec.toNat_ofNat, Nat.mod_eq_of_lt (by omega)]
    split
    · unfold textAt
      dsimp only
      rw [if_pos (.inr (by rw [List.length_take, List.length_drop]; omega))]
      exact ⟨_, rfl⟩
    · split
      · rename_i h3
        obtain ⟨t1, t2, t3⟩ := c3 (toB _ 3 (by decide) (by omega))
        split
        · exact ⟨_, rfl⟩
        · obtain ⟨sub, u', s1, s2⟩ := q7 (.inr t1)
          have s3 := hsub 8 (r.len - 8) sub (accepted_peek h (by omega) (by omega) s1)
          rw [t2] at s2
          unfold validate at s2
          rw [if_neg (by decide)] at s2
          refine readable_tensor s3 (by omega) s2 ?_
          have s4 := hsub 8 1 _ t3
          have hn : 1 ≤ r.len - 8 := by
            unfold checkTensor at s2
            obtain ⟨_, z, _⟩ := bind_ok s2
            have z := reject_ok z
            rw [← s3, List.length_take, List.length_drop] at z
            omega
          unfold field
          rw [List.drop_zero, ← s3, List.take_take, Nat.min_eq_left hn, s4, b4]
          simp [leNat]
      · split
        · rename_i h4
          have t1 := c4 (toB _ 4 (by decide) (by omega))
          split
          · exact ⟨_, rfl⟩
          · obtain ⟨sub, u', s1, s2⟩ := q7 (.inl t1)
            have s3 := hsub 8 (r.len - 8) sub (accepted_peek h (by omega) (by omega) s1)
            rw [t1] at s2
            obtain ⟨_, v1, _, _, v2, _⟩ := validate_ok s2
            have hsl : sub.length = r.len - 8 := by rw [← s3, List.length_take, List.length_drop]; omega
            have hf : field sub 12 4 = leNat ((p.drop (8 + 12)).take 4) := by
              unfold field
              rw [← s3, List.drop_take, List.take_take, Nat.min_eq_left (by omega), List.drop_drop]
            rw [bytesAt_eq_some.2 ⟨by omega, rfl⟩, Option.bind_some, ← hf, bytesAt_eq_some.2 ⟨by omega, rfl⟩, Option.bind_some]
            exact ⟨_, rfl⟩
        · split
          · exact ⟨_, rfl⟩
          · split
            · exact ⟨_, rfl⟩
            · rename_i hz
              have hz : scalarSize (leNat ((head.drop 4).take 1)) ≠ 0 ∧ leNat ((head.drop 5).take 1) = containerOf (leNat ((head.drop 4).take 1)) := by
                exact ⟨fun hx => hz (.inl hx), Classical.byContradiction fun hx => hz (.inr hx)⟩
              have hcs := scalarSize_cases hz.1
              have hfit : 8 + scalarSize (leNat ((head.drop 4).take 1)) ≤ align r.len := by
                by_cases h13 : leNat ((head.drop 4).take 1) = 13
                · rw [h13] at hz ⊢
                  have hc1 : containerOf 13 = 1 := rfl
                  have := c5 (toB _ 13 (by decide) (by omega)) (toB _ 1 (by decide) (by omega))
                  rw [h13] at hcs
                  omega
                · have := hcs.2.2.2 (by omega)
                  omega
              rw [bytesAt_eq_some.2 ⟨by omega, rfl⟩]
              exact ⟨_, rfl⟩

theorem mapM_total {m : VMap} : ∀ rows : List Row, (∀ r ∈ rows, ∃ x, m.read r = some x) → ∃ d, rows.mapM m.read = some d
  | [], _ => ⟨_, rfl⟩
  | r :: rows, h => by
    obtain ⟨x, hx⟩ := h r (List.mem_cons_self ..)
    obtain ⟨d, hd⟩ := mapM_total rows fun s hs => h s (List.mem_cons_of_mem _ hs)
    exact ⟨x :: d, by rw [List.mapM_cons, hx, hd]; rfl⟩

/-- **C58**, values of foreign maps: if each record fits its row, everything in a map made of received bytes can be read without leaving the memory. Missing: the
checks do not ask for this, see `accepted_read_outside`. -/
theorem accepted_values_partial {addr : Nat} {bs : List Byte} {m : VMap} (h : fromBlob addr bs = .ok m) (hc : ∀ r ∈ m.rows, Consistent m r) :
    (∃ d, m.contents = some d) ∧ ∀ k, ∃ x, m.lookup k = some x := by
  have hv := fun r hr => readable_record h hr (hc r hr)
  refine ⟨mapM_total _ fun r hr => ?_, fun k => ?_⟩
  · obtain ⟨k, hk⟩ := (accepted_keys h).1 r hr
    obtain ⟨v, hv⟩ := hv r hr
    exact ⟨(k, v), by unfold VMap.read; rw [hk, hv]; rfl⟩
  · obtain ⟨x, hx⟩ := (accepted_keys h).2 k
    unfold VMap.lookup
    rw [hx]
    dsimp only [Option.bind_eq_bind, Option.bind_some]
    cases x with
    | none => exact ⟨_, rfl⟩
    | some i =>
      obtain ⟨r, hr, _⟩ := find_bound _ _ hx
      dsimp only
      rw [show m.rows[i]? = some r from hr, Option.bind_some]
      obtain ⟨v, hv⟩ := hv r (List.mem_of_getElem? hr)
      rw [hv]
      exact ⟨_, rfl⟩

/-! ### What is refused -/

/-- the map made of a map's own bytes -/
theorem accepted_reread {m m' : VMap} {d : Dict} (h : Inv m d) {slack extra : List Byte} (hs : Slack m slack) {addr : Nat}
    (hok : fromBlob addr (m.blob slack ++ extra) = .ok m') : m' = m.reread := by
  obtain ⟨u, _, h2⟩ := bind_ok hok
  have h2 : (Except.ok (VMap.ofBlob (m.blob slack ++ extra)) : Check VMap) = .ok m' := h2
  simp only [Except.ok.injEq] at h2
  rw [ofBlob_blob h hs] at h2
  exact h2.symm

/-- A nested map begins 8 bytes behind the start of its record and is refused unless it is aligned to 16 bytes. -/
theorem accepted_nested_offset {addr : Nat} {bs : List Byte} {m : VMap} (h : fromBlob addr bs = .ok m) {r : Row} (hr : r ∈ m.rows) (h1 : r.hasRec = true)
    (h2 : r.nested = true) : r.off % 16 = 8 := by
  have ha : addr % 16 = 0 := by
    obtain ⟨u, h3, _⟩ := bind_ok h
    exact (validate_ok h3).1
  obtain ⟨e, he, u, hu⟩ := accepted_row h hr
  have e1 : bit e.flags 2 = true := by rw [← he] at h1; exact h1
  have e2 : bit e.flags 8 = true := by rw [← he] at h2; exact h2
  have e3 : e.off = r.off := by rw [← he]; rfl
  obtain ⟨_, _, _, _, _, _, _, h4⟩ := accepted_record hu e1
  obtain ⟨sub, u', _, h5⟩ := h4 (.inl e2)
  rw [e2] at h5
  have := (validate_ok h5).1
  omega

theorem body_tensor_code {s vt ct : Nat} {c : List Byte} {vt' : Nat} {ext : List Nat} {data : List Byte} (h : body s vt ct c = some (.tensor vt' ext data)) : ct = 3 := by
  unfold body at h
  split at h
  · obtain ⟨_, _, h⟩ := Option.map_eq_some_iff.1 h
    simp at h
  · split at h
    · assumption
    · split at h
      · split at h
        · simp at h
        · obtain ⟨_, _, h⟩ := Option.bind_eq_some_iff.1 h
          obtain ⟨_, _, h⟩ := Option.bind_eq_some_iff.1 h
          simp at h
      · split at h
        · simp at h
        · split at h
          · simp at h
          · obtain ⟨_, _, h⟩ := Option.map_eq_some_iff.1 h
            simp at h

/-- A map that holds a tensor of more than 2^24 elements can be built, sent and copied, but its bytes are refused at every address. -/
theorem large_tensor_refused {m : VMap} {d : Dict} (h : Reached m d) {k : Key} {vt : Nat} {ext : List Nat} {data : List Byte} (hk : (k, .tensor vt ext data) ∈ d)
    (hl : 2 ^ 24 * scalarSize vt < data.length) (slack extra : List Byte) (hs : 32 + 48 * m.rows.length + slack.length = m.base) (addr : Nat) (m' : VMap) :
    fromBlob addr (m.blob slack ++ extra) ≠ .ok m' := by
  intro hok
  have hi := h.inv.reread
  have hm' := accepted_reread h.inv hs hok
  obtain ⟨i, hid, hie⟩ := List.mem_iff_getElem.1 hk
  have hir : i < m'.rows.length := by rw [hm', hi.len]; exact hid
  have hv : ValIs m' m'.rows[i] (.tensor vt ext data) := by
    have := hi.val i (m.reread.rows[i]'(by rw [hi.len]; exact hid)) d[i] (List.getElem?_eq_getElem _) (List.getElem?_eq_getElem hid)
    rw [hie] at this
    subst hm'
    exact this
  generalize hr : m'.rows[i] = r at hv
  have hrm : r ∈ m'.rows := by rw [← hr]; exact List.getElem_mem hir
  have htot : m'.base + m'.pool.length < 2 ^ 32 := by rw [hm']; exact hi.total
  rcases hv with ⟨_, hx⟩ | ⟨hh, hlen, ct, fl, c, hpk, hdec, hvt, hct, htens, _, hcut, hsnd⟩
  · simp at hx
  obtain ⟨hin, _⟩ := peek_eq_some.1 hpk
  have hal := align_ge r.len
  have hwin := peek_length hpk
  have hlen8 : 8 ≤ r.len := by
    have := decode_length hcut
    rw [List.length_take] at this
    omega
  rw [List.take_append, recHeader_length, List.take_of_length_le (by rw [recHeader_length]; omega), decode_rec (by omega) hvt hct] at hcut
  have h3 := body_tensor_code hcut
  subst h3
  obtain ⟨e, he, u, hu⟩ := accepted_row hok hrm
  have e1 : bit e.flags 2 = true := by rw [← he] at hh; exact hh
  have e2 : e.off = r.off := by rw [← he]; rfl
  have e3 : e.len = r.len := by rw [← he]; rfl
  have e4 : bit e.flags 8 = r.nested := by rw [← he]; rfl
  have e5 : bit e.flags 16 = r.tensor := by rw [← he]; rfl
  obtain ⟨_, _, _, _, _, _, _, h4⟩ := accepted_record hu e1
  have ht : r.tensor = true := by rw [htens]; rfl
  have hn : r.nested = false := by rw [hsnd.2.1]; rfl
  obtain ⟨sub, u', h5, h6⟩ := h4 (.inr (by rw [e5]; exact ht))
  rw [e4, hn] at h6
  rw [e2, e3] at h5
  have h7 := accepted_peek hok (by omega) (by omega) h5
  have h8 := peek_sub hpk 8 (r.len - 8) (by omega)
  rw [List.drop_left' (recHeader_length ..), h7] at h8
  simp only [Option.some.injEq] at h8
  unfold body at hcut
  rw [if_neg (by decide), if_pos rfl] at hcut
  split at hcut
  · simp at hcut
  rename_i hc
  unfold tensorAt at hcut
  dsimp only [Option.bind_eq_bind] at hcut
  obtain ⟨head, g1, hcut⟩ := Option.bind_eq_some_iff.1 hcut
  split at hcut
  · simp at hcut
  obtain ⟨_, g2, hcut⟩ := Option.bind_eq_some_iff.1 hcut
  obtain ⟨dt, g3, hcut⟩ := Option.bind_eq_some_iff.1 hcut
  simp only [Option.some.injEq, Val.tensor.injEq] at hcut
  obtain ⟨rfl, _, rfl⟩ := hcut
  rw [← h8] at g1 g3
  obtain ⟨g0, rfl⟩ := bytesAt_eq_some.1 g1
  obtain ⟨g3, hd⟩ := bytesAt_eq_some.1 g3
  have hdl : dt.length = leNat (((sub.drop 0).take 8).drop 4) * scalarSize r.vt := by rw [← hd, List.length_take, List.length_drop]; omega
  unfold validate at h6
  rw [if_neg (by decide)] at h6
  unfold checkTensor at h6
  obtain ⟨_, _, h6⟩ := bind_ok h6
  obtain ⟨head, j1, h6⟩ := bind_ok h6
  obtain ⟨_, _, h6⟩ := bind_ok h6
  obtain ⟨_, j2, h6⟩ := bind_ok h6
  obtain ⟨_, rfl⟩ := readAt_ok.1 j1
  have j2 := reject_ok j2
  have f4 : field ((sub.drop 0).take 8) 4 4 = leNat (((sub.drop 0).take 8).drop 4) := by
    unfold field
    rw [List.take_of_length_le (by simp; omega)]
  rw [f4, Nat.not_lt] at j2
  rw [hdl] at hl
  have := Nat.mul_le_mul_right (scalarSize r.vt) j2
  omega

/-- bytes of rows not in use -/
def VMap.zeros (m : VMap) : List Byte := List.replicate (m.base - 32 - 48 * m.rows.length) 0#8

/-- the bytes of an empty map -/
def emptyBlob : List Byte := (VMap.fresh 0 0).blob []

/-- A map with a nested map, both without anything unusual: its own bytes are refused at every address. -/
theorem nested_map_refused : ∃ m d, Reached m d ∧ d = [(chars "a", .map emptyBlob)] ∧
    ∀ slack, 32 + 48 * m.rows.length + slack.length = m.base → ∀ addr extra m', fromBlob addr (m.blob slack ++ extra) ≠ .ok m' := by
  have h : (({ VMap.fresh 8 0 with fixed := false } : VMap).run [.emplace (chars "a") (.map emptyBlob)]).any (fun a =>
      a.1.contents == some [(chars "a", .map emptyBlob)] && a.1.rows.any fun r => r.hasRec && r.nested && decide (r.off % 16 = 0)) = true := by decide +kernel
  obtain ⟨⟨m, oks⟩, h1, h2⟩ := (Option.any_eq_true _ _).1 h
  simp only [Bool.and_eq_true, beq_iff_eq, List.any_eq_true, decide_eq_true_eq] at h2
  obtain ⟨h2, r, hr, ⟨h3, h4⟩, h5⟩ := h2
  have hm : Reached m [(chars "a", .map emptyBlob)] := by
    refine reached_of 8 0 false _ (by decide) (by decide +kernel) ?_ oks h1 h2
    intro op hop
    rw [List.mem_singleton] at hop
    subst hop
    exact ⟨⟨_, fun _ => .map (by decide +kernel) (by decide +kernel)⟩, trivial⟩
  refine ⟨m, _, hm, rfl, fun slack hs addr extra m' hok => ?_⟩
  have hm' := accepted_reread hm.inv hs hok
  obtain ⟨k, v, _, _, hv⟩ := hm.inv.at hr
  have := hv.trunc hm.inv.total h3
  have hr' : r ∈ m'.rows := by
    rw [hm']
    exact List.mem_map.2 ⟨r, hr, this⟩
  have := accepted_nested_offset hok hr' h3 h4
  omega

/-! ### Accepted, and still dangerous -/

/-- the bytes of a map with room for three rows and one entry, whose row has the given type code, flags and length of the record; `used` and `free` as in the header -/
def crafted (used free vt flags len : Nat) (record : List Byte) : List Byte :=
  blobMagic ++ le 1 1 ++ le 1 0 ++ le 2 1 ++ le 2 3 ++ le 2 0 ++ le 4 (176 + record.length) ++ le 4 176 ++ le 4 used ++ le 4 record.length ++ le 4 free ++
    (le 4 176 ++ le 4 len ++ le 2 kInlineKeyId ++ le 1 vt ++ le 1 flags ++ le 1 1 ++ chars "a" ++ List.replicate 34 0#8) ++ List.replicate 96 0#8 ++ record

/-- a string without its end at the end of the map: the size of its record is rounded up to 16 bytes -/
def openString : List Byte := crafted 9 0 14 2 9 (recHeader 16 14 2 0 ++ chars "A")

/-- a tensor of 1000 elements in a row that is not marked as a tensor -/
def hiddenTensor : List Byte := crafted 16 0 2 2 16 (recHeader 16 2 3 0 ++ le 1 2 ++ le 1 0 ++ le 2 0 ++ le 4 1000)

/-- a `complex<double>` in 16 bytes -/
def shortComplex : List Byte := crafted 16 0 13 2 16 (recHeader 16 13 1 0 ++ List.replicate 8 0#8)

/-- a tensor of eight bytes in a record of 64-bit numbers -/
def mixedTensor : List Byte :=
  crafted 32 0 5 18 32 (recHeader 32 5 3 0 ++ le 1 2 ++ le 1 1 ++ le 2 0 ++ le 4 8 ++ le 4 8 ++ le 4 0 ++ List.replicate 8 7#8)

/-- a number whose bytes are also in the list of free bytes -/
def sharedBytes : List Byte := crafted 32 184 5 2 16 (recHeader 16 5 0 0 ++ le 4 16 ++ le 4 0 ++ List.replicate 16 0#8)

/-- more bytes in use than there are -/
def wrongUsed : List Byte := crafted 1000 0 5 2 16 (recHeader 16 5 0 0 ++ le 4 16 ++ le 4 0)

/-- an ordinary map -/
def goodBytes : List Byte := crafted 16 0 5 2 16 (recHeader 16 5 0 0 ++ le 4 16 ++ le 4 0)

/-- accepted, with a map for which `p` holds -/
def accepted (bs : List Byte) (p : VMap → Bool) : Bool :=
  match fromBlob 4096 bs with
  | .ok m => p m
  | .error _ => false

theorem accepted_spec {bs : List Byte} {p : VMap → Bool} (h : accepted bs p = true) : ∃ m, fromBlob 4096 bs = .ok m ∧ p m = true := by
  unfold accepted at h
  split at h
  · rename_i m hm
    exact ⟨m, hm, h⟩
  · simp at h

/-- Received bytes can pass all checks although looking up their key reads outside them. -/
theorem accepted_read_outside : ∀ bs ∈ [openString, hiddenTensor, shortComplex, mixedTensor],
    ∃ m, fromBlob 4096 bs = .ok m ∧ m.lookup (chars "a") = none := by
  have h : ∀ bs ∈ [openString, hiddenTensor, shortComplex, mixedTensor], accepted bs (fun m => m.lookup (chars "a") == none) = true := by decide +kernel
  intro bs hbs
  obtain ⟨m, h1, h2⟩ := accepted_spec (h bs hbs)
  exact ⟨m, h1, beq_iff_eq.1 h2⟩

/-- The list of free bytes is checked for its bounds, not against the entries: after receiving such bytes, storing one key changes the value of another. -/
theorem accepted_shared_bytes : ∃ m m', fromBlob 4096 sharedBytes = .ok m ∧ m.lookup (chars "a") = some (some (.scalar 5 [16, 0, 0, 0, 0, 0, 0, 0])) ∧
    m.emplace (chars "b") (.scalar 5 [1, 2, 3, 4, 5, 6, 7, 8]) = some (m', true) ∧ m'.lookup (chars "a") ≠ m.lookup (chars "a") := by
  have h : accepted sharedBytes (fun m => m.lookup (chars "a") == some (some (.scalar 5 [16, 0, 0, 0, 0, 0, 0, 0])) &&
    (m.emplace (chars "b") (.scalar 5 [1, 2, 3, 4, 5, 6, 7, 8])).any fun r => r.2 && r.1.lookup (chars "a") != m.lookup (chars "a")) = true := by decide +kernel
  obtain ⟨m, h1, h2⟩ := accepted_spec h
  rw [Bool.and_eq_true] at h2
  obtain ⟨⟨m', ok⟩, h3, h4⟩ := (Option.any_eq_true _ _).1 h2.2
  rw [Bool.and_eq_true] at h4
  have h5 : ok = true := h4.1
  subst h5
  exact ⟨m, m', h1, beq_iff_eq.1 h2.1, h3, bne_iff_ne.1 h4.2⟩

/-- The number of bytes in use is not checked: after receiving such bytes, storing a key copies bytes from outside the map. -/
theorem accepted_wrong_used : ∃ m, fromBlob 4096 wrongUsed = .ok m ∧ m.lookup (chars "a") = some (some (.scalar 5 [16, 0, 0, 0, 0, 0, 0, 0])) ∧
    m.emplace (chars "b") (.scalar 5 [1, 2, 3, 4, 5, 6, 7, 8]) = none := by
  have h : accepted wrongUsed (fun m => m.lookup (chars "a") == some (some (.scalar 5 [16, 0, 0, 0, 0, 0, 0, 0])) &&
    (m.emplace (chars "b") (.scalar 5 [1, 2, 3, 4, 5, 6, 7, 8])).isNone) = true := by decide +kernel
  obtain ⟨m, h1, h2⟩ := accepted_spec h
  rw [Bool.and_eq_true] at h2
  exact ⟨m, h1, beq_iff_eq.1 h2.1, Option.isNone_iff_eq_none.1 h2.2⟩

/-! ### Cases that meet the hypotheses -/

/-- strings, a long key, a tensor and a removed entry -/
def sent : List Op :=
  [.emplace (chars "x") (.text (.given (chars "0123456789"))), .emplace longKey (.scalar 1 [0]), .emplace (chars "gone") (.big (List.replicate 16 1)),
    .emplace (chars "t") (.tensor 4 [2] [1, 0, 0, 0, 2, 0, 0, 0]), .erase (chars "gone")]

theorem sent_args : ∀ op ∈ sent, argsOk op := by
  intro op hop
  simp only [sent, List.mem_cons, List.not_mem_nil, or_false] at hop
  rcases hop with rfl | rfl | rfl | rfl | rfl
  · exact ⟨⟨_, fun _ => .text rfl (by decide +kernel)⟩, trivial⟩
  · exact ⟨⟨_, fun _ => .scalar (by decide) (by decide) (by decide)⟩, trivial⟩
  · exact ⟨⟨_, fun _ => .big (by decide)⟩, trivial⟩
  · exact ⟨⟨_, fun _ => .tensor (by decide) (by decide) (by decide) (by decide)⟩, trivial⟩
  · trivial

def sentDict : Dict := [(chars "x", .text (chars "0123456789")), (longKey, .scalar 1 [0]), (chars "t", .tensor 4 [2] [1, 0, 0, 0, 2, 0, 0, 0])]

/-- a map of plain values with its free rows -/
example : ∃ (m : VMap) (d : Dict) (slack : List Byte), Reached m d ∧ (∀ e ∈ d, e.2.plain = true) ∧ 32 + 48 * m.rows.length + slack.length = m.base ∧ d = sentDict ∧ m.freeHead ≠ 0 := by
  have h : (({ VMap.fresh 8 0 with fixed := false } : VMap).run sent).any (fun a => a.1.contents == some sentDict &&
      decide (32 + 48 * a.1.rows.length + a.1.zeros.length = a.1.base ∧ a.1.freeHead ≠ 0)) = true := by decide +kernel
  obtain ⟨⟨m, oks⟩, h1, h2⟩ := (Option.any_eq_true _ _).1 h
  simp only [Bool.and_eq_true, beq_iff_eq, decide_eq_true_eq] at h2
  exact ⟨m, sentDict, m.zeros, reached_of 8 0 false sent (by decide) (by decide +kernel) sent_args oks h1 h2.1, by decide +kernel, h2.2.1, rfl, h2.2.2⟩

/-- its bytes, sent and read back -/
example : (({ VMap.fresh 8 0 with fixed := false } : VMap).run sent).any (fun a =>
    match fromBlob 4096 (a.1.blob a.1.zeros) with
    | .ok m => m.contents == some sentDict
    | .error _ => false) = true := by decide +kernel

/-- the same bytes at an address that is not aligned, cut short, or with another version -/
example : (({ VMap.fresh 8 0 with fixed := false } : VMap).run sent).any (fun a =>
    decide ((fromBlob 4097 (a.1.blob a.1.zeros)).toOption = none ∧ (fromBlob 4096 (a.1.blob a.1.zeros).dropLast).toOption = none ∧
      (fromBlob 4096 ((a.1.blob a.1.zeros).set 4 2#8)).toOption = none)) = true := by decide +kernel

/-- accepted bytes whose record fits its row -/
example : ∃ m, fromBlob 4096 goodBytes = .ok m ∧ (∀ r ∈ m.rows, Consistent m r) ∧ m.contents = some [(chars "a", .scalar 5 [16, 0, 0, 0, 0, 0, 0, 0])] := by
  have h : accepted goodBytes (fun m => m.rows.all (fun r => decide (r.off + align r.len ≤ m.base + m.pool.length) &&
    m.peek r.off 8 == some [16, 0, 0, 0, 5, 0, 0, 8]) && m.contents == some [(chars "a", .scalar 5 [16, 0, 0, 0, 0, 0, 0, 0])]) = true := by decide +kernel
  obtain ⟨m, h1, h2⟩ := accepted_spec h
  simp only [Bool.and_eq_true, List.all_eq_true, decide_eq_true_eq, beq_iff_eq] at h2
  refine ⟨m, h1, fun r hr hh => ⟨(h2.1 r hr).1, fun head hp => ?_⟩, h2.2⟩
  rw [(h2.1 r hr).2] at hp
  simp only [Option.some.injEq] at hp
  subst hp
  exact ⟨fun h => absurd h (by decide), fun h => absurd h (by decide), fun h => absurd h (by decide)⟩

/-- a map with a large tensor -/
example : ∃ m d, Reached m d ∧ ∃ data, (chars "t", .tensor 1 [] data) ∈ d ∧ 2 ^ 24 * scalarSize 1 < data.length := by
  obtain ⟨data, hdata⟩ : ∃ data : List Byte, data.length = 2 ^ 24 + 1 := ⟨List.replicate (2 ^ 24 + 1) 0, List.length_replicate⟩
  have hm : ∀ m, Means m (.tensor 1 [] data) (.tensor 1 [] data) := fun m => .tensor (by decide) (by decide) (by simp) (Nat.mod_one _)
  have hlen : (chars "t").length = 1 := by decide
  have hb : (VMap.fresh 0 0).base + (VMap.fresh 0 0).pool.length = 32 := by decide
  have hw : Within { VMap.fresh 0 0 with fixed := false } [.emplace (chars "t") (.tensor 1 [] data)] := by
    refine ⟨⟨⟨_, hm⟩, trivial, ?_, .inr ?_⟩, fun _ _ _ => trivial⟩
    · show 0 < 43689; omega
    · show 4 * ((VMap.fresh 0 0).base + (VMap.fresh 0 0).pool.length) + 6 * ((chars "t").length + (48 + 4 * 0 + data.length)) + 5000 ≤ 2 ^ 32
      rw [hlen, hb, hdata]
      omega
  obtain ⟨m, oks, d, h1, h2, h3, _⟩ := map_is_dictionary_partial 0 0 false (by decide) _ hw
  refine ⟨m, d, ⟨0, 0, false, _, oks, by decide, hw, h1, h3⟩, data, ?_, by rw [hdata]; show 2 ^ 24 * 1 < _; omega⟩
  cases h2 with
  | cons hs hg hr =>
    cases hr
    cases hs with
    | emplaced hv hk =>
      have hv := hv (VMap.fresh 0 0)
      cases hv
      simp
    | notEmplaced =>
      rcases hg with hg | hg
      · exact absurd hg (by decide)
      · exact absurd hg (by decide)

end Verif.VMap
