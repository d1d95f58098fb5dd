import Verif.VMap.Model
import Verif.Util
/-! Lemmas about the pool: regions, free list, growth. -/
namespace Verif.VMap
open Verif.Bytes

/-! ### Byte lists -/

theorem getElem?_splice {p bs : List Byte} {i : Nat} (h : i + bs.length ≤ p.length) (k : Nat) :
    (p.take i ++ bs ++ p.drop (i + bs.length))[k]? = if k < i then p[k]? else if k < i + bs.length then bs[k - i]? else p[k]? := by
  have hl : (p.take i).length = i := by rw [List.length_take]; omega
  rw [List.append_assoc, List.getElem?_append, hl]
  by_cases h1 : k < i
  · rw [if_pos h1, if_pos h1, List.getElem?_take, if_pos h1]
  · rw [if_neg h1, if_neg h1, List.getElem?_append]
    by_cases h2 : k < i + bs.length
    · rw [if_pos h2, if_pos (by omega)]
    · rw [if_neg h2, if_neg (by omega), List.getElem?_drop]
      congr 1; omega

theorem length_splice {p bs : List Byte} {i : Nat} (h : i + bs.length ≤ p.length) :
    (p.take i ++ bs ++ p.drop (i + bs.length)).length = p.length := by
  simp only [List.length_append, List.length_take, List.length_drop]; omega

theorem getElem?_window (p : List Byte) (j n k : Nat) : ((p.drop j).take n)[k]? = if k < n then p[j + k]? else none := by
  rw [List.getElem?_take, List.getElem?_drop]

/-! ### Reading and writing -/

theorem peek_eq_some {m : VMap} {off n : Nat} {bs : List Byte} :
    m.peek off n = some bs ↔ (m.base ≤ off ∧ off + n ≤ m.base + m.pool.length) ∧ (m.pool.drop (off - m.base)).take n = bs := by
  unfold VMap.peek
  by_cases h : m.base ≤ off ∧ off + n ≤ m.base + m.pool.length
  · rw [if_pos h]; simp only [Option.some.injEq, h, and_self, true_and]
  · rw [if_neg h]; simp only [reduceCtorEq, h, false_and]

theorem peek_some {m : VMap} {off n : Nat} (h1 : m.base ≤ off) (h2 : off + n ≤ m.base + m.pool.length) :
    m.peek off n = some ((m.pool.drop (off - m.base)).take n) := if_pos ⟨h1, h2⟩

theorem peek_length {m : VMap} {off n : Nat} {bs : List Byte} (h : m.peek off n = some bs) : bs.length = n := by
  obtain ⟨h1, h2⟩ := peek_eq_some.1 h
  rw [← h2, List.length_take, List.length_drop]; omega

/-- a part of a region -/
theorem peek_sub {m : VMap} {off n : Nat} {bs : List Byte} (h : m.peek off n = some bs) (i k : Nat) (hk : i + k ≤ n) :
    m.peek (off + i) k = some ((bs.drop i).take k) := by
  obtain ⟨h1, h2⟩ := peek_eq_some.1 h
  refine peek_eq_some.2 ⟨⟨by omega, by omega⟩, ?_⟩
  apply List.ext_getElem?
  intro x
  rw [getElem?_window, getElem?_window, ← h2, getElem?_window]
  by_cases hx : x < k
  · rw [if_pos hx, if_pos hx, if_pos (by omega)]; congr 1; omega
  · rw [if_neg hx, if_neg hx]

theorem peek_congr {m m' : VMap} {off off' n : Nat} (hb : m.base ≤ off) (hb' : m'.base ≤ off') (h : m'.peek off' n = m.peek off n)
    (hn : off + n ≤ m.base + m.pool.length) (k : Nat) (hk : k ≤ n) : m'.peek off' k = m.peek off k := by
  have h0 := peek_some hb hn
  have h1 := peek_sub h0 0 k (by omega)
  have h2 := peek_sub (h.trans h0) 0 k (by omega)
  simp only [Nat.add_zero] at h1 h2
  rw [h1, h2]

theorem poke_eq {m : VMap} {off : Nat} {bs : List Byte} (h1 : m.base ≤ off) (h2 : off + bs.length ≤ m.base + m.pool.length) :
    m.poke off bs = some { m with pool := m.pool.take (off - m.base) ++ bs ++ m.pool.drop (off - m.base + bs.length) } := if_pos ⟨h1, h2⟩

/-- everything a store leaves as it was -/
structure Stored (m m' : VMap) (off : Nat) (bs : List Byte) : Prop where
  rows : m'.rows = m.rows
  cap : m'.entryCapacity = m.entryCapacity
  base : m'.base = m.base
  used : m'.used = m.used
  len : m'.pool.length = m.pool.length
  head : m'.freeHead = m.freeHead
  over : m'.overflow = m.overflow
  fixed : m'.fixed = m.fixed
  gen : m'.gen = m.gen
  same : m'.peek off bs.length = some bs
  frame : ∀ o n, o + n ≤ off ∨ off + bs.length ≤ o → m'.peek o n = m.peek o n

theorem poke_stored {m : VMap} {off : Nat} {bs : List Byte} (h1 : m.base ≤ off) (h2 : off + bs.length ≤ m.base + m.pool.length) :
    ∃ m', m.poke off bs = some m' ∧ Stored m m' off bs := by
  refine ⟨_, poke_eq h1 h2, rfl, rfl, rfl, rfl, length_splice (by omega), rfl, rfl, rfl, rfl, ?_, ?_⟩
  · refine peek_eq_some.2 ⟨⟨h1, ?_⟩, ?_⟩
    · dsimp only; rw [length_splice (by omega)]; exact h2
    · dsimp only
      apply List.ext_getElem?
      intro x
      rw [getElem?_window, getElem?_splice (by omega)]
      by_cases hx : x < bs.length
      · rw [if_pos hx, if_neg (by omega), if_pos (by omega)]; congr 1; omega
      · rw [if_neg hx, List.getElem?_eq_none (by omega)]
  · intro o n ho
    unfold VMap.peek
    dsimp only
    rw [length_splice (by omega)]
    by_cases hc : m.base ≤ o ∧ o + n ≤ m.base + m.pool.length
    · rw [if_pos hc, if_pos hc]
      congr 1
      apply List.ext_getElem?
      intro x
      rw [getElem?_window, getElem?_window, getElem?_splice (by omega)]
      by_cases hx : x < n
      · rw [if_pos hx, if_pos hx]
        by_cases h3 : o - m.base + x < off - m.base
        · rw [if_pos h3]
        · rw [if_neg h3, if_neg (by omega)]
      · rw [if_neg hx, if_neg hx]
    · rw [if_neg hc, if_neg hc]

/-! ### Regions -/

/-- offset and length -/
abbrev Reg := Nat × Nat

def Disj (a b : Reg) : Prop := a.1 + a.2 ≤ b.1 ∨ b.1 + b.2 ≤ a.1

theorem Disj.symm {a b : Reg} (h : Disj a b) : Disj b a := h.elim .inr .inl

theorem pairwise_perm {l l' : List Reg} (hp : l.Perm l') (h : l.Pairwise Disj) : l'.Pairwise Disj :=
  (hp.pairwise_iff fun {_ _} h => Disj.symm h).1 h

theorem disj_chunk {m m' : VMap} {off : Nat} {bs : List Byte} (h : Stored m m' off bs) {c : Reg} (hc : 8 ≤ c.2) (hd : Disj (off, bs.length) c) :
    m'.chunk c.1 = m.chunk c.1 := by
  unfold VMap.chunk
  rw [h.frame c.1 8]
  unfold Disj at hd
  dsimp only at hd
  omega

theorem chunk_stored {m m' : VMap} {off len next : Nat} (h : Stored m m' off (le 4 len ++ le 4 next)) (hl : len < 2 ^ 32) (hn : next < 2 ^ 32) :
    m'.chunk off = some (len, next) := by
  have := h.same
  rw [show (le 4 len ++ le 4 next).length = 8 by simp] at this
  unfold VMap.chunk
  rw [this, Option.map_some, List.take_left' (le_length 4 len), List.drop_left' (le_length 4 len), leNat_le, leNat_le, Nat.mod_eq_of_lt (by omega),
    Nat.mod_eq_of_lt (by omega)]

/-- the free list as a list of regions -/
def Chain (m : VMap) : Nat → List Reg → Prop
  | head, [] => head = 0
  | head, c :: cs => head = c.1 ∧ ∃ next, m.chunk c.1 = some (c.2, next) ∧ Chain m next cs

theorem Chain.congr {m m' : VMap} : ∀ {cs : List Reg} {head : Nat}, (∀ c ∈ cs, m'.chunk c.1 = m.chunk c.1) → Chain m head cs → Chain m' head cs
  | [], _, _, h => h
  | c :: cs, head, hc, ⟨h1, next, h2, h3⟩ =>
    ⟨h1, next, (hc c (List.mem_cons_self ..)).trans h2, Chain.congr (fun c h => hc c (List.mem_cons_of_mem _ h)) h3⟩

theorem Chain.head {m : VMap} {cs : List Reg} {head : Nat} (h : Chain m head cs) : head = (cs.head?.map (·.1)).getD 0 := by
  cases cs with
  | nil => exact h
  | cons c cs => exact h.1

/-- memory invariant: live regions, free regions -/
structure Mem (m : VMap) (live : List Reg) (cs : List Reg) : Prop where
  chain : Chain m m.freeHead cs
  disj : (live ++ cs).Pairwise Disj
  inside : ∀ g ∈ live ++ cs, m.base ≤ g.1 ∧ g.1 + g.2 ≤ m.base + m.used
  big : ∀ c ∈ cs, 8 ≤ c.2
  used : m.used ≤ m.pool.length
  total : m.base + m.pool.length < 2 ^ 32
  base : 32 ≤ m.base

theorem Mem.perm {m : VMap} {l l' cs : List Reg} (h : Mem m l cs) (hp : l.Perm l') : Mem m l' cs :=
  ⟨h.chain, pairwise_perm (hp.append_right cs) h.disj, fun g hg => h.inside g ((hp.append_right cs).mem_iff.2 hg), h.big, h.used, h.total, h.base⟩

theorem Mem.drop {m : VMap} {l l' cs : List Reg} (h : Mem m (l ++ l') cs) : Mem m l' cs := by
  refine ⟨h.chain, ?_, fun g hg => h.inside g ?_, h.big, h.used, h.total, h.base⟩
  · have := h.disj; rw [List.append_assoc] at this
    exact (List.pairwise_append.1 this).2.1
  · rw [List.append_assoc]; exact List.mem_append_right _ hg

/-- the rows are irrelevant to the memory -/
theorem Mem.rows {m : VMap} {l cs : List Reg} (h : Mem m l cs) (m' : VMap) (hb : m'.base = m.base) (hu : m'.used = m.used) (hp : m'.pool = m.pool)
    (hf : m'.freeHead = m.freeHead) : Mem m' l cs := by
  have hk : ∀ c, m'.chunk c = m.chunk c := fun c => by unfold VMap.chunk VMap.peek; rw [hb, hp]
  refine ⟨?_, h.disj, ?_, h.big, ?_, ?_, ?_⟩
  · rw [hf]; exact h.chain.congr fun c _ => hk c.1
  · rw [hb, hu]; exact h.inside
  · rw [hu, hp]; exact h.used
  · rw [hb, hp]; exact h.total
  · rw [hb]; exact h.base

/-- a store into a live region -/
theorem Mem.poke {m m' : VMap} {l cs : List Reg} {off : Nat} {bs : List Byte} (h : Mem m ((off, bs.length) :: l) cs) (hs : Stored m m' off bs) :
    Mem m' ((off, bs.length) :: l) cs := by
  refine ⟨?_, h.disj, ?_, h.big, ?_, ?_, ?_⟩
  · rw [hs.head]
    refine h.chain.congr fun c hc => disj_chunk hs (h.big c hc) ?_
    have := h.disj
    rw [List.cons_append, List.pairwise_cons] at this
    exact this.1 c (List.mem_append_right _ hc)
  · rw [hs.base, hs.used]; exact h.inside
  · rw [hs.used, hs.len]; exact h.used
  · rw [hs.base, hs.len]; exact h.total
  · rw [hs.base]; exact h.base

/-- a store into part of a live region -/
theorem Mem.pokeIn {m m' : VMap} {l cs : List Reg} {g : Reg} {off : Nat} {bs : List Byte} (h : Mem m (g :: l) cs) (hs : Stored m m' off bs)
    (h1 : g.1 ≤ off) (h2 : off + bs.length ≤ g.1 + g.2) : Mem m' (g :: l) cs := by
  refine ⟨?_, h.disj, ?_, h.big, ?_, ?_, ?_⟩
  · rw [hs.head]
    refine h.chain.congr fun c hc => disj_chunk hs (h.big c hc) ?_
    have := h.disj
    rw [List.cons_append, List.pairwise_cons] at this
    have := this.1 c (List.mem_append_right _ hc)
    unfold Disj at this ⊢
    dsimp only
    omega
  · rw [hs.base, hs.used]; exact h.inside
  · rw [hs.used, hs.len]; exact h.used
  · rw [hs.base, hs.len]; exact h.total
  · rw [hs.base]; exact h.base

/-! ### Free list -/

/-- what taking from and adding to the free list leaves alone -/
structure Kept (m m' : VMap) (live : List Reg) : Prop where
  rows : m'.rows = m.rows
  cap : m'.entryCapacity = m.entryCapacity
  base : m'.base = m.base
  used : m'.used = m.used
  len : m'.pool.length = m.pool.length
  fixed : m'.fixed = m.fixed
  gen : m'.gen = m.gen
  data : ∀ g ∈ live, m'.peek g.1 g.2 = m.peek g.1 g.2

theorem Kept.refl (m : VMap) (l : List Reg) : Kept m m l := ⟨rfl, rfl, rfl, rfl, rfl, rfl, rfl, fun _ _ => rfl⟩

theorem Kept.trans {m m' m'' : VMap} {l : List Reg} (h : Kept m m' l) (h' : Kept m' m'' l) : Kept m m'' l :=
  ⟨h'.rows.trans h.rows, h'.cap.trans h.cap, h'.base.trans h.base, h'.used.trans h.used, h'.len.trans h.len,
   h'.fixed.trans h.fixed, h'.gen.trans h.gen, fun g hg => (h'.data g hg).trans (h.data g hg)⟩

theorem Kept.mono {m m' : VMap} {l l' : List Reg} (h : Kept m m' l) (hs : ∀ g ∈ l', g ∈ l) : Kept m m' l' :=
  ⟨h.rows, h.cap, h.base, h.used, h.len, h.fixed, h.gen, fun g hg => h.data g (hs g hg)⟩

theorem Stored.kept {m m' : VMap} {off : Nat} {bs : List Byte} {l : List Reg} (h : Stored m m' off bs) (hl : ∀ g ∈ l, Disj (off, bs.length) g) :
    Kept m m' l := by
  refine ⟨h.rows, h.cap, h.base, h.used, h.len, h.fixed, h.gen, fun g hg => h.frame g.1 g.2 ?_⟩
  have := hl g hg
  unfold Disj at this; dsimp only at this; omega

theorem push_ok {m : VMap} {l cs : List Reg} {g : Reg} (h : Mem m (g :: l) cs) (hg : 8 ≤ g.2) :
    ∃ m', m.push g.1 g.2 = some m' ∧ Mem m' l (g :: cs) ∧ Kept m m' l := by
  have hin := h.inside g (by simp)
  have hd := h.disj
  rw [List.cons_append, List.pairwise_cons] at hd
  have ht := h.total
  have hu := h.used
  have hl8 : ∀ a b, (le 4 a ++ le 4 b).length = 8 := by simp
  obtain ⟨m1, h1, hs⟩ := poke_stored (m := m) (off := g.1) (bs := le 4 g.2 ++ le 4 m.freeHead) hin.1 (by rw [hl8]; omega)
  have hhead : m.freeHead < 2 ^ 32 := by
    have := h.chain.head
    cases hcs : cs with
    | nil => rw [hcs] at this; simp at this; omega
    | cons c cs' =>
      rw [hcs] at this; simp at this
      have := h.inside c (by simp [hcs])
      omega
  have hdj : ∀ r ∈ l ++ cs, Disj (g.1, (le 4 g.2 ++ le 4 m.freeHead).length) r := by
    intro r hr
    have := hd.1 r hr
    rw [hl8]; unfold Disj at this ⊢; dsimp only; omega
  have hck : Chain m1 m.freeHead cs :=
    h.chain.congr fun c hc => disj_chunk hs (h.big c hc) (hdj c (List.mem_append_right _ hc))
  have hck' : ∀ m2 : VMap, m2.base = m1.base → m2.pool = m1.pool → ∀ c, m2.chunk c = m1.chunk c := by
    intro m2 hb hp c; unfold VMap.chunk VMap.peek; rw [hb, hp]
  refine ⟨{ m1 with freeHead := g.1 }, ?_, ⟨⟨rfl, m.freeHead, ?_, ?_⟩, ?_, ?_, ?_, ?_, ?_, ?_⟩, ?_⟩
  · rw [VMap.push, if_neg (by omega), h1]; rfl
  · rw [hck' _ (by rfl) (by rfl)]; exact chunk_stored hs (by omega) hhead
  · exact hck.congr fun c _ => hck' _ (by rfl) (by rfl) c.1
  · have hp : ((g :: l) ++ cs).Perm (l ++ g :: cs) := by
      rw [List.cons_append]; exact (List.perm_middle (l₁ := l) (l₂ := cs) (a := g)).symm
    exact pairwise_perm hp h.disj
  · intro r hr
    show m1.base ≤ _ ∧ _ ≤ m1.base + m1.used
    rw [hs.base, hs.used]
    refine h.inside r ?_
    simp only [List.mem_append, List.mem_cons] at hr ⊢
    rcases hr with hr | hr | hr
    · exact .inl (.inr hr)
    · exact .inl (.inl hr)
    · exact .inr hr
  · intro c hc
    rcases List.mem_cons.1 hc with rfl | hc
    · exact hg
    · exact h.big c hc
  · show m1.used ≤ m1.pool.length
    rw [hs.used, hs.len]; exact hu
  · show m1.base + m1.pool.length < 2 ^ 32
    rw [hs.base, hs.len]; exact ht
  · show 32 ≤ m1.base
    rw [hs.base]; exact h.base
  · have := hs.kept (l := l) fun r hr => hdj r (List.mem_append_left _ hr)
    exact ⟨this.rows, this.cap, this.base, this.used, this.len, this.fixed, this.gen, this.data⟩

/-- a live region seen as two -/
theorem Mem.split {m : VMap} {l cs : List Reg} {g : Reg} (h : Mem m (g :: l) cs) (n : Nat) (hn : n ≤ g.2) :
    Mem m ((g.1, n) :: (g.1 + n, g.2 - n) :: l) cs := by
  have hd := h.disj
  have hin := h.inside g (by simp)
  rw [List.cons_append, List.pairwise_cons] at hd
  refine ⟨h.chain, ?_, ?_, h.big, h.used, h.total, h.base⟩
  · rw [List.cons_append, List.cons_append, List.pairwise_cons, List.pairwise_cons]
    refine ⟨fun r hr => ?_, fun r hr => ?_, hd.2⟩
    · rcases List.mem_cons.1 hr with rfl | hr
      · exact .inl (Nat.le_refl _)
      · have := hd.1 r hr
        unfold Disj at this ⊢; dsimp only; omega
    · have := hd.1 r hr
      unfold Disj at this ⊢; dsimp only; omega
  · intro r hr
    simp only [List.cons_append, List.mem_cons] at hr
    rcases hr with rfl | rfl | hr
    · dsimp only; omega
    · dsimp only; omega
    · exact h.inside r (by rw [List.cons_append]; exact List.mem_cons_of_mem _ hr)

theorem Chain.tail {m : VMap} : ∀ {pre : List Reg} {head : Nat} {rest : List Reg}, Chain m head (pre ++ rest) → ∃ h', Chain m h' rest ∧
    h' = (rest.head?.map (·.1)).getD 0
  | [], head, rest, h => ⟨head, h, h.head⟩
  | _ :: _, _, _, ⟨_, _, _, h⟩ => Chain.tail h

/-- unlinking a chunk that is not the first -/
theorem Chain.unlink {m m' : VMap} {p c : Reg} {next : Nat} {post : List Reg} (hc : m.chunk c.1 = some (c.2, next))
    (hp : m'.chunk p.1 = some (p.2, next)) : ∀ {pre : List Reg} {head : Nat}, (∀ x ∈ pre ++ post, m'.chunk x.1 = m.chunk x.1) →
    Chain m head (pre ++ p :: c :: post) → Chain m' head (pre ++ p :: post)
  | [], head, ho, h => by
    obtain ⟨h1, n1, h2, h3, n2, h4, h5⟩ := h
    rw [hc] at h4
    simp only [Option.some.injEq, Prod.mk.injEq, true_and] at h4
    subst h4
    exact ⟨h1, next, hp, h5.congr fun x hx => ho x hx⟩
  | q :: pre, head, ho, h => by
    obtain ⟨h1, n1, h2, h3⟩ := h
    exact ⟨h1, n1, (ho q (by simp)).trans h2, Chain.unlink hc hp (fun x hx => ho x (List.mem_cons_of_mem _ hx)) h3⟩

/-- removing chunk `c` from the list: `c` becomes live -/
theorem unlink_ok {m : VMap} {l pre post : List Reg} {c : Reg} {next : Nat} (h : Mem m l (pre ++ c :: post)) (hn : m.chunk c.1 = some (c.2, next)) :
    ∃ m', m.unlink ((pre.getLast?.map (·.1)).getD 0) next = some m' ∧ Mem m' (c :: l) (pre ++ post) ∧ Kept m m' (c :: l) := by
  have hperm : (l ++ (pre ++ c :: post)).Perm ((c :: l) ++ (pre ++ post)) := by
    rw [List.cons_append]
    refine (List.perm_middle.append_left l).trans ?_
    exact List.perm_middle
  have hd := pairwise_perm hperm h.disj
  have hin : ∀ g ∈ (c :: l) ++ (pre ++ post), m.base ≤ g.1 ∧ g.1 + g.2 ≤ m.base + m.used := fun g hg => h.inside g (hperm.mem_iff.2 hg)
  have hbig : ∀ x ∈ pre ++ post, 8 ≤ x.2 := by
    intro x hx
    refine h.big x ?_
    simp only [List.mem_append, List.mem_cons] at hx ⊢
    rcases hx with hx | hx
    · exact .inl hx
    · exact .inr (.inr hx)
  have hbase := h.base
  have hu := h.used
  have ht := h.total
  unfold VMap.unlink
  rcases List.eq_nil_or_concat pre with hp | ⟨pre', p, hp⟩
  · subst hp
    rw [if_pos (by simp)]
    refine ⟨_, rfl, ⟨?_, hd, hin, hbig, h.used, h.total, h.base⟩, ⟨rfl, rfl, rfl, rfl, rfl, rfl, rfl, fun _ _ => rfl⟩⟩
    obtain ⟨_, n1, h2, h3⟩ := h.chain
    rw [hn] at h2
    simp only [Option.some.injEq, Prod.mk.injEq, true_and] at h2
    subst h2
    exact Chain.congr (m := m) (fun x _ => rfl) h3
  · rw [List.concat_eq_append] at hp
    have hlast : (pre.getLast?.map (·.1)).getD 0 = p.1 := by rw [hp]; simp
    rw [hlast]
    have hpm : p ∈ pre := by rw [hp]; simp
    have hpin := hin p (by simp [hpm])
    have hp8 := hbig p (by simp [hpm])
    rw [if_neg (by omega)]
    have hch := h.chain
    rw [hp, List.append_assoc] at hch
    have hpc : ∃ n', m.chunk p.1 = some (p.2, n') := by
      obtain ⟨h', h1, _⟩ := Chain.tail (pre := pre') (rest := p :: c :: post) hch
      obtain ⟨_, n', h2, _⟩ := h1
      exact ⟨n', h2⟩
    obtain ⟨n', hpc⟩ := hpc
    have hl8 : ∀ a b, (le 4 a ++ le 4 b).length = 8 := by simp
    obtain ⟨m1, h1, hs⟩ := poke_stored (m := m) (off := p.1) (bs := le 4 p.2 ++ le 4 next) hpin.1 (by rw [hl8]; omega)
    have hnext : next < 2 ^ 32 := by
      have hpost : ∃ h', Chain m h' (c :: post) ∧ h' = c.1 := by
        obtain ⟨h', h1, h2⟩ := Chain.tail (pre := pre' ++ [p]) (rest := c :: post) (by simpa using hch)
        exact ⟨h', h1, by simpa using h2⟩
      obtain ⟨_, ⟨_, n2, h2, h3⟩, _⟩ := hpost
      rw [hn] at h2
      simp only [Option.some.injEq, Prod.mk.injEq, true_and] at h2
      subst h2
      have := h3.head
      cases hq : post with
      | nil => rw [hq] at this; simp at this; omega
      | cons q qs =>
        rw [hq] at this; simp at this
        have := hin q (by simp [hq])
        omega
    refine ⟨m1, ?_, ⟨?_, hd, ?_, hbig, ?_, ?_, ?_⟩, ?_⟩
    · rw [hpc]; exact h1
    · rw [hs.head, hp, List.append_assoc]
      refine Chain.unlink hn (chunk_stored hs (by omega) hnext) (fun x hx => ?_) hch
      refine disj_chunk hs (hbig x ?_) ?_
      · rw [hp]; simp only [List.mem_append, List.mem_singleton] at hx ⊢
        rcases hx with hx | hx
        · exact .inl (.inl hx)
        · exact .inr hx
      · rw [hl8]
        have hpw := (List.pairwise_append.1 hd).2.1
        rw [hp, List.append_assoc, List.singleton_append] at hpw
        have hpw' := pairwise_perm (List.perm_middle) hpw
        have := (List.pairwise_cons.1 hpw').1 x hx
        unfold Disj at this ⊢; dsimp only; omega
    · rw [hs.base, hs.used]; exact hin
    · rw [hs.used, hs.len]; exact h.used
    · rw [hs.base, hs.len]; exact h.total
    · rw [hs.base]; exact h.base
    · refine hs.kept fun g hg => ?_
      rw [hl8]
      have := (List.pairwise_append.1 hd).2.2 g hg p (by simp [hpm])
      unfold Disj at this ⊢; dsimp only; omega

theorem popLoop_ok {m : VMap} {l : List Reg} {bytes : Nat} (hb : 0 < bytes) : ∀ (rest pre : List Reg) (n : Nat), Mem m l (pre ++ rest) → rest.length ≤ n →
    (m.popLoop bytes n ((pre.getLast?.map (·.1)).getD 0) ((rest.head?.map (·.1)).getD 0) = some (m, none)) ∨
    ∃ m' off cs, m.popLoop bytes n ((pre.getLast?.map (·.1)).getD 0) ((rest.head?.map (·.1)).getD 0) = some (m', some off) ∧
      Mem m' ((off, bytes) :: l) cs ∧ Kept m m' l
  | [], pre, n, _, _ => by
    left
    cases n with
    | zero => rfl
    | succ n => rw [VMap.popLoop]; rfl
  | c :: post, pre, 0, _, hn => by simp at hn
  | c :: post, pre, n + 1, h, hn => by
    have hin := h.inside c (by simp)
    have hbase := h.base
    have hc8 := h.big c (by simp)
    obtain ⟨h', hch, _⟩ := Chain.tail h.chain
    obtain ⟨_, next, hck, hch2⟩ := hch
    have hhead : (((c :: post).head?.map (·.1)).getD 0) = c.1 := rfl
    rw [hhead, VMap.popLoop, if_neg (by omega), hck]
    by_cases hle : bytes ≤ c.2
    · right
      obtain ⟨m1, h1, hm1, hk1⟩ := unlink_ok h hck
      have hsp := hm1.split bytes hle
      by_cases h8 : 8 ≤ c.2 - bytes
      · have hsw := hsp.perm (List.Perm.swap ..)
        obtain ⟨m2, h2, hm2, hk2⟩ := push_ok hsw h8
        refine ⟨m2, c.1, _, ?_, hm2, (hk1.mono (by simp +contextual)).trans (hk2.mono (by simp +contextual))⟩
        simp only [Option.bind_eq_bind, Option.bind_some, if_pos hle] at h1 ⊢
        rw [h1, Option.bind_some, if_pos h8, h2]
        rfl
      · refine ⟨m1, c.1, _, ?_, Mem.drop (l := [(c.1 + bytes, c.2 - bytes)]) (hsp.perm (List.Perm.swap ..)), hk1.mono (by simp +contextual)⟩
        simp only [Option.bind_eq_bind, Option.bind_some, if_pos hle] at h1 ⊢
        rw [h1, Option.bind_some, if_neg h8]
        rfl
    · simp only [Option.bind_eq_bind, Option.bind_some, if_neg hle]
      have := popLoop_ok hb post (pre ++ [c]) n (by simpa using h) (by simp at hn; omega)
      have hnx : next = (post.head?.map (·.1)).getD 0 := hch2.head
      rw [hnx]
      simpa using this

/-- the chunks fit in the blob -/
theorem Mem.chunks {m : VMap} {l cs : List Reg} (h : Mem m l cs) : cs.length ≤ (m.base + m.pool.length) / 8 := by
  have hd := (List.pairwise_append.1 h.disj).2.1
  have := nodup_length_le (cs.map fun c => c.1 / 8) (List.range ((m.base + m.pool.length) / 8)) ?_ ?_
  · simpa using this
  · unfold List.Nodup
    rw [List.pairwise_map]
    refine List.Pairwise.imp_of_mem ?_ hd
    intro a b ha hb hab
    have := h.big a ha
    have := h.big b hb
    unfold Disj at hab
    omega
  · intro x hx
    obtain ⟨c, hc, rfl⟩ := List.mem_map.1 hx
    have := h.big c hc
    have := h.inside c (List.mem_append_right _ hc)
    have := h.used
    rw [List.mem_range]
    omega

/-- `_freeListPopFit`: nothing changes, or a region of the size asked for becomes live -/
theorem popFit_ok {m : VMap} {l cs : List Reg} {bytes : Nat} (h : Mem m l cs) (hb : 0 < bytes) :
    m.popFit bytes = some (m, none) ∨ ∃ m' off cs', m.popFit bytes = some (m', some off) ∧ Mem m' ((off, bytes) :: l) cs' ∧ Kept m m' l := by
  unfold VMap.popFit
  by_cases h0 : m.freeHead = 0
  · rw [if_pos (.inl h0)]; exact .inl rfl
  · rw [if_neg (by omega)]
    have := popLoop_ok hb cs [] ((m.base + m.pool.length) / 8 + 1) h (by have := h.chunks; omega)
    rw [← h.chain.head] at this
    exact this

/-! ### Growing -/

/-- position of a region after the pool has moved -/
def shift (old new : Nat) (g : Reg) : Reg := (new + (g.1 - old), g.2)

theorem disj_shift {old new : Nat} {a b : Reg} (ha : old ≤ a.1) (hb : old ≤ b.1) (h : Disj a b) : Disj (shift old new a) (shift old new b) := by
  unfold Disj shift at *; dsimp only; omega

/-- the next region of a list -/
def nextOf (cs : List Reg) : Nat := (cs.head?.map (·.1)).getD 0

theorem rebaseChain_ok {old new : Nat} {live : List Reg} : ∀ (cs : List Reg) (n : VMap) (fuel : Nat), cs.length ≤ fuel → n.base = new → 32 ≤ new →
    n.base + n.pool.length < 2 ^ 32 →
    (∀ c ∈ cs, old ≤ c.1 ∧ 8 ≤ c.2 ∧ new + (c.1 - old) + c.2 ≤ new + n.pool.length) → (∀ c ∈ cs, c.1 ≠ 0) →
    (live ++ cs.map (shift old new)).Pairwise Disj →
    (∀ pre c post, cs = pre ++ c :: post → n.chunk (new + (c.1 - old)) = some (c.2, nextOf post)) →
    ∃ n', n.rebaseChain old fuel (if nextOf cs = 0 then 0 else new + (nextOf cs - old)) = some n' ∧
      Chain n' (if nextOf cs = 0 then 0 else new + (nextOf cs - old)) (cs.map (shift old new)) ∧ Kept n n' live ∧ n'.freeHead = n.freeHead
  | [], n, fuel, _, _, _, _, _, _, _, _ => by
    refine ⟨n, ?_, rfl, Kept.refl .., rfl⟩
    cases fuel <;> rfl
  | c :: cs, n, 0, hf, _, _, _, _, _, _, _ => by simp at hf
  | c :: cs, n, fuel + 1, hf, hb, h32, ht, hin, hz, hd, hck => by
    have hc0 := hz c (by simp)
    have hc := hin c (by simp)
    have hnx : nextOf (c :: cs) = c.1 := rfl
    rw [hnx, if_neg hc0]
    have hl8 : ∀ a b, (le 4 a ++ le 4 b).length = 8 := by simp
    have hnext : (if nextOf cs = 0 then 0 else new + (nextOf cs - old)) < 2 ^ 32 := by
      cases cs with
      | nil => simp [nextOf]
      | cons q qs =>
        have := hin q (by simp)
        have hq : nextOf (q :: qs) = q.1 := rfl
        rw [hq]; split <;> omega
    obtain ⟨n1, h1, hs⟩ := poke_stored (m := n) (off := new + (c.1 - old)) (bs := le 4 c.2 ++ le 4 (if nextOf cs = 0 then 0 else new + (nextOf cs - old)))
      (by omega) (by rw [hl8]; omega)
    have hpw := pairwise_perm List.perm_middle (by simpa only [List.map_cons] using hd)
    have hpw := List.pairwise_cons.1 hpw
    have hdc : ∀ r ∈ live ++ cs.map (shift old new), Disj (new + (c.1 - old), 8) r := by
      intro r hr
      have := hpw.1 r hr
      unfold Disj shift at *; dsimp only at *; omega
    obtain ⟨n2, h2, hch, hk, hfh⟩ := rebaseChain_ok (old := old) (new := new) (live := (shift old new c) :: live) cs n1 fuel (by simp at hf; omega)
      (hs.base.trans hb) h32 (by rw [hs.base, hs.len]; exact ht) (fun x hx => by rw [hs.len]; exact hin x (by simp [hx])) (fun x hx => hz x (by simp [hx]))
      (by rw [List.cons_append]; exact List.pairwise_cons.2 hpw)
      (by
        intro pre x post he
        have hx := hck (c :: pre) x post (by rw [he]; rfl)
        rw [← hx]
        have hxm : x ∈ cs := by rw [he]; simp
        exact disj_chunk (c := (new + (x.1 - old), x.2)) hs (hin x (by simp [hxm])).2.1
          (by rw [hl8]; exact hdc _ (List.mem_append_right _ (List.mem_map.2 ⟨x, hxm, rfl⟩))))
    have hcc := hck [] c cs rfl
    refine ⟨n2, ?_, ⟨rfl, _, ?_, hch⟩, ?_, hfh.trans hs.head⟩
    · rw [VMap.rebaseChain, if_neg (by omega), hcc]
      simp only [Option.bind_eq_bind, Option.bind_some]
      rw [hb, h1, Option.bind_some]
      exact h2
    · have hst := chunk_stored hs (by omega) hnext
      have := hk.data (shift old new c) (by simp)
      unfold VMap.chunk
      have hsh : (shift old new c) = (new + (c.1 - old), c.2) := rfl
      rw [hsh] at this ⊢
      dsimp only at this ⊢
      rw [peek_congr (by rw [hs.base]; omega) (by rw [hk.base, hs.base]; omega) this (by rw [hs.base, hs.len]; omega) 8 hc.2.1]
      exact hst
    · refine ((hs.kept (l := live) fun g hg => ?_)).trans (hk.mono (by simp +contextual))
      rw [hl8]; exact hdc g (List.mem_append_left _ hg)

/-- rows, records and keys after the pool may have moved -/
structure Moves (m m' : VMap) (live : List Reg) : Prop where
  rows : m'.rows = m.rows.map (·.rebase m.base m'.base)
  fixed : m'.fixed = m.fixed
  gen : m'.gen = m.gen → m'.base = m.base
  data : ∀ g ∈ live, m'.peek (m'.base + (g.1 - m.base)) g.2 = m.peek g.1 g.2

theorem chain_next {m : VMap} : ∀ {cs : List Reg} {head : Nat}, Chain m head cs → ∀ pre c post, cs = pre ++ c :: post →
    m.chunk c.1 = some (c.2, nextOf post)
  | _, _, h, [], c, post, he => by
    subst he
    obtain ⟨_, next, h1, h2⟩ := h
    rw [h1, h2.head]; rfl
  | _, _, h, p :: pre, c, post, he => by
    subst he
    obtain ⟨_, next, _, h2⟩ := h
    exact chain_next h2 pre c post rfl

/-- rows a map with this much memory can be asked to grow to -/
theorem grow_ok {m : VMap} {l cs : List Reg} {entries payload : Nat} {shrink : Bool} (h : Mem m l cs) (hf : m.fixed = false)
    {e p : Nat} (he : e = if shrink then max entries m.rows.length else max (max entries m.rows.length) (max (m.entryCapacity + m.entryCapacity / 2) 8))
    (hp : p = if shrink then max payload m.used else max (max payload m.used) (m.pool.length + m.pool.length / 2))
    (ht : 32 + 48 * e + p < 2 ^ 32) :
    ∃ m', m.grow entries payload shrink = some m' ∧ Mem m' (l.map (shift m.base m'.base)) (cs.map (shift m.base m'.base)) ∧ Moves m m' l ∧
      m'.base = 32 + 48 * e ∧ m'.entryCapacity = e % 65536 ∧ m'.pool.length = p ∧ m'.used = m.used ∧ m'.gen = m.gen + 1 := by
  have hu := h.used
  have hup : m.used ≤ p := by rw [hp]; split <;> omega
  have hg : m.grow entries payload shrink = VMap.rebaseChain m.base ((32 + 48 * e + p) / 8 + 1)
      ⟨m.rows.map (·.rebase m.base (32 + 48 * e)), e % 65536, 32 + 48 * e, m.used, m.pool.take m.used ++ List.replicate (p - m.used) 0xAA#8,
        if m.freeHead = 0 then 0 else 32 + 48 * e + (m.freeHead - m.base), m.overflow, false, m.gen + 1⟩
      (if m.freeHead = 0 then 0 else 32 + 48 * e + (m.freeHead - m.base)) := by
    unfold VMap.grow
    rw [if_neg (by rw [hf]; simp)]
    dsimp only
    rw [← he, ← hp, if_neg (by omega)]
    congr 2
    rw [List.length_append, List.length_take, List.length_replicate, Nat.min_eq_left hu]
    omega
  generalize hn : (VMap.mk _ _ _ _ _ _ _ _ _) = n at hg
  have hnb : n.base = 32 + 48 * e := by rw [← hn]
  have hnl : n.pool.length = p := by
    rw [← hn]; dsimp only
    rw [List.length_append, List.length_take, List.length_replicate, Nat.min_eq_left hu]; omega
  have hpk : ∀ g : Reg, m.base ≤ g.1 → g.1 + g.2 ≤ m.base + m.used → n.peek (32 + 48 * e + (g.1 - m.base)) g.2 = m.peek g.1 g.2 := by
    intro g h1 h2
    rw [peek_some (m := m) h1 (by omega), peek_eq_some]
    refine ⟨⟨by omega, by omega⟩, ?_⟩
    apply List.ext_getElem?
    intro x
    rw [getElem?_window, getElem?_window, hnb, ← hn]
    dsimp only
    by_cases hx : x < g.2
    · rw [if_pos hx, if_pos hx, List.getElem?_append_left (by rw [List.length_take]; omega), List.getElem?_take, if_pos (by omega)]
      congr 1; omega
    · rw [if_neg hx, if_neg hx]
  have hbase := h.base
  have hhead : m.freeHead = nextOf cs := h.chain.head
  have hsd : ((l ++ cs).map (shift m.base (32 + 48 * e))).Pairwise Disj := by
    rw [List.pairwise_map]
    exact h.disj.imp_of_mem fun ha hb hab => disj_shift (h.inside _ ha).1 (h.inside _ hb).1 hab
  obtain ⟨n', h1, h2, h3, h4⟩ := rebaseChain_ok (old := m.base) (new := 32 + 48 * e) (live := l.map (shift m.base (32 + 48 * e))) cs n
    ((32 + 48 * e + p) / 8 + 1) (by
      have := nodup_length_le (cs.map fun c => (c.1 - m.base) / 8) (List.range (p / 8)) ?_ ?_
      · simp at this; omega
      · unfold List.Nodup
        rw [List.pairwise_map]
        refine List.Pairwise.imp_of_mem ?_ (List.pairwise_append.1 h.disj).2.1
        intro a b ha hb hab
        have := h.big a ha
        have := h.big b hb
        have := h.inside a (List.mem_append_right _ ha)
        have := h.inside b (List.mem_append_right _ hb)
        unfold Disj at hab
        omega
      · intro x hx
        obtain ⟨c, hc, rfl⟩ := List.mem_map.1 hx
        have := h.big c hc
        have := h.inside c (List.mem_append_right _ hc)
        rw [List.mem_range]
        omega)
    hnb (by omega) (by rw [hnb, hnl]; exact ht)
    (fun c hc => by
      have := h.inside c (List.mem_append_right _ hc)
      exact ⟨this.1, h.big c hc, by rw [hnl]; omega⟩)
    (fun c hc => by have := h.inside c (List.mem_append_right _ hc); omega)
    (by rw [← List.map_append]; exact hsd)
    (by
      intro pre c post hcs
      have hcm : c ∈ cs := by rw [hcs]; simp
      have hin := h.inside c (List.mem_append_right _ hcm)
      have h8 := h.big c hcm
      rw [← chain_next h.chain pre c post hcs]
      unfold VMap.chunk
      rw [hpk (c.1, 8) hin.1 (by dsimp only; omega)])
  rw [← hhead] at h1 h2
  have hb' : n'.base = 32 + 48 * e := h3.base.trans hnb
  refine ⟨n', hg.trans h1, ⟨?_, ?_, ?_, ?_, ?_, ?_, ?_⟩, ⟨?_, ?_, ?_, ?_⟩, hb', ?_, h3.len.trans hnl, ?_, ?_⟩
  · rw [h4, hb', ← hn]; exact h2
  · rw [← List.map_append, hb']; exact hsd
  · intro g hg
    rw [← List.map_append] at hg
    obtain ⟨x, hx, rfl⟩ := List.mem_map.1 hg
    have := h.inside x hx
    rw [h3.used, show n.used = m.used by rw [← hn]]
    unfold shift
    dsimp only
    omega
  · intro c hc
    obtain ⟨x, hx, rfl⟩ := List.mem_map.1 hc
    exact h.big x hx
  · rw [h3.used, h3.len, hnl, show n.used = m.used by rw [← hn]]; exact hup
  · rw [hb', h3.len, hnl]; exact ht
  · rw [hb']; omega
  · rw [h3.rows, hb', ← hn]
  · rw [h3.fixed, hf, ← hn]
  · intro hge
    rw [h3.gen, ← hn] at hge
    dsimp only at hge; omega
  · intro g hg
    have hin := h.inside g (List.mem_append_left _ hg)
    have := h3.data (shift m.base (32 + 48 * e) g) (List.mem_map.2 ⟨g, hg, rfl⟩)
    unfold shift at this
    dsimp only at this
    rw [hb', this]
    exact hpk g hin.1 hin.2
  · rw [h3.cap, ← hn]
  · rw [h3.used, ← hn]
  · rw [h3.gen, ← hn]

end Verif.VMap
