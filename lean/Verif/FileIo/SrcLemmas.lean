import Verif.FileIo.Props
import Verif.FileIo.MemProps
import Verif.FileIo.SrcSpec
namespace Verif.FileIo
open Verif.Bytes (Byte)
open Verif.Deflate (decompressSpan)

theorem messages_ok {c : SrcCfg} {f : File} {D : List Byte} (h0 : 0 < c.size) (h : Holds c.limit f D) (hg : f.gzip = true → c.reader.normalize.codecChunk ≤ vectorMax) :
    ∃ ps : List (List Byte), c.messages f = ps.map .data ++ [.final] ∧ (∀ p ∈ ps, p ≠ []) ∧ (∀ p ∈ ps.dropLast, p.length % c.size = 0) ∧
      ps.flatten = D.drop (c.offset * c.size) := by
  have key : ∀ ms, Reads c.reader none (D.drop (c.offset * c.size)) ms → ∃ ps : List (List Byte), ms = ps.map .data ++ [.final] ∧ (∀ p ∈ ps, p ≠ []) ∧
      (∀ p ∈ ps.dropLast, p.length % c.size = 0) ∧ ps.flatten = D.drop (c.offset * c.size) := by
    rintro ms ⟨ps, e, hc, _, he, _⟩
    refine ⟨ps, e, hc.nonempty, ?_, he rfl⟩
    have := hc.aligned
    rw [show max 1 c.reader.align = c.size from by show max 1 c.size = _; omega] at this
    exact this
  apply key
  unfold SrcCfg.messages
  rcases h with ⟨h1, h2⟩ | ⟨h1, F, h2, ⟨rfl, rfl⟩ | ⟨hne, W, n, hv⟩⟩
  · rw [h1, h2]
    exact (read_file c.reader none D).2
  · rw [h1, h2]
    have : ((RS.new c.reader true none).runFile (some [])).2.published = [.final] := rfl
    rw [this, List.drop_nil]
    exact ⟨[], rfl, ⟨nofun, nofun, nofun⟩, List.prefix_refl _, fun _ => rfl, fun n hn => Nat.zero_le _⟩
  · rw [h1, h2]
    exact (read_gzip c.reader none F D W n hv hne (hg h1)).2

theorem played_succ (c : SrcCfg) (Ds : List (List Byte)) (h : Nat) : played c Ds (h + 1) = played c Ds h ++ [part c (Ds.getD (h % Ds.length) [])] := by
  unfold played
  rw [List.range_succ, List.map_append]
  rfl

theorem starts_append (xs : List (List Byte)) (x : List Byte) : ∀ p, starts p (xs ++ [x]) = starts p xs ++ (if x = [] then [] else [p + xs.flatten.length]) := by
  induction xs with
  | nil => intro p; simp [starts]
  | cons y ys ih =>
    intro p
    rw [List.cons_append, starts, ih, starts, List.flatten_cons, List.length_append, List.append_assoc, Nat.add_assoc]

theorem starts_lt (xs : List (List Byte)) : ∀ p, ∀ q ∈ starts p xs, q < p + xs.flatten.length := by
  induction xs with
  | nil => intro p q hq; cases hq
  | cons y ys ih =>
    intro p q hq
    rw [starts, List.mem_append] at hq
    rw [List.flatten_cons, List.length_append]
    rcases hq with hq | hq
    · split at hq
      · cases hq
      · rename_i hy
        have := List.length_pos_iff.2 hy
        rw [List.mem_singleton] at hq
        omega
    · have := ih _ _ hq
      omega

theorem played_all (c : SrcCfg) (Ds : List (List Byte)) : played c Ds Ds.length = Ds.map (part c) := by
  apply List.ext_getElem
  · simp [played]
  · intro i h1 h2
    simp only [played, List.length_map, List.length_range] at h1
    simp only [played, List.getElem_map, List.getElem_range, Nat.mod_eq_of_lt h1, List.getD_eq_getElem?_getD, List.getElem?_eq_getElem h1, Option.getD_some]

/-- rounding down to whole samples commutes with a bound of whole samples -/
theorem round_min (x L m : Nat) (hm : 0 < m) : min x (L * m) - min x (L * m) % m = min (x / m) L * m := by
  have h : ∀ y, y - y % m = y / m * m := by
    intro y
    have := Nat.div_add_mod y m
    rw [Nat.mul_comm] at this
    omega
  rw [h]
  congr 1
  rcases Nat.le_total x (L * m) with h1 | h1
  · rw [Nat.min_eq_left h1]
    have : x / m ≤ L := by
      rw [← Nat.mul_div_cancel L hm]
      exact Nat.div_le_div_right h1
    omega
  · rw [Nat.min_eq_right h1, Nat.mul_div_cancel L hm]
    have : L ≤ x / m := (Nat.le_div_iff_mul_le hm).2 h1
    omega

/-- How far the current file is: `cur` is published, `rem` are the pieces to come. -/
structure At (c : SrcCfg) (D : List Byte) (cur : List Byte) (rem : List (List Byte)) : Prop where
  nonempty : ∀ p ∈ rem, p ≠ []
  aligned : ∀ p ∈ rem.dropLast, p.length % c.size = 0
  below : c.length = 0 ∨ cur.length < c.length * c.size
  whole : (∃ r, cur.length = r * c.size ∧ cur = (D.drop (c.offset * c.size)).take (r * c.size) ∧ rem.flatten = (D.drop (c.offset * c.size)).drop (r * c.size)) ∨
    (rem = [] ∧ cur = part c D)

theorem At.final {c : SrcCfg} {D cur : List Byte} (h0 : 0 < c.size) (h : At c D cur []) : cur = part c D := by
  rcases h.whole with ⟨r, h1, h2, h3⟩ | ⟨_, h2⟩
  · have hl := congrArg List.length h3
    rw [List.flatten_nil, List.length_nil, List.length_drop] at hl
    have hc := congrArg List.length h2
    rw [h1, List.length_take] at hc
    have hk : (D.drop (c.offset * c.size)).length / c.size = r := by
      rw [show (D.drop (c.offset * c.size)).length = r * c.size from by omega]
      exact Nat.mul_div_cancel _ h0
    unfold part
    dsimp only
    rw [hk]
    refine h2.trans ?_
    congr 2
    split
    · rfl
    · rename_i hne
      rcases h.below with hb | hb
      · exact absurd hb hne
      · rw [h1] at hb
        have := Nat.lt_of_mul_lt_mul_right hb
        omega
  · exact h2

/-- the number of bytes `take` publishes -/
theorem At.step {c : SrcCfg} {D cur b : List Byte} {rem : List (List Byte)} (h0 : 0 < c.size) (h : At c D cur (b :: rem)) :
    ∃ n, n = (let n := if c.length ≠ 0 then min b.length (c.length * c.size - cur.length) else b.length; n - n % c.size) ∧
      (((c.length = 0 ∨ (cur ++ b.take n).length < c.length * c.size) ∧ At c D (cur ++ b.take n) rem) ∨
       (c.length ≠ 0 ∧ c.length * c.size ≤ (cur ++ b.take n).length ∧ cur ++ b.take n = part c D)) := by
  refine ⟨_, rfl, ?_⟩
  have hb : b ≠ [] := h.nonempty b List.mem_cons_self
  obtain ⟨r, h1, h2, h3⟩ : ∃ r, cur.length = r * c.size ∧ cur = (D.drop (c.offset * c.size)).take (r * c.size) ∧
      b ++ rem.flatten = (D.drop (c.offset * c.size)).drop (r * c.size) := by
    rcases h.whole with x | ⟨x, _⟩
    · exact x
    · cases x
  -- the number of samples
  have hn : ∃ j, (let n := if c.length ≠ 0 then min b.length (c.length * c.size - cur.length) else b.length; n - n % c.size) = j * c.size ∧
      j = (if c.length = 0 then b.length / c.size else min (b.length / c.size) (c.length - r)) := by
    refine ⟨_, ?_, rfl⟩
    dsimp only
    by_cases hl : c.length = 0
    · rw [if_neg (by simp [hl]), if_pos hl]
      have := Nat.div_add_mod b.length c.size
      rw [Nat.mul_comm] at this
      omega
    · rw [if_pos hl, if_neg hl, h1, ← Nat.sub_mul]
      exact round_min _ _ _ h0
  obtain ⟨j, hj, hj'⟩ := hn
  rw [hj]
  have hle : j * c.size ≤ b.length := by
    have : j ≤ b.length / c.size := by
      rw [hj']; split <;> omega
    exact (Nat.le_div_iff_mul_le h0).1 this
  generalize hA : D.drop (c.offset * c.size) = A at h2 h3
  have hlenA : r * c.size ≤ A.length := by
    have := congrArg List.length h2
    rw [h1, List.length_take] at this
    omega
  have hcur : cur ++ b.take (j * c.size) = A.take ((r + j) * c.size) := by
    rw [h2, Nat.add_mul, List.take_add, ← h3, List.take_append_of_le_length hle]
  have hlen : (cur ++ b.take (j * c.size)).length = (r + j) * c.size := by
    rw [List.length_append, List.length_take, h1, Nat.min_eq_left hle, Nat.add_mul]
  have hA2 : A.length = r * c.size + (b.length + rem.flatten.length) := by
    have := congrArg List.length h3
    rw [List.length_append, List.length_drop] at this
    omega
  have hpart : ∀ k, k = (if c.length = 0 then A.length / c.size else min (A.length / c.size) c.length) → part c D = A.take (k * c.size) := by
    rintro k rfl
    unfold part
    rw [hA]
  rw [hlen, hcur]
  by_cases hreach : c.length ≠ 0 ∧ c.length ≤ r + j
  · right
    have hr : r < c.length := by
      rcases h.below with x | x
      · exact absurd x hreach.1
      · rw [h1] at x
        exact Nat.lt_of_mul_lt_mul_right x
    have hj2 : r + j = c.length := by
      rw [hj', if_neg hreach.1] at hreach ⊢
      omega
    refine ⟨hreach.1, Nat.mul_le_mul_right _ hreach.2, ?_⟩
    rw [hj2]
    refine (hpart _ ?_).symm
    rw [if_neg hreach.1]
    have : c.length ≤ A.length / c.size := by
      refine (Nat.le_div_iff_mul_le h0).2 ?_
      rw [← hj2, Nat.add_mul]
      omega
    omega
  · left
    have hlow : c.length = 0 ∨ (r + j) * c.size < c.length * c.size := by
      by_cases hl : c.length = 0
      · exact .inl hl
      · refine .inr (Nat.mul_lt_mul_of_pos_right ?_ h0)
        omega
    have hjq : j = b.length / c.size := by
      rw [hj']
      split
      · rfl
      · rename_i hl
        have : ¬ c.length ≤ r + j := fun x => hreach ⟨hl, x⟩
        rw [hj', if_neg hl] at this
        omega
    refine ⟨hlow, fun p hp => h.nonempty p (List.mem_cons_of_mem _ hp), ?_, ?_, ?_⟩
    · intro p hp
      apply h.aligned
      cases rem with
      | nil => cases hp
      | cons y ys => exact List.mem_cons_of_mem _ hp
    · rw [← hcur, hlen]; exact hlow
    · cases rem with
      | nil =>
        right
        refine ⟨rfl, (hpart _ ?_).symm⟩
        have hq : A.length / c.size = r + j := by
          rw [hA2, hjq, List.flatten_nil, List.length_nil, Nat.add_zero, Nat.add_comm, Nat.add_mul_div_right _ _ h0, Nat.add_comm]
        rw [hq]
        split
        · rfl
        · rename_i hl
          rcases hlow with x | x
          · exact absurd x hl
          · have := Nat.lt_of_mul_lt_mul_right x
            omega
      | cons y ys =>
        left
        have hmod : b.length % c.size = 0 := h.aligned b (by rw [List.dropLast_cons_of_ne_nil (by simp)]; exact List.mem_cons_self)
        have hbl : b.length = j * c.size := by
          have := Nat.div_add_mod b.length c.size
          rw [Nat.mul_comm, hmod, ← hjq] at this
          omega
        refine ⟨r + j, ?_, by rw [hA], ?_⟩
        · rw [← hcur, hlen]
        · rw [hA, Nat.add_mul, ← List.drop_drop, ← h3, ← hbl, List.drop_left]

variable {c : SrcCfg} {files : List File} {Ds : List (List Byte)}

/-- The files hold `Ds`, and can be read. -/
structure Readable (c : SrcCfg) (files : List File) (Ds : List (List Byte)) : Prop where
  size : 0 < c.size
  same : files.length = Ds.length
  holds : ∀ (i : Nat) f, files[i]? = some f → ∀ D, Ds[i]? = some D → Holds c.limit f D
  gzip : ∀ f ∈ files, f.gzip = true → c.reader.normalize.codecChunk ≤ vectorMax

/-- What was published of the first `h` files and of the one after them. -/
structure Pub (c : SrcCfg) (Ds : List (List Byte)) (s : Src) (h : Nat) (cur : List Byte) : Prop where
  out : s.out = (played c Ds h).flatten ++ cur
  tags : s.tags = if c.trigger then starts 0 (played c Ds h) ++ (if cur = [] then [] else [(played c Ds h).flatten.length]) else []

structure Run (c : SrcCfg) (Ds : List (List Byte)) (s : Src) (h : Nat) (cur : List Byte) : Prop where
  active : s.active = true
  pos : 0 < Ds.length
  once : c.again = false → h < Ds.length
  next : s.next = h % Ds.length + 1
  read : s.readFile = cur.length
  emitted : c.trigger = true → s.emitted = decide (cur ≠ [])
  pub : Pub c Ds s h cur

/-- The states between calls. -/
inductive J (c : SrcCfg) (Ds : List (List Byte)) (s : Src) : Prop where
  | ended (inactive : s.active = false) (once : Ds = [] ∨ c.again = false) (pub : Pub c Ds s Ds.length [])
  | runs (h : Nat) (cur : List Byte) (rem : List (List Byte)) (run : Run c Ds s h cur) (at_ : At c (Ds.getD (h % Ds.length) []) cur rem) (queue : s.queue = rem.map .data ++ [.final])

theorem Src.open_ok {s : Src} {h : Nat} (hr : Readable c files Ds) (hp : Pub c Ds s h []) (hpos : 0 < Ds.length) (hn : s.next = h % Ds.length)
    (honce : c.again = false → h < Ds.length) :
    ∃ f, files[s.next]? = some f ∧ (s.openNext c files).queue = c.messages f ∧ (s.openNext c files).next = s.next + 1 ∧ (s.openNext c files).active = true ∧
      J c Ds (s.openNext c files) := by
  have hlt : h % Ds.length < Ds.length := Nat.mod_lt _ hpos
  have hfl : s.next < files.length := by rw [hn, hr.same]; exact hlt
  have hf : files[s.next]? = some files[s.next] := List.getElem?_eq_getElem hfl
  have hD : Ds[s.next]? = some (Ds.getD (h % Ds.length) []) := by
    rw [hn, List.getD_eq_getElem?_getD, List.getElem?_eq_getElem hlt]; rfl
  refine ⟨_, hf, ?_⟩
  obtain ⟨ps, e1, e2, e3, e4⟩ := messages_ok hr.size (hr.holds _ _ hf _ hD) (hr.gzip _ (List.mem_of_getElem? hf))
  unfold Src.openNext
  rw [hf]
  dsimp only
  refine ⟨rfl, rfl, rfl, .runs h [] ps ⟨rfl, hpos, honce, congrArg (· + 1) hn, rfl, fun _ => rfl, ⟨hp.out, hp.tags⟩⟩ ⟨e2, e3, ?_, .inl ⟨0, ?_, ?_, ?_⟩⟩ e1⟩
  · by_cases hl : c.length = 0
    · exact .inl hl
    · exact .inr (Nat.mul_pos (by omega) hr.size)
  · simp
  · simp
  · rw [e4]; simp

theorem Src.finish_ok {s : Src} {h : Nat} {cur : List Byte} (hr : Readable c files Ds) (hs : Run c Ds s h cur)
    (hcur : cur = part c (Ds.getD (h % Ds.length) [])) :
    J c Ds (s.finish c files).2 ∧
    (((s.finish c files).1 = .ok ∧ (s.finish c files).2.active = true ∧
        (c.again = false → ∃ f, files[s.next]? = some f ∧ (s.finish c files).2.queue = c.messages f ∧ (s.finish c files).2.next = s.next + 1)) ∨
     ((s.finish c files).1 = .done ∧ (s.finish c files).2.active = false)) := by
  have hpub : Pub c Ds { s with active := false, queue := [] } (h + 1) [] := by
    refine ⟨?_, ?_⟩
    · show s.out = _
      rw [hs.pub.out, played_succ, ← hcur]; simp
    · show s.tags = _
      rw [hs.pub.tags, played_succ, ← hcur, starts_append]
      simp
  have hlt : h % Ds.length < Ds.length := Nat.mod_lt _ hs.pos
  unfold Src.finish
  dsimp only
  by_cases h1 : s.next < files.length
  · rw [if_pos h1]
    have hm : (h + 1) % Ds.length = s.next := by
      rw [hs.next, hr.same] at h1
      rw [hs.next, Nat.add_mod]
      by_cases hone : Ds.length = 1
      · omega
      · rw [Nat.mod_eq_of_lt (show 1 < Ds.length by omega), Nat.mod_eq_of_lt h1]
    obtain ⟨f, e1, e2, e3, e4, e5⟩ := Src.open_ok (s := { s with active := false, queue := [] }) hr hpub hs.pos hm.symm (by
      intro ha
      have := hs.once ha
      rw [hs.next, hr.same, Nat.mod_eq_of_lt this] at h1
      exact h1)
    exact ⟨e5, .inl ⟨rfl, e4, fun _ => ⟨f, e1, e2, e3⟩⟩⟩
  · rw [if_neg h1]
    have hwrap : h % Ds.length + 1 = Ds.length := by
      rw [hs.next, hr.same] at h1
      omega
    have hm : (h + 1) % Ds.length = 0 := by
      rw [Nat.add_mod]
      by_cases hone : Ds.length = 1
      · rw [hone]; omega
      · rw [Nat.mod_eq_of_lt (show 1 < Ds.length by omega), hwrap, Nat.mod_self]
    by_cases h2 : c.again = true ∧ files ≠ []
    · rw [if_pos h2]
      obtain ⟨f, e1, e2, e3, e4, e5⟩ := Src.open_ok (s := { s with active := false, queue := [], next := 0 }) hr ⟨hpub.out, hpub.tags⟩ hs.pos hm.symm (by
        rw [h2.1]; nofun)
      exact ⟨e5, .inl ⟨rfl, e4, fun ha => by rw [h2.1] at ha; cases ha⟩⟩
    · rw [if_neg h2]
      have hne : files ≠ [] := by
        intro h3
        have := hr.same
        rw [h3] at this
        have := hs.pos
        simp at *
        omega
      have ha : c.again = false := by
        cases hc : c.again with
        | false => rfl
        | true => exact absurd ⟨hc, hne⟩ h2
      have hh : h + 1 = Ds.length := by
        rw [Nat.mod_eq_of_lt (hs.once ha)] at hwrap
        exact hwrap
      exact ⟨.ended rfl (.inr ha) (hh ▸ hpub), .inr ⟨rfl, rfl⟩⟩

/-- a piece is taken -/
theorem Src.take_ok {s : Src} {h n : Nat} {cur b : List Byte} (hs : Run c Ds s h cur)
    (hn : n = (let n := if c.length ≠ 0 then min b.length (c.length * c.size - cur.length) else b.length; n - n % c.size)) :
    (s.take c b).queue = s.queue ∧ (s.take c b).next = s.next ∧ Run c Ds (s.take c b) h (cur ++ b.take n) := by
  have hle : n ≤ b.length := by
    rw [hn]; dsimp only; split <;> omega
  unfold Src.take
  rw [hs.read]
  dsimp only at hn ⊢
  rw [← hn]
  split
  · rename_i h0
    rw [h0, List.take_zero, List.append_nil]
    exact ⟨rfl, rfl, hs⟩
  · rename_i h0
    have hne : cur ++ b.take n ≠ [] := by
      intro h1
      have := congrArg List.length h1
      rw [List.length_append, List.length_take, List.length_nil] at this
      omega
    refine ⟨rfl, rfl, ?_⟩
    refine ⟨hs.active, hs.pos, hs.once, hs.next, ?_, ?_, ?_, ?_⟩
    · show cur.length + n = _
      rw [List.length_append, List.length_take, Nat.min_eq_left hle]
    · intro ht
      show (s.emitted || (!s.emitted && c.trigger)) = _
      rw [ht, decide_eq_true hne]
      cases s.emitted <;> rfl
    · show s.out ++ _ = _
      rw [hs.pub.out, List.append_assoc]
    · show (if (!s.emitted && c.trigger) = true then s.tags ++ [s.out.length] else s.tags) = _
      rw [hs.pub.tags]
      cases ht : c.trigger with
      | false => simp
      | true =>
        rw [hs.emitted ht, if_neg hne, hs.pub.out]
        by_cases hc : cur = []
        · simp [hc]
        · simp [hc]

/-- what a call does, and which messages are left -/
theorem Src.call_ok {s : Src} (hr : Readable c files Ds) (hj : J c Ds s) (room : Nat) :
    J c Ds (s.call c files room).2 ∧
    (((s.call c files room).1 = .insufficient ∧ (s.call c files room).2 = s ∧
        (room = 0 ∨ ∃ b q, s.queue = .data b :: q ∧ room * c.size < b.length)) ∨
     ((s.call c files room).1 = .done ∧ (s.call c files room).2.active = false) ∨
     ((s.call c files room).1 = .ok ∧ s.active = true ∧ (s.call c files room).2.active = true ∧
        ((∃ m, s.queue = m :: (s.call c files room).2.queue ∧ (s.call c files room).2.next = s.next) ∨
         (c.again = false → ∃ f, files[s.next]? = some f ∧ (s.call c files room).2.queue = c.messages f ∧ (s.call c files room).2.next = s.next + 1 ∧
            s.queue ≠ [])))) := by
  unfold Src.call
  by_cases h0 : room = 0
  · rw [if_pos h0]
    exact ⟨hj, .inl ⟨rfl, rfl, .inl h0⟩⟩
  rw [if_neg h0]
  cases hj with
  | ended ha ho hp =>
    rw [if_pos ha]
    exact ⟨.ended ha ho hp, .inr (.inl ⟨rfl, ha⟩)⟩
  | runs h cur rem run hat hq =>
    rw [if_neg (by rw [run.active]; nofun), if_neg]
    · cases rem with
      | nil =>
        rw [hq]
        simp only [List.map_nil, List.nil_append, poll]
        have run' : Run c Ds { s with queue := [] } h cur := ⟨run.active, run.pos, run.once, run.next, run.read, run.emitted, ⟨run.pub.out, run.pub.tags⟩⟩
        obtain ⟨hJ, ⟨e1, e2, e3⟩ | ⟨e1, e2⟩⟩ := Src.finish_ok hr run' (hat.final hr.size)
        · refine ⟨hJ, .inr (.inr ⟨e1, run.active, e2, .inr fun ha => ?_⟩)⟩
          obtain ⟨f, x1, x2, x3⟩ := e3 ha
          exact ⟨f, x1, x2, x3, by simp⟩
        · exact ⟨hJ, .inr (.inl ⟨e1, e2⟩)⟩
      | cons b rem =>
        rw [hq]
        simp only [List.map_cons, List.cons_append, poll]
        by_cases hfit : b.length ≤ room * c.size
        · rw [if_pos hfit]
          dsimp only
          have run' : Run c Ds { s with queue := rem.map .data ++ [.final] } h cur :=
            ⟨run.active, run.pos, run.once, run.next, run.read, run.emitted, ⟨run.pub.out, run.pub.tags⟩⟩
          obtain ⟨n, hn, hstep⟩ := hat.step hr.size
          obtain ⟨t1, t2, t3⟩ := Src.take_ok (b := b) run' hn
          generalize Src.take c { s with queue := rem.map .data ++ [.final] } b = u at t1 t2 t3
          dsimp only at t1 t2
          rcases hstep with ⟨hb, hat'⟩ | ⟨hb1, hb2, hfull⟩
          · rw [if_neg (by rw [t3.read]; omega)]
            exact ⟨.runs _ _ _ t3 hat' t1, .inr (.inr ⟨rfl, run.active, t3.active, .inl ⟨_, by rw [t1], t2⟩⟩)⟩
          · rw [if_pos (by rw [t3.read]; exact ⟨hb1, hb2⟩)]
            obtain ⟨hJ, ⟨e1, e2, e3⟩ | ⟨e1, e2⟩⟩ := Src.finish_ok hr t3 hfull
            · refine ⟨hJ, .inr (.inr ⟨e1, run.active, e2, .inr fun ha => ?_⟩)⟩
              obtain ⟨f, x1, x2, x3⟩ := e3 ha
              rw [t2] at x1 x3
              exact ⟨f, x1, x2, x3, by simp⟩
            · exact ⟨hJ, .inr (.inl ⟨e1, e2⟩)⟩
        · rw [if_neg hfit]
          exact ⟨.runs _ _ _ run hat hq, .inl ⟨rfl, rfl, .inr ⟨_, _, rfl, by omega⟩⟩⟩
    · rw [run.read]
      have := hat.below
      omega

theorem Src.start_ok (hr : Readable c files Ds) : J c Ds (Src.start c files) := by
  cases hD : Ds with
  | nil =>
    have : files = [] := List.length_eq_zero_iff.1 (by rw [hr.same, hD]; rfl)
    rw [this]
    refine .ended rfl (.inl rfl) ⟨rfl, ?_⟩
    show [] = _
    cases c.trigger <;> rfl
  | cons D Ds' =>
    rw [← hD]
    have hpos : 0 < Ds.length := by rw [hD]; simp
    obtain ⟨_, _, _, _, _, h⟩ := Src.open_ok (h := 0) (s := { next := 0, queue := [], active := false, emitted := false, readFile := 0, out := [], tags := [] }) hr
      ⟨rfl, by show [] = _; cases c.trigger <;> rfl⟩ hpos (Nat.zero_mod _).symm (fun _ => hpos)
    exact h

end Verif.FileIo
