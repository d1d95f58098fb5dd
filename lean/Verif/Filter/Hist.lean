import Verif.Filter.Spec
import Verif.History.Lemmas
import Mathlib.Algebra.BigOperators.Intervals
import Mathlib.Algebra.BigOperators.Ring.Finset
import Mathlib.Tactic.Ring
/-!
# Lemmas: a history buffer as an unbounded past
-/
namespace Verif.Filter
open Verif.History

variable {α : Type} [CommRing α]

/-- The same storage, all of which counts as filled -/
def full (h : H α) : H α := { h with size := h.g.ring, g := { h.g with cap := h.g.ring } }

/-- The first `n` elements, filled up with zeros -/
def pad (n : Nat) (l : List α) : List α := (l ++ List.replicate n 0).take n

theorem pad_length (n : Nat) (l : List α) : (pad n l).length = n := by simp [pad]

theorem pad_cons (n : Nat) (l : List α) (v : α) (hn : 0 < n) : (v :: pad n l).take n = pad n (v :: l) := by
  obtain ⟨m, rfl⟩ : ∃ m, n = m + 1 := ⟨n - 1, by omega⟩
  simp only [pad, List.cons_append, List.take_succ_cons, List.take_take]
  congr 2
  omega

theorem pad_getD (n : Nat) (l : List α) (i : Nat) (hi : i < n) : (pad n l).getD i 0 = l.getD i 0 := by
  simp only [pad, List.getD_eq_getElem?_getD, List.getElem?_take_of_lt hi, List.getElem?_append]
  split
  · rfl
  · rename_i h
    rw [List.getElem?_eq_none (l := l) (by omega), List.getElem?_replicate]
    split <;> rfl

/-- The storage of the buffer holds the last values of the signal `l` (newest first, zeros before its start). -/
def Rep (h : H α) (l : List α) : Prop := Sim (full h) ⟨h.g.dyn, h.g.ring, pad h.g.ring l⟩

theorem Rep.oob {h : H α} {l : List α} (r : Rep h l) : h.oob = false := r.4

theorem Rep.ring {h : H α} {l : List α} (r : Rep h l) : 0 < h.g.ring := r.geo.capPos

theorem full_ring (h : H α) : (full h).g.ring = h.g.ring := rfl

theorem full_map (h : H α) (w i : Nat) : (full h).g.map w i = h.g.map w i := rfl

theorem push_g (h : H α) (v : α) : (h.pushFront v).g = h.g := by
  simp only [H.pushFront, H.wr]; split <;> split <;> rfl

theorem push_eq (h : H α) (v : α) : h.pushFront v =
    ⟨h.g, fun j => if j = h.g.map h.wpos (h.g.ring - 1) then v else h.buf j, h.g.map h.wpos (h.g.ring - 1),
      if h.size < h.g.cap then h.size + 1 else h.size, if h.dirty < h.g.ring then h.dirty + 1 else h.dirty,
      h.oob || decide (2 * h.g.ring ≤ h.g.map h.wpos (h.g.ring - 1))⟩ := by
  unfold H.pushFront
  by_cases h1 : h.size < h.g.cap <;> by_cases h2 : h.dirty < h.g.ring <;> simp only [h1, h2, if_true, if_false, H.wr]

theorem full_push (h : H α) (v : α) : full (h.pushFront v) = (full h).pushFront v := by
  rw [push_eq, push_eq]
  unfold full
  simp only [Nat.lt_irrefl, if_false]
  rfl

theorem sync_g (h : H α) : h.sync.g = h.g ∧ h.sync.wpos = h.wpos := by
  simp only [H.sync, H.copyN]; split
  · exact ⟨rfl, rfl⟩
  · split <;> exact ⟨rfl, rfl⟩

theorem full_sync (h : H α) : full h.sync = (full h).sync := by
  unfold H.sync
  by_cases h0 : h.dirty = 0
  · have h0' : (full h).dirty = 0 := h0
    rw [if_pos h0, if_pos h0']
  · have h0' : ¬ (full h).dirty = 0 := h0
    rw [if_neg h0, if_neg h0']
    by_cases h1 : h.dirty ≤ h.g.ring - h.wpos
    · have h1' : (full h).dirty ≤ (full h).g.ring - (full h).wpos := h1
      simp only [h1, h1', if_true]; rfl
    · have h1' : ¬ (full h).dirty ≤ (full h).g.ring - (full h).wpos := h1
      simp only [h1, h1', if_false]; rfl

theorem rep_push {h : H α} {l : List α} (r : Rep h l) (v : α) : Rep (h.pushFront v) (v :: l) := by
  have := sim_pushFront r v
  unfold Rep
  rw [full_push, push_g, ← pad_cons _ _ _ r.ring]
  exact this

/-- Sum of products of coefficients and the past of a signal (newest first) -/
def dot (c l : List α) : α := ∑ k ∈ Finset.range c.length, c.getD k 0 * l.getD k 0

theorem zip_sum (c l : List α) (h : c.length ≤ l.length) : (List.zipWith (· * ·) c l).sum = dot c l := by
  induction c generalizing l with
  | nil => simp [dot]
  | cons x c ih =>
    match l, h with
    | y :: l, h =>
      simp only [List.zipWith_cons_cons, List.sum_cons, dot, List.length_cons]
      rw [Finset.sum_range_succ', ih l (by simpa using h), dot, add_comm]
      simp

theorem dot_congr (c l l' : List α) (h : ∀ k < c.length, l.getD k 0 = l'.getD k 0) : dot c l = dot c l' :=
  Finset.sum_congr rfl fun k hk => by rw [h k (Finset.mem_range.1 hk)]

theorem rep_dot {h : H α} {l : List α} (r : Rep h l) (c : List α) (hc : c.length ≤ h.g.ring) :
    Rep (dotHist c h).1 l ∧ (dotHist c h).2 = dot c l ∧ (dotHist c h).1.g = h.g := by
  obtain ⟨h1, h2, h3, h4, h5⟩ := sim_sync r
  have hv := sim_view r 0 c.length (by simpa [full] using hc)
  rw [h1.geo.map, Nat.add_zero, Nat.mod_eq_of_lt h1.core.wpos, ← full_sync] at hv
  have hv' : h.sync.view h.sync.wpos c.length = ((pad h.g.ring l).take c.length, false) := hv
  simp only [dotHist, hv', Bool.or_false]
  refine ⟨?_, ?_, (sync_g h).1⟩
  · have e : Rep h.sync l := by
      unfold Rep
      rw [full_sync, (sync_g h).1]
      exact h1
    exact e
  · rw [zip_sum _ _ (by simp [pad_length]; exact hc)]
    refine dot_congr c _ _ fun k hk => ?_
    rw [← pad_getD h.g.ring l k (by omega), List.getD_eq_getElem?_getD, List.getElem?_take_of_lt hk, ← List.getD_eq_getElem?_getD]

theorem fresh_ring (n : Nat) : (fresh n : H α).g.ring = bitCeil n := by
  have : 0 < bitCeil n := by
    obtain ⟨k, hk⟩ := bitCeil_pow n
    rw [hk]; exact Nat.two_pow_pos k
  simp only [fresh, Geo.ring, if_true]
  omega

theorem rep_zero (h : H α) (hg : GeoOk h.g) (hb : h.buf = fun _ => 0) (hw : h.wpos = 0) (hd : h.dirty = 0) (ho : h.oob = false) : Rep h [] := by
  have hr : 0 < h.g.ring := Nat.lt_of_lt_of_le hg.capPos hg.capRing
  refine ⟨⟨hg.pow, hr, Nat.le_refl _⟩, rfl, rfl, ho, hr, Nat.le_refl _, by show h.wpos < _; rw [hw]; exact hr, (pad_length _ _).symm,
    Nat.le_refl _, by show h.dirty ≤ _; rw [hd]; exact Nat.zero_le _, ?_, ?_⟩
  · intro i hi
    have hi : i < h.g.ring := hi
    show (pad h.g.ring [])[i]? = some (h.buf _)
    rw [hb]
    simp [pad, List.getElem?_take_of_lt hi, hi]
  · intro i _ _
    show h.buf _ = h.buf _
    rw [hb]

theorem geo_fresh (n : Nat) (hn : 0 < n) : GeoOk (fresh n : H α).g := by
  obtain ⟨k, hk⟩ := bitCeil_pow n
  have hp := Nat.two_pow_pos k
  exact ⟨fun _ => ⟨k, by simp only [fresh]; omega⟩, hn, by rw [fresh_ring]; exact le_bitCeil n⟩

theorem rep_fresh (n : Nat) (hn : 0 < n) : Rep (fresh n : H α) [] := rep_zero _ (geo_fresh n hn) rfl rfl rfl rfl

theorem rep_fixed (n : Nat) (hn : 0 < n) : Rep (H.mkFixed 0 n : H α) [] :=
  rep_zero _ (sim_mkFixed 0 n hn).geo rfl rfl rfl rfl

theorem rep_reset {h : H α} {l : List α} (r : Rep h l) : Rep (h.reset 0) [] := by
  have hr := r.ring
  refine ⟨⟨r.geo.pow, hr, Nat.le_refl _⟩, rfl, rfl, r.oob, hr, Nat.le_refl _, hr, (pad_length _ _).symm, Nat.le_refl _, Nat.zero_le _, ?_, ?_⟩
  · intro i hi
    have hi : i < h.g.ring := hi
    show (pad h.g.ring [])[i]? = some 0
    simp [pad, List.getElem?_take_of_lt hi, hi]
  · intro i _ _
    rfl

theorem rep_tail {h : H α} {l c : List α} (r : Rep h l) (hc : c ≠ []) : tailOf c h = (c.tail, h) := by
  have : c.isEmpty = false := by cases c <;> simp_all
  simp [tailOf, this]

theorem dot_nil (c : List α) : dot c [] = 0 := by simp [dot]

end Verif.Filter
