import Verif.Filter.Forms
/-!
# Filters compute their difference equation (C72)
-/
namespace Verif.Filter
open Verif.History

variable {α : Type} [CommRing α]

/-! ## FIR block -/

theorem fir_run (c : Nat) (hc : 0 < c) (evs : List (FirEvent α)) (f : Fir α) (X : List α) (h : Rep f.input X) (hcap : f.input.g.cap = c)
    (hring : f.input.g.cap ≤ f.input.g.ring) (hb : f.b.length ≤ c) (ht : Taps c evs) :
    (f.run evs).2 = firSpec f.b X.reverse evs ∧ (f.run evs).1.input.oob = false := by
  induction evs generalizing f X with
  | nil => exact ⟨rfl, h.oob⟩
  | cons e evs ih =>
    cases e with
    | sample x =>
      have p := rep_push h x
      have d := rep_dot p f.b (by rw [push_g]; omega)
      have ih := ih { f with input := (dotHist f.b (f.input.pushFront x)).1 } (x :: X) d.1
        (by show (dotHist f.b (f.input.pushFront x)).1.g.cap = c; rw [d.2.2, push_g]; exact hcap)
        (by show (dotHist f.b (f.input.pushFront x)).1.g.cap ≤ _; rw [d.2.2, push_g]; exact hring) hb
        (fun b hb' => ht b (List.mem_cons_of_mem _ hb'))
      simp only [Fir.run, Fir.one, firSpec]
      refine ⟨?_, ih.2⟩
      rw [ih.1, d.2.1]
      congr 1
      · unfold dot
        refine Finset.sum_congr rfl fun k _ => ?_
        rw [← past_rev _ _ _ (by simp)]
        simp
      · simp
    | setB b =>
      have hb' : b.length ≤ c := ht b List.mem_cons_self
      simp only [Fir.run, firSpec, Fir.setB]
      rw [if_neg (by omega)]
      exact ih { f with b := b } X h hcap hring hb' (fun b hb' => ht b (List.mem_cons_of_mem _ hb'))

/-- C72, FIR block: after the first setting of its coefficients the block returns the sum over the coefficients in force times the past inputs, for
all inputs and later changes of coefficients which do not need more memory than before (never more than 32, or than the next power of two of
the first number of coefficients). All reads stay inside the history. -/
theorem fir_equation_partial (b : List α) (evs : List (FirEvent α)) (ht : Taps (if b.length ≤ 32 then 32 else bitCeil b.length) evs) :
    (Fir.init.run (.setB b :: evs)).2 = firSpec b [] evs ∧ (Fir.init.run (.setB b :: evs)).1.input.oob = false := by
  simp only [Fir.run, Fir.setB]
  have h32 : (Fir.init : Fir α).input.g.cap = 32 := rfl
  rw [h32]
  by_cases hb : b.length ≤ 32
  · rw [if_neg (by omega)]
    rw [if_pos hb] at ht
    exact fir_run 32 (by omega) evs { Fir.init with b := b } [] (rep_fresh 32 (by omega)) rfl (geo_fresh 32 (by omega)).capRing hb ht
  · rw [if_pos (by omega)]
    rw [if_neg hb] at ht
    have hle := le_bitCeil b.length
    exact fir_run (bitCeil b.length) (by omega) evs ⟨b, fresh (bitCeil b.length)⟩ [] (rep_fresh _ (by omega)) rfl
      (geo_fresh _ (by omega)).capRing hle ht

/-- A change to more coefficients than fit forgets the inputs so far: the second output should be 1. -/
theorem fir_growth_forgets :
    (Fir.init.run [.sample (1 : Int), .setB (List.replicate 33 1), .sample 0]).2 = [1, 0] ∧
    firSpec [1] [] [.sample (1 : Int), .setB (List.replicate 33 1), .sample 0] = [1, 1] := by
  decide +kernel

example : (Fir.init.run [.setB [2, 3], .sample (1 : Int), .sample 0, .setB [5, 0, 7], .sample 1]).2 = [2, 3, 12] := by decide +kernel

/-! ## IIR block -/

/-- C72, IIR block: in each of the four forms, for any number of coefficients and all inputs, the output is the solution of the difference equation,
and all reads stay inside the histories. -/
theorem iir_equation (form : Form) (b a : List α) (hb : b ≠ []) (ha : a ≠ []) (xs : List α) :
    Solves b a xs ((Iir.block b a).run false form xs).2 ∧ ((Iir.block b a).run false form xs).1.input.oob = false ∧
      ((Iir.block b a).run false form xs).1.output.oob = false := by
  have key : ∀ n, 0 < n → b.length ≤ bitCeil n → a.length ≤ bitCeil n →
      Solves b a xs (Iir.run false form (⟨b, a, fresh n, fresh n⟩ : Iir α) xs).2 ∧
      (Iir.run false form (⟨b, a, fresh n, fresh n⟩ : Iir α) xs).1.input.oob = false ∧
      (Iir.run false form (⟨b, a, fresh n, fresh n⟩ : Iir α) xs).1.output.oob = false := by
    intro n hn h1 h2
    refine run_solves false form ⟨b, a, fresh n, fresh n⟩ (rep_fresh n hn) (rep_fresh n hn) ⟨ha, ?_⟩ xs
    simp only [fresh_ring]
    cases form <;> first | exact ⟨h1, by omega⟩ | exact ⟨hb, by omega, by omega⟩
  unfold Iir.block Iir.set
  by_cases h : max a.length b.length ≥ 32
  · have hle := le_bitCeil (max a.length b.length)
    have hle2 := le_bitCeil (bitCeil (max a.length b.length))
    simp only [show (fresh 32 : H α).g.cap = 32 from rfl, if_pos h]
    exact key _ (by omega) (by omega) (by omega)
  · have : bitCeil 32 = 32 := by decide +kernel
    simp only [show (fresh 32 : H α).g.cap = 32 from rfl, if_neg h]
    exact key 32 (by omega) (by omega) (by omega)

/-- The four forms are interchangeable. -/
theorem iir_forms_agree (f g : Form) (b a : List α) (hb : b ≠ []) (ha : a ≠ []) (xs : List α) :
    ((Iir.block b a).run false f xs).2 = ((Iir.block b a).run false g xs).2 :=
  solves_unique b a xs _ _ (iir_equation f b a hb ha xs).1 (iir_equation g b a hb ha xs).1

/-- An empty list of feedback coefficients is undefined behaviour. -/
theorem iir_empty_coefficients : ∀ form : Form, let r := ((Iir.block [(1 : Int)] []).run false form [1]).1
    r.input.oob || r.output.oob := by
  intro form; cases form <;> decide +kernel

/-- Setting 32 coefficients or more forgets the past, even if they are the same as before. -/
theorem iir_same_coefficients_forget :
    let b := (1 : Int) :: List.replicate 31 1
    let f := ((Iir.block b [1]).run false .dfII [1]).1
    (f.run false .dfII [0]).2 = [1] ∧ ((f.set b [1]).run false .dfII [0]).2 = [0] := by
  decide +kernel

example : ((Iir.block [1] [1, 0, (1 : Int)]).run false .dfII [1, 0, 0, 0, 0]).2 = [1, 0, -1, 0, 1] := by decide +kernel

/-! ## Filter class -/

theorem history_rep (bs : Option Nat) (n : Nat) (h : 0 < n) (hfix : ∀ N, bs = some N → 0 < N) :
    Rep (history bs n : H α) [] ∧ (history bs n : H α).g.ring = storage bs n := by
  cases bs with
  | none => exact ⟨rep_fresh n h, fresh_ring n⟩
  | some N => exact ⟨rep_fixed N (hfix N rfl), rfl⟩

theorem reset_ring (h : H α) (v : α) : (h.reset v).g = h.g := rfl

theorem section_rep (form : Form) (bs : Option Nat) (b a : List α) (hf : Fits form bs b a) (s : Iir α) (hs : mkSection bs b a = some s) :
    s.b = b ∧ s.a = a ∧ Rep s.input [] ∧ Rep s.output [] ∧ FitsIn form b a s.input.g.ring s.output.g.ring := by
  have hbl : 0 < b.length := List.length_pos_iff.2 hf.hb
  have hal : 0 < a.length := List.length_pos_iff.2 hf.ha
  obtain ⟨r1, g1⟩ := history_rep (α := α) bs b.length hbl (fun N h => (hf.fixed N h).1)
  obtain ⟨r2, g2⟩ := history_rep (α := α) bs a.length hal (fun N h => (hf.fixed N h).1)
  have hden := hf.denominator
  have hb1 : b.length ≤ storage bs b.length := by
    cases bs with
    | none => exact le_bitCeil _
    | some N => exact (hf.fixed N rfl).2
  have ha1 : a.length ≤ storage bs a.length + 1 := by
    cases bs with
    | none => have := le_bitCeil a.length; simp only [storage]; omega
    | some N => exact hden
  unfold mkSection at hs
  rw [if_neg (by rintro ⟨-, h | h⟩ <;> [exact hf.hb h; exact hf.ha h])] at hs
  obtain ⟨i1, i2, i3⟩ := run_inv true .dfII (impulse (a.length + b.length)) (⟨b, a, history bs b.length, history bs a.length⟩ : Iir α) []
    (inv_start .dfII _ r1 r2) ⟨hf.ha, by simp only [g1]; exact ⟨hb1, hden⟩⟩
  simp only [Option.some.injEq] at hs
  subst hs
  refine ⟨i3.b, i3.a, rep_reset i1.1, rep_reset i1.2, hf.ha, ?_⟩
  simp only [reset_ring, i3.input, i3.output, g1, g2]
  cases form with
  | dfI => exact ⟨hb1, ha1⟩
  | dfII => exact ⟨hb1, hden⟩
  | dfIT => exact ⟨hf.numerator rfl, ha1⟩
  | dfIIT => exact ⟨hf.hb, by omega, ha1⟩

theorem cascade_cons (form : Form) (s : Iir α) (ss : List (Iir α)) (xs : List α) :
    cascadeRun form (s :: ss) xs = ((s.run true form xs).1 :: (cascadeRun form ss (s.run true form xs).2).1,
      (cascadeRun form ss (s.run true form xs).2).2) := by
  induction xs generalizing s ss with
  | nil => rfl
  | cons x xs ih => simp only [cascadeRun, cascadeOne, Iir.run, ih]

theorem cascade_nil (form : Form) (xs : List α) : cascadeRun form ([] : List (Iir α)) xs = ([], xs) := by
  induction xs with
  | nil => rfl
  | cons x xs ih => simp only [cascadeRun, cascadeOne, ih]

/-- C72, filter class: a filter of sections whose histories are long enough for their coefficients solves the difference equations of its sections one
after the other, in each of the forms, and all reads stay inside the histories. -/
theorem filter_equation_partial (form : Form) (bs : Option Nat) (cs : List (List α × List α)) (ss : List (Iir α)) (hs : mkFilter bs cs = some ss)
    (hf : ∀ c ∈ cs, Fits form bs c.1 c.2) (xs : List α) :
    SolvesAll cs xs (cascadeRun form ss xs).2 ∧ ∀ s ∈ (cascadeRun form ss xs).1, s.input.oob = false ∧ s.output.oob = false := by
  induction cs generalizing ss xs with
  | nil =>
    cases hs
    rw [cascade_nil]
    exact ⟨.nil, by simp⟩
  | cons c cs ih =>
    obtain ⟨b, a⟩ := c
    simp only [mkFilter] at hs
    split at hs
    · rename_i s ss' h1 h2
      cases hs
      obtain ⟨e1, e2, r1, r2, hfit⟩ := section_rep form bs b a (hf _ List.mem_cons_self) s h1
      have hsol := run_solves true form s r1 r2 (by rw [e1, e2]; exact hfit) xs
      rw [e1, e2] at hsol
      have ih := ih ss' h2 (fun c hc => hf c (List.mem_cons_of_mem _ hc)) (s.run true form xs).2
      rw [cascade_cons]
      refine ⟨.cons hsol.1 ih.1, ?_⟩
      intro s' hs'
      rcases List.mem_cons.1 hs' with rfl | hs'
      · exact hsol.2
      · exact ih.2 s' hs'
    · cases hs

/-- Sections with as many numerator as denominator coefficients always fit. -/
theorem fits_same_length (form : Form) (b a : List α) (hb : b ≠ []) (h : a.length = b.length) : Fits form none b a := by
  have h1 := le_bitCeil b.length
  refine ⟨hb, ?_, ?_, ?_, by simp⟩
  · intro h'; subst h'; exact hb (List.length_eq_zero_iff.1 h.symm)
  · simp only [storage]; omega
  · intro _; simp only [storage, h]; exact h1

/-- C72 is false of a section with a short numerator in direct form II (the default): with one numerator coefficient and two feedback coefficients the value
one sample back is used in place of that two samples back, without any out-of-range read. -/
theorem short_numerator_wrong :
    ((mkFilter none [([1], [1, 0, (1 : Int)])]).map fun ss => (cascadeRun .dfII ss [1, 0, 0]).2) = some [1, -1, 1] ∧
    ((mkFilter none [([1], [1, 0, (1 : Int)])]).map fun ss => (cascadeRun .dfI ss [1, 0, 0]).2) = some [1, 0, -1] ∧
    Solves [1] [1, 0, (1 : Int)] [1, 0, 0] [1, 0, -1] := by
  refine ⟨by decide +kernel, by decide +kernel, rfl, ?_⟩
  decide +kernel

/-- With four feedback coefficients the constructor reads out of range, in every form. -/
theorem short_numerator_reads_out_of_range :
    ((mkSection none [1] [1, 0, 0, 0, (1 : Int)]).map fun s => s.input.oob) = some true := by
  decide +kernel

example : ((mkFilter none [([1, 2], [1, 1]), ([1, 0, 1], [1, 0, (0 : Int)])]).map fun ss => (cascadeRun .dfII ss [1, 0, 0]).2) = some [1, 1, 0] := by
  decide +kernel

example (xs : List Int) : ∃ ss, mkFilter none [([1, 2], [1, 1]), ([1, 0, 1], [1, 0, (0 : Int)])] = some ss ∧
    SolvesAll [([1, 2], [1, 1]), ([1, 0, 1], [1, 0, (0 : Int)])] xs (cascadeRun .dfII ss xs).2 := by
  refine ⟨_, rfl, (filter_equation_partial .dfII none _ _ rfl ?_ xs).1⟩
  intro c hc
  simp only [List.mem_cons, List.not_mem_nil, or_false] at hc
  rcases hc with rfl | rfl <;> exact fits_same_length _ _ _ (by simp) rfl

/-! ## Decimation -/

theorem decimate_append {β : Type} (d i : Nat) (hd : 0 < d) (xs ys : List β) :
    decimateFrom d i (xs ++ ys) = (decimateFrom d i xs).bind fun u => (decimateFrom d (i + xs.length) ys).map (u ++ ·) := by
  induction xs generalizing i with
  | nil => simp [decimateFrom]
  | cons x xs ih =>
    simp only [List.cons_append, decimateFrom, ih, if_neg (Nat.pos_iff_ne_zero.1 hd), List.length_cons]
    rw [show i + 1 + xs.length = i + (xs.length + 1) by omega]
    split
    · cases decimateFrom d (i + 1) xs <;> simp; rfl
    · rfl

theorem decimate_period {β : Type} (d i k : Nat) (xs : List β) : decimateFrom d (i + d * k) xs = decimateFrom d i xs := by
  induction xs generalizing i with
  | nil => rfl
  | cons x xs ih =>
    simp only [decimateFrom, Nat.add_mul_mod_self_left]
    rw [show i + d * k + 1 = i + 1 + d * k by omega, ih]

theorem decimate_at {β : Type} (d : Nat) (hd : 0 < d) (xs : List β) (i : Nat) : ∃ ys, decimateFrom d i xs = some ys ∧
    ys.length = (xs.length + i % d + d - 1) / d - (if i % d = 0 then 0 else 1) ∧
    ∀ j < ys.length, ys[j]? = xs[(d - i % d) % d + j * d]? := by
  induction xs generalizing i with
  | nil =>
    refine ⟨[], rfl, ?_, by simp⟩
    have := Nat.mod_lt i hd
    simp only [List.length_nil, Nat.zero_add]
    split
    · rename_i h; rw [h, Nat.zero_add, Nat.div_eq_of_lt (by omega)]
    · rw [show i % d + d - 1 = (i % d - 1) + d by omega, Nat.add_div_right _ hd, Nat.div_eq_of_lt (by omega)]
  | cons x xs ih =>
    obtain ⟨ys, h1, h2, h3⟩ := ih (i + 1)
    have hm := Nat.mod_lt i hd
    simp only [decimateFrom, if_neg (Nat.pos_iff_ne_zero.1 hd), h1, List.length_cons]
    have hs : (i + 1) % d = if i % d + 1 = d then 0 else i % d + 1 := by
      rw [Nat.add_mod]
      split
      · rename_i h
        by_cases h1 : d = 1
        · subst h1; omega
        · rw [Nat.mod_eq_of_lt (show 1 < d by omega), h, Nat.mod_self]
      · by_cases h1 : d = 1
        · subst h1; omega
        · rw [Nat.mod_eq_of_lt (show 1 < d by omega), Nat.mod_eq_of_lt (by omega)]
    by_cases h0 : i % d = 0
    · rw [if_pos h0]
      refine ⟨x :: ys, rfl, ?_, ?_⟩
      · rw [if_pos h0, h0, List.length_cons, h2, hs, h0]
        by_cases h1 : d = 1
        · subst h1; simp
        · rw [if_neg (by omega), if_neg (by omega), show xs.length + (0 + 1) + d - 1 = xs.length + d by omega, Nat.add_div_right _ hd]
          simp
      · intro j hj
        cases j with
        | zero => simp [h0]
        | succ j =>
          have := h3 j (by simpa using hj)
          rw [hs, h0] at this
          rw [List.getElem?_cons_succ, this, h0, Nat.sub_zero, Nat.mod_self, Nat.add_mul, Nat.one_mul]
          by_cases h1 : d = 1
          · subst h1; simp
          · rw [if_neg (by omega), Nat.mod_eq_of_lt (by omega), show 0 + (j * d + d) = (d - (0 + 1) + j * d) + 1 by omega, List.getElem?_cons_succ]
    · rw [if_neg h0]
      refine ⟨ys, rfl, ?_, ?_⟩
      · rw [if_neg h0, h2, hs]
        by_cases h1 : i % d + 1 = d
        · rw [if_pos h1, if_pos rfl, show xs.length + 1 + i % d + d - 1 = (xs.length + 0 + d - 1) + d by omega, Nat.add_div_right _ hd]
          omega
        · rw [if_neg h1, if_neg (by omega)]
          congr 2; omega
      · intro j hj
        rw [h3 j hj, hs]
        by_cases h1 : i % d + 1 = d
        · rw [if_pos h1, Nat.sub_zero, Nat.mod_self, show d - i % d = 1 by omega]
          rw [Nat.mod_eq_of_lt (by omega), show 1 + j * d = 0 + j * d + 1 by omega, List.getElem?_cons_succ]
        · rw [if_neg h1, Nat.mod_eq_of_lt (show d - (i % d + 1) < d by omega), Nat.mod_eq_of_lt (show d - i % d < d by omega),
            show d - i % d + j * d = (d - (i % d + 1) + j * d) + 1 by omega, List.getElem?_cons_succ]

theorem decimate_every {β : Type} (d : Nat) (hd : 0 < d) (xs : List β) : ∃ ys, decimateFrom d 0 xs = some ys ∧ EveryNth d xs ys := by
  obtain ⟨ys, h1, h2, h3⟩ := decimate_at d hd xs 0
  refine ⟨ys, h1, ?_, ?_⟩
  · simpa using h2
  · intro j hj; simpa using h3 j hj

theorem decimateCalls_eq {β : Type} (d : Nat) (hd : 0 < d) (cs : List (List β)) (hc : ∀ c ∈ cs, d ∣ c.length) :
    decimateCalls d cs = decimateFrom d 0 cs.flatten := by
  induction cs with
  | nil => rfl
  | cons c cs ih =>
    obtain ⟨k, hk⟩ := hc c List.mem_cons_self
    rw [decimateCalls, ih (fun c h => hc c (List.mem_cons_of_mem _ h)), List.flatten_cons, decimate_append d 0 hd, hk, decimate_period]
    cases decimateFrom d 0 c <;> cases decimateFrom d 0 cs.flatten <;> simp

/-- C72, decimator: however the samples are split over calls (of whole groups of samples), the output is every `decim`-th sample of the stream. -/
theorem decimator_every_nth {β : Type} (d : Nat) (hd : 0 < d) (calls : List (List β)) (hc : ∀ c ∈ calls, d ∣ c.length) :
    ∃ ys, decimateCalls d calls = some ys ∧ EveryNth d calls.flatten ys := by
  rw [decimateCalls_eq d hd calls hc]
  exact decimate_every d hd _

theorem cascade_append (form : Form) (ss : List (Iir α)) (xs ys : List α) :
    cascadeRun form ss (xs ++ ys) = ((cascadeRun form (cascadeRun form ss xs).1 ys).1,
      (cascadeRun form ss xs).2 ++ (cascadeRun form (cascadeRun form ss xs).1 ys).2) := by
  induction xs generalizing ss with
  | nil => rfl
  | cons x xs ih => simp only [List.cons_append, cascadeRun, ih]

theorem cascade_length (form : Form) (ss : List (Iir α)) (xs : List α) : (cascadeRun form ss xs).2.length = xs.length := by
  induction xs generalizing ss with
  | nil => rfl
  | cons x xs ih => simp only [cascadeRun, List.length_cons, ih]

/-- C72, decimating filter: however the samples are split over calls, the output is every `decimate`-th value of the filtered stream. -/
theorem decimating_filter (form : Form) (d : Nat) (hd : 0 < d) (ss : List (Iir α)) (calls : List (List α)) (hc : ∀ c ∈ calls, d ∣ c.length) :
    ∃ ys, (decimatingRun form d ss calls).map (·.2) = some ys ∧ EveryNth d (cascadeRun form ss calls.flatten).2 ys := by
  have key : (decimatingRun form d ss calls).map (·.2) = decimateFrom d 0 (cascadeRun form ss calls.flatten).2 := by
    induction calls generalizing ss with
    | nil => rfl
    | cons c cs ih =>
      obtain ⟨k, hk⟩ := hc c List.mem_cons_self
      have ih := ih (cascadeRun form ss c).1 (fun c h => hc c (List.mem_cons_of_mem _ h))
      rw [List.flatten_cons, cascade_append, decimate_append d 0 hd, cascade_length, hk, decimate_period, ← ih, decimatingRun, decimatingCall]
      simp only
      cases decimateFrom d 0 (cascadeRun form ss c).2 with
      | none => rfl
      | some ys => simp [Option.map_map]; rfl
  rw [key]
  exact decimate_every d hd _

/-- Decimation by 0 divides by zero. -/
theorem decimate_zero {β : Type} (x : β) (xs : List β) : decimateFrom 0 0 (x :: xs) = none := rfl

example : decimateCalls 2 [[1, 2], [3, 4, 5, 6]] = some [1, 3, 5] := by decide

end Verif.Filter
