import Verif.Nmea.StreamProps
/-!
# C129, C130: single fields, and the time of fixes without a valid RMC sentence
-/
namespace Verif.Nmea

/-- **An integer field is read up to its first character that is no digit**; numbers outside 32 bits count as 0. -/
theorem int_field (ds : List Nat) (h : ∀ d ∈ ds, d < 10) (hne : ds ≠ []) (rest : List Char)
    (hr : ∀ c ∈ rest.head?, c.isDigit = false) :
    parseInt (decimals ds ++ rest) = (if valueOf ds ≤ 2147483647 then (valueOf ds : Int) else 0) ∧
    parseInt ('-' :: (decimals ds ++ rest)) = (if valueOf ds ≤ 2147483648 then -(valueOf ds : Int) else 0) := by
  obtain ⟨ht, -⟩ := takeWhile_decimals ds h rest hr
  have hh := head_decimals ds h hne rest
  have hn : decimals ds ≠ [] := by cases ds; exact absurd rfl hne; simp [decimals]
  constructor
  · simp only [parseInt, hh, Bool.false_eq_true, if_false, ht, if_neg hn, digitsValue_decimals ds h]
    split <;> split <;> omega
  · have h1 : (('-' :: (decimals ds ++ rest)).head? == some '-') = true := by simp
    simp only [parseInt, h1, if_true, List.drop_one, List.tail_cons, ht, if_neg hn, digitsValue_decimals ds h]
    split <;> split <;> omega

example : parseInt "-12*".toList = -12 := by decide

/-- **A field with a minus sign has the negative value.** -/
theorem negative_field (ds fs : List Nat) (hd : ∀ d ∈ ds, d < 10) (hf : ∀ d ∈ fs, d < 10) (hne : ds ++ fs ≠ []) :
    parseDec ('-' :: (decimals ds ++ '.' :: decimals fs)) = -parseDec (decimals ds ++ '.' :: decimals fs) := by
  have hh : ((decimals ds ++ '.' :: decimals fs).head? == some '-') = false := by
    cases ds with
    | nil => rfl
    | cons d ds => exact head_decimals (d :: ds) hd (by simp) _
  have h1 : (('-' :: (decimals ds ++ '.' :: decimals fs)).head? == some '-') = true := by simp
  simp only [parseDec, hh, h1, if_true, Bool.false_eq_true, if_false, List.drop_one, List.tail_cons]
  split <;> split <;> simp_all

example : parseDec "-12.5".toList = -25 / 2 := by decide +kernel

/-- **The hexadecimal digits** are these, in capital and small letters. -/
theorem hex_digits (c : Char) (n : Nat) : hexDigit c = some n ↔
    n < 16 ∧ ("0123456789ABCDEF".toList[n]? = some c ∨ "0123456789abcdef".toList[n]? = some c) := by
  have key : ∀ k, k < 128 → ∀ n, n < 16 → (hexDigit (Char.ofNat k) = some n ↔
      ("0123456789ABCDEF".toList[n]? = some (Char.ofNat k) ∨ "0123456789abcdef".toList[n]? = some (Char.ofNat k))) := by
    decide +kernel
  have big : ∀ k, k < 128 → ∀ m, hexDigit (Char.ofNat k) = some m → m < 16 := by
    have : ∀ k, k < 128 → (hexDigit (Char.ofNat k)).all (· < 16) = true := by decide +kernel
    intro k hk m hm
    have := this k hk
    rw [hm] at this
    simpa using this
  have hc : Char.ofNat c.toNat = c := Char.ofNat_toNat c
  by_cases hs : c.toNat < 128
  · constructor
    · intro h
      rw [← hc] at h ⊢
      have hn := big _ hs n h
      exact ⟨hn, (key _ hs n hn).1 h⟩
    · rintro ⟨hn, h⟩
      rw [← hc] at h ⊢
      exact (key _ hs n hn).2 h
  · constructor
    · intro h
      exfalso
      simp only [hexDigit, Char.isDigit, Char.le_def, UInt32.le_iff_toNat_le] at h
      have h1 : c.val.toNat = c.toNat := rfl
      rw [h1] at h
      split at h
      · rename_i hd
        simp only [Bool.and_eq_true, decide_eq_true_eq, ge_iff_le, UInt32.le_iff_toNat_le] at hd
        have e : ('9' : Char).val.toNat = 57 := rfl
        rw [e] at hd
        omega
      · split at h
        · rename_i hd
          have e : ('F' : Char).val.toNat = 70 := rfl
          rw [e] at hd
          omega
        · split at h
          · rename_i hd
            have e : ('f' : Char).val.toNat = 102 := rfl
            rw [e] at hd
            omega
          · cases h
    · rintro ⟨hn, h⟩
      exfalso
      have small : ∀ n, n < 16 → ("0123456789ABCDEF".toList[n]?.all (·.toNat < 128)) = true ∧ ("0123456789abcdef".toList[n]?.all (·.toNat < 128)) = true := by decide
      obtain ⟨s1, s2⟩ := small n hn
      cases h with
      | inl h => rw [h] at s1; simp at s1; exact hs s1
      | inr h => rw [h] at s2; simp at s2; exact hs s2

/-- **The last complete fix is the one last returned**: a line which completes a fix stores it, any other leaves the stored one. -/
theorem complete_is_last (p : Parser) (l : List Char) (now : Nat) :
    (p.line l now).1.complete = ((p.line l now).2).getD p.complete := by
  have hb : ∀ (p : Parser) (t : List Char), (p.boundary t now).1.complete = ((p.boundary t now).2).getD p.complete := by
    intro p t
    unfold Parser.boundary
    split
    · rfl
    · dsimp only
      split <;> rfl
  rw [line_eq]
  cases hso : sentenceOf l with
  | none => rfl
  | some x =>
    obtain ⟨id, f⟩ := x
    dsimp only
    split
    · unfold Parser.rmc
      split
      · rfl
      · have := hb p (field f 1)
        generalize p.boundary (field f 1) now = b at this
        obtain ⟨q, fix⟩ := b
        simp only at this ⊢
        rw [← this]
        split <;> rfl
    · split
      · unfold Parser.gga
        split
        · rfl
        · have := hb p (field f 1)
          generalize p.boundary (field f 1) now = b at this
          obtain ⟨q, fix⟩ := b
          simp only at this ⊢
          rw [← this]
      · split
        · unfold Parser.vtg; split <;> rfl
        · split
          · unfold Parser.gsa; split <;> rfl
          · rfl

/-- `boundary` leaves the date. -/
theorem boundary_date (p : Parser) (t : List Char) (now : Nat) : (p.boundary t now).1.lastDate = p.lastDate := by
  unfold Parser.boundary
  split
  · rfl
  · dsimp only
    split <;> rfl

/-- **An RMC sentence without a valid position still sets the time**, with its own date if it has one and the last known one
otherwise, if it has a time. -/
theorem rmc_void (p : Parser) (l : List Char) (now : Nat) (f : List (List Char)) (hf : rmcOf l = some f) (hV : field f 2 ≠ ['A']) :
    (p.line l now).1.pending.utc = toUtc (field f 1) (if (field f 9).length = 6 then field f 9 else p.lastDate) ∧
      (p.line l now).1.pending.hasTime = decide (field f 1 ≠ []) := by
  rw [line_eq]
  unfold rmcOf at hf
  split at hf
  · rename_i id f' hso
    split at hf
    · rename_i hc
      cases hf
      rw [hso]
      dsimp only
      have hd := boundary_date p (field f 1) now
      rw [if_pos hc.1, Parser.rmc, if_neg (by omega)]
      generalize p.boundary (field f 1) now = b at hd
      obtain ⟨q, fix⟩ := b
      simp only at hd ⊢
      rw [if_neg hV]
      split <;> simp [hd]
    · cases hf
  · cases hf

/-- **A GGA sentence sets the time, with the last known date, if the second has none yet.** -/
theorem gga_time (p : Parser) (l : List Char) (now : Nat) (f : List (List Char)) (hf : ggaOf l = some f) (ht : field f 1 ≠ [])
    (hp : (p.boundary (field f 1) now).1.pending.hasTime = false) :
    (p.line l now).1.pending.utc = toUtc (field f 1) p.lastDate ∧ (p.line l now).1.pending.hasTime = true := by
  rw [line_eq]
  unfold ggaOf at hf
  split at hf
  · rename_i id f' hso
    split at hf
    · rename_i hc
      cases hf
      rw [hso]
      dsimp only
      have hd := boundary_date p (field f 1) now
      rw [if_neg (by rw [hc.1]; decide), if_pos hc.1, Parser.gga, if_neg (by omega)]
      generalize p.boundary (field f 1) now = b at hd hp
      obtain ⟨q, fix⟩ := b
      simp only at hd hp ⊢
      split
      · simp [ht, hd, hp]
      · simp [ht, hd, hp]
    · cases hf
  · cases hf

/-- A new parser has no time, so the first GGA sentence sets it. -/
example : (({} : Parser).boundary "123519".toList 1).1.pending.hasTime = false := by decide

end Verif.Nmea
