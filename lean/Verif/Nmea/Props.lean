import Verif.Nmea.Lemmas
/-!
# C128, C129: which lines are accepted, and what their numbers mean
-/
namespace Verif.Nmea

/-! ## C128: sentences -/

/-- A sentence sent by a receiver is accepted, whatever its payload is. -/
theorem sent_accepted (payload : List Char) (hb : ∀ c ∈ payload, c.toNat < 256) :
    validChecksum (sent payload) = true := by
  have hx := xorAll_lt payload hb
  refine (validChecksum_star payload [digit (xorAll payload / 16), digit (xorAll payload % 16)] ?_).2
    ⟨rfl, ?_⟩
  · have h1 := (digit_facts (xorAll payload / 16) (by omega)).2.1
    have h2 := (digit_facts (xorAll payload % 16) (by omega)).2.1
    simp [Ne.symm h1, Ne.symm h2]
  · rw [parseHex_two _ _ (by omega) (by omega)]
    congr 1
    omega

/-- Another payload is accepted with the same checksum only if its characters have the same exclusive
or. -/
theorem changed_payload (payload other : List Char) (hb : ∀ c ∈ payload, c.toNat < 256) :
    validChecksum (withChecksum other (xorAll payload)) = true ↔ xorAll other = xorAll payload := by
  have hx := xorAll_lt payload hb
  have h1 := (digit_facts (xorAll payload / 16) (by omega)).2.1
  have h2 := (digit_facts (xorAll payload % 16) (by omega)).2.1
  rw [withChecksum, validChecksum_star other [digit (xorAll payload / 16), digit (xorAll payload % 16)]
    (by simp [Ne.symm h1, Ne.symm h2]), parseHex_two _ _ (by omega) (by omega)]
  simp only [List.length_cons, List.length_nil, true_and, Option.some.injEq]
  omega

/-- **One wrong character in the payload is found.** -/
theorem wrong_character_rejected (a b : List Char) (c c' : Char) (hb : ∀ x ∈ a ++ c :: b, x.toNat < 256) (h : c ≠ c') :
    validChecksum (withChecksum (a ++ c' :: b) (xorAll (a ++ c :: b))) = false := by
  rw [Bool.eq_false_iff]
  intro hv
  have he := (changed_payload (a ++ c :: b) (a ++ c' :: b) hb).1 hv
  rw [xorAll_append, xorAll_append, xorAll, xorAll] at he
  have h1 : c'.toNat ^^^ xorAll b = c.toNat ^^^ xorAll b := xor_cancel he
  rw [Nat.xor_comm, Nat.xor_comm c.toNat] at h1
  have h2 : c'.toNat = c.toNat := xor_cancel h1
  exact h (Char.toNat_inj.1 h2).symm

/-- Which lines are accepted: those without a star, and those that end in a star and two characters of
which the first is a digit of the checksum. -/
theorem accepted_iff (line : List Char) : validChecksum line = true ↔
    ∃ rest, line = '$' :: rest ∧ 3 ≤ rest.length ∧
      ('*' ∉ rest ∨ ∃ payload h l, rest = payload ++ ['*', h, l] ∧ h ≠ '*' ∧ l ≠ '*' ∧
        parseHex [h, l] = some (xorAll payload)) := by
  constructor
  · intro hv
    cases line with
    | nil => simp [validChecksum] at hv
    | cons d rest =>
      by_cases hd : d = '$'
      · subst hd
        by_cases hl : rest.length < 3
        · simp [validChecksum, hl] at hv
          omega
        · refine ⟨rest, rfl, by omega, ?_⟩
          by_cases hs : '*' ∈ rest
          · obtain ⟨p, t, h1, h2⟩ := split_last_star rest hs
            subst h1
            obtain ⟨h3, h4⟩ := (validChecksum_star p t h2).1 hv
            match t, h3 with
            | [x, y], _ =>
              simp only [List.mem_cons, List.not_mem_nil, or_false, not_or] at h2
              exact .inr ⟨p, x, y, rfl, fun e => h2.1 e.symm, fun e => h2.2 e.symm, h4⟩
          · exact .inl hs
      · simp [validChecksum, hd] at hv
  · rintro ⟨rest, rfl, hl, h | ⟨p, x, y, rfl, hx, hy, he⟩⟩
    · have h' : '*' ∉ '$' :: rest := by simp [h]
      unfold validChecksum
      rw [if_neg (by simp; omega)]
      simp [lastStar, h]
    · exact (validChecksum_star p [x, y] (by simp [Ne.symm hx, Ne.symm hy])).2 ⟨rfl, he⟩

/-- A line that is not accepted changes nothing and yields nothing. -/
theorem rejected_line (p : Parser) (line : List Char) (now : Nat) (h : sentenceOf line = none) :
    p.line line now = (p, none) := by
  rw [line_eq, h]

/-- **A wrong star is not found**: if the star itself is damaged, the line counts as one without a
checksum and is accepted, whatever else is wrong in it. -/
theorem wrong_star_accepted (payload : List Char) (n : Nat) (c : Char) (hn : n < 256)
    (h : '*' ∉ payload) (hc : c ≠ '*') :
    validChecksum ('$' :: (payload ++ [c, digit (n / 16), digit (n % 16)])) = true := by
  have h1 := (digit_facts (n / 16) (by omega)).2.1
  have h2 := (digit_facts (n % 16) (by omega)).2.1
  exact (accepted_iff _).2 ⟨_, rfl, by simp, .inl (by simp [h, Ne.symm hc, Ne.symm h1, Ne.symm h2])⟩

/-- **Half a checksum is enough**: a character that is no digit may follow the first digit, and the
checksum is then below 16. -/
theorem half_checksum_accepted (payload : List Char) (d : Char) (hx : xorAll payload < 16) (hd : hexDigit d = none)
    (hs : d ≠ '*') : validChecksum ('$' :: (payload ++ ['*', digit (xorAll payload), d])) = true := by
  have h1 := digit_facts (xorAll payload) hx
  refine (accepted_iff _).2 ⟨_, rfl, by simp, .inr ⟨payload, _, d, rfl, h1.2.1, hs, ?_⟩⟩
  simp only [parseHex, h1.1, hd]

/-- Such a line. -/
example : validChecksum "$PQ*1?".toList = true ∧ xorAll "PQ".toList = 1 ∧ hexDigit '?' = none := by decide

/-- A sentence of a receiver, and the same with one wrong character. -/
example : sent "GPGGA,123519,4807.038,N,01131.000,E,1,08,0.9,545.4,M,46.9,M,,".toList =
    "$GPGGA,123519,4807.038,N,01131.000,E,1,08,0.9,545.4,M,46.9,M,,*47".toList ∧
    validChecksum "$GPGGA,123519,4807.038,N,01131.000,E,1,08,0.9,545.4,M,46.9,M,,*47".toList = true ∧
    validChecksum "$GPGGA,123519,4807.038,N,01131.000,E,1,07,0.9,545.4,M,46.9,M,,*47".toList = false := by
  decide +kernel

/-- The fields of a line, put together again, are the line, and no field has a comma in it. -/
theorem fields_exact (line : List Char) :
    joinFields (splitFields line) = line ∧ (∀ f ∈ splitFields line, ',' ∉ f) ∧ splitFields line ≠ [] := by
  induction line with
  | nil => simp [splitFields, joinFields]
  | cons c cs ih =>
    obtain ⟨h1, h2, h3⟩ := ih
    unfold splitFields
    by_cases hc : c = ','
    · rw [if_pos hc]
      refine ⟨?_, ?_, by simp⟩
      · cases hs : splitFields cs with
        | nil => exact absurd hs h3
        | cons f fs =>
          rw [hs] at h1
          simp [joinFields, h1, hc]
      · intro f hf
        rcases List.mem_cons.1 hf with e | e
        · rw [e]; simp
        · exact h2 f e
    · rw [if_neg hc]
      cases hs : splitFields cs with
      | nil => exact absurd hs h3
      | cons f fs =>
        rw [hs] at h1 h2
        refine ⟨?_, ?_, by simp⟩
        · cases fs with
          | nil => simpa [joinFields] using h1
          | cons g gs => simpa [joinFields] using h1
        · intro g hg
          rcases List.mem_cons.1 hg with e | e
          · rw [e]
            simp only [List.mem_cons, not_or]
            exact ⟨fun x => hc x.symm, h2 f (List.mem_cons_self ..)⟩
          · exact h2 g (List.mem_cons_of_mem _ e)

/-! ## C129: times and places -/

theorem monthLength_eq (y : Int) (m : Nat) (h1 : 1 ≤ m) (h2 : m ≤ 12) : monthLength y m = monthDays y m := by
  have hl : isLeap y = true ↔ 4 ∣ y ∧ (¬ 100 ∣ y ∨ 400 ∣ y) := by
    simp only [isLeap, Bool.or_eq_true, Bool.and_eq_true, beq_iff_eq, bne_iff_ne, ne_eq]
    omega
  unfold monthLength monthDays
  split <;> simp_all
  all_goals omega

/-- The first day of 1970 is day 0. -/
theorem epoch : sysDays 1970 1 1 = some 0 := by decide

/-- **Days are counted as in the calendar**: the day after has the next number. Together with `epoch`
this says which number every day has. -/
theorem calendar (y : Int) (m d : Nat) (h : isDate y m d) :
    ∃ n, sysDays y m d = some n ∧
      sysDays (tomorrow y m d).1 (tomorrow y m d).2.1 (tomorrow y m d).2.2 = some (n + 1) := by
  obtain ⟨h1, h2, h3, h4⟩ := h
  have hle : monthDays y m ≤ 31 := by unfold monthDays; split; omega; split; split <;> omega; omega
  refine ⟨daysBeforeYear y + daysBeforeMonth y m + (d - 1), ?_, ?_⟩
  · rw [sysDays, if_neg (by omega)]
    simp
  · unfold tomorrow
    split
    · rename_i hd
      simp only
      rw [sysDays, if_neg (by omega)]
      simp only [Int.toNat_natCast, Option.some.injEq]
      omega
    · rename_i hd
      have hdm : d = monthDays y m := by omega
      split
      · rename_i hm
        simp only
        rw [sysDays, if_neg (by omega)]
        obtain ⟨k, rfl⟩ : ∃ k, m = k + 1 := ⟨m - 1, by omega⟩
        have hb : daysBeforeMonth y (k + 2) = daysBeforeMonth y (k + 1) + monthLength y (k + 1) := rfl
        simp only [Int.toNat_natCast, Option.some.injEq]
        rw [hb, monthLength_eq y (k + 1) h1 h2, ← hdm]
        omega
      · have hm : m = 12 := by omega
        subst hm
        simp only
        rw [sysDays, if_neg (by omega)]
        have hd31 : d = 31 := by rw [hdm]; rfl
        have hb12 : daysBeforeMonth y 12 = 306 + monthLength y 2 := by
          simp only [daysBeforeMonth, monthLength]; omega
        have hb1 : daysBeforeMonth (y + 1) (Int.toNat ((1 : Nat) : Int)) = 0 := rfl
        have hl2 := monthLength_eq y 2 (by omega) (by omega)
        have hm2 : monthDays y 2 = if 4 ∣ y ∧ (¬ 100 ∣ y ∨ 400 ∣ y) then 29 else 28 := rfl
        simp only [Option.some.injEq]
        rw [hb12, hb1, hl2, hm2, hd31]
        unfold daysBeforeYear
        split <;> omega

/-- **The time of a sentence**: hours, minutes, seconds, day, month and the last two digits of the year
give the nanoseconds since the first day of 1970, in the years from 2000 to 2099. -/
theorem utc_exact (h m s d mo yy : Nat) (hh : h < 100) (hm : m < 100) (hs : s < 100) (hy : yy < 100)
    (hmo : mo < 100) (hd : isDate (2000 + yy) mo d) :
    ∃ n, sysDays (2000 + yy) mo d = some n ∧
      toUtc (two h ++ two m ++ two s) (two d ++ two mo ++ two yy) =
        some ((n * 86400 + h * 3600 + m * 60 + s) * 1000000000) := by
  obtain ⟨n, hn, -⟩ := calendar (2000 + yy) mo d hd
  obtain ⟨-, -, -, hd4⟩ := hd
  have hle : monthDays (2000 + yy) mo ≤ 31 := by unfold monthDays; split; omega; split; split <;> omega; omega
  refine ⟨n, hn, ?_⟩
  have hp2 : ∀ a b c : Nat, ((two a ++ two b ++ two c).take 2 = two a) ∧
      (((two a ++ two b ++ two c).drop 2).take 2 = two b) ∧ (((two a ++ two b ++ two c).drop 4).take 2 = two c) ∧
      (two a ++ two b ++ two c).length = 6 ∧ (two a ++ two b ++ two c)[6]? = none := fun a b c => ⟨rfl, rfl, rfl, rfl, rfl⟩
  obtain ⟨t1, t2, t3, t4, t5⟩ := hp2 h m s
  obtain ⟨d1, d2, d3, d4, -⟩ := hp2 d mo yy
  simp only [toUtc, t1, t2, t3, t4, t5, d1, d2, d3, d4, parseInt_two h hh, parseInt_two m hm, parseInt_two s hs,
    parseInt_two d (by omega), parseInt_two mo hmo, parseInt_two yy hy, if_true]
  rw [if_neg (by omega), hn]
  simp only [reduceCtorEq, if_false, Option.map_some, nanos, Option.some.injEq]
  omega

/-- A fraction of a second is added, up to whole nanoseconds. -/
theorem utc_fraction (h m s : Nat) (date : List Char) (fs : List Nat)
    (hf : ∀ f ∈ fs, f < 10) (hne : fs ≠ []) :
    toUtc (two h ++ two m ++ two s ++ '.' :: decimals fs) date =
      (toUtc (two h ++ two m ++ two s) date).map (· + ((valueOf fs * 1000000000 / 10 ^ fs.length : Nat) : Int)) := by
  have hfr := parseDec_decimals [] fs nofun hf (by simpa using hne)
  rw [List.nil_append, show decimals [] ++ '.' :: decimals fs = '.' :: decimals fs from rfl] at hfr
  have hfl : ((valueOf fs : Rat) / (10 ^ fs.length : Nat) * (nanos : Nat)).floor
      = ((valueOf fs * 1000000000 / 10 ^ fs.length : Nat) : Int) := by
    have hp : 0 < 10 ^ fs.length := Nat.pow_pos (by omega)
    generalize 10 ^ fs.length = q at hp ⊢
    have hN : (nanos : Nat) = 1000000000 := rfl
    rw [hN]
    generalize 1000000000 = N
    generalize valueOf fs = v
    have hq : ((q : Nat) : Rat) ≠ 0 := fun hz => by
      have := Rat.natCast_eq_zero_iff.1 hz
      omega
    have e : (v : Rat) / (q : Nat) * (N : Nat) = ((v * N : Nat) : Rat) / (q : Rat) := by
      rw [Rat.natCast_mul]
      grind
    rw [e, floor_div _ _ hp]
  have hsame : ∀ (t : List Char), toUtc (two h ++ two m ++ two s ++ t) date =
      (toUtc (two h ++ two m ++ two s) date).map
        (· + (if t.head? = some '.' then (parseDec t * nanos).floor else 0)) := by
    intro t
    have hl : ¬ (two h ++ two m ++ two s ++ t).length < 6 := by simp [two]
    have h6 : (two h ++ two m ++ two s ++ t)[6]? = t.head? := by
      rw [List.head?_eq_getElem?]; rfl
    have hd6 : (two h ++ two m ++ two s ++ t).drop 6 = t := rfl
    unfold toUtc
    rw [if_neg hl, if_neg (show ¬ (two h ++ two m ++ two s).length < 6 by simp [two])]
    dsimp only
    rw [h6, hd6]
    have e1 : (two h ++ two m ++ two s ++ t).take 2 = (two h ++ two m ++ two s).take 2 := rfl
    have e2 : ((two h ++ two m ++ two s ++ t).drop 2).take 2 = ((two h ++ two m ++ two s).drop 2).take 2 := rfl
    have e3 : ((two h ++ two m ++ two s ++ t).drop 4).take 2 = ((two h ++ two m ++ two s).drop 4).take 2 := rfl
    rw [e1, e2, e3, Option.map_map, if_neg (show ¬ (two h ++ two m ++ two s)[6]? = some '.' by simp [two])]
    congr 1
    funext n
    simp only [Function.comp, Int.add_zero]
  rw [hsame, List.head?_cons, if_pos rfl, hfr, hfl]

/-- **A place**: degrees and minutes. -/
theorem coord_exact (deg mins : Nat) (fs : List Nat) (hm : mins < 100) (hf : ∀ f ∈ fs, f < 10) (hemi : List Char) :
    (deg < 100 → parseCoord (two deg ++ two mins ++ '.' :: decimals fs) hemi =
      (if hemi = ['S'] ∨ hemi = ['W'] then -1 else 1) *
        ((deg : Rat) + ((mins : Rat) + (valueOf fs : Rat) / (10 ^ fs.length : Nat)) / 60)) ∧
    (deg < 1000 → parseCoord (three deg ++ two mins ++ '.' :: decimals fs) hemi =
      (if hemi = ['S'] ∨ hemi = ['W'] then -1 else 1) *
        ((deg : Rat) + ((mins : Rat) + (valueOf fs : Rat) / (10 ^ fs.length : Nat)) / 60)) := by
  have hdd : ∀ n, n < 10 → digit n ≠ '.' := fun n hn => ((digit_facts n (by omega)).2.2 hn).2.2.1
  have hmin : parseDec (two mins ++ '.' :: decimals fs) = (mins : Rat) + (valueOf fs : Rat) / (10 ^ fs.length : Nat) := by
    rw [show two mins = decimals [mins / 10, mins % 10] from rfl,
      parseDec_decimals _ fs (by simp; omega) hf (by simp)]
    have hv : valueOf ([mins / 10, mins % 10] ++ fs) = mins * 10 ^ fs.length + valueOf fs := by
      simp only [List.cons_append, List.nil_append, valueOf, List.length_cons, Nat.pow_succ]
      have := Nat.div_add_mod mins 10
      generalize 10 ^ fs.length = q
      generalize mins / 10 = a at *
      generalize mins % 10 = b at *
      subst this
      grind
    rw [hv]
    have hq : ((10 ^ fs.length : Nat) : Rat) ≠ 0 := by
      intro hz
      have := Rat.natCast_eq_zero_iff.1 hz
      exact absurd this (by have := Nat.pow_pos (n := fs.length) (show 0 < 10 by omega); omega)
    generalize 10 ^ fs.length = q at hq ⊢
    simp only [Rat.natCast_add, Rat.natCast_mul]
    grind
  constructor
  · intro hd
    have hi : (two deg ++ two mins ++ '.' :: decimals fs).idxOf '.' = 4 := by
      have a1 := hdd (deg / 10) (by omega)
      have a2 := hdd (deg % 10) (by omega)
      have a3 := hdd (mins / 10) (by omega)
      have a4 := hdd (mins % 10) (by omega)
      simp [two, List.idxOf_cons, beq_eq_false_iff_ne.2 a1, beq_eq_false_iff_ne.2 a2, beq_eq_false_iff_ne.2 a3,
        beq_eq_false_iff_ne.2 a4]
    have hmem : '.' ∈ two deg ++ two mins ++ '.' :: decimals fs := by simp
    unfold parseCoord
    rw [if_neg (by rw [hi]; simp [hmem])]
    dsimp only
    rw [hi, show (if 4 < 4 then 3 else 2) = 2 from rfl]
    have e1 : (two deg ++ two mins ++ '.' :: decimals fs).take 2 = two deg := rfl
    have e2 : (two deg ++ two mins ++ '.' :: decimals fs).drop 2 = two mins ++ '.' :: decimals fs := rfl
    rw [e1, e2, hmin, parseInt_two deg hd]
    simp only [Rat.intCast_natCast]
    split <;> grind
  · intro hd
    have hi : (three deg ++ two mins ++ '.' :: decimals fs).idxOf '.' = 5 := by
      have a0 := hdd (deg / 100) (by omega)
      have a1 := hdd (deg / 10 % 10) (by omega)
      have a2 := hdd (deg % 10) (by omega)
      have a3 := hdd (mins / 10) (by omega)
      have a4 := hdd (mins % 10) (by omega)
      simp [two, three, List.idxOf_cons, beq_eq_false_iff_ne.2 a0, beq_eq_false_iff_ne.2 a1,
        beq_eq_false_iff_ne.2 a2, beq_eq_false_iff_ne.2 a3, beq_eq_false_iff_ne.2 a4]
    have hmem : '.' ∈ three deg ++ two mins ++ '.' :: decimals fs := by simp
    unfold parseCoord
    rw [if_neg (by rw [hi]; simp [hmem])]
    dsimp only
    rw [hi, show (if 4 < 5 then 3 else 2) = 3 from rfl]
    have e1 : (three deg ++ two mins ++ '.' :: decimals fs).take 3 = three deg := rfl
    have e2 : (three deg ++ two mins ++ '.' :: decimals fs).drop 3 = two mins ++ '.' :: decimals fs := rfl
    rw [e1, e2, hmin, parseInt_three deg hd]
    simp only [Rat.intCast_natCast]
    split <;> grind

/-- A place given in whole minutes, without a point, is read as 0. -/
theorem coord_without_point (deg mins : Nat) (hm : mins < 100) (hd : deg < 100) (hemi : List Char) :
    parseCoord (two deg ++ two mins) hemi = 0 := by
  have hdd : ∀ n, n < 10 → '.' ≠ digit n := fun n hn => Ne.symm ((digit_facts n (by omega)).2.2 hn).2.2.1
  unfold parseCoord
  rw [if_pos (.inr (.inl (by
    simp [two, hdd (deg / 10) (by omega), hdd (deg % 10) (by omega), hdd (mins / 10) (by omega), hdd (mins % 10) (by omega)])))]

/-- Dates and times that meet the hypotheses. -/
example : isDate 2024 2 29 ∧ ¬ isDate 2023 2 29 ∧ ¬ isDate 2100 2 29 ∧
    toUtc "235960.5".toList "290224".toList = some 1709251200500000000 := by
  refine ⟨?_, ?_, ?_, by decide +kernel⟩ <;> simp [isDate, monthDays] <;> decide

/-- A place in the west. -/
example : parseCoord "12311.12".toList ['W'] = -(123 + (1112 / 100) / 60) := by decide +kernel

end Verif.Nmea
