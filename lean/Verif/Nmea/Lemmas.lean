import Verif.Nmea.Spec
/-!
# Helper lemmas for the sentence reader
-/
namespace Verif.Nmea

theorem lastStar_append (a b : List Char) (h : '*' ∉ b) : lastStar (a ++ '*' :: b) = some a.length := by
  have hm : '*' ∈ a ++ '*' :: b := by simp
  unfold lastStar
  rw [if_pos hm]
  have hr : (a ++ '*' :: b).reverse = b.reverse ++ '*' :: a.reverse := by simp
  have hi : (b.reverse ++ '*' :: a.reverse).idxOf '*' = b.length := by
    rw [List.idxOf_append, if_neg (by simpa using h)]
    simp
  rw [hr, hi]
  simp

theorem checksum_eq (l : List Char) : checksum l = xorAll l := by
  have key : ∀ (l : List Char) (a : Nat), l.foldl (fun cs c => cs ^^^ c.toNat) a = a ^^^ xorAll l := by
    intro l
    induction l with
    | nil => intro a; simp [xorAll]
    | cons c cs ih => intro a; rw [List.foldl_cons, ih, xorAll, Nat.xor_assoc]
  rw [checksum, key, Nat.zero_xor]

theorem xorAll_append (a b : List Char) : xorAll (a ++ b) = xorAll a ^^^ xorAll b := by
  induction a with
  | nil => simp [xorAll]
  | cons c cs ih => rw [List.cons_append, xorAll, xorAll, ih, Nat.xor_assoc]

theorem xor_cancel {a b c : Nat} (h : a ^^^ b = a ^^^ c) : b = c := by
  have h' := congrArg (a ^^^ ·) h
  simpa only [← Nat.xor_assoc, Nat.xor_self, Nat.zero_xor] using h'

theorem xorAll_lt (l : List Char) (h : ∀ c ∈ l, c.toNat < 256) : xorAll l < 256 := by
  induction l with
  | nil => simp [xorAll]
  | cons c cs ih =>
    exact Nat.xor_lt_two_pow (n := 8) (h c (List.mem_cons_self ..)) (ih fun d hd => h d (List.mem_cons_of_mem _ hd))

theorem digit_facts : ∀ n, n < 16 → hexDigit (digit n) = some n ∧ digit n ≠ '*' ∧
    (n < 10 → (digit n).isDigit = true ∧ (digit n).toNat - '0'.toNat = n ∧ digit n ≠ '.' ∧ digit n ≠ '-') := by
  decide

theorem parseHex_two (a b : Nat) (ha : a < 16) (hb : b < 16) : parseHex [digit a, digit b] = some (a * 16 + b) := by
  simp only [parseHex, (digit_facts a ha).1, (digit_facts b hb).1]

/-- The checksum test of a line whose last star is followed by `tail`. -/
theorem validChecksum_star (payload tail : List Char) (h : '*' ∉ tail) :
    validChecksum ('$' :: (payload ++ '*' :: tail)) = true ↔
      tail.length = 2 ∧ parseHex tail = some (xorAll payload) := by
  have hs : lastStar ('$' :: (payload ++ '*' :: tail)) = some (payload.length + 1) := by
    have := lastStar_append ('$' :: payload) tail h
    simpa using this
  have hd : ('$' :: (payload ++ '*' :: tail)).drop (payload.length + 1 + 1) = tail := by
    rw [List.drop_succ_cons, List.drop_append, List.drop_of_length_le (by omega), List.nil_append,
      show payload.length + 1 - payload.length = 1 by omega]
    rfl
  have ht : (('$' :: (payload ++ '*' :: tail)).drop 1).take (payload.length + 1 - 1) = payload := by
    rw [List.drop_succ_cons, List.drop_zero, Nat.add_sub_cancel, List.take_left]
  have hl : ('$' :: (payload ++ '*' :: tail)).length = payload.length + tail.length + 2 := by
    simp; omega
  unfold validChecksum
  by_cases h2 : tail.length = 2
  · rw [if_neg (by rw [hl]; simp; omega), hs]
    simp only
    rw [if_neg (by rw [hl]; omega), hd, ht, checksum_eq]
    simp [h2]
  · by_cases h4 : ('$' :: (payload ++ '*' :: tail)).length < 4
    · rw [if_pos (.inl h4)]; simp [h2]
    · rw [if_neg (by simp only [not_or]; exact ⟨h4, by simp⟩), hs]
      simp only
      rw [if_pos (by rw [hl]; omega)]
      simp [h2]

/-- A line with a star is split at the last one. -/
theorem split_last_star (l : List Char) (h : '*' ∈ l) : ∃ a b, l = a ++ '*' :: b ∧ '*' ∉ b := by
  induction l with
  | nil => cases h
  | cons c cs ih =>
    by_cases hc : '*' ∈ cs
    · obtain ⟨a, b, h1, h2⟩ := ih hc
      exact ⟨c :: a, b, by rw [h1]; rfl, h2⟩
    · rcases List.mem_cons.1 h with h | h
      · exact ⟨[], cs, by rw [h]; rfl, hc⟩
      · exact absurd h hc

/-! ## Numbers -/

theorem digitsValue_append (a b : List Char) :
    digitsValue (a ++ b) = digitsValue a * 10 ^ b.length + digitsValue b := by
  have key : ∀ (b : List Char) (n : Nat), b.foldl (fun a d => a * 10 + (d.toNat - '0'.toNat)) n = n * 10 ^ b.length + digitsValue b := by
    intro b
    induction b with
    | nil => intro n; simp [digitsValue]
    | cons d ds ih =>
      intro n
      rw [digitsValue, List.foldl_cons, List.foldl_cons, ih, ih (0 * 10 + _), List.length_cons, Nat.pow_succ]
      grind
  rw [digitsValue, List.foldl_append, key]
  rfl

theorem digitsValue_decimals (ds : List Nat) (h : ∀ d ∈ ds, d < 10) : digitsValue (decimals ds) = valueOf ds := by
  induction ds with
  | nil => rfl
  | cons d ds ih =>
    have hd := h d (List.mem_cons_self ..)
    have h1 : decimals (d :: ds) = [digit d] ++ decimals ds := rfl
    have h2 : digitsValue [digit d] = d := by
      simp only [digitsValue, List.foldl_cons, List.foldl_nil, ((digit_facts d (by omega)).2.2 hd).2.1]
      omega
    rw [h1, digitsValue_append, h2, ih fun x hx => h x (List.mem_cons_of_mem _ hx), valueOf]
    simp [decimals]

theorem takeWhile_decimals (ds : List Nat) (h : ∀ d ∈ ds, d < 10) (rest : List Char)
    (hr : ∀ c, rest.head? = some c → c.isDigit = false) :
    (decimals ds ++ rest).takeWhile Char.isDigit = decimals ds ∧ (decimals ds ++ rest).dropWhile Char.isDigit = rest := by
  induction ds with
  | nil =>
    cases rest with
    | nil => exact ⟨rfl, rfl⟩
    | cons c cs =>
      have := hr c rfl
      simp [decimals, List.takeWhile, List.dropWhile, this]
  | cons d ds ih =>
    have hd := ((digit_facts d (by have := h d (List.mem_cons_self ..); omega)).2.2 (h d (List.mem_cons_self ..))).1
    obtain ⟨h1, h2⟩ := ih fun x hx => h x (List.mem_cons_of_mem _ hx)
    have hc : decimals (d :: ds) ++ rest = digit d :: (decimals ds ++ rest) := rfl
    rw [hc, List.takeWhile_cons_of_pos hd, List.dropWhile_cons_of_pos hd, h1, h2]
    exact ⟨rfl, rfl⟩

theorem head_decimals (ds : List Nat) (h : ∀ d ∈ ds, d < 10) (hne : ds ≠ []) (rest : List Char) :
    ((decimals ds ++ rest).head? == some '-') = false := by
  cases ds with
  | nil => exact absurd rfl hne
  | cons d ds =>
    have := ((digit_facts d (by have := h d (List.mem_cons_self ..); omega)).2.2 (h d (List.mem_cons_self ..))).2.2.2
    simp [decimals, this]

theorem parseInt_decimals (ds : List Nat) (h : ∀ d ∈ ds, d < 10) (hne : ds ≠ []) (hv : valueOf ds ≤ 2147483647) :
    parseInt (decimals ds) = valueOf ds := by
  have hh := head_decimals ds h hne []
  rw [List.append_nil] at hh
  obtain ⟨ht, -⟩ := takeWhile_decimals ds h [] nofun
  rw [List.append_nil] at ht
  have hn : decimals ds ≠ [] := by cases ds; exact absurd rfl hne; simp [decimals]
  simp only [parseInt, hh, Bool.false_eq_true, if_false, ht, if_neg hn, digitsValue_decimals ds h]
  rw [if_neg (by omega)]

theorem parseInt_two (n : Nat) (h : n < 100) : parseInt (two n) = n := by
  have := parseInt_decimals [n / 10, n % 10] (by simp; omega) (by simp) (by simp [valueOf]; omega)
  rw [show two n = decimals [n / 10, n % 10] from rfl, this]
  simp only [valueOf, List.length_cons, List.length_nil]
  omega

theorem parseInt_three (n : Nat) (h : n < 1000) : parseInt (three n) = n := by
  have := parseInt_decimals [n / 100, n / 10 % 10, n % 10] (by simp; omega) (by simp) (by simp [valueOf]; omega)
  rw [show three n = decimals [n / 100, n / 10 % 10, n % 10] from rfl, this]
  simp only [valueOf, List.length_cons, List.length_nil]
  omega

theorem not_digit_dot : ('.' : Char).isDigit = false := by decide

/-- A number with a point. -/
theorem parseDec_decimals (ds fs : List Nat) (hd : ∀ d ∈ ds, d < 10) (hf : ∀ d ∈ fs, d < 10) (hne : ds ++ fs ≠ []) :
    parseDec (decimals ds ++ '.' :: decimals fs) = (valueOf (ds ++ fs) : Rat) / (10 ^ fs.length : Nat) := by
  obtain ⟨h1, h2⟩ := takeWhile_decimals ds hd ('.' :: decimals fs) (by
    intro c hc; cases hc; exact not_digit_dot)
  obtain ⟨h3, -⟩ := takeWhile_decimals fs hf [] nofun
  rw [List.append_nil] at h3
  have hh : ((decimals ds ++ '.' :: decimals fs).head? == some '-') = false := by
    cases ds with
    | nil => rfl
    | cons d ds => exact head_decimals (d :: ds) hd (by simp) _
  have happ : decimals ds ++ decimals fs = decimals (ds ++ fs) := by simp [decimals]
  have hn : decimals (ds ++ fs) ≠ [] := by
    intro h
    exact hne (by simpa [decimals] using h)
  have hv := digitsValue_decimals (ds ++ fs) (by
    intro d hm
    rcases List.mem_append.1 hm with h | h
    · exact hd d h
    · exact hf d h)
  have hl : (decimals fs).length = fs.length := by simp [decimals]
  simp only [parseDec, hh, Bool.false_eq_true, if_false, h1, h2, List.head?_cons, beq_self_eq_true, if_true,
    List.drop_succ_cons, List.drop_zero, h3, happ, if_neg hn, hv, hl]

theorem floor_div (v q : Nat) (hq : 0 < q) : ((v : Rat) / (q : Rat)).floor = ((v / q : Nat) : Int) := by
  have hq' : (0 : Rat) < q := Rat.natCast_pos.2 hq
  have h1 : ((v / q : Nat) : Int) ≤ ((v : Rat) / (q : Rat)).floor := by
    rw [Rat.le_floor_iff, ← Rat.not_lt, Rat.div_lt_iff hq', Rat.intCast_natCast, ← Rat.natCast_mul,
      Rat.natCast_lt_natCast]
    have := Nat.div_mul_le_self v q
    omega
  have h2 : ((v : Rat) / (q : Rat)).floor < ((v / q : Nat) : Int) + 1 := by
    rw [Rat.floor_lt_iff, Rat.div_lt_iff hq', show ((v / q : Nat) : Int) + 1 = ((v / q + 1 : Nat) : Int) from rfl,
      Rat.intCast_natCast, ← Rat.natCast_mul, Rat.natCast_lt_natCast, Nat.mul_comm]
    exact Nat.lt_mul_div_succ v hq
  omega

/-- What a line does, by its sentence. -/
theorem line_eq (p : Parser) (line : List Char) (now : Nat) : p.line line now =
    match sentenceOf line with
    | none => (p, none)
    | some (id, f) =>
      if id = ['R', 'M', 'C'] then p.rmc f now
      else if id = ['G', 'G', 'A'] then p.gga f now
      else if id = ['V', 'T', 'G'] then (p.vtg f, none)
      else if id = ['G', 'S', 'A'] then (p.gsa f, none)
      else (p, none) := by
  unfold sentenceOf Parser.line
  by_cases hd : line.head? ≠ some '$'
  · rw [if_pos hd, if_pos hd]
  · rw [if_neg hd, if_neg hd]
    dsimp only
    generalize (if line.getLast? = some '\r' then line.dropLast else line) = l
    by_cases hv : validChecksum l = false
    · rw [if_pos hv, if_pos hv]
    · rw [if_neg hv, if_neg hv]
      cases lastStar l <;> rfl

end Verif.Nmea
