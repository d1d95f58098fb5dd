import Verif.Nmea.Props
/-!
# C130: the fixes of a stream of sentences
-/
namespace Verif.Nmea

/-- The parser after some lines. -/
def after (ls : List (List Char × Nat)) : Parser := (({} : Parser).run ls).1

theorem run_append (p : Parser) (a b : List (List Char × Nat)) :
    p.run (a ++ b) = (((p.run a).1.run b).1, (p.run a).2 ++ ((p.run a).1.run b).2) := by
  induction a generalizing p with
  | nil => simp [Parser.run]
  | cons x a ih =>
    obtain ⟨l, now⟩ := x
    simp only [List.cons_append, Parser.run, ih, List.append_assoc]

theorem after_snoc (ls : List (List Char × Nat)) (l : List Char) (now : Nat) :
    after (ls ++ [(l, now)]) = ((after ls).line l now).1 := by
  rw [after, run_append]; rfl

theorem sameSecond_snoc (ls before group : List (List Char)) (l : List Char) :
    sameSecond before group (ls ++ [l]) =
      if beginsSecond (before ++ ls) l then [l] else sameSecond before group ls ++ [l] := by
  induction ls generalizing before group with
  | nil => simp [sameSecond]
  | cons x ls ih =>
    simp only [List.cons_append, sameSecond]
    rw [ih]
    simp

theorem newest_snoc {α : Type} (f : List Char → Option α) (ls : List (List Char)) (l : List Char) :
    newest f (ls ++ [l]) = (f l <|> newest f ls) := by
  unfold newest
  rw [List.filterMap_append]
  cases h : f l with
  | none => simp [h]
  | some a => simp [h]

/-- What the fix being collected says about the lines of its second. -/
structure Collected (group : List (List Char)) (fix : Fix) : Prop where
  position : (fix.latitude, fix.longitude) = (newest positionOf group).getD (0, 0)
  hasPosition : fix.hasPosition = (newest positionOf group).isSome
  altitude : (fix.altitude, fix.satellites) = (newest altitudeOf group).getD (0, 0)
  course : (fix.heading, fix.speed) = (newest courseOf group).getD (0, 0)
  hdop : fix.hdop = (newest hdopOf group).getD 0
  fixType : fix.fixType = (newest typeOf group).getD .none

theorem Collected.empty : Collected [] {} := by constructor <;> rfl

/-- The parts of `Collected` in which one line can make a difference. -/
theorem Collected.snoc {group : List (List Char)} {fix fix' : Fix} (h : Collected group fix) (l : List Char)
    (h1 : (fix'.latitude, fix'.longitude) = (positionOf l).getD (fix.latitude, fix.longitude))
    (h2 : fix'.hasPosition = ((positionOf l).isSome || fix.hasPosition))
    (h3 : (fix'.altitude, fix'.satellites) = (altitudeOf l).getD (fix.altitude, fix.satellites))
    (h4 : (fix'.heading, fix'.speed) = (courseOf l).getD (fix.heading, fix.speed))
    (h5 : fix'.hdop = (hdopOf l).getD fix.hdop) (h6 : fix'.fixType = (typeOf l).getD fix.fixType) :
    Collected (group ++ [l]) fix' := by
  obtain ⟨g1, g2, g3, g4, g5, g6⟩ := h
  constructor
  · rw [newest_snoc, h1, g1]; cases positionOf l <;> rfl
  · rw [newest_snoc, h2, g2]; cases positionOf l <;> rfl
  · rw [newest_snoc, h3, g3]; cases altitudeOf l <;> rfl
  · rw [newest_snoc, h4, g4]; cases courseOf l <;> rfl
  · rw [newest_snoc, h5, g5]; cases hdopOf l <;> rfl
  · rw [newest_snoc, h6, g6]; cases typeOf l <;> rfl

/-- What holds after some lines. -/
structure Inv (lines : List (List Char)) (p : Parser) : Prop where
  second : p.lastSecond = lastSecondOf lines
  pending : Collected (currentGroup lines) p.pending

theorem boundary_spec (p : Parser) (time : List Char) (now : Nat) (lines : List (List Char)) (l : List Char)
    (hi : Inv lines p)
    (hs : secondOf l = if 6 ≤ time.length then some (parseInt (time.drop 4 |>.take 2)) else none) :
    let r := p.boundary time now
    r.1.lastSecond = lastSecondOf (lines ++ [l]) ∧
    (beginsSecond lines l → r.2 = some { p.pending with localTime := now } ∧ r.1.pending = {}) ∧
    (¬ beginsSecond lines l → r.2 = none ∧ r.1.pending = p.pending) ∧ r.1.lastDate = p.lastDate := by
  have hsnoc : lastSecondOf (lines ++ [l]) = (secondOf l).getD (lastSecondOf lines) := by
    unfold lastSecondOf
    rw [newest_snoc]
    cases secondOf l <;> rfl
  by_cases ht : time.length < 6
  · rw [if_neg (by omega)] at hs
    have hn : ¬ beginsSecond lines l := by rintro ⟨s, h, _⟩; rw [hs] at h; cases h
    simp only [Parser.boundary, if_pos ht]
    exact ⟨by rw [hsnoc, hs, hi.second]; rfl, fun h => absurd h hn, fun _ => ⟨trivial, trivial⟩, trivial⟩
  · rw [if_pos (by omega)] at hs
    have hb : beginsSecond lines l ↔ (0 ≤ p.lastSecond ∧ parseInt ((time.drop 4).take 2) ≠ p.lastSecond) := by
      rw [hi.second]
      constructor
      · rintro ⟨s, h, h1, h2⟩
        rw [hs] at h
        cases h
        exact ⟨h1, h2⟩
      · rintro ⟨h1, h2⟩
        exact ⟨_, hs, h1, h2⟩
    simp only [Parser.boundary, if_neg ht]
    by_cases hc : 0 ≤ p.lastSecond ∧ parseInt ((time.drop 4).take 2) ≠ p.lastSecond
    · rw [if_pos hc]
      exact ⟨by rw [hsnoc, hs]; rfl, fun _ => ⟨rfl, rfl⟩, fun h => absurd (hb.2 hc) h, rfl⟩
    · rw [if_neg hc]
      exact ⟨by rw [hsnoc, hs]; rfl, fun h => absurd (hb.1 h) hc, fun _ => ⟨rfl, rfl⟩, rfl⟩

theorem boundary_collected {p : Parser} {time : List Char} {now : Nat} {lines : List (List Char)} {l : List Char}
    (hi : Inv lines p)
    (hs : secondOf l = if 6 ≤ time.length then some (parseInt (time.drop 4 |>.take 2)) else none) :
    ∃ g, Collected g (p.boundary time now).1.pending ∧ currentGroup (lines ++ [l]) = g ++ [l] := by
  obtain ⟨-, h2, h3, -⟩ := boundary_spec p time now lines l hi hs
  have hg : currentGroup (lines ++ [l]) = if beginsSecond lines l then [l] else currentGroup lines ++ [l] := by
    have := sameSecond_snoc lines [] [] l
    rwa [List.nil_append] at this
  by_cases hb : beginsSecond lines l
  · exact ⟨[], by rw [(h2 hb).2]; exact Collected.empty, by rw [hg, if_pos hb]; rfl⟩
  · exact ⟨currentGroup lines, by rw [(h3 hb).2]; exact hi.pending, by rw [hg, if_neg hb]⟩

/-- One line. -/
theorem line_spec (p : Parser) (lines : List (List Char)) (l : List Char) (now : Nat) (hi : Inv lines p) :
    Inv (lines ++ [l]) (p.line l now).1 ∧
    (beginsSecond lines l → (p.line l now).2 = some { p.pending with localTime := now }) ∧
    (¬ beginsSecond lines l → (p.line l now).2 = none) := by
  have hg : currentGroup (lines ++ [l]) = if beginsSecond lines l then [l] else currentGroup lines ++ [l] := by
    have := sameSecond_snoc lines [] [] l
    rwa [List.nil_append] at this
  -- a line that gives no time
  have quiet : ∀ p' : Parser, secondOf l = none → p'.lastSecond = p.lastSecond →
      Collected (currentGroup lines ++ [l]) p'.pending → Inv (lines ++ [l]) p' ∧
      (beginsSecond lines l → (none : Option Fix) = some { p.pending with localTime := now }) ∧
      (¬ beginsSecond lines l → (none : Option Fix) = none) := by
    intro p' hs h1 h2
    have hn : ¬ beginsSecond lines l := by rintro ⟨s, h, _⟩; rw [hs] at h; cases h
    refine ⟨⟨?_, ?_⟩, fun h => absurd h hn, fun _ => rfl⟩
    · rw [h1, hi.second]
      unfold lastSecondOf
      rw [newest_snoc, hs]; rfl
    · rw [hg, if_neg hn]; exact h2
  -- a line that gives nothing at all
  have nothing : rmcOf l = none → ggaOf l = none → vtgOf l = none → gsaOf l = none → Inv (lines ++ [l]) p ∧
      (beginsSecond lines l → (none : Option Fix) = some { p.pending with localTime := now }) ∧
      (¬ beginsSecond lines l → (none : Option Fix) = none) := by
    intro a b c d
    refine quiet p (by simp [secondOf, a, b]) rfl (hi.pending.snoc l ?_ ?_ ?_ ?_ ?_ ?_)
    all_goals simp [positionOf, altitudeOf, courseOf, hdopOf, typeOf, a, b, c, d]
  rw [line_eq]
  cases hso : sentenceOf l with
  | none => exact nothing (by simp [rmcOf, hso]) (by simp [ggaOf, hso]) (by simp [vtgOf, hso]) (by simp [gsaOf, hso])
  | some x =>
    obtain ⟨id, f⟩ := x
    dsimp only
    split
    · -- RMC
      rename_i hid
      have hb : ggaOf l = none := by simp [ggaOf, hso, hid]
      have hc : vtgOf l = none := by simp [vtgOf, hso, hid]
      have hd : gsaOf l = none := by simp [gsaOf, hso, hid]
      unfold Parser.rmc
      by_cases hl : f.length < 12
      · rw [if_pos hl]
        exact nothing (by simp [rmcOf, hso]; omega) hb hc hd
      · rw [if_neg hl]
        have ha : rmcOf l = some f := by simp [rmcOf, hso, hid]; omega
        have hs : secondOf l = if 6 ≤ (field f 1).length then some (parseInt ((field f 1).drop 4 |>.take 2)) else none := by
          simp [secondOf, ha]
        obtain ⟨k1, k2, k3, -⟩ := boundary_spec p (field f 1) now lines l hi hs
        obtain ⟨g, k5, k6⟩ := boundary_collected (now := now) hi hs
        dsimp only
        have hq1 : (if (field f 9).length = 6 then { (p.boundary (field f 1) now).1 with lastDate := field f 9 }
            else (p.boundary (field f 1) now).1).lastSecond = (p.boundary (field f 1) now).1.lastSecond := by
          split <;> rfl
        have hq2 : (if (field f 9).length = 6 then { (p.boundary (field f 1) now).1 with lastDate := field f 9 }
            else (p.boundary (field f 1) now).1).pending = (p.boundary (field f 1) now).1.pending := by
          split <;> rfl
        refine ⟨⟨hq1.trans k1, ?_⟩, fun h => (k2 h).1, fun h => (k3 h).1⟩
        · rw [k6]
          simp only [hq2]
          by_cases hA : field f 2 = ['A']
          · refine k5.snoc l ?_ ?_ ?_ ?_ ?_ ?_
            all_goals simp [positionOf, altitudeOf, courseOf, hdopOf, typeOf, ha, hb, hc, hd, hA]
          · refine k5.snoc l ?_ ?_ ?_ ?_ ?_ ?_
            all_goals simp [positionOf, altitudeOf, courseOf, hdopOf, typeOf, ha, hb, hc, hd, hA]
    · split
      · -- GGA
        rename_i hn1 hid
        have ha : rmcOf l = none := by simp [rmcOf, hso, hid]
        have hc : vtgOf l = none := by simp [vtgOf, hso, hid]
        have hd : gsaOf l = none := by simp [gsaOf, hso, hid]
        unfold Parser.gga
        by_cases hl : f.length < 15
        · rw [if_pos hl]
          exact nothing ha (by simp [ggaOf, hso]; omega) hc hd
        · rw [if_neg hl]
          have hb : ggaOf l = some f := by simp [ggaOf, hso, hid]; omega
          have hs : secondOf l = if 6 ≤ (field f 1).length then some (parseInt ((field f 1).drop 4 |>.take 2)) else none := by
            simp [secondOf, ha, hb]
          obtain ⟨k1, k2, k3, -⟩ := boundary_spec p (field f 1) now lines l hi hs
          obtain ⟨g, k5, k6⟩ := boundary_collected (now := now) hi hs
          dsimp only
          refine ⟨⟨?_, ?_⟩, fun h => (k2 h).1, fun h => (k3 h).1⟩
          · exact k1
          · rw [k6]
            by_cases hQ : 0 < parseInt (field f 6)
            · refine k5.snoc l ?_ ?_ ?_ ?_ ?_ ?_
              all_goals simp only [if_pos hQ]; split <;>
                simp [positionOf, altitudeOf, courseOf, hdopOf, typeOf, ha, hb, hc, hd, hQ]
            · refine k5.snoc l ?_ ?_ ?_ ?_ ?_ ?_
              all_goals simp only [if_neg hQ]; split <;>
                simp [positionOf, altitudeOf, courseOf, hdopOf, typeOf, ha, hb, hc, hd, hQ]
      · split
        · -- VTG
          rename_i hn1 hn2 hid
          have ha : rmcOf l = none := by simp [rmcOf, hso, hid]
          have hb : ggaOf l = none := by simp [ggaOf, hso, hid]
          have hd : gsaOf l = none := by simp [gsaOf, hso, hid]
          unfold Parser.vtg
          by_cases hl : f.length < 9
          · rw [if_pos hl]
            exact nothing ha hb (by simp [vtgOf, hso]; omega) hd
          · rw [if_neg hl]
            have hc : vtgOf l = some f := by simp [vtgOf, hso, hid]; omega
            refine quiet _ (by simp [secondOf, ha, hb]) rfl (hi.pending.snoc l ?_ ?_ ?_ ?_ ?_ ?_)
            all_goals simp [positionOf, altitudeOf, courseOf, hdopOf, typeOf, ha, hb, hc, hd]
        · split
          · -- GSA
            rename_i hn1 hn2 hn3 hid
            have ha : rmcOf l = none := by simp [rmcOf, hso, hid]
            have hb : ggaOf l = none := by simp [ggaOf, hso, hid]
            have hc : vtgOf l = none := by simp [vtgOf, hso, hid]
            unfold Parser.gsa
            by_cases hl : f.length < 18
            · rw [if_pos hl]
              exact nothing ha hb hc (by simp [gsaOf, hso]; omega)
            · rw [if_neg hl]
              have hd : gsaOf l = some f := by simp [gsaOf, hso, hid]; omega
              refine quiet _ (by simp [secondOf, ha, hb]) rfl (hi.pending.snoc l ?_ ?_ ?_ ?_ ?_ ?_)
              all_goals simp [positionOf, altitudeOf, courseOf, hdopOf, typeOf, ha, hb, hc, hd]
          · rename_i hn1 hn2 hn3 hn4
            exact nothing (by simp [rmcOf, hso, hn1]) (by simp [ggaOf, hso, hn2]) (by simp [vtgOf, hso, hn3])
              (by simp [gsaOf, hso, hn4])

theorem inv_after (ls : List (List Char × Nat)) : Inv (ls.map (·.1)) (after ls) := by
  have key : ∀ (b a : List (List Char × Nat)), Inv (a.map (·.1)) (after a) → Inv ((a ++ b).map (·.1)) (after (a ++ b)) := by
    intro b
    induction b with
    | nil => intro a h; simpa using h
    | cons x b ih =>
      intro a h
      obtain ⟨l, now⟩ := x
      have := ih (a ++ [(l, now)]) (by
        rw [after_snoc, List.map_append]
        exact (line_spec _ _ l now h).1)
      simpa using this
  have := key ls [] ⟨rfl, Collected.empty⟩
  simpa using this

/-- **A fix is given exactly when the second changes**: a line yields a fix if and only if it gives a
time whose seconds differ from those of the newest time before. -/
theorem fix_per_second (ls : List (List Char × Nat)) (l : List Char) (now : Nat) :
    ((after ls).line l now).2.isSome = true ↔ beginsSecond (ls.map (·.1)) l := by
  obtain ⟨-, h2, h3⟩ := line_spec _ _ l now (inv_after ls)
  by_cases hb : beginsSecond (ls.map (·.1)) l
  · rw [h2 hb]; simp [hb]
  · rw [h3 hb]; simp [hb]

/-- **What a fix says is what the lines of its second have said**: the newest position, altitude,
course and precision given since the second began, nothing from earlier ones, and the time of arrival
of the line that ended it. -/
theorem fix_contents (ls : List (List Char × Nat)) (l : List Char) (now : Nat) (fix : Fix)
    (h : ((after ls).line l now).2 = some fix) :
    Collected (currentGroup (ls.map (·.1))) fix ∧ fix.localTime = now ∧ fix.utc = (after ls).pending.utc ∧
    fix.hasTime = (after ls).pending.hasTime := by
  have hi := inv_after ls
  obtain ⟨-, h2, h3⟩ := line_spec _ _ l now hi
  by_cases hb : beginsSecond (ls.map (·.1)) l
  · rw [h2 hb] at h
    cases h
    obtain ⟨g1, g2, g3, g4, g5, g6⟩ := hi.pending
    exact ⟨⟨g1, g2, g3, g4, g5, g6⟩, rfl, rfl, rfl⟩
  · rw [h3 hb] at h; cases h

/-! The time of a fix -/

theorem rmc_valid (p : Parser) (l : List Char) (now : Nat) (f : List (List Char)) (hf : rmcOf l = some f)
    (hA : field f 2 = ['A']) : (p.line l now).1.pending.utc = toUtc (field f 1) (field f 9) ∧
      (p.line l now).1.pending.hasTime = true := by
  rw [line_eq]
  unfold rmcOf at hf
  split at hf
  · rename_i id f' hso
    split at hf
    · rename_i hc
      cases hf
      rw [hso]
      dsimp only
      rw [if_pos hc.1, Parser.rmc, if_neg (by omega)]
      simp [hA]
    · cases hf
  · cases hf

/-- A line that is no RMC sentence and begins no second keeps the time there is. -/
theorem keeps_time (p : Parser) (lines : List (List Char)) (l : List Char) (now : Nat) (hi : Inv lines p)
    (hr : rmcOf l = none) (hb : ¬ beginsSecond lines l) (ht : p.pending.hasTime = true) :
    (p.line l now).1.pending.utc = p.pending.utc ∧ (p.line l now).1.pending.hasTime = true := by
  rw [line_eq]
  cases hso : sentenceOf l with
  | none => exact ⟨rfl, ht⟩
  | some x =>
    obtain ⟨id, f⟩ := x
    dsimp only
    split
    · rename_i hid
      simp only [rmcOf, hso, hid, true_and] at hr
      rw [Parser.rmc, if_pos (by
        by_cases h : 12 ≤ f.length
        · rw [if_pos h] at hr; cases hr
        · omega)]
      exact ⟨rfl, ht⟩
    · split
      · rename_i hid
        unfold Parser.gga
        by_cases hl : f.length < 15
        · rw [if_pos hl]; exact ⟨rfl, ht⟩
        · rw [if_neg hl]
          have hs : secondOf l = if 6 ≤ (field f 1).length then some (parseInt ((field f 1).drop 4 |>.take 2)) else none := by
            have : ggaOf l = some f := by simp [ggaOf, hso, hid]; omega
            simp [secondOf, hr, this]
          obtain ⟨-, -, k3, -⟩ := boundary_spec p (field f 1) now lines l hi hs
          have hp := (k3 hb).2
          dsimp only
          by_cases hQ : 0 < parseInt (field f 6)
          · simp [hQ, hp, ht]
          · simp [hQ, hp, ht]
      · split
        · unfold Parser.vtg; split <;> exact ⟨rfl, ht⟩
        · split
          · unfold Parser.gsa; split <;> exact ⟨rfl, ht⟩
          · exact ⟨rfl, ht⟩

/-- **The time of a fix** is that of the newest RMC sentence of its second, if that says that it is
valid. -/
theorem fix_time (a b : List (List Char × Nat)) (r l : List Char) (n now : Nat) (f : List (List Char)) (fix : Fix)
    (hf : rmcOf r = some f) (hA : field f 2 = ['A']) (hb : ∀ x ∈ b, rmcOf x.1 = none)
    (hsame : ∀ b1 x b2, b = b1 ++ x :: b2 → ¬ beginsSecond ((a ++ (r, n) :: b1).map (·.1)) x.1)
    (h : ((after (a ++ (r, n) :: b)).line l now).2 = some fix) :
    fix.utc = toUtc (field f 1) (field f 9) ∧ fix.hasTime = true := by
  obtain ⟨-, -, h1, h2⟩ := fix_contents _ l now fix h
  rw [h1, h2]
  clear h h1 h2
  have key : ∀ (b2 b1 : List (List Char × Nat)), b = b1 ++ b2 →
      ((after (a ++ (r, n) :: b1)).pending.utc = toUtc (field f 1) (field f 9) ∧
        (after (a ++ (r, n) :: b1)).pending.hasTime = true) →
      (after (a ++ (r, n) :: (b1 ++ b2))).pending.utc = toUtc (field f 1) (field f 9) ∧
        (after (a ++ (r, n) :: (b1 ++ b2))).pending.hasTime = true := by
    intro b2
    induction b2 with
    | nil => intro b1 _ h; rwa [List.append_nil]
    | cons x b2 ih =>
      intro b1 he h
      have hx := hb x (by rw [he]; simp)
      have hs := hsame b1 x b2 he
      have hk := keeps_time (after (a ++ (r, n) :: b1)) _ x.1 x.2 (inv_after _) hx hs h.2
      have he' : b = (b1 ++ [x]) ++ b2 := by rw [he]; simp
      have := ih (b1 ++ [x]) he' (by
        have e : a ++ (r, n) :: (b1 ++ [x]) = (a ++ (r, n) :: b1) ++ [(x.1, x.2)] := by simp
        rw [e, after_snoc]
        exact ⟨hk.1.trans h.1, hk.2⟩)
      have e : b1 ++ [x] ++ b2 = b1 ++ x :: b2 := by simp
      rwa [e] at this
  exact key b [] rfl (by
    rw [after_snoc]
    exact rmc_valid _ r n f hf hA)

/-- **A valid sentence without a date is put into the year 2000**, although the date may be known from
an earlier sentence. -/
theorem dateless_fix (p : Parser) (l : List Char) (now : Nat) (f : List (List Char)) (h m s : Nat)
    (hh : h < 100) (hm : m < 100) (hs : s < 100) (hf : rmcOf l = some f) (hA : field f 2 = ['A'])
    (ht : field f 1 = two h ++ two m ++ two s) (hd : field f 9 = []) :
    (p.line l now).1.pending.utc = some (((10957 * 86400 + h * 3600 + m * 60 + s) * 1000000000 : Nat) : Int) := by
  rw [(rmc_valid p l now f hf hA).1, ht, hd]
  have t1 : (two h ++ two m ++ two s).take 2 = two h := rfl
  have t2 : ((two h ++ two m ++ two s).drop 2).take 2 = two m := rfl
  have t3 : ((two h ++ two m ++ two s).drop 4).take 2 = two s := rfl
  have t4 : (two h ++ two m ++ two s).length = 6 := rfl
  have t5 : (two h ++ two m ++ two s)[6]? = none := rfl
  have hz : sysDays 2000 1 1 = some 10957 := by decide
  simp only [toUtc, t1, t2, t3, t4, t5, parseInt_two h hh, parseInt_two m hm, parseInt_two s hs, List.length_nil,
    Nat.lt_irrefl, if_false, hz, reduceCtorEq, Option.map_some, nanos, Option.some.injEq]
  omega

/-- A sentence of a receiver at a given time. -/
def rmcAt (time : String) : List Char := sent ("GPRMC," ++ time ++ ",A,4807.038,N,01131.000,E,022.4,084.4,230394,003.1,W").toList

/-- Seconds one after the other give fixes; **the same second of the next minute does not**: after a gap
of a whole minute the old fix is lost, the new sentence is put on top of it. -/
theorem minute_gap_merges :
    (({} : Parser).run [(rmcAt "123519", 1), (rmcAt "123520", 2)]).2.length = 1 ∧
    (({} : Parser).run [(rmcAt "123519", 1), (rmcAt "123619", 2)]).2 = [] := by decide +kernel

/-- The hypotheses of `fix_time` and `dateless_fix` are met. -/
example : (rmcOf (rmcAt "123519")).map (fun f => (field f 1, field f 2, field f 9)) =
    some ("123519".toList, ['A'], "230394".toList) ∧
    (rmcOf "$GPRMC,123519,A,4807.038,N,01131.000,E,022.4,084.4,,003.1,W".toList).map (fun f => (field f 1, field f 9)) =
    some ("123519".toList, []) ∧ beginsSecond [rmcAt "123519"] (rmcAt "123520") ∧
    ¬ beginsSecond [] (rmcAt "123520") := by decide +kernel

end Verif.Nmea
