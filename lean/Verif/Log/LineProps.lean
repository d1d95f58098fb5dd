import Verif.Log.LineModel
/-!
# Theorems about log records and console lines (C122)
-/
namespace Verif.Log.Line

/-! ## What is expected of a line -/

/-- Four, two or three decimal digits, from the left. -/
def dec4 (n : Nat) : List Char := [digit (n / 1000), digit (n / 100), digit (n / 10), digit n]
def dec3 (n : Nat) : List Char := [digit (n / 100), digit (n / 10), digit n]
def dec2 (n : Nat) : List Char := [digit (n / 10), digit n]

/-- `2026-11-16T19:30:00.123` -/
def isoTime (t : Stamp) : List Char :=
  dec4 t.year ++ ['-'] ++ dec2 t.month ++ ['-'] ++ dec2 t.day ++ ['T'] ++ dec2 t.hour ++ [':'] ++
    dec2 t.minute ++ [':'] ++ dec2 t.second ++ ['.'] ++ dec3 t.milli

/-- The label of a level: upper case, seven wide. -/
def sevenWide : Level → String
  | .fatal => "FATAL  "
  | .failure => "FAILURE"
  | .error => "ERROR  "
  | .warning => "WARNING"
  | .info => "INFO   "
  | .debug => "DEBUG  "
  | .trace => "TRACE  "

/-- The whole line, nothing cut off. -/
def fullLine (r : Record) : List Char :=
  isoTime r.stamp ++ [' '] ++ (sevenWide r.level).toList ++ " : ".toList ++ r.text ++
    (if r.textTruncated then " <truncated>".toList else []) ++
    (if r.droppedBefore ≠ 0 then " dropped=".toList ++ Nat.toDigits 10 r.droppedBefore else []) ++
    " in: ".toList ++ r.location ++
    (if r.line ≠ 0 then [':'] ++ Nat.toDigits 10 r.line else []) ++ ['\n']

/-! ## Records -/

theorem store_spec (n : Nat) (text : List Char) :
    (store n text).1 = text.take (n - 1) ∧
    ((store n text).2 = true ↔ n - 1 < text.length) := by
  simp only [store, decide_eq_true_eq]
  refine ⟨?_, by omega⟩
  rw [List.take_eq_take_iff]
  omega

/-- A record keeps the first 511 bytes of the message and says whether there were more; the rest is
what the caller gave. The length fits the 16-bit field. -/
theorem record_text (level : Level) (message file : List Char) (line : Nat) (now : Stamp) (d : Nat) :
    let r := makeRecord level message file line now d
    r.text = message.take 511 ∧ (r.textTruncated = true ↔ 511 < message.length) ∧
    r.text.length < 2 ^ 16 ∧ r.level = level ∧ r.line = line ∧ r.droppedBefore = d := by
  intro r
  obtain ⟨h1, h2⟩ := store_spec textCapacity message
  refine ⟨h1, h2, ?_, rfl, rfl, rfl⟩
  have : r.text = message.take 511 := h1
  rw [this, List.length_take]
  omega

/-- The file name is what follows the last slash or backslash of the path. -/
theorem filename_spec (path : List Char) :
    (∀ c ∈ filename path, c ≠ '/' ∧ c ≠ '\\') ∧
    ∃ dir, path = dir ++ filename path ∧
      (dir = [] ∨ dir.getLast? = some '/' ∨ dir.getLast? = some '\\') := by
  unfold filename lastSlash
  cases h : path.reverse.findIdx? (fun c => c == '/' || c == '\\') with
  | none =>
    simp only
    rw [List.findIdx?_eq_none_iff] at h
    refine ⟨?_, [], by simp, .inl rfl⟩
    intro c hc
    have := h c (by simpa using hc)
    simpa using this
  | some i =>
    simp only
    rw [List.findIdx?_eq_some_iff_getElem] at h
    obtain ⟨hi, hp, hno⟩ := h
    have hi' : i < path.length := by simpa using hi
    rw [List.getElem_reverse] at hp
    rw [show path.length - 1 - i + 1 = path.length - i by omega]
    refine ⟨?_, path.take (path.length - i), by simp, .inr ?_⟩
    · intro c hc
      obtain ⟨j, hj, rfl⟩ := List.getElem_of_mem hc
      simp only [List.length_drop] at hj
      have := hno (path.length - 1 - (path.length - i + j)) (by omega)
      rw [List.getElem_reverse] at this
      simp only [List.getElem_drop]
      have e : path.length - 1 - (path.length - 1 - (path.length - i + j)) = path.length - i + j := by
        omega
      simp only [e] at this
      simpa using this
    · rw [List.getLast?_take]
      have hne : path.length - i ≠ 0 := by omega
      rw [if_neg hne, show path.length - i - 1 = path.length - 1 - i by omega,
        List.getElem?_eq_getElem (by omega)]
      simp only [Bool.or_eq_true, beq_iff_eq] at hp
      rcases hp with hp | hp
      · left; simp [hp]
      · right; simp [hp]

/-- The location of a record is the first 95 bytes of the file name. -/
theorem record_location (level : Level) (message file : List Char) (line : Nat) (now : Stamp)
    (d : Nat) :
    let r := makeRecord level message file line now d
    r.location = (filename file).take 95 ∧
    (r.locationTruncated = true ↔ 95 < (filename file).length) := by
  obtain ⟨h1, h2⟩ := store_spec locationCapacity (filename file)
  exact ⟨h1, h2⟩

/-! ## Lines -/

theorem append_fits {line full text : List Char} (h : line = full)
    (hb : full.length + text.length ≤ 767) : append line text = full ++ text := by
  subst h
  simp only [append, room]
  rw [List.take_of_length_le (by omega)]

theorem appendChar_fits {line full : List Char} {c : Char} (h : line = full)
    (hb : full.length < 767) : appendChar line c = full ++ [c] := by
  subst h
  have : line.length < room := hb
  rw [appendChar, if_pos this]

theorem fixedDigits_length (w v : Nat) : (fixedDigits w v).length = w := by
  induction w generalizing v with
  | zero => rfl
  | succ w ih => simp [fixedDigits, ih]

theorem appendFixed_fits {line full : List Char} {v w : Nat} (h : line = full)
    (hb : full.length + w ≤ 767) (hl : full.length < 767) :
    appendFixed line v w = full ++ fixedDigits w v := by
  subst h
  have : ¬ room ≤ line.length := by simp only [room]; omega
  rw [appendFixed, if_neg this, List.take_of_length_le]
  rw [fixedDigits_length]
  simp only [room]
  omega

theorem appendUnsigned_fits {line full : List Char} {v : Nat} (h : line = full)
    (hb : full.length + (Nat.toDigits 10 v).length ≤ 767) :
    appendUnsigned line v = full ++ Nat.toDigits 10 v := by
  subst h
  have hp : 0 < (Nat.toDigits 10 v).length := Nat.length_toDigits_pos
  have : ¬ room ≤ line.length := by simp only [room]; omega
  rw [appendUnsigned, if_neg this, if_pos (by simpa [room] using hb)]

theorem cond_fits {c : Prop} [Decidable c] {line long full more : List Char} (h : line = full)
    (hf : long = full ++ more) :
    (if c then long else line) = full ++ (if c then more else []) := by
  split
  · exact hf
  · simpa using h

theorem cond_length (c : Prop) [Decidable c] (l : List Char) :
    (if c then l else []).length ≤ l.length := by
  split
  · exact Nat.le_refl _
  · exact Nat.zero_le _

theorem timestamp_line (t : Stamp) : appendTimestamp [] t = isoTime t := by
  have h1 := appendFixed_fits (v := t.year) (w := 4) (rfl : ([] : List Char) = []) (by simp) (by simp)
  have h2 := appendChar_fits (c := '-') h1 (by simp [fixedDigits_length])
  have h3 := appendFixed_fits (v := t.month) (w := 2) h2 (by simp [fixedDigits_length])
    (by simp [fixedDigits_length])
  have h4 := appendChar_fits (c := '-') h3 (by simp [fixedDigits_length])
  have h5 := appendFixed_fits (v := t.day) (w := 2) h4 (by simp [fixedDigits_length])
    (by simp [fixedDigits_length])
  have h6 := appendChar_fits (c := 'T') h5 (by simp [fixedDigits_length])
  have h7 := appendFixed_fits (v := t.hour) (w := 2) h6 (by simp [fixedDigits_length])
    (by simp [fixedDigits_length])
  have h8 := appendChar_fits (c := ':') h7 (by simp [fixedDigits_length])
  have h9 := appendFixed_fits (v := t.minute) (w := 2) h8 (by simp [fixedDigits_length])
    (by simp [fixedDigits_length])
  have h10 := appendChar_fits (c := ':') h9 (by simp [fixedDigits_length])
  have h11 := appendFixed_fits (v := t.second) (w := 2) h10 (by simp [fixedDigits_length])
    (by simp [fixedDigits_length])
  have h12 := appendChar_fits (c := '.') h11 (by simp [fixedDigits_length])
  have h13 := appendFixed_fits (v := t.milli) (w := 3) h12 (by simp [fixedDigits_length])
    (by simp [fixedDigits_length])
  simp only [appendTimestamp]
  rw [h13]
  simp [isoTime, fixedDigits, dec4, dec3, dec2, Nat.div_div_eq_div_mul]

theorem isoTime_length (t : Stamp) : (isoTime t).length = 23 := by
  simp [isoTime, dec4, dec3, dec2]

theorem label_eq (l : Level) : label l = (sevenWide l).toList := by
  cases l <;> decide

theorem label_length (l : Level) : (label l).length = 7 := by
  cases l <;> decide

/-- The line of every record made by the library is complete: nothing is cut off, it ends with the
only line break that the logger puts there, and it has at most 767 bytes. -/
theorem console_line_complete (r : Record) (ht : r.text.length ≤ 511) (hl : r.location.length ≤ 95)
    (hd : r.droppedBefore < 2 ^ 64) (hn : r.line < 2 ^ 32) :
    consoleLine r = fullLine r ∧ (fullLine r).length ≤ 767 := by
  have hd' : (Nat.toDigits 10 r.droppedBefore).length ≤ 20 :=
    (Nat.length_toDigits_le_iff (by decide) (by decide)).2 (by omega)
  have hn' : (Nat.toDigits 10 r.line).length ≤ 10 :=
    (Nat.length_toDigits_le_iff (by decide) (by decide)).2 (by omega)
  have h1 := isoTime_length r.stamp
  have h2 := label_length r.level
  have e1 : " : ".toList = [' ', ':', ' '] := by decide
  have e2 : " <truncated>".toList = [' ', '<', 't', 'r', 'u', 'n', 'c', 'a', 't', 'e', 'd', '>'] := by
    decide
  have e3 : " dropped=".toList = [' ', 'd', 'r', 'o', 'p', 'p', 'e', 'd', '='] := by decide
  have e4 : " in: ".toList = [' ', 'i', 'n', ':', ' '] := by decide
  have s1 := append_fits (text := [' ']) (timestamp_line r.stamp) (by simp [h1])
  have s2 := append_fits (text := label r.level) s1 (by simp [h1, h2])
  have s3 := append_fits (text := [' ', ':', ' ']) s2 (by simp [h1, h2])
  have s4 := append_fits (text := r.text) s3 (by simp [h1, h2]; omega)
  have c5 := cond_length (r.textTruncated = true) [' ', '<', 't', 'r', 'u', 'n', 'c', 'a', 't', 'e', 'd', '>']
  have c6 := cond_length (r.droppedBefore ≠ 0)
    ([' ', 'd', 'r', 'o', 'p', 'p', 'e', 'd', '='] ++ Nat.toDigits 10 r.droppedBefore)
  have c9 := cond_length (r.line ≠ 0) ([':'] ++ Nat.toDigits 10 r.line)
  simp only [List.length_append, List.length_cons, List.length_nil] at c5 c6 c9
  have s5 := cond_fits (c := r.textTruncated = true) s4
    (append_fits (text := [' ', '<', 't', 'r', 'u', 'n', 'c', 'a', 't', 'e', 'd', '>']) s4
      (by simp [h1, h2]; omega))
  have s6 := cond_fits (c := r.droppedBefore ≠ 0) s5
    ((appendUnsigned_fits (v := r.droppedBefore)
      (append_fits (text := [' ', 'd', 'r', 'o', 'p', 'p', 'e', 'd', '=']) s5
        (by simp only [List.length_append, List.length_cons, List.length_nil]; omega))
      (by simp only [List.length_append, List.length_cons, List.length_nil]; omega)).trans
        (List.append_assoc ..))
  have s7 := append_fits (text := [' ', 'i', 'n', ':', ' ']) s6
    (by simp only [List.length_append, List.length_cons, List.length_nil]; omega)
  have s8 := append_fits (text := r.location) s7
    (by simp only [List.length_append, List.length_cons, List.length_nil]; omega)
  have s9 := cond_fits (c := r.line ≠ 0) s8
    ((appendUnsigned_fits (v := r.line)
      (append_fits (text := [':']) s8
        (by simp only [List.length_append, List.length_cons, List.length_nil]; omega))
      (by simp only [List.length_append, List.length_cons, List.length_nil]; omega)).trans
        (List.append_assoc ..))
  have s10 := append_fits (text := ['\n']) s9
    (by simp only [List.length_append, List.length_cons, List.length_nil]; omega)
  have e : fullLine r = isoTime r.stamp ++ [' '] ++ label r.level ++ [' ', ':', ' '] ++ r.text ++
      (if r.textTruncated = true then [' ', '<', 't', 'r', 'u', 'n', 'c', 'a', 't', 'e', 'd', '>']
        else []) ++
      (if r.droppedBefore ≠ 0 then
        [' ', 'd', 'r', 'o', 'p', 'p', 'e', 'd', '='] ++ Nat.toDigits 10 r.droppedBefore else []) ++
      [' ', 'i', 'n', ':', ' '] ++ r.location ++
      (if r.line ≠ 0 then [':'] ++ Nat.toDigits 10 r.line else []) ++ ['\n'] := by
    simp only [fullLine, ← label_eq, e1, e2, e3, e4]
  rw [e]
  refine ⟨?_, ?_⟩
  · rw [← s10]
    simp only [consoleLine, e1, e2, e3, e4]
  · simp only [List.length_append, List.length_cons, List.length_nil]; omega

/-- In particular for every record made from a message and a place in the source. -/
theorem made_record_line (level : Level) (message file : List Char) (line : Nat) (now : Stamp)
    (d : Nat) (hd : d < 2 ^ 64) (hn : line < 2 ^ 32) :
    consoleLine (makeRecord level message file line now d) =
      fullLine (makeRecord level message file line now d) := by
  refine (console_line_complete _ ?_ ?_ hd hn).1
  · rw [(record_text level message file line now d).1, List.length_take]; omega
  · rw [(record_location level message file line now d).1, List.length_take]; omega

/-- Where lines go: warnings, errors and fatal errors to the error stream, the rest, failures
included, to the output. -/
theorem line_stream (l : Level) :
    toStderr l = true ↔ l = .fatal ∨ l = .error ∨ l = .warning := by
  cases l <;> decide

/-! ## Concrete cases -/

example : String.ofList (consoleLine (makeRecord .error "no room".toList "/src/core/Graph.cpp".toList 42
      ⟨2026, 11, 16, 19, 30, 5, 7⟩ 3)) =
    "2026-11-16T19:30:05.007 ERROR   : no room dropped=3 in: Graph.cpp:42\n" := by decide +kernel

/-- A message of 600 bytes is cut. -/
example : (makeRecord .info (List.replicate 600 'x') "a\\b.cpp".toList 0
      ⟨2026, 1, 1, 0, 0, 0, 0⟩ 0).textTruncated = true ∧
    (makeRecord .info (List.replicate 600 'x') "a\\b.cpp".toList 0
      ⟨2026, 1, 1, 0, 0, 0, 0⟩ 0).location = "b.cpp".toList := by decide +kernel

end Verif.Log.Line
