import Verif.FileIo.Gzip
/-!
# C91: reading gives the bytes of the source

`k` says when the reader is cancelled: `none` for never, `some n` if the worker sees it after `n` looks at the flag. `RS.new c gzip k` is the
worker's state when it starts.
-/
namespace Verif.FileIo
open Verif.Bytes (Byte)
open Verif.Deflate (decompressSpan)

/-- What the reader of a source gets: pieces of the wanted size that are, in order, a first part of `bytes`, all of it unless the reader was cancelled, and
then the final message, once. After the cancellation was seen no more pieces come. -/
def Reads (c : Cfg) (k : Option Nat) (bytes : List Byte) (ms : List Msg) : Prop :=
  ∃ pieces, ms = pieces.map .data ++ [.final] ∧ Cut (max 1 c.align) (bound c.chunkBytes (max 1 c.align)) pieces ∧ pieces.flatten <+: bytes ∧
    (k = none → pieces.flatten = bytes) ∧ ∀ n, k = some n → pieces.length ≤ n

theorem normalize_unit (c : Cfg) : c.normalize.unit = max 1 c.align := by
  simp only [Cfg.normalize, Cfg.unit]
  repeat' split
  all_goals simp_all <;> omega

theorem normalize_offset (c : Cfg) : c.normalize.offset = c.offset := by
  simp only [Cfg.normalize]
  repeat' split
  all_goals rfl

theorem normalize_limit (c : Cfg) : c.normalize.limit = c.limit := by
  simp only [Cfg.normalize]
  repeat' split
  all_goals rfl

theorem normalize_align (c : Cfg) : c.normalize.align = max 1 c.align := by
  simp only [Cfg.normalize]
  repeat' split
  all_goals simp_all <;> omega

theorem normalize_chunk (c : Cfg) : c.normalize.chunkBytes = if c.chunkBytes = npos then npos else max (max 1 c.align) c.chunkBytes := by
  simp only [Cfg.normalize]
  repeat' split
  all_goals simp_all <;> omega

theorem normalize_largest (c : Cfg) : c.normalize.largest = bound c.chunkBytes (max 1 c.align) := by
  rw [Cfg.largest, normalize_align, normalize_chunk, bound, show (2 ^ 64 - 1 : Nat) = npos from rfl]
  by_cases h : c.chunkBytes = npos
  · simp [h]
  · by_cases h2 : max 1 c.align = npos
    · simp [h, h2]
    · have : ¬ (max (max 1 c.align) c.chunkBytes = npos) := by omega
      simp only [h, h2, this, if_false, or_self]
      congr 1
      omega

theorem Done.reads {c : Cfg} {k : Option Nat} {R : List Byte} {s : RS} (h : Done k c.normalize R [.final] s) : Reads c k R s.published := by
  obtain ⟨ds, h1, h2, h3, h4, h5⟩ := h
  rw [normalize_unit, normalize_largest] at h2
  exact ⟨ds, h1, h2, h3, fun hk => h4 hk rfl, h5⟩

theorem new_held (c : Cfg) (gzip : Bool) (k : Option Nat) : Held k c.normalize [] (RS.new c gzip k) := by
  refine ⟨⟨rfl, [], rfl, .nil, List.prefix_refl _, fun _ => rfl, ?_⟩, fun _ => unit_pos _⟩
  cases k with
  | none => exact rfl
  | some n => exact ⟨n, rfl, by simp⟩

theorem new_g (c : Cfg) (k : Option Nat) (S : List Byte) :
    G (c.offset.getD 0) k c.normalize S S ⟨.fresh .gzip c.normalize.limit, S, []⟩ (RS.new c true k) := by
  refine ⟨.start, ?_, fun _ => ⟨rfl, rfl, ?_, ?_⟩⟩
  · rw [List.drop_nil]
    exact new_held c true k
  · show c.normalize.offset.getD 0 = _
    rw [normalize_offset]; rfl
  · exact Nat.zero_add _

/-- **C91, files.** Whatever the size of the pieces, the alignment, the offset and the moment of cancellation, the reader of a file gets the bytes of the
file from the offset on. -/
theorem read_file (c : Cfg) (k : Option Nat) (file : List Byte) :
    ((RS.new c false k).runFile (some file)).1 = .ok ∧
      Reads c k (file.drop (c.offset.getD 0)) ((RS.new c false k).runFile (some file)).2.published := by
  have h := new_held c false k
  unfold RS.runFile
  rw [show (RS.new c false k).dec.isSome = false from rfl]
  simp only [Bool.false_eq_true, if_false]
  rw [show (RS.new c false k).cfg.offset = c.offset from normalize_offset c]
  split
  · rename_i hle
    rw [List.drop_eq_nil_of_le hle]
    exact ⟨rfl, (h.final true nofun).reads⟩
  · obtain ⟨t, e, ht, hd⟩ := plain_loop (k := k) (c := c.normalize) (chunk := max 1 (RS.new c false k).cfg.chunkBytes) (by omega) (file.length + 1)
      (RS.new c false k) [] (file.drop (c.offset.getD 0)) (by rw [List.length_drop]; omega) h rfl
    rw [e]
    obtain ⟨u, e2, hu⟩ := plain_finish ht hd
    dsimp only
    rw [e2]
    exact ⟨rfl, hu.reads⟩

example : ((RS.new { chunkBytes := 5, align := 2, offset := some 1 } false none).runFile (some [0#8, 1#8, 2#8, 3#8, 4#8, 5#8, 6#8, 7#8])).2.published =
    [.data [1#8, 2#8, 3#8, 4#8], .data [5#8, 6#8], .data [7#8], .final] := by decide +kernel

example : ((RS.new { chunkBytes := 2 } false (some 9)).runFile (some [0#8, 1#8, 2#8, 3#8, 4#8, 5#8, 6#8, 7#8])).2.published =
    [.data [0#8, 1#8], .data [2#8, 3#8], .final] := by decide +kernel

/-- **C91, compressed files.** If the one-shot decoder accepts the file, the reader gets the decompressed bytes from the offset on. -/
theorem read_gzip (c : Cfg) (k : Option Nat) (file D : List Byte) (W n : Nat) (hv : decompressSpan W file c.limit .gzip = .ok (n, D)) (hne : file ≠ [])
    (hmax : c.normalize.codecChunk ≤ vectorMax) :
    ((RS.new c true k).runFile (some file)).1 = .ok ∧
      Reads c k (D.drop (c.offset.getD 0)) ((RS.new c true k).runFile (some file)).2.published := by
  have hv' : decompressSpan W file c.normalize.limit .gzip = .ok (n, D) := by rw [normalize_limit]; exact hv
  unfold RS.runFile
  rw [show (RS.new c true k).dec.isSome = true from rfl]
  simp only [if_true]
  rw [if_neg (by intro h; exact hne (List.length_eq_zero_iff.1 (by omega))), List.drop_zero]
  have hpos : 0 < (RS.new c true k).cfg.sourceChunk := by unfold Cfg.sourceChunk; split <;> omega
  obtain hr | ⟨t, ss, e, hg⟩ := gzip_loop hpos hmax (file.length + 1) _ _ file (Nat.lt_succ_self _) (new_g c k file)
  · exact absurd hv' fun h => hr.valid h
  · rw [e]
    dsimp only
    obtain hr | ⟨u, e2, hu⟩ := gzip_finish hmax hne hg
    · exact absurd hv' fun h => hr.valid h
    · rw [e2]
      exact ⟨rfl, (hu.valid hv').reads⟩

/-- a member "hi" with a name and a header checksum, then a member "!" -/
def exGzip : List Byte := [0x1f#8, 0x8b#8, 0x08#8, 0x0a#8, 0x00#8, 0x00#8, 0x00#8, 0x00#8, 0x00#8, 0xff#8, 0x61#8, 0x00#8, 0x58#8, 0xa2#8, 0x01#8, 0x02#8, 0x00#8, 0xfd#8, 0xff#8, 0x68#8, 0x69#8, 0xac#8, 0x2a#8, 0x93#8, 0xd8#8, 0x02#8, 0x00#8, 0x00#8, 0x00#8, 0x1f#8, 0x8b#8, 0x08#8, 0x00#8, 0x00#8, 0x00#8, 0x00#8, 0x00#8, 0x00#8, 0xff#8, 0x01#8, 0x01#8, 0x00#8, 0xfe#8, 0xff#8, 0x21#8, 0xd3#8, 0xff#8, 0x6b#8, 0x9e#8, 0x01#8, 0x00#8, 0x00#8, 0x00#8]

example : ((RS.new { chunkBytes := 7, offset := some 1 } true none).runFile (some exGzip)).2.published = [.data [0x69#8], .data [0x21#8], .final] := by decide +kernel

/-- **C91, damaged files.** If the one-shot decoder refuses the file, the reader gets pieces, then an error, then the final message. -/
theorem read_gzip_error (c : Cfg) (file : List Byte) (W : Nat) (e : Verif.Deflate.Fail) (hv : decompressSpan W file c.limit .gzip = .error e) (hne : file ≠ [])
    (hmax : c.normalize.codecChunk ≤ vectorMax) :
    ((RS.new c true none).runFile (some file)).1 = .failed ∧
      ∃ (pieces : List (List Byte)) (err : Err), ((RS.new c true none).runFile (some file)).2.published = pieces.map .data ++ [.error err, .final] := by
  have hv' : decompressSpan W file c.normalize.limit .gzip = .error e := by rw [normalize_limit]; exact hv
  unfold RS.runFile
  rw [show (RS.new c true none).dec.isSome = true from rfl]
  simp only [if_true]
  rw [if_neg (by intro h; exact hne (List.length_eq_zero_iff.1 (by omega))), List.drop_zero]
  have hpos : 0 < (RS.new c true none).cfg.sourceChunk := by unfold Cfg.sourceChunk; split <;> omega
  obtain hr | ⟨t, ss, e, hg⟩ := gzip_loop hpos hmax (file.length + 1) _ _ file (Nat.lt_succ_self _) (new_g c none file)
  · obtain ⟨h1, ⟨err, O, ds, h2, _⟩, _⟩ := hr
    generalize RS.fileLoop (RS.new c true none).cfg.sourceChunk (file.length + 1) (RS.new c true none) file = r at h1 h2
    obtain ⟨r1, r2⟩ := r
    dsimp only at h1 h2
    subst h1
    exact ⟨rfl, ds, err, h2⟩
  · rw [e]
    dsimp only
    obtain hr | ⟨u, e2, hu⟩ := gzip_finish hmax hne hg
    · obtain ⟨h1, ⟨err, O, ds, h2, _⟩, _⟩ := hr
      exact ⟨h1, ds, err, h2⟩
    · exact absurd hv' fun h => hu.invalid h

example : ((RS.new { chunkBytes := 7 } true none).runFile (some (exGzip.take 40))).2.published =
    [.data [0x68#8, 0x69#8], .error (.decode (.err .truncatedInput)), .final] := by decide +kernel

/-- **C91, bodies of requests.** The body of a response may arrive in any pieces; the reader gets all of it. The offset is not looked at. -/
theorem read_http_partial (c : Cfg) (k : Option Nat) (pieces : List (List Byte)) :
    ((RS.new c false k).runHttp pieces).1 = .ok ∧ Reads c k pieces.flatten ((RS.new c false k).runHttp pieces).2.published := by
  obtain ⟨b, t, e, ht, hd⟩ := plain_pieces pieces _ [] (new_held c false k) rfl
  rw [List.nil_append] at ht
  unfold RS.runHttp
  rw [e]
  cases b with
  | false => exact ⟨rfl, ht.lookFinal.reads⟩
  | true =>
    dsimp only
    obtain ⟨e1, hc⟩ | ⟨_, u, e1, _, hfr, hu⟩ := ht.look
    · rw [e1]
      exact ⟨rfl, ht.lookFinal.reads⟩
    · rw [e1]
      dsimp only
      obtain ⟨v, e2, hv⟩ := plain_finish hu (hfr.dec.trans hd)
      rw [e2]
      exact ⟨rfl, hv.reads⟩

example : ((RS.new { chunkBytes := 4, align := 2 } false none).runHttp [[0#8, 1#8, 2#8], [], [3#8, 4#8, 5#8, 6#8], [7#8]]).2.published =
    [.data [0#8, 1#8], .data [2#8, 3#8, 4#8, 5#8], .data [6#8, 7#8], .final] := by decide +kernel

/-- **C91 is false for requests with an offset.** The bytes before the offset are delivered too, unless the source is compressed. -/
theorem http_offset_ignored :
    get ((RS.new { offset := some 2 } false none).runHttp [[0#8, 1#8, 2#8, 3#8]]).2.published = some (.ok [0#8, 1#8, 2#8, 3#8]) ∧
      get ((RS.new { offset := some 2 } true none).runHttp [exGzip]).2.published = some (.ok [0x21#8]) := ⟨by rfl, by rfl⟩

/-- **C91, compressed bodies.** -/
theorem read_http_gzip (c : Cfg) (k : Option Nat) (pieces : List (List Byte)) (D : List Byte) (W n : Nat)
    (hv : decompressSpan W pieces.flatten c.limit .gzip = .ok (n, D)) (hne : pieces.flatten ≠ []) (hmax : c.normalize.codecChunk ≤ vectorMax) :
    ((RS.new c true k).runHttp pieces).1 = .ok ∧ Reads c k (D.drop (c.offset.getD 0)) ((RS.new c true k).runHttp pieces).2.published := by
  have hv' : decompressSpan W pieces.flatten c.normalize.limit .gzip = .ok (n, D) := by rw [normalize_limit]; exact hv
  obtain ⟨b, r, e, hr⟩ | ⟨b, t, ss, e, hg, hb⟩ := gzip_pieces hmax pieces _ _ (new_g c k pieces.flatten)
  · exact absurd hv' fun h => hr.valid h
  · have stop : t.cancel = some 0 → Ended (c.offset.getD 0) k c.normalize pieces.flatten (t.look.2.pushFinal (!t.look.1)) := by
      intro hc
      refine ⟨ss, hg.reach, hg.held.lookFinal, fun hk => ?_⟩
      subst hk
      have := hg.held.none
      rw [hc] at this
      cases this
    unfold RS.runHttp
    rw [e]
    cases b with
    | false => exact ⟨rfl, ((stop (hb rfl)).valid hv').reads⟩
    | true =>
      dsimp only
      obtain ⟨e1, hc⟩ | ⟨_, u, e1, hu, _⟩ := hg.look
      · rw [e1]
        exact ⟨rfl, ((stop hc).valid hv').reads⟩
      · rw [e1]
        dsimp only
        obtain hr | ⟨v, e2, hv2⟩ := gzip_finish hmax hne hu
        · exact absurd hv' fun h => hr.valid h
        · rw [e2]
          exact ⟨rfl, (hv2.valid hv').reads⟩

example : ((RS.new { chunkBytes := 2 } true none).runHttp [exGzip.take 20, exGzip.drop 20]).2.published = [.data [0x68#8], .data [0x69#8, 0x21#8], .final] := by
  decide +kernel

/-- **C91, `get`.** It returns the bytes of the pieces put together, or the first error. -/
theorem get_pieces (pieces : List (List Byte)) (tail : List Msg) :
    get (pieces.map .data ++ .final :: tail) = some (.ok pieces.flatten) := by
  have key : ∀ (ps : List (List Byte)) (all : List Byte), getGo all none (ps.map .data ++ .final :: tail) = some (.ok (all ++ ps.flatten)) := by
    intro ps
    induction ps with
    | nil => intro all; simp [getGo]
    | cons p ps ih =>
      intro all
      rw [List.map_cons, List.cons_append, getGo, ih, List.flatten_cons, List.append_assoc]
  exact key pieces []

theorem get_error (pieces : List (List Byte)) (e : Err) (tail : List Msg) :
    get (pieces.map .data ++ .error e :: .final :: tail) = some (.error e) := by
  have key : ∀ (ps : List (List Byte)) (all : List Byte), getGo all none (ps.map .data ++ .error e :: .final :: tail) = some (.error e) := by
    intro ps
    induction ps with
    | nil => intro all; rfl
    | cons p ps ih => intro all; exact ih _
  exact key pieces []

/-- **C91, `get` on a file** -/
theorem get_file (c : Cfg) (file : List Byte) : get ((RS.new c false none).runFile (some file)).2.published = some (.ok (file.drop (c.offset.getD 0))) := by
  obtain ⟨_, ps, e, _, _, h, _⟩ := read_file c none file
  rw [e, get_pieces, h rfl]

theorem get_gzip (c : Cfg) (file D : List Byte) (W n : Nat) (hv : decompressSpan W file c.limit .gzip = .ok (n, D)) (hne : file ≠ [])
    (hmax : c.normalize.codecChunk ≤ vectorMax) :
    get ((RS.new c true none).runFile (some file)).2.published = some (.ok (D.drop (c.offset.getD 0))) := by
  obtain ⟨_, ps, e, _, _, h, _⟩ := read_gzip c none file D W n hv hne hmax
  rw [e, get_pieces, h rfl]

theorem get_gzip_error (c : Cfg) (file : List Byte) (W : Nat) (e : Verif.Deflate.Fail) (hv : decompressSpan W file c.limit .gzip = .error e) (hne : file ≠ [])
    (hmax : c.normalize.codecChunk ≤ vectorMax) :
    ∃ err, get ((RS.new c true none).runFile (some file)).2.published = some (.error err) := by
  obtain ⟨_, ps, err, h⟩ := read_gzip_error c file W e hv hne hmax
  exact ⟨err, by rw [h, get_error]⟩

/-- A path that is not a file is reported. -/
theorem get_missing (c : Cfg) (gzip : Bool) : get ((RS.new c gzip none).runFile none).2.published = some (.error .notFile) := by
  rfl

/-- **C91 is false for compressed sources with pieces of more than half the address space.** The worker throws before it publishes anything, and `get`
waits for ever, whatever the file. -/
theorem gzip_huge_chunk (c : Cfg) (file : List Byte) (hne : file ≠ []) (hmax : vectorMax < c.normalize.codecChunk) :
    ((RS.new c true none).runFile (some file)).1 = .threw ∧ ((RS.new c true none).runFile (some file)).2.published = [] ∧
      get ((RS.new c true none).runFile (some file)).2.published = none := by
  have hl : 0 < file.length := List.length_pos_iff.2 hne
  have hsc : 0 < (RS.new c true none).cfg.sourceChunk := by unfold Cfg.sourceChunk; split <;> omega
  have hmax' : vectorMax < (RS.new c true none).cfg.codecChunk := hmax
  unfold RS.runFile
  rw [show (RS.new c true none).dec.isSome = true from rfl]
  simp only [if_true]
  rw [if_neg (by omega), List.drop_zero, RS.fileLoop]
  rw [show (RS.new c true none).look = (false, RS.new c true none) from rfl]
  dsimp only
  rw [if_neg (by omega)]
  have : (RS.new c true none).pushSource (file.take (min (RS.new c true none).cfg.sourceChunk file.length)) false =
      (.threw, { RS.new c true none with seen := (RS.new c true none).seen + (file.take (min (RS.new c true none).cfg.sourceChunk file.length)).length }) := by
    rw [RS.pushSource, show (RS.new c true none).look = (false, RS.new c true none) from rfl]
    dsimp only
    rw [show (RS.new c true none).dec = some (.fresh .gzip c.normalize.limit) from rfl]
    dsimp only
    rw [if_neg (by simp)]
    exact if_pos hmax'
  rw [this]
  exact ⟨rfl, rfl, rfl⟩

example : vectorMax < ({ chunkBytes := 2 ^ 64 - 4, align := 4 } : Cfg).normalize.codecChunk := by decide

end Verif.FileIo
