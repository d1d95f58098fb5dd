import Verif.FileIo.Write
import Verif.FileIo.Props
import Verif.Deflate.Members
import Verif.Deflate.Props
/-!
# C126: what a write leaves in the file, and what its result says
-/
namespace Verif.FileIo
open Verif.Bytes (Byte)
open Verif.Deflate (Level compress MemberFile members_decompress compress_decompress_partial compress_within_bound
  compressBound_eq)

/-- A file system that does what it is asked for `n` more bytes. -/
def Disk.takes (d : Disk) (n : Nat) : Prop := d.dirOk = true ∧ d.openOk = true ∧ n ≤ d.room

/-- The bytes at a path, nothing if there is no file. -/
def Node.bytes : Node → List Byte
  | .file b => b
  | _ => []

/-- Without compression the data themselves are written, whatever the name of the file; with it
what `compress` gives; empty data are never compressed. -/
theorem prepare_spec (W : Nat) (comp : Compression) (level : Level) (data : List Byte) :
    (comp ≠ .gzip → prepareWrite W comp level data = some data) ∧
    prepareWrite W comp level [] = some [] ∧
    (data ≠ [] → ∀ z, compress W data .gzip level = .ok z → prepareWrite W .gzip level data = some z) := by
  refine ⟨fun h => ?_, by simp [prepareWrite], fun hne z hz => ?_⟩
  · have : encodeOnWrite comp = false := by cases comp <;> first | rfl | exact absurd rfl h
    simp only [prepareWrite, this, or_true, if_true]
  · simp only [prepareWrite, hz]
    rw [if_neg]
    simp [encodeOnWrite, hne]

/-- A write on a file system that has room: it is reported as done, and the file holds the payload,
after what was there before when appending. -/
theorem write_exact (W : Nat) (comp : Compression) (level : Level) (mode : WriteMode) (disk : Disk)
    (node : Node) (data payload : List Byte) (hp : prepareWrite W comp level data = some payload)
    (hd : disk.takes payload.length) (hn : node ≠ .other) :
    runWrite W comp level mode disk false false node data =
      (.ok, .file (if mode = .append then node.bytes ++ payload else payload)) := by
  obtain ⟨h1, h2, h3⟩ := hd
  have hb : opened mode node = if mode = .append then node.bytes else [] := by
    cases node <;> simp [opened, Node.bytes]
  simp only [runWrite, Bool.false_eq_true, if_false, hp, writeLocal, h1, h2, hb]
  have e1 : ¬ (mode = .append ∧ node = .other) := fun h => hn h.2
  have e2 : ¬ (payload ≠ [] ∧ disk.streamBuffer ≤ payload.length ∧ disk.room < payload.length) := by omega
  rw [if_neg (by simp), if_neg e1, if_neg (by simp), if_neg e2, if_neg hn, List.take_of_length_le h3]
  by_cases hm : mode = .append <;> simp [hm]

/-- Writing without compression and reading without decompression gives the data back. -/
theorem write_read_plain (W : Nat) (comp : Compression) (level : Level) (disk : Disk) (node : Node)
    (data : List Byte) (c : Cfg) (hc : comp ≠ .gzip) (hd : disk.takes data.length) (hn : node ≠ .other) :
    ∃ file, runWrite W comp level .overwrite disk false false node data = (.ok, .file file) ∧
      get ((RS.new c false none).runFile (some file)).2.published = some (.ok (data.drop (c.offset.getD 0))) := by
  refine ⟨data, ?_, get_file c data⟩
  rw [write_exact W comp level .overwrite disk node data data ((prepare_spec W comp level data).1 hc) hd hn]
  rfl

/-- Writing with compression and reading with decompression gives the data back. Partial: data
below 4 GiB (see C19) and pieces up to half the address space (see C91). -/
theorem write_read_gzip_partial (W : Nat) (level : Level) (disk : Disk) (node : Node)
    (data : List Byte) (c : Cfg) (hd0 : disk.takes 0)
    (hd : ∀ z, compress W data .gzip level = .ok z → disk.takes z.length) (hn : node ≠ .other)
    (hlen : data.length < 2 ^ 32) (hlim : data.length ≤ c.limit) (hmax : c.normalize.codecChunk ≤ vectorMax) :
    ∃ file, runWrite W .gzip level .overwrite disk false false node data = (.ok, .file file) ∧
      get ((RS.new c true none).runFile (some file)).2.published = some (.ok (data.drop (c.offset.getD 0))) := by
  by_cases he : data = []
  · subst he
    refine ⟨[], ?_, ?_⟩
    · rw [write_exact W .gzip level .overwrite disk node [] [] (prepare_spec W .gzip level []).2.1 hd0 hn]
      rfl
    · rw [List.drop_nil]
      simp only [RS.runFile, List.length_nil, Nat.zero_le, if_true]
      rfl
  · obtain ⟨z, hz, hdec⟩ := compress_decompress_partial W 0 data .gzip level hlen
    have hp := (prepare_spec W .gzip level data).2.2 he z hz
    have hm : MemberFile W [data] z := ⟨level, z, [], hz, by simp, rfl⟩
    have hne := (members_decompress W 0 [data] z c.limit hm (by simp) (by simpa using hlen) (by simpa using hlim)).1
    refine ⟨z, ?_, get_gzip c z data 0 data.length (hdec c.limit hlim) hne hmax⟩
    rw [write_exact W .gzip level .overwrite disk node data z hp (hd z hz) hn]
    rfl

/-- Several writes one after the other that append. -/
def appendAll (W : Nat) (level : Level) (disk : Disk) (node : Node) (datas : List (List Byte)) : Node :=
  datas.foldl (fun n d => (runWrite W .gzip level .append disk false false n d).2) node

/-- Appending compressed data again and again gives a file whose reader gets all of them in order.
Partial: as before. -/
theorem append_read_gzip_partial (W : Nat) (level : Level) (disk : Disk) (datas : List (List Byte)) (c : Cfg)
    (hd0 : disk.takes 0) (hd : ∀ d ∈ datas, ∀ z, compress W d .gzip level = .ok z → disk.takes z.length)
    (hne : ∃ d ∈ datas, d ≠ []) (hlen : ∀ d ∈ datas, d.length < 2 ^ 32)
    (hlim : datas.flatten.length ≤ c.limit) (hmax : c.normalize.codecChunk ≤ vectorMax) :
    ∃ file, appendAll W level disk .missing datas = .file file ∧
      get ((RS.new c true none).runFile (some file)).2.published =
        some (.ok (datas.flatten.drop (c.offset.getD 0))) := by
  have step : ∀ (n : Node) (d : List Byte), n ≠ .other → d.length < 2 ^ 32 →
      (∀ z, compress W d .gzip level = .ok z → disk.takes z.length) →
      ∃ z, (runWrite W .gzip level .append disk false false n d).2 = .file (n.bytes ++ z) ∧
        ((d = [] ∧ z = []) ∨ (d ≠ [] ∧ compress W d .gzip level = .ok z)) := by
    intro n d hn hl hd
    by_cases he : d = []
    · subst he
      refine ⟨[], ?_, .inl ⟨rfl, rfl⟩⟩
      rw [write_exact W .gzip level .append disk n [] [] (prepare_spec W .gzip level []).2.1 hd0 hn]
      rfl
    · obtain ⟨z, hz, _⟩ := compress_decompress_partial W 0 d .gzip level hl
      refine ⟨z, ?_, .inr ⟨he, hz⟩⟩
      rw [write_exact W .gzip level .append disk n d z ((prepare_spec W .gzip level d).2.2 he z hz) (hd z hz) hn]
      rfl
  have key : ∀ (datas : List (List Byte)) (n : Node), n ≠ .other → (∀ d ∈ datas, d.length < 2 ^ 32) →
      (∀ d ∈ datas, ∀ z, compress W d .gzip level = .ok z → disk.takes z.length) → datas ≠ [] →
      ∃ zs, appendAll W level disk n datas = .file (n.bytes ++ zs) ∧ MemberFile W (datas.filter (· ≠ [])) zs := by
    intro datas
    induction datas with
    | nil => intro n _ _ _ h; exact absurd rfl h
    | cons d ds ih =>
      intro n hn hl hd _
      obtain ⟨z, hz, hor⟩ := step n d hn (hl d (List.mem_cons_self ..)) (hd d (List.mem_cons_self ..))
      have : ∃ zs, appendAll W level disk n (d :: ds) = .file (n.bytes ++ (z ++ zs)) ∧ MemberFile W (ds.filter (· ≠ [])) zs := by
        show ∃ zs, appendAll W level disk (runWrite W .gzip level .append disk false false n d).2 ds = _ ∧ _
        rw [hz]
        by_cases hds : ds = []
        · subst hds
          exact ⟨[], by simp [appendAll], rfl⟩
        · obtain ⟨zs, h1, h2⟩ := ih (.file (n.bytes ++ z)) (by simp) (fun x hx => hl x (List.mem_cons_of_mem _ hx))
            (fun x hx => hd x (List.mem_cons_of_mem _ hx)) hds
          exact ⟨zs, by rw [h1]; simp [Node.bytes], h2⟩
      obtain ⟨zs, h1, h2⟩ := this
      refine ⟨z ++ zs, h1, ?_⟩
      rcases hor with ⟨rfl, rfl⟩ | ⟨hd', hc⟩
      · simpa using h2
      · rw [List.filter_cons_of_pos (by simpa using hd')]
        exact ⟨level, z, zs, hc, rfl, h2⟩
  obtain ⟨d0, hm0, hm0'⟩ := hne
  obtain ⟨zs, h1, h2⟩ := key datas .missing (by simp) hlen hd (List.ne_nil_of_mem hm0)
  have hflat : (datas.filter (· ≠ [])).flatten = datas.flatten := by
    clear h1 h2 hm0 hlen hlim hd
    induction datas with
    | nil => rfl
    | cons d ds ih =>
      by_cases he : d = []
      · subst he; simpa using ih
      · rw [List.filter_cons_of_pos (by simpa using he), List.flatten_cons, ih, List.flatten_cons]
  have hm := members_decompress W 0 _ zs c.limit h2
    (List.ne_nil_of_mem (List.mem_filter.2 ⟨hm0, by simpa using hm0'⟩))
    (fun d hd => hlen d (List.mem_filter.1 hd).1) (by rw [hflat]; exact hlim)
  rw [hflat] at hm
  exact ⟨zs, by rw [h1]; rfl, get_gzip c zs _ 0 _ hm.2 hm.1 hmax⟩

/-- A write that is reported as done and was not kept back in the buffer of the stream has left its
payload in the file. Partial: not for payloads shorter than the buffer of the stream. -/
theorem done_is_written_partial (W : Nat) (comp : Compression) (level : Level) (mode : WriteMode) (disk : Disk)
    (before after : Bool) (node node' : Node) (data payload : List Byte)
    (hp : prepareWrite W comp level data = some payload) (hbuf : disk.streamBuffer ≤ payload.length)
    (hn : node ≠ .other) (h : runWrite W comp level mode disk before after node data = (.ok, node')) :
    before = false ∧ after = false ∧
    node' = .file (if mode = .append then node.bytes ++ payload else payload) := by
  cases before with
  | true => simp [runWrite] at h
  | false =>
    cases after with
    | true => simp [runWrite, hp] at h
    | false =>
      refine ⟨rfl, rfl, ?_⟩
      have hd : disk.takes payload.length := by
        simp only [runWrite, Bool.false_eq_true, if_false, hp, writeLocal] at h
        refine ⟨?_, ?_, ?_⟩
        · cases hx : disk.dirOk with
          | true => rfl
          | false => simp [hx] at h
        · cases hx : disk.openOk with
          | true => rfl
          | false =>
            rw [hx] at h
            by_cases h1 : disk.dirOk = false <;> by_cases h2 : mode = .append ∧ node = .other <;> simp [h1, h2] at h
        · refine Nat.le_of_not_lt fun hlt => ?_
          have hne : payload ≠ [] := by
            intro he
            rw [he] at hlt
            simp at hlt
          by_cases h1 : disk.dirOk = false <;> by_cases h2 : mode = .append ∧ node = .other <;>
            by_cases h3 : disk.openOk = false <;> simp [h1, h2, h3, hne, hbuf, hlt] at h
      rw [write_exact W comp level mode disk node data payload hp hd hn] at h
      exact (Prod.mk.inj h).2.symm

/-- A short payload on a full device is reported as written although nothing of it is in the file:
the buffer is written by closing the stream, and nobody looks whether that worked. -/
theorem done_not_written (buffer : Nat) (hb : 1 < buffer) (W : Nat) (level : Level) (b : Byte) :
    runWrite W .none level .overwrite { room := 0, streamBuffer := buffer } false false (.file [b]) [b] =
      (.ok, .file []) := by
  have h : ¬ buffer ≤ 1 := by omega
  simp [runWrite, prepareWrite, encodeOnWrite, writeLocal, opened, h]

/-- Appending never harms what was in the file, however it ends. -/
theorem append_keeps (W : Nat) (comp : Compression) (level : Level) (disk : Disk) (before after : Bool)
    (old data : List Byte) :
    ∃ more, (runWrite W comp level .append disk before after (.file old) data).2 = .file (old ++ more) ∧
      ∀ payload, prepareWrite W comp level data = some payload → more <+: payload := by
  cases before with
  | true => exact ⟨[], by simp [runWrite], fun _ _ => List.nil_prefix⟩
  | false =>
    simp only [runWrite, Bool.false_eq_true, if_false]
    cases hp : prepareWrite W comp level data with
    | none => exact ⟨[], by simp, fun _ h => by cases h⟩
    | some payload =>
      simp only [writeLocal]
      by_cases h1 : disk.dirOk = false
      · exact ⟨[], by simp [h1], fun _ _ => List.nil_prefix⟩
      · by_cases h3 : disk.openOk = false
        · exact ⟨[], by simp [h1, h3], fun _ _ => List.nil_prefix⟩
        · refine ⟨payload.take disk.room, ?_, fun p h => by cases h; exact List.take_prefix _ _⟩
          by_cases h4 : payload ≠ [] ∧ disk.streamBuffer ≤ payload.length ∧ disk.room < payload.length <;>
            simp [h1, h3, h4, opened]

/-- Overwriting does: a write that fails has already removed the old contents. -/
theorem failed_overwrite_loses (W : Nat) (level : Level) (old : List Byte) (b : Byte) :
    runWrite W .none level .overwrite { room := 0, streamBuffer := 1 } false false (.file old) [b] =
      (.notWritten, .file []) := by
  simp [runWrite, prepareWrite, encodeOnWrite, writeLocal, opened]

/-- A writer that is cancelled before it begins does not touch the file. One that is cancelled
later says so, but the file has been written. -/
theorem cancelled_write (W : Nat) (comp : Compression) (level : Level) (mode : WriteMode) (disk : Disk)
    (after : Bool) (node : Node) (data : List Byte) :
    runWrite W comp level mode disk true after node data = (.cancelled, node) ∧
    (runWrite W comp level mode disk false true node data).2 =
      (runWrite W comp level mode disk false false node data).2 ∧
    (prepareWrite W comp level data ≠ none →
      (runWrite W comp level mode disk false true node data).1 = .cancelled) := by
  refine ⟨rfl, ?_, fun h => ?_⟩
  · simp only [runWrite, Bool.false_eq_true, if_false]
    cases prepareWrite W comp level data <;> rfl
  · simp only [runWrite, Bool.false_eq_true, if_false]
    cases hp : prepareWrite W comp level data with
    | none => exact absurd hp h
    | some _ => rfl

/-- Appending to what is not a regular file is refused without touching it. -/
theorem append_refused (W : Nat) (comp : Compression) (level : Level) (disk : Disk) (data payload : List Byte)
    (hd : disk.dirOk = true) (hp : prepareWrite W comp level data = some payload) :
    runWrite W comp level .append disk false false .other data = (.notRegular, .other) := by
  simp [runWrite, hp, writeLocal, hd]

/-- With the default settings a name that ends in `.gz` is read as compressed but not written
compressed: what was written under it cannot be read back. -/
theorem gz_name_one_way :
    decodeOnRead "a.gz".toList .automatic = true ∧
    (runWrite 0 .automatic .balanced .overwrite { room := 100, streamBuffer := 8 } false false .missing
      [1#8, 2#8, 3#8]).2 = .file [1#8, 2#8, 3#8] ∧
    ∃ e, get ((RS.new {} (decodeOnRead "a.gz".toList .automatic) none).runFile
      (some [1#8, 2#8, 3#8])).2.published = some (.error e) := by
  refine ⟨by decide, by decide +kernel, ?_⟩
  rw [show decodeOnRead "a.gz".toList .automatic = true by decide]
  exact get_gzip_error {} [1#8, 2#8, 3#8] 0 (.err .invalidHeader) (by rfl) (by simp) (by decide)

/-- Reading and writing agree on explicit settings. -/
theorem explicit_modes_agree (path : List Char) (mode : Compression) (h : mode ≠ .automatic) :
    decodeOnRead path mode = encodeOnWrite mode := by
  cases mode <;> first | rfl | exact absurd rfl h

/-! ## Concrete cases -/

example : runWrite 0 .none .balanced .append { room := 2, streamBuffer := 1 } false false (.file [7#8])
    [1#8, 2#8, 3#8] = (.notWritten, .file [7#8, 1#8, 2#8]) := by decide +kernel
example : (Disk.takes { room := 10, streamBuffer := 8191 } 10) := ⟨rfl, rfl, Nat.le_refl _⟩
example : hasGzipSuffix "dir/x.GZ".toList = true ∧ hasGzipSuffix "gz".toList = false := by decide

/-- The hypotheses of `write_read_gzip_partial` and `append_read_gzip_partial` are met by a disk with
a megabyte to spare and data of up to a thousand bytes. -/
example (W : Nat) (level : Level) (data : List Byte) (h : data.length ≤ 1000) :
    (Disk.takes { room := 1000000, streamBuffer := 8191 } 0) ∧
    ∀ z, compress W data .gzip level = .ok z → (Disk.takes { room := 1000000, streamBuffer := 8191 } z.length) := by
  refine ⟨⟨rfl, rfl, Nat.zero_le _⟩, fun z hz => ⟨rfl, rfl, ?_⟩⟩
  obtain ⟨z', hz', hl⟩ := compress_within_bound W data .gzip level
  rw [hz] at hz'
  cases hz'
  rw [(compressBound_eq data.length).2.2] at hl
  show z.length ≤ 1000000
  omega

end Verif.FileIo
