import Verif.FileIo.Model
import Verif.Deflate.Emit
/-!
# Writing files

Model of `fileio::write` and `writeAsync` for local files
(/repo/algorithm/include/gnuradio-4.0/algorithm/fileio/FileIo.hpp:1073-1343, native builds): what a
write does to the file, and what its result says. Uploads over HTTP are not modelled.
-/
namespace Verif.FileIo
open Verif.Bytes (Byte)

/-- FileIo.hpp:1073 -/
inductive WriteMode where
  | overwrite
  | append
deriving DecidableEq, Repr

/-- FileIo.hpp:117 -/
inductive Compression where
  | automatic
  | none
  | gzip
deriving DecidableEq, Repr

/-- What is at the path. -/
inductive Node where
  | missing
  | file (bytes : List Byte)
  /-- not a regular file -/
  | other
deriving DecidableEq, Repr

/-- How the file system behaves during one write. -/
structure Disk where
  /-- the directory exists or can be made -/
  dirOk : Bool := true
  /-- the file can be opened for writing -/
  openOk : Bool := true
  /-- how many more bytes the device takes -/
  room : Nat
  /-- shorter data stay in the buffer of the stream until it is closed; this many or more are handed
  to the device by `write` itself -/
  streamBuffer : Nat

/-- What the writer reports. The messages of FileIo.hpp:1095, 1170, 1311, 1318, 1331, 1337. -/
inductive WriteRes where
  | ok
  | cancelled
  | encodeFailed
  | noDirectory
  | notRegular
  | notOpened
  | notWritten
deriving DecidableEq, Repr

/-- `hasGzipSuffix` for a path without `?` and `#`. FileIo.hpp:148-152 -/
def hasGzipSuffix (path : List Char) : Bool :=
  decide (3 ≤ path.length) && (path.drop (path.length - 3)).map Char.toLower == ['.', 'g', 'z']

/-- `decodeGzipOnRead`. FileIo.hpp:155 -/
def decodeOnRead (path : List Char) (mode : Compression) : Bool :=
  mode = .gzip || (mode = .automatic && hasGzipSuffix path)

/-- `encodeGzipOnWrite`. FileIo.hpp:158 -/
def encodeOnWrite (mode : Compression) : Bool := mode = .gzip

/-- `prepareWriteData`; `none` is an encoding error. FileIo.hpp:1086-1107 -/
def prepareWrite (W : Nat) (comp : Compression) (level : Verif.Deflate.Level) (data : List Byte) :
    Option (List Byte) :=
  if data = [] ∨ encodeOnWrite comp = false then some data
  else
    match Verif.Deflate.compress W data .gzip level with
    | .error _ => none
    | .ok z => some z

/-- What the file holds after it was opened. FileIo.hpp:1323-1327 -/
def opened (mode : WriteMode) : Node → List Byte
  | .file bytes => if mode = .append then bytes else []
  | _ => []

/-- `runWriteLocalFile`. FileIo.hpp:1302-1343 -/
def writeLocal (mode : WriteMode) (disk : Disk) (node : Node) (data : List Byte) : WriteRes × Node :=
  -- 1308-1313
  if disk.dirOk = false then (.noDirectory, node)
  -- 1315-1321
  else if mode = .append ∧ node = .other then (.notRegular, node)
  -- 1329-1332
  else if disk.openOk = false then (.notOpened, node)
  else
    let file : Node := if node = .other then .other else .file (opened mode node ++ data.take disk.room)
    -- 1334-1339
    if data ≠ [] ∧ disk.streamBuffer ≤ data.length ∧ disk.room < data.length then (.notWritten, file)
    -- 1341-1342: whether closing could write what was buffered is not looked at
    else (.ok, file)

/-- `runPreparedWrite` for a local file; whether the writer was cancelled when the flag is read
before and after. FileIo.hpp:1162-1180 -/
def runWrite (W : Nat) (comp : Compression) (level : Verif.Deflate.Level) (mode : WriteMode) (disk : Disk)
    (before after : Bool) (node : Node) (data : List Byte) : WriteRes × Node :=
  if before then (.cancelled, node)
  else
    match prepareWrite W comp level data with
    | none => (.encodeFailed, node)
    | some payload =>
      let r := writeLocal mode disk node payload
      (if after then .cancelled else r.1, r.2)

end Verif.FileIo
