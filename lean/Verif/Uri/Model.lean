/-!
# Where a file is read from or written to

Models the names of files and URIs of `algorithm/include/gnuradio-4.0/algorithm/fileio/FileIoHelpers.hpp`. A string is its list of
characters; `std::tolower` and `std::isalpha` are those of the C locale. An error is `none`, its text is left out.
-/

namespace Verif.Uri

abbrev Str := List Char

/-- What is before the first `:/`: `uri.find(":/")` with `substr(0, p)` — FileIoHelpers.hpp:69, 85 -/
def before : Str → Option Str
  | [] => none
  | [_] => none
  | c :: d :: r => if c = ':' ∧ d = '/' then some [] else (before (d :: r)).map (c :: ·)

/-- `ciEquals` — FileIoHelpers.hpp:61-66 -/
def ciEquals (a b : Str) : Bool := a.length == b.length && (a.map Char.toLower == b.map Char.toLower)

/-- `startsWithScheme` — FileIoHelpers.hpp:68-79 -/
def startsWithScheme (uri : Str) : Bool :=
  match before uri with
  | none => false
  | some p => if p = [] then false else p.all Char.isAlpha

/-- `schemeOf` — FileIoHelpers.hpp:81-86 -/
def schemeOf (uri : Str) : Str := if startsWithScheme uri then (before uri).getD uri else []

/-- `UriKind` — FileIoHelpers.hpp:99-106 -/
inductive Kind where
  | localPath | file | http | download | dialog | unsupported
  deriving DecidableEq, Repr

/-- `isHttpUri` — FileIoHelpers.hpp:88-91 -/
def isHttp (uri : Str) : Bool := ciEquals (schemeOf uri) "http".toList || ciEquals (schemeOf uri) "https".toList

/-- `isDownloadUri` — FileIoHelpers.hpp:93 -/
def isDownload (uri : Str) : Bool := ciEquals (schemeOf uri) "download".toList

/-- `isFileUri` — FileIoHelpers.hpp:95 -/
def isFile (uri : Str) : Bool := ciEquals (schemeOf uri) "file".toList

/-- `isDialogUri` — FileIoHelpers.hpp:97 -/
def isDialog (uri : Str) : Bool := ciEquals (schemeOf uri) "dialog".toList

/-- `classifyUri` — FileIoHelpers.hpp:108-128 -/
def classify (uri : Str) : Kind :=
  if startsWithScheme uri then
    if isFile uri then .file
    else if isHttp uri then .http
    else if isDownload uri then .download
    else if isDialog uri then .dialog
    else .unsupported
  else if (before uri).isSome then .unsupported
  else .localPath

/-- `stripDownloadUri` — FileIoHelpers.hpp:130-135 -/
def stripDownload (uri : Str) : Option Str := if isDownload uri then some (uri.drop 10) else none

/-- The path of a file URI after its colon — FileIoHelpers.hpp:157-170 -/
def filePath (rest : Str) : Option Str :=
  if "//".toList.isPrefixOf rest then
    let rest := rest.drop 2
    let authority := rest.takeWhile (· ≠ '/')
    let path := rest.dropWhile (· ≠ '/')
    if authority ≠ [] ∧ authority ≠ "localhost".toList then none else some path
  else some rest

/-- `toLocalPath` — FileIoHelpers.hpp:151-177 -/
def toLocalPath (uri : Str) : Option Str :=
  match classify uri with
  | .localPath => some uri
  | .file => (filePath ((uri.dropWhile (· ≠ ':')).drop 1)).map fun path => '/' :: path.dropWhile (· = '/')
  | _ => none

end Verif.Uri
