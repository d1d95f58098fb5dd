import Verif.Uri.Model

/-!
# Property C171: names of files and URIs are told apart, and file URIs give the path they name
-/

namespace Verif.Uri

theorem before_some (u p : Str) (h : before u = some p) : ∃ r, u = p ++ ':' :: '/' :: r := by
  induction u generalizing p with
  | nil => simp [before] at h
  | cons c u ih =>
    cases u with
    | nil => simp [before] at h
    | cons d r =>
      unfold before at h
      split at h
      · rename_i hc
        simp only [Option.some.injEq] at h
        subst h
        exact ⟨r, by simp [hc.1, hc.2]⟩
      · obtain ⟨q, hq, rfl⟩ := Option.map_eq_some_iff.mp h
        obtain ⟨r', hr⟩ := ih q hq
        exact ⟨r', by rw [hr]; rfl⟩

theorem before_none (u : Str) : before u = none ↔ ¬ ∃ a b, u = a ++ ':' :: '/' :: b := by
  constructor
  · intro h ⟨a, b, hab⟩
    induction a generalizing u with
    | nil => subst hab; simp [before] at h
    | cons c a ih =>
      subst hab
      cases ha : a ++ ':' :: '/' :: b with
      | nil => simp at ha
      | cons d r =>
        rw [List.cons_append, ha] at h
        unfold before at h
        split at h
        · cases h
        · exact ih _ (Option.map_eq_none_iff.mp h) ha.symm
  · intro h
    cases hb : before u with
    | none => rfl
    | some p =>
      obtain ⟨r, hr⟩ := before_some u p hb
      exact absurd ⟨p, r, hr⟩ h

/-- Without a colon before it, the first `:/` is found where it is. -/
theorem before_at (p r : Str) (hp : ':' ∉ p) : before (p ++ ':' :: '/' :: r) = some p := by
  induction p with
  | nil => simp [before]
  | cons c p ih =>
    simp only [List.mem_cons, not_or] at hp
    have := ih hp.2
    cases ha : p ++ ':' :: '/' :: r with
    | nil => simp at ha
    | cons d s =>
      rw [ha] at this
      rw [List.cons_append, ha]
      unfold before
      rw [if_neg (fun h => hp.1 h.1.symm), this]
      rfl

/-- A scheme: one or more letters. -/
def Scheme (p : Str) : Prop := p ≠ [] ∧ ∀ c ∈ p, c.isAlpha = true

theorem scheme_colon (p : Str) (h : Scheme p) : ':' ∉ p := fun hc => by
  have := h.2 _ hc
  exact absurd this (by decide)

theorem starts (p r : Str) (h : Scheme p) : startsWithScheme (p ++ ':' :: '/' :: r) = true := by
  unfold startsWithScheme
  rw [before_at p r (scheme_colon p h)]
  simp only [h.1, if_false]
  exact List.all_eq_true.mpr h.2

theorem schemeOf_eq (p r : Str) (h : Scheme p) : schemeOf (p ++ ':' :: '/' :: r) = p := by
  unfold schemeOf
  rw [starts p r h, before_at p r (scheme_colon p h)]
  rfl

theorem ci (a b : Str) : ciEquals a b = true ↔ a.map Char.toLower = b.map Char.toLower := by
  unfold ciEquals
  rw [Bool.and_eq_true, beq_iff_eq, beq_iff_eq]
  constructor
  · exact fun h => h.2
  · intro h
    refine ⟨?_, h⟩
    have := congrArg List.length h
    simpa using this

/-- The kinds by the name of the scheme in small letters. -/
def kindOf (name : String) : Kind :=
  if name = "file" then .file
  else if name = "http" ∨ name = "https" then .http
  else if name = "download" then .download
  else if name = "dialog" then .dialog
  else .unsupported

theorem ci_name (p : Str) (s : String) (hs : s.toList.map Char.toLower = s.toList) :
    ciEquals p s.toList = true ↔ String.ofList (p.map Char.toLower) = s := by
  rw [ci, hs]
  constructor
  · intro h; rw [h]; simp
  · intro h; rw [← h]; simp

/-- A URI is of the kind of its scheme, in small or capital letters. -/
theorem classify_scheme (p r : Str) (h : Scheme p) : classify (p ++ ':' :: '/' :: r) = kindOf (String.ofList (p.map Char.toLower)) := by
  unfold classify isFile isHttp isDownload isDialog kindOf
  rw [starts p r h, schemeOf_eq p r h]
  simp only [if_true, Bool.or_eq_true, ci_name p "file" (by decide), ci_name p "http" (by decide), ci_name p "https" (by decide),
    ci_name p "download" (by decide), ci_name p "dialog" (by decide)]

/-- A name is a local path exactly if there is no `:/` in it. -/
theorem classify_local (u : Str) : classify u = .localPath ↔ ¬ ∃ a b, u = a ++ ':' :: '/' :: b := by
  rw [← before_none]
  unfold classify
  constructor
  · intro h
    split at h
    · split at h
      · cases h
      · split at h
        · cases h
        · split at h
          · cases h
          · split at h <;> cases h
    · split at h
      · cases h
      · rename_i hb
        simpa using hb
  · intro h
    simp [startsWithScheme, h]

/-- What is before the first `:/` is no scheme: not supported. -/
theorem classify_bad (u p : Str) (hb : before u = some p) (hp : ¬ Scheme p) : classify u = .unsupported := by
  have hs : startsWithScheme u = false := by
    unfold startsWithScheme
    rw [hb]
    dsimp only
    split
    · rfl
    · rename_i hne
      cases ha : p.all Char.isAlpha with
      | false => rfl
      | true => exact absurd ⟨hne, List.all_eq_true.mp ha⟩ hp
  unfold classify
  rw [hs, hb]
  rfl

/-- Local paths stay as they are. -/
theorem local_same (u : Str) (h : ¬ ∃ a b, u = a ++ ':' :: '/' :: b) : toLocalPath u = some u := by
  unfold toLocalPath
  rw [(classify_local u).mpr h]

/-- `file` in small or capital letters. -/
def FileScheme (p : Str) : Prop := Scheme p ∧ String.ofList (p.map Char.toLower) = "file"

theorem after_colon (p r : Str) (h : ':' ∉ p) : ((p ++ ':' :: r).dropWhile (· ≠ ':')).drop 1 = r := by
  induction p with
  | nil => simp
  | cons c p ih =>
    simp only [List.mem_cons, not_or] at h
    rw [List.cons_append, List.dropWhile_cons_of_pos (by simpa using fun h' => h.1 h'.symm)]
    exact ih h.2

theorem file_local (p r : Str) (h : FileScheme p) :
    toLocalPath (p ++ ':' :: '/' :: r) = (filePath ('/' :: r)).map fun path => '/' :: path.dropWhile (· = '/') := by
  unfold toLocalPath
  rw [classify_scheme p r h.1, h.2]
  have : kindOf "file" = .file := by decide
  rw [this]
  dsimp only
  rw [after_colon p _ (scheme_colon p h.1)]

theorem takeWhile_at (host x : Str) (h : '/' ∉ host) : (host ++ '/' :: x).takeWhile (· ≠ '/') = host ∧ (host ++ '/' :: x).dropWhile (· ≠ '/') = '/' :: x := by
  induction host with
  | nil => simp
  | cons c cs ih =>
    simp only [List.mem_cons, not_or] at h
    obtain ⟨h1, h2⟩ := ih h.2
    have hc : c ≠ '/' := fun h' => h.1 h'.symm
    rw [List.cons_append, List.takeWhile_cons_of_pos (by simpa using hc), List.dropWhile_cons_of_pos (by simpa using hc), h1, h2]
    exact ⟨rfl, rfl⟩

/-- With a host: the path if the host is empty or `localhost`, refused otherwise. -/
theorem file_host (p host x : Str) (h : FileScheme p) (hh : '/' ∉ host) :
    toLocalPath (p ++ "://".toList ++ host ++ '/' :: x) =
      if host = [] ∨ host = "localhost".toList then some ('/' :: x.dropWhile (· = '/')) else none := by
  have e : p ++ "://".toList ++ host ++ '/' :: x = p ++ ':' :: '/' :: ('/' :: (host ++ '/' :: x)) := by simp
  rw [e, file_local p _ h]
  unfold filePath
  rw [if_pos (by simp [List.isPrefixOf])]
  dsimp only [List.drop]
  obtain ⟨h1, h2⟩ := takeWhile_at host x hh
  rw [h1, h2]
  by_cases hc : host = [] ∨ host = "localhost".toList
  · rw [if_pos hc, if_neg (by rcases hc with hc | hc <;> simp [hc])]
    simp
  · rw [if_neg hc, if_pos (by simpa [not_or] using hc)]
    rfl

/-- Without a host: the path. -/
theorem file_plain (p x : Str) (h : FileScheme p) (hx : x.head? ≠ some '/') : toLocalPath (p ++ ":/".toList ++ x) = some ('/' :: x) := by
  have e : p ++ ":/".toList ++ x = p ++ ':' :: '/' :: x := by simp
  rw [e, file_local p _ h]
  unfold filePath
  cases x with
  | nil => simp [List.isPrefixOf]
  | cons c cs =>
    have hc : c ≠ '/' := by simpa using hx
    rw [if_neg (by simp [List.isPrefixOf]; exact fun h => hc h.symm)]
    simp [List.dropWhile_cons, hc]

/-- Every absolute path, written as a file URI, gives itself. -/
theorem file_round_trip (x : Str) (hx : x.head? ≠ some '/') : toLocalPath ("file://".toList ++ '/' :: x) = some ('/' :: x) := by
  have hf : FileScheme "file".toList := ⟨⟨by decide, by decide⟩, by decide⟩
  have := file_host "file".toList [] x hf (by simp)
  rw [if_pos (Or.inl rfl)] at this
  have hd : x.dropWhile (· = '/') = x := by
    cases x with
    | nil => rfl
    | cons c cs =>
      have hc : c ≠ '/' := by simpa using hx
      simp [List.dropWhile_cons, hc]
  rw [hd] at this
  simpa using this

/-- Only local paths and file URIs have a local path. -/
theorem others_refused (u : Str) (h1 : classify u ≠ .localPath) (h2 : classify u ≠ .file) : toLocalPath u = none := by
  unfold toLocalPath
  split
  · contradiction
  · contradiction
  · rfl

theorem length_name (p : Str) (s : String) (h : String.ofList (p.map Char.toLower) = s) : p.length = s.toList.length := by
  rw [← h]; simp

/-- The name of a download is what is after `download:/`. -/
theorem download_name (p r : Str) (h : Scheme p) (hd : String.ofList (p.map Char.toLower) = "download") :
    stripDownload (p ++ ':' :: '/' :: r) = some r := by
  have hl : p.length = 8 := length_name p _ hd
  unfold stripDownload isDownload
  rw [schemeOf_eq p r h, if_pos ((ci_name p "download" (by decide)).mpr hd)]
  have e : p ++ ':' :: '/' :: r = (p ++ [':', '/']) ++ r := by simp
  rw [e, List.drop_left' (by simp [hl])]

example : FileScheme "FiLe".toList := ⟨⟨by decide, by decide⟩, by decide⟩
example : toLocalPath "FILE://localhost//tmp/a:/b".toList = some "/tmp/a:/b".toList ∧ toLocalPath "file://host/tmp".toList = none ∧
    stripDownload "Download:/x.bin".toList = some "x.bin".toList ∧ classify "HTTPS://a".toList = .http := by decide

/-- The findings: a path with a drive and a local path with `:/` in it are not supported; a file URI without a slash is taken for a local path
with its scheme; the name of the local host counts in small letters only; encoded characters stay encoded. -/
theorem findings :
    classify "C:/data/a.bin".toList = .unsupported ∧
    classify "/data/run:/a.bin".toList = .unsupported ∧
    toLocalPath "file:a.bin".toList = some "file:a.bin".toList ∧
    toLocalPath "file://LOCALHOST/a.bin".toList = none ∧
    toLocalPath "file:///a%20b.bin".toList = some "/a%20b.bin".toList := by decide

end Verif.Uri
