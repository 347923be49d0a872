import Verif.Model.Lisp
/-!
Model of how `alda update` installs what it has downloaded, and of the removal of old versions: `client/cmd/update.go`, `client/cmd/root.go`, `client/system/dirs.go`.

Not modelled: the answers of the Alda server and the question which version to install; Windows (where there are no permissions to set).
-/
namespace Alda
namespace Update

/-- The name of a file in the directory of the `alda` executable. -/
abbrev Name := List Char

/-- A file: its contents, and whether everybody may execute it. -/
structure File where
  content : List Nat
  exec : Bool
deriving DecidableEq, Repr

/-- The directory of the `alda` executable (`filepath.Dir(aldaPath)`, client/cmd/update.go:191; client/system/dirs.go:69). -/
abbrev Dir := Name → Option File

/-- `releaseAsset`, client/cmd/update.go:80-84; instead of its URL, what has been downloaded from there. -/
structure Asset where
  name : Name
  executable : Bool := true
  content : List Nat

/-- What goes wrong while an asset is installed: finding the path of the executable, renaming (other than because there is no such file), opening the downloaded file,
creating the new one, copying (after how many bytes), reading and changing its permissions. And the time and the random number for the new name of the old version. -/
structure Faults where
  path : Bool := false
  rename : Bool := false
  opening : Bool := false
  create : Bool := false
  copy : Option Nat := none
  stat : Bool := false
  chmod : Bool := false
  statAgain : Bool := false
  time : Nat
  random : Nat

/-- `RenamedExecutable`, client/system/dirs.go:43-50, of a file in the directory. -/
def renamedExecutable (path : Name) (time random : Nat) : Name :=
  path ++ '.' :: (Nat.toDigits 10 time ++ '.' :: (Nat.toDigits 10 random ++ ['.', 'o', 'l', 'd']))

/-- Writing a file, or removing it. -/
def Dir.put (d : Dir) (name : Name) (f : Option File) : Dir := fun n => if n = name then f else d n

/-- `os.Rename` of a file that is there: it replaces a file with the new name. Of one that is not there (`os.ErrNotExist`): nothing happens. -/
def Dir.rename (d : Dir) (from_ to_ : Name) : Dir :=
  match d from_ with
  | none => d
  | some f => (d.put from_ none).put to_ (some f)

/-- `installAsset`, client/cmd/update.go:179-302: whether it succeeds, and the directory afterwards. `os.Create` makes a file that nobody may execute. -/
def installAsset (a : Asset) (f : Faults) (d : Dir) : Bool × Dir :=
  if !a.executable then (false, d)                                                      -- 180-184
  else if f.path then (false, d)                                                        -- 186-189
  else if f.rename then (false, d)                                                      -- 223-226
  else
    let d := d.rename a.name (renamedExecutable a.name f.time f.random)
    if f.opening then (false, d)                                                        -- 235-238
    else if f.create then (false, d)                                                    -- 245-248
    else
      match f.copy with
      | some n => (false, d.put a.name (some ⟨a.content.take n, false⟩))                -- 253-255
      | none =>
        if f.stat || f.chmod then (false, d.put a.name (some ⟨a.content, false⟩))       -- 274-287
        else (!f.statAgain, d.put a.name (some ⟨a.content, true⟩))                      -- 289-302

/-- `downloadAndInstallAssets`, client/cmd/update.go:304-318, after the download: the assets one after the other, until one fails. -/
def installAssets : List (Asset × Faults) → Dir → Bool × Dir
  | [], d => (true, d)
  | (a, f) :: rest, d =>
    match installAsset a f d with
    | (false, d) => (false, d)
    | (true, d) => installAssets rest d

/-- `downloadAndInstallAssets`: without a complete download nothing is installed. -/
def downloadAndInstall (downloaded : Bool) (assets : List (Asset × Faults)) (d : Dir) : Bool × Dir :=
  if downloaded then installAssets assets d else (false, d)

/-! ### Removing old versions -/

/-- What is left of a text after a given beginning, if it begins so. -/
def strip : List Char → List Char → Option (List Char)
  | [], s => some s
  | _ :: _, [] => none
  | p :: ps, c :: cs => if p = c then strip ps cs else none

/-- What can be left after `\d+` of a regular expression. -/
def afterDigits : List Char → List (List Char)
  | [] => []
  | c :: cs => if isDigit c then cs :: afterDigits cs else []

/-- What can be left after an optional text. -/
def afterOptional (p s : List Char) : List (List Char) := (strip p s).toList ++ [s]

/-- A match of ``alda(-player)?(\.exe)?\.\d+\.\d+\.old`` at the beginning of a text. -/
def matchesHere (s : List Char) : Bool :=
  (strip "alda".toList s).any fun s =>
  (afterOptional "-player".toList s).any fun s =>
  (afterOptional ".exe".toList s).any fun s =>
  (strip ".".toList s).any fun s =>
  (afterDigits s).any fun s =>
  (strip ".".toList s).any fun s =>
  (afterDigits s).any fun s =>
  (strip ".old".toList s).isSome

/-- `IsRenamedExecutable`, client/system/dirs.go:54-58: `MatchString` looks for a match anywhere in the name. -/
def isRenamedExecutable : List Char → Bool
  | [] => matchesHere []
  | c :: cs => matchesHere (c :: cs) || isRenamedExecutable cs

/-- `cleanUpRenamedExecutables`, client/cmd/root.go:122-143, with `FindRenamedExecutables`, client/system/dirs.go:63-92, which runs at the start of every command. `removable`:
which files can be removed; failures are ignored. Directories are left out. -/
def cleanUp (removable : Name → Bool) (d : Dir) : Dir := fun n => if isRenamedExecutable n && removable n then none else d n

end Update
end Alda
