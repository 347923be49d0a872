/-!
The state files of players and REPL servers: who creates, touches, writes and removes them, and how they are listed (`player/.../StateManager.kt`, `client/system/process_management.go`,
`client/repl/server.go:158-227`, `client/cmd/ps.go`).

Everything that a process does to a file is a step of its own, between which all other processes may make theirs.  Times are milliseconds.  Not modelled: the removal of empty directories
(StateManager.kt:103-108), errors of the file system, files that belong to nobody, processes that do not answer although they run (whose files `FindAvailablePlayer` and `alda doctor`
remove), clocks that are set back.
-/
namespace Alda
namespace Ps

/-- Where a file is: `state/players/<version>` or `state/repl-servers`, StateManager.kt:69-77, client/repl/server.go:60-62. -/
inductive Dir where
  | players (version : String)
  | servers
deriving DecidableEq, Repr

/-- A file. Its name is `<id>.json`; the id stands for it. -/
structure Path where
  dir : Dir
  id : String
deriving DecidableEq, Repr

/-- What is written to a file: `PlayerState` of StateManager.kt:17-19; of a server, client/repl/server.go:159-163, only the port and the process id are used. -/
structure Record where
  port : Nat
  state : String
  expiry : Nat
  pid : Nat
deriving DecidableEq, Repr

/-- What is in a file. -/
inductive Content where
  | empty
  | json (r : Record)
deriving DecidableEq, Repr

/-- A file and the time when it was last modified. -/
structure File where
  content : Content
  mtime : Nat
deriving DecidableEq, Repr

/-- A process that runs: what it has to report, when it has last touched its file, and whether it is just writing it. -/
structure Proc where
  record : Record
  touched : Nat
  writing : Bool
deriving DecidableEq, Repr

/-- The files, the processes that run, and the files about which a process that cleans up has found that they are old, but which it has not removed yet. -/
structure World where
  now : Nat
  files : Path → Option File
  procs : Path → Option Proc
  doomed : List Path

/-- Replacing one value of a function. -/
def set {α : Type} (f : Path → α) (p : Path) (x : α) : Path → α := fun q => if q = p then x else f q

/-- A file is stale if it has not been modified for two minutes, StateManager.kt:91-96 and client/system/process_management.go:62-64. -/
def stale (w : World) (f : File) : Bool := decide (w.now - f.mtime > 120000)

/-- `stateFile.createNewFile()` and the beginning of `writeText`, StateManager.kt:114-117, or of `os.WriteFile`, client/repl/server.go:183: the file is there and it is empty. -/
def begin (p : Path) (r : Record) (w : World) : World :=
  { w with files := set w.files p (some ⟨.empty, w.now⟩), procs := set w.procs p (some ⟨r, w.now, true⟩) }

/-- `setLastModified`, StateManager.kt:31, and `os.Chtimes`, client/repl/server.go:193: nothing happens if there is no file. -/
def touch (p : Path) (pr : Proc) (w : World) : World :=
  { w with files := set w.files p ((w.files p).map (fun f => { f with mtime := w.now })), procs := set w.procs p (some { pr with touched := w.now }) }

/-- The beginning of `writeText` in `writeStateFile`, StateManager.kt:79-81, after a change (:123-143): the file is emptied, or created if it is not there. -/
def truncate (p : Path) (pr : Proc) (r : Record) (w : World) : World :=
  { w with files := set w.files p (some ⟨.empty, w.now⟩), procs := set w.procs p (some { pr with record := r, writing := true }) }

/-- The end of `writeText`: the text is in the file, unless that has been removed meanwhile. -/
def fill (p : Path) (pr : Proc) (w : World) : World :=
  { w with files := set w.files p ((w.files p).map (fun _ => ⟨.json pr.record, w.now⟩)), procs := set w.procs p (some { pr with writing := false }) }

/-- The end of a process: `deleteOnExit`, StateManager.kt:115, and `removeStateFile`, client/repl/server.go:217-227. -/
def finish (p : Path) (w : World) : World := { w with files := set w.files p none, procs := set w.procs p none }

/-- A process is killed, and its file stays. -/
def crash (p : Path) (w : World) : World := { w with procs := set w.procs p none }

/-- `it.delete()`, StateManager.kt:101, and `os.Remove`, client/system/process_management.go:71 and 34: it does not matter if the file is not there any more. -/
def remove (p : Path) (w : World) : World := { w with files := set w.files p none, doomed := w.doomed.erase p }

/-- What can happen. A process touches its file again after at most `limit` milliseconds; `reuse` says whether a process may have the id of an earlier one whose file is still there. -/
inductive Step (limit : Nat) (reuse : Bool) : World → World → Prop where
  | wait {w : World} (ms : Nat) : (∀ p pr, w.procs p = some pr → w.now + ms ≤ pr.touched + limit) → Step limit reuse w { w with now := w.now + ms }
  | begin {w : World} (p : Path) (r : Record) : w.procs p = none → (reuse = false → w.files p = none ∧ p ∉ w.doomed) → Step limit reuse w (begin p r w)
  | touch {w : World} (p : Path) (pr : Proc) : w.procs p = some pr → Step limit reuse w (touch p pr w)
  | truncate {w : World} (p : Path) (pr : Proc) (r : Record) : w.procs p = some pr → pr.writing = false → Step limit reuse w (truncate p pr r w)
  | fill {w : World} (p : Path) (pr : Proc) : w.procs p = some pr → pr.writing = true → Step limit reuse w (fill p pr w)
  | finish {w : World} (p : Path) (pr : Proc) : w.procs p = some pr → Step limit reuse w (finish p w)
  | crash {w : World} (p : Path) (pr : Proc) : w.procs p = some pr → Step limit reuse w (crash p w)
  /-- A process that cleans up looks at a file, StateManager.kt:90-96 and client/system/process_management.go:55-64. -/
  | look {w : World} (p : Path) (f : File) : w.files p = some f → stale w f = true → Step limit reuse w { w with doomed := p :: w.doomed }
  | remove {w : World} (p : Path) : p ∈ w.doomed → Step limit reuse w (remove p w)
  /-- A process that cleans up is killed before it removes the file. -/
  | forget {w : World} (p : Path) : p ∈ w.doomed → Step limit reuse w { w with doomed := w.doomed.erase p }
  /-- The file of a process that has not answered is removed, client/system/process_management.go:386-402. -/
  | drop {w : World} (p : Path) : w.procs p = none → Step limit reuse w { w with files := set w.files p none }

/-- Any number of steps. -/
inductive Steps (limit : Nat) (reuse : Bool) : World → World → Prop where
  | refl {w : World} : Steps limit reuse w w
  | tail {w w1 w2 : World} : Steps limit reuse w w1 → Step limit reuse w1 w2 → Steps limit reuse w w2

/-- No files and no processes. -/
def start : World := ⟨0, fun _ => none, fun _ => none, []⟩

/-- What becomes of one file in `ReadPlayerStates` and `ReadREPLServerStates`, client/system/process_management.go:190-223 and 246-285: missing and empty files are skipped. -/
def entry (w : World) (p : Path) : List (String × Record) :=
  match w.files p with
  | none => []
  | some ⟨.empty, _⟩ => []
  | some ⟨.json r, _⟩ => [(p.id, r)]

/-- `cleanUpStaleStateFiles`, client/system/process_management.go:41-80: the files of these paths are looked at, one after the other, and removed if they are stale. Meanwhile other
processes go on. -/
inductive Cleans (limit : Nat) (reuse : Bool) : World → List Path → World → Prop where
  | nil {w : World} : Cleans limit reuse w [] w
  | keep {w w1 w2 : World} {p : Path} {ps : List Path} : Steps limit reuse w w1 → (∀ f, w1.files p = some f → stale w1 f = false) → Cleans limit reuse w1 ps w2 → Cleans limit reuse w (p :: ps) w2
  | remove {w w1 w2 w3 : World} {p : Path} {ps : List Path} {f : File} : Steps limit reuse w w1 → w1.files p = some f → stale w1 f = true →
      Steps limit reuse { w1 with doomed := p :: w1.doomed } w2 → p ∈ w2.doomed → Cleans limit reuse (Ps.remove p w2) ps w3 → Cleans limit reuse w (p :: ps) w3

/-- The loop of `processFiles`, client/system/process_management.go:156-161: the files with these names are read, one after the other; what is kept here is when. -/
inductive Reads (limit : Nat) (reuse : Bool) : World → List Path → List (Path × World) → World → Prop where
  | nil {w : World} : Reads limit reuse w [] [] w
  | cons {w w1 w2 : World} {p : Path} {ps : List Path} {ms : List (Path × World)} : Steps limit reuse w w1 → Reads limit reuse w1 ps ms w2 → Reads limit reuse w (p :: ps) ((p, w1) :: ms) w2

/-- The states that are returned, and the lines of `alda ps`, client/cmd/ps.go:26-41. -/
def rows (ms : List (Path × World)) : List (String × Record) := ms.flatMap (fun m => entry m.2 m.1)

/-- `os.ReadDir`: these are the files of the directory. -/
def Names (w : World) (d : Dir) (ps : List Path) : Prop := ps.Nodup ∧ ∀ p, p ∈ ps ↔ p.dir = d ∧ w.files p ≠ none

/-- `filepath.WalkDir` over all directories: every file that is there when it begins is visited. -/
def Walks (w : World) (ps : List Path) : Prop := ∀ p, w.files p ≠ none → p ∈ ps

/-- `ReadPlayerStates` for a version (client/system/process_management.go:181-229): clean up, list the directory, read the files. `alda ps` (client/cmd/ps.go:14-44) prints a line for
each entry. The second world is that in which the directory is listed; `ms` says when which file is read. -/
def Lists (limit : Nat) (reuse : Bool) (w w1 : World) (d : Dir) (ms : List (Path × World)) (w2 : World) : Prop :=
  ∃ all w0 ps, Walks w all ∧ Cleans limit reuse w all w0 ∧ Steps limit reuse w0 w1 ∧ Names w1 d ps ∧ Reads limit reuse w1 ps ms w2

end Ps
end Alda
