/-!
Model of `client/cmd/telemetry.go` and of the part of `client/cmd/root.go` that has to do with telemetry.

Several `alda` processes may run at the same time; they share the file `telemetry-status`. A process is the list of the operations that it still has to do, which depends on what
they give (`Prog`). The processes are interleaved in any way; every file operation may fail.
-/
namespace Alda
namespace Telemetry

/-- What is in the file `telemetry-status`, client/cmd/telemetry.go:84-93. Everything but the two texts `enabled` and `disabled` (the empty text, for example) is `other`. -/
inductive Content
  | enabled
  | disabled
  | other
  deriving DecidableEq, Repr

/-- `TelemetryStatus`, or an error, client/cmd/telemetry.go:51-59. -/
inductive Status
  | notInformed
  | enabled
  | disabled
  | failed
  deriving DecidableEq, Repr

/-- The payload of the telemetry request, client/cmd/telemetry.go:237-242. -/
structure Payload where
  os : String
  arch : String
  version : String
  command : String
  deriving DecidableEq, Repr

/-- What can be seen of a process. -/
inductive Event
  /-- The notice about telemetry is shown, client/cmd/telemetry.go:113-125. -/
  | notice
  /-- A telemetry request is sent, client/cmd/telemetry.go:251-255. -/
  | sent (p : Payload)
  /-- `Telemetry is enabled.` or `Telemetry is disabled.`, client/cmd/telemetry.go:148-150. -/
  | report (enabled : Bool)
  deriving DecidableEq, Repr

/-- What a process still has to do. -/
inductive Prog
  | done
  /-- Look whether there is the file, and read it. -/
  | read (k : Status → Prog)
  /-- Make the directory, and open the file for writing, which empties it. The argument of what follows is whether that succeeded. -/
  | create (c : Content) (k : Bool → Prog)
  /-- Write to the file that has been opened. -/
  | fill (c : Content) (k : Bool → Prog)
  | emit (e : Event) (k : Prog)

/-- `readTelemetryStatus`, client/cmd/telemetry.go:63-94. -/
def readTelemetryStatus (env : Bool) (k : Status → Prog) : Prog := if env then k .disabled else .read k

/-- `writeTelemetryStatus`, client/cmd/telemetry.go:96-110. -/
def writeTelemetryStatus (c : Content) (k : Bool → Prog) : Prog := .create c k

/-- `informUserOfTelemetry`, client/cmd/telemetry.go:112-131. An error when writing is only logged. -/
def informUserOfTelemetry (k : Prog) : Prog := .emit .notice (writeTelemetryStatus .enabled fun _ => k)

/-- `informUserOfTelemetryIfNeeded`, client/cmd/telemetry.go:133-146. -/
def informUserOfTelemetryIfNeeded (env : Bool) (k : Prog) : Prog :=
  readTelemetryStatus env fun
    | .notInformed => informUserOfTelemetry k
    | .failed => informUserOfTelemetry k
    | .enabled => k
    | .disabled => k

/-- `sendTelemetry`, client/cmd/root.go:88-120. The request is sent in the background; the model sends it at once. -/
def sendTelemetry (os arch version : String) (env : Bool) (command : String) (k : Prog) : Prog :=
  if command = "alda" then k
  else
    readTelemetryStatus env fun
      | .failed => k
      | .disabled => k
      | .notInformed => .emit (.sent ⟨os, arch, version, command⟩) k
      | .enabled => .emit (.sent ⟨os, arch, version, command⟩) k

/-- `showTelemetryStatus`, client/cmd/telemetry.go:160-178. -/
def showTelemetryStatus (env : Bool) (k : Prog) : Prog :=
  readTelemetryStatus env fun
    | .failed => k
    | .notInformed => informUserOfTelemetry (.emit (.report true) k)
    | .enabled => .emit (.report true) k
    | .disabled => .emit (.report false) k

/-- The flags of `alda telemetry`, client/cmd/telemetry.go:22-47. -/
structure Flags where
  enable : Bool := false
  disable : Bool := false
  deriving DecidableEq, Repr

/-- `alda telemetry`, client/cmd/telemetry.go:198-230. -/
def telemetryCmd (env : Bool) (f : Flags) (k : Prog) : Prog :=
  if f.enable && f.disable then k
  else if f.enable then writeTelemetryStatus .enabled fun ok => if ok then .emit (.report true) k else k
  else if f.disable then writeTelemetryStatus .disabled fun ok => if ok then .emit (.report false) k else k
  else showTelemetryStatus env k

/-- One invocation of `alda`. -/
structure Invocation where
  /-- The environment variable `ALDA_DISABLE_TELEMETRY` is `yes`. -/
  env : Bool := false
  os : String
  arch : String
  version : String
  /-- The name of the command that is run: `play`, `telemetry`, …, or `alda` without a command. -/
  name : String
  /-- Its arguments. -/
  arguments : List String := []
  /-- `PersistentPreRunE` is run, client/cmd/root.go:293-300: not for `--help` and not if the command line is wrong. -/
  prerun : Bool := true
  /-- The flags, for `alda telemetry`. -/
  flags : Option Flags := none
  /-- How often the help text or the usage text is shown. -/
  helps : Nat := 0

/-- The help and usage functions, client/cmd/root.go:156-198. -/
def help (env : Bool) : Nat → Prog
  | 0 => .done
  | n + 1 => informUserOfTelemetryIfNeeded env (help env n)

/-- One invocation, client/cmd/root.go:293-346. -/
def Invocation.prog (v : Invocation) : Prog :=
  let rest := help v.env v.helps
  if v.prerun then
    informUserOfTelemetryIfNeeded v.env <| sendTelemetry v.os v.arch v.version v.env v.name <|
      match v.flags with
      | some f => telemetryCmd v.env f rest
      | none => rest
  else rest

/-- The file, the processes, and what has been seen of them. -/
structure World where
  file : Option Content
  procs : List Prog
  log : List (Nat × Event) := []

/-- A step of one process, and what goes wrong. -/
structure Step where
  proc : Nat
  /-- The file is there but cannot be read. -/
  readFails : Bool := false
  /-- The directory cannot be made or the file cannot be opened. -/
  createFails : Bool := false
  /-- The file cannot be written; whether all of the text has been written nevertheless. -/
  fillFails : Option Bool := none

/-- What reading gives, client/cmd/telemetry.go:75-93. -/
def statusOf (file : Option Content) (fails : Bool) : Status :=
  match file with
  | none => .notInformed
  | some c =>
    if fails then .failed
    else
      match c with
      | .enabled => .enabled
      | .disabled => .disabled
      | .other => .failed

/-- One step, `os.Stat`, `os.ReadFile`, `os.MkdirAll` and `os.WriteFile` at client/cmd/telemetry.go:75-110. -/
def World.step (w : World) (s : Step) : World :=
  match w.procs[s.proc]? with
  | none => w
  | some .done => w
  | some (.read k) => { w with procs := w.procs.set s.proc (k (statusOf w.file s.readFails)) }
  | some (.create c k) =>
    if s.createFails then { w with procs := w.procs.set s.proc (k false) }
    else { w with file := some .other, procs := w.procs.set s.proc (.fill c k) }
  | some (.fill c k) =>
    match s.fillFails with
    | none => { w with file := some c, procs := w.procs.set s.proc (k true) }
    | some all => { w with file := some (if all then c else .other), procs := w.procs.set s.proc (k false) }
  | some (.emit e k) => { w with procs := w.procs.set s.proc k, log := w.log ++ [(s.proc, e)] }

/-- Several steps. -/
def World.run (w : World) (ss : List Step) : World := ss.foldl World.step w

/-- Processes that are started with this file. A process that is started later is one that does nothing until then. -/
def start (file : Option Content) (vs : List Invocation) : World := { file := file, procs := vs.map Invocation.prog }

end Telemetry
end Alda
