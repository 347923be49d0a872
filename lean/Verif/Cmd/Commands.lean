import Verif.Repl.Code
import Verif.System.Pool
import Verif.Player.Player
/-!
Model of the commands `alda play`, `alda stop`, `alda shutdown` and `alda export`: `client/cmd/play.go`, `stop.go`, `shutdown.go`, `export.go`.

Not modelled: parsing of the command line (cobra), logging, presentation of errors, pings (they are not recorded as sent).
-/
namespace Alda
namespace Cmd

/-- The arguments and the options of a command, client/cmd/play.go:18-58, export.go:24-60, stop.go:12-29, shutdown.go:12-20. -/
structure Flags where
  args : List String := []
  file : String := ""
  code : String := ""
  from_ : String := ""
  to_ : String := ""
  playerId : String := ""
  port : Int := -1
  output : String := ""
  format : String := "midi"

/-- Standard input: a terminal (a character device), something piped in, or neither can be found out or read (`ReadStdin`, client/system/stdin.go:26-43). -/
inductive Stdin where
  | terminal
  | piped (text : String)
  | broken (what : String)

/-- What is sent to a player. -/
inductive Packet where
  | bundle (ms : List Msg)
  | play
  | stop
  | shutdown (offset : Int)
  | exportTo (filename : String)
deriving DecidableEq, Repr

/-- How a command fails: with an error (or a panic), or it does not end at all. -/
inductive Failure where
  | error (e : Err)
  | hangs
deriving DecidableEq, Repr

/-- What a command does: packets that have reached a player, in order, with the ports; lines shown on stderr; data written to stdout; how it fails, if it does. -/
structure Result where
  sent : List (Int × Packet) := []
  said : List String := []
  output : List Nat := []
  failure : Option Failure := none

/-- The world outside a command. `look i` and `dir i`: what the world does during the `i`-th search for a player, and the directory of the state files then. `tries`: how often
such a search is repeated before the time is up. `fuel`: as in `Pool.findAvailablePlayer`. `reaches n port`: whether the `n`-th packet, sent to the port, is received.
`tmp`: the name of the temporary file, if it can be created. `cwd`: the directory of the command. `disk t path`: what is in the file at that path at the time `t`; the time
counts the actions of the command on files. `polls`: how often the file is looked for before the time is up. -/
structure World where
  read : String → Except String String := fun _ => .error "no such file"
  stdin : Stdin := .terminal
  look : Nat → Pool.World
  dir : Nat → Pool.Directory
  tries : Nat := 0
  fuel : Nat := 1
  reaches : Nat → Int → Bool := fun _ _ => true
  tmp : Except String String := .ok "/tmp/alda-export/export.mid"
  cwd : String := "/home"
  disk : Nat → String → Option (List Nat) := fun _ _ => none
  polls : Nat := 0

/-- The file that a name stands for, in a process that runs in the directory `cwd` (`os.Open`, client/cmd/export.go:238; `File`, player/src/main/kotlin/io/alda/player/MidiEngine.kt:481).
A player runs in the directory of the command that started it. -/
def place (cwd name : String) : String := if name.toList.head? = some '/' then name else cwd ++ "/" ++ name

/-- What is in a file that is opened by the command. -/
def World.fs (w : World) (t : Nat) (name : String) : Option (List Nat) := w.disk t (place w.cwd name)

/-- A command that ends with an error. -/
def fail (e : Err) (said : List String := []) : Result := { said := said, failure := some (.error e) }

/-- `userFacingNoInputSuppliedError`, client/cmd/play.go:115-121. -/
def noInput : Err := .user "No Alda source code input supplied."

/-- The source code, client/cmd/play.go:66-73, 158-171 and export.go:105-121: parsed and turned into updates; `none` if there is none (`ErrNoInputSupplied`). -/
def input (w : World) (f : Flags) : Option (Except Err (List Upd)) :=
  if f.file ≠ "" then
    match w.read f.file with
    | .error e => some (.error (.user e))
    | .ok text => some (Repl.parseCode text)
  else if f.code ≠ "" then some (Repl.parseCode f.code)
  else
    match w.stdin with
    | .terminal => none
    | .piped text => some (Repl.parseCode text)
    | .broken e => some (.error (.user e))

/-- `Await`, client/util/await.go:10-27, with a test that is repeated at most `n` times. -/
def await {α : Type} (test : Nat → Except Failure α) : Nat → Nat → Except Failure α
  | i, 0 => test i
  | i, n + 1 =>
    match test i with
    | .ok a => .ok a
    | .error .hangs => .error .hangs
    | .error _ => await test (i + 1) n

/-- `FindAvailablePlayer`, as called by a command for the `i`-th time. -/
def search (w : World) (i : Nat) : Except Failure Pool.PlayerState :=
  match Pool.findAvailablePlayer (w.look i) w.fuel (w.dir i) with
  | none => .error .hangs
  | some (.player p) => .ok p
  | some .noPlayersAvailable => .error (.error (.user "No players available"))
  | some (.error e) => .error (.error (.user e))

/-- `StartingPlayerProcesses`, client/system/process_management.go:591-595, and waiting for a player, client/cmd/play.go:262-278 and export.go:143-158: what is shown, and the
player. -/
def awaitPlayer (w : World) : List String × Except Failure Pool.PlayerState :=
  match search w 0 with
  | .error .hangs => ([], .error .hangs)
  | .error (.error (.user "No players available")) => (["Starting player processes..."], await (search w) 1 w.tries)
  | _ => ([], await (search w) 1 w.tries)

/-- `ReadPlayerStates`, which is an error if the directory cannot be read. -/
def playerStates (w : World) : Except Failure (List Pool.PlayerState) :=
  match (w.look 0).read with
  | some e => .error (.error (.user e))
  | none => .ok (Pool.readPlayerStates (w.dir 0))

/-- `FindPlayerByID`, client/system/process_management.go:420-450. -/
def playerByID (w : World) (id : String) : Except Failure Pool.PlayerState :=
  match (w.look 0).read with
  | some e => .error (.error (.user e))
  | none =>
    match Pool.findPlayerByID id (w.dir 0) with
    | some p => .ok p
    | none => .error (.error (.user ("No player was found with the ID " ++ id)))

/-- The ports of the players that are chosen without looking for one that is available: by its port, by its id, or else `other`, client/cmd/play.go:226-259, stop.go:44-65,
shutdown.go:36-57. -/
def ports (w : World) (f : Flags) (other : List Pool.PlayerState → List Pool.PlayerState) : Except Failure (List Int) :=
  if f.port ≠ -1 then .ok [f.port]
  else if f.playerId ≠ "" then (playerByID w f.playerId).map (fun p => [(p.port : Int)])
  else (playerStates w).map (fun ps => (other ps).map (fun p => (p.port : Int)))

/-- The loop over the players of `alda play`, client/cmd/play.go:286-307: it ends at the first error. `n` counts the packets. -/
def sendUntil (w : World) (p : Packet) : Nat → List Int → List (Int × Packet) × Option Err
  | _, [] => ([], none)
  | n, port :: ports =>
    if w.reaches n port then
      let r := sendUntil w p (n + 1) ports
      ((port, p) :: r.1, r.2)
    else ([], some (.user "connection refused"))

/-- The loops over the players of `alda stop` and `alda shutdown`, client/cmd/stop.go:66-78, shutdown.go:58-70: errors are logged. -/
def sendAll (w : World) (p : Packet) : Nat → List Int → List (Int × Packet)
  | _, [] => []
  | n, port :: ports => if w.reaches n port then (port, p) :: sendAll w p (n + 1) ports else sendAll w p (n + 1) ports

/-- The end of `alda play`, client/cmd/play.go:286-317. -/
def playAt (w : World) (p : Packet) (said : List String) (ports : List Int) : Result :=
  let r := sendUntil w p 0 ports
  match r.2 with
  | some e => { sent := r.1, said := said, failure := some (.error e) }
  | none => { sent := r.1, said := said ++ ["Playing..."] }

/-- `alda play`, client/cmd/play.go:135-318. -/
def play (sort : List NoteEvent → List NoteEvent) (w : World) (f : Flags) : Result :=
  if f.args ≠ [] then fail noInput
  else
    match input w f with
    | some (.error e) => fail e
    | none =>
      match ports w f (fun ps => ps.filter (fun p => p.state == "active")) with
      | .error x => { failure := some x }
      | .ok ports => playAt w .play [] ports
    | some (.ok updates) =>
      match update updates newScore with
      | ⟨some e, _⟩ => fail e
      | ⟨none, score⟩ =>
        let bundle := scoreToBundle sort score { from_ := f.from_, to_ := f.to_, oneOff := true }
        let at_ (said : List String) (ports : List Int) : Result :=
          match bundle with
          | .error e => fail e said
          | .ok ms => playAt w (.bundle ms) said ports
        if f.port ≠ -1 then at_ [] [f.port]
        else if f.playerId ≠ "" then
          match playerByID w f.playerId with
          | .error x => { failure := some x }
          | .ok p => at_ [] [p.port]
        else
          match awaitPlayer w with
          | (said, .error x) => { said := said, failure := some x }
          | (said, .ok p) => at_ said [p.port]

/-- `alda stop`, client/cmd/stop.go:34-80. -/
def stop (w : World) (f : Flags) : Result :=
  match ports w f id with
  | .error x => { said := ["Stopping playback."], failure := some x }
  | .ok ports => { sent := sendAll w .stop 0 ports, said := ["Stopping playback."] }

/-- `alda shutdown`, client/cmd/shutdown.go:26-73. -/
def shutdown (w : World) (f : Flags) : Result :=
  match ports w f id with
  | .error x => { said := ["Shutting down player processes."], failure := some x }
  | .ok ports => { sent := sendAll w (.shutdown 0) 0 ports, said := ["Shutting down player processes."] }

/-- Looking for the file, client/cmd/export.go:234-249: the time at which it was opened. -/
def openFile (w : World) (name : String) : Nat → Nat → Option Nat
  | t, 0 => (w.fs t name).map (fun _ => t)
  | t, n + 1 => if (w.fs t name).isSome then some t else openFile w name (t + 1) n

/-- The deferred message, client/cmd/export.go:175-187: the `n`-th packet. -/
def goodbye (w : World) (port : Int) (n : Nat) : List (Int × Packet) := if w.reaches n port then [(port, .shutdown 0)] else []

/-- `alda export` after a player has been found, client/cmd/export.go:160-260. -/
def exportAt (w : World) (f : Flags) (said : List String) (port : Int) (bundle : Except Err (List Msg)) : Result :=
  match bundle with
  | .error e => fail e said
  | .ok ms =>
    if ¬ w.reaches 0 port then fail (.user "connection refused") said
    else
      let loaded := [(port, Packet.bundle ms)]
      match (if f.output ≠ "" then .ok f.output else w.tmp) with
      | .error e => { sent := loaded ++ goodbye w port 1, said := said, failure := some (.error <| .user e) }
      | .ok target =>
        if ¬ w.reaches 1 port then { sent := loaded ++ goodbye w port 2, said := said, failure := some (.error <| .user "connection refused") }
        else
          let sent := loaded ++ [(port, .exportTo target)] ++ goodbye w port 2
          let said := said ++ ["Exporting..."]
          match openFile w target 0 w.polls with
          | none => { sent := sent, said := said }
          | some t =>
            if f.output ≠ "" then { sent := sent, said := said ++ ["Exported score to " ++ f.output] }
            -- The file has been opened; it is read a little later.
            else { sent := sent, said := said, output := (w.fs (t + 1) target).getD [] }

/-- `alda export`, client/cmd/export.go:90-260. -/
def exportScore (sort : List NoteEvent → List NoteEvent) (w : World) (f : Flags) : Result :=
  if f.format ≠ "midi" then fail (.user (f.format ++ " is not a supported output format."))
  else
    match input w f with
    | none => fail noInput
    | some (.error e) => fail e
    | some (.ok updates) =>
      match update updates newScore with
      | ⟨some e, _⟩ => fail e
      | ⟨none, score⟩ =>
        match awaitPlayer w with
        | (said, .error x) => { said := said, failure := some x }
        | (said, .ok p) => exportAt w f said p.port (scoreToBundle sort score { from_ := f.from_, to_ := f.to_, loadOnly := true })

/-- What a packet is for the player that receives it. -/
def Packet.instrs : Packet → List Player.Instr
  | .bundle ms => ms.map .score
  | .play => [.score .play]
  | .stop => [.stop]
  | .shutdown offset => [.score (.shutdown offset)]
  | .exportTo filename => [.exportTo filename]

/-- The players, by their ports, after they have received and processed the packets that were sent. -/
def deliver (y : Player.Timing) : List (Int × Packet) → (Int → Player.State) → (Int → Player.State)
  | [], players => players
  | (port, p) :: rest, players => deliver y rest (fun q => if q = port then Player.receive y p.instrs (players q) else players q)

end Cmd
end Alda
