/-!
`alda doctor`: a series of checks that ends with the first one that fails (`client/cmd/doctor.go`).

Simplifications: what the checks find is given (`World`); `util.Await` tries a list of attempts until one succeeds (how long it does so is the subject of C73). Errors are only known to be errors.
-/
namespace Alda
namespace Doctor

/-- `PlayerState`, client/system/state_files.go, as far as it is used here. -/
structure PlayerState where
  id : String
  port : Nat
  state : String
deriving DecidableEq, Repr

/-- What a check does to the world. -/
inductive Effect where
  | deleteStateFile (id : String)
  | install
  | spawn (port : Option Nat)
  | play (port : Nat)
  | exportMidi (port : Nat)
  | shutdown (port : Nat)
  | startServer
  | closeServer
deriving DecidableEq, Repr

/-- What the checks find, in this order. -/
structure World where
  /-- the test input is parsed, doctor.go:82-101 -/
  parses : Bool
  /-- the score can be made, doctor.go:106-113 -/
  scores : Bool
  /-- `ReadPlayerStates`, doctor.go:120 -/
  states : Option (List PlayerState)
  /-- `PingPlayer` of a port, doctor.go:133 -/
  reachable : Nat → Bool
  /-- `DeletePlayerStateFile`, doctor.go:139 -/
  deletable : String → Bool
  /-- `FindOpenPort`, doctor.go:158, and the packets sent to it are received, :177-219 -/
  openPort : Bool
  packets : Bool
  /-- `AldaPlayerPath`, doctor.go:229: whether the version is the same, `none` if there is no `alda-player`; or another error -/
  found : Option Bool
  broken : Bool
  /-- the answer to the question whether to install it, doctor.go:231 -/
  wantsInstall : Bool
  /-- `installCorrectAldaPlayerVersion`, doctor.go:242 -/
  installs : Bool
  /-- `AldaPlayerPath` afterwards, doctor.go:249 -/
  foundThen : Option Bool
  /-- the answer to the second question, doctor.go:273, and `installCorrectAldaPlayerVersion`, :297 -/
  wantsUpdate : Bool
  updates : Bool
  /-- the port of the player that is spawned, doctor.go:308, and whether it starts, :328, and answers, :343 -/
  port : Option Nat
  starts : Bool
  pings : Bool
  /-- the score can be sent, doctor.go:363 -/
  transmits : Bool
  /-- the message to export can be sent, doctor.go:388; the keys of the `NoteOn` messages in the file, if it appears, :394-452 -/
  exports : Bool
  keys : Option (List Nat)
  /-- the logs are found, doctor.go:465-488, and show the ping, :494-514 -/
  logs : Bool
  logged : Bool
  /-- the message to shut down can be sent, doctor.go:523 -/
  sends : Bool
  /-- the second player starts, doctor.go:539 -/
  startsAgain : Bool
  /-- what `ReadPlayerStates` answers each time, while the player is looked for, doctor.go:552-592 -/
  listings : List (Option (List PlayerState))
  /-- it answers, doctor.go:605, and the message can be sent, :623 -/
  pingsAgain : Bool
  sendsAgain : Bool
  /-- what `ReadPlayerStates` answers each time after that, doctor.go:627-643 -/
  listingsThen : List (Option (List PlayerState))
  /-- a REPL server starts, doctor.go:656-667; it is found, :690-706; it answers, :717-727; it is gone after it has been closed, :738-757 -/
  server : Bool
  serverFound : Bool
  session : Bool
  serverGone : Bool

/-- `expectedNotes`, doctor.go:78. -/
def expectedNotes : List Nat := [84, 88, 91, 96]

/-- The loops over the expected notes and the messages of the file, doctor.go:427-449; at the end of the file they fail. -/
def containsNotes : List Nat → List Nat → Bool
  | [], _ => true
  | _ :: _, [] => false
  | e :: es, k :: ks => if k == e then containsNotes es ks else containsNotes (e :: es) ks

/-- `util.Await` of something that is looked for. -/
def await {α β : Type} (f : α → Option β) : List α → Option β
  | [] => none
  | a :: as => match f a with
    | some b => some b
    | none => await f as

/-- The loop over the states, doctor.go:125-143: what is deleted, and whether it succeeds. -/
def deleteStale (reachable : Nat → Bool) (deletable : String → Bool) : List PlayerState → List Effect × Bool
  | [] => ([], true)
  | p :: ps =>
    if p.state == "starting" then deleteStale reachable deletable ps
    else if reachable p.port then deleteStale reachable deletable ps
    else if deletable p.id then
      let (es, ok) := deleteStale reachable deletable ps
      (.deleteStateFile p.id :: es, ok)
    else ([], false)

/-- "Ensure that there are no stale player processes", doctor.go:117-149. -/
def stale (x : World) : List Effect × Bool :=
  match x.states with
  | none => ([], false)
  | some ps => deleteStale x.reachable x.deletable ps

/-- "Locate alda-player executable on PATH", doctor.go:226-260: effects, and whether the version is the same if it is found. -/
def locate (x : World) : List Effect × Option Bool :=
  if x.broken then ([], none)
  else match x.found with
  | some same => ([], some same)
  | none =>
    if !x.wantsInstall then ([], none)
    else if !x.installs then ([.install], none)
    else ([.install], x.foundThen)

/-- "Check alda-player version", doctor.go:266-301. -/
def checkVersion (x : World) (same : Bool) : List Effect × Bool :=
  if same then ([], true)
  else if !x.wantsUpdate then ([], false)
  else ([.install], x.updates)

/-- One attempt to find the second player, doctor.go:553-590: the first one in the list that is ready, or starting without audio, counts, unless it is the one from before. -/
def discoverOnce (noAudio : Bool) (before : Nat) (listing : Option (List PlayerState)) : Option PlayerState :=
  match listing with
  | none => none
  | some ps =>
    match ps.find? (fun p => p.state == "ready" || (noAudio && p.state == "starting")) with
    | none => none
    | some p => if p.port == before then none else some p

/-- One look whether the player is gone, doctor.go:628-641. -/
def goneOnce (port : Nat) (listing : Option (List PlayerState)) : Option Unit :=
  match listing with
  | none => none
  | some ps => if ps.any (fun p => p.port == port) then none else some ()

/-- A line that is printed, doctor.go:33-41, and what has been done. -/
structure Report where
  /-- `OK` or `ERR`, and the name of the check -/
  lines : List (Bool × String)
  effects : List Effect
  /-- no error is returned -/
  ok : Bool
deriving DecidableEq, Repr

/-- `step`, doctor.go:33-41, and what follows if there is no error. -/
def step (name : String) (effects : List Effect) (ok : Bool) (next : Report) : Report :=
  if ok then ⟨(true, name) :: next.lines, effects ++ next.effects, next.ok⟩ else ⟨[(false, name)], effects, false⟩

/-- The checks of the REPL server, doctor.go:651-760. Once the server has been started, it is closed in any case (`defer`). -/
def serverChecks (x : World) : Report :=
  step "Start a REPL server" (if x.server then [.startServer] else []) x.server <|
  let rest :=
    step "Find the REPL server" [] x.serverFound <|
    step "Interact with the REPL server" [] x.session <|
    step "Shut down the REPL server" [.closeServer] x.serverGone <|
    ⟨[], [], true⟩
  { rest with effects := rest.effects ++ [.closeServer] }

/-- The checks of the second player, doctor.go:531-648. -/
def secondPlayer (noAudio : Bool) (x : World) (port : Nat) : Report :=
  step "Spawn a player on an unknown port" [.spawn none] x.startsAgain <|
  let player := await (discoverOnce noAudio port) x.listings
  step "Discover the player" [] player.isSome <|
  let p := (player.map (·.port)).getD 0
  step "Ping the player" [] x.pingsAgain <|
  step "Shut the player down" [.shutdown p] (x.sendsAgain && (await (goneOnce p) x.listingsThen).isSome) <|
  serverChecks x

/-- The checks of the player's logs, doctor.go:463-527. -/
def logChecks (noAudio : Bool) (x : World) (port : Nat) : Report :=
  step "Locate player logs" [] x.logs <|
  step "Player logs show the ping was received" [] x.logged <|
  step "Shut down player process" [.shutdown port] x.sends <|
  secondPlayer noAudio x port

/-- The checks that need audio, doctor.go:358-459. -/
def audioChecks (noAudio : Bool) (x : World) (port : Nat) : Report :=
  if noAudio then logChecks noAudio x port
  else
    step "Play score" [.play port] x.transmits <|
    step "Export score as MIDI" [.exportMidi port] (x.exports && (match x.keys with | none => false | some ks => containsNotes expectedNotes ks)) <|
    logChecks noAudio x port

/-- `doctorCmd`, doctor.go:73-764. -/
def doctor (noAudio : Bool) (x : World) : Report :=
  step "Parse source code" [] x.parses <|
  step "Generate score model" [] x.scores <|
  step "Ensure that there are no stale player processes" (stale x).1 (stale x).2 <|
  step "Find an open port" [] x.openPort <|
  step "Send and receive OSC messages" [] x.packets <|
  step "Locate alda-player executable on PATH" (locate x).1 (locate x).2.isSome <|
  let same := (locate x).2.getD false
  step "Check alda-player version" (checkVersion x same).1 (checkVersion x same).2 <|
  step "Spawn a player process" (if x.port.isSome then [.spawn x.port] else []) (x.port.isSome && x.starts) <|
  let port := x.port.getD 0
  step "Ping player process" [] x.pings <|
  audioChecks noAudio x port

end Doctor
end Alda
