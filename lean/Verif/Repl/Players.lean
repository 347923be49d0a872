import Verif.Cmd.Commands
import Verif.Player.Expiry
/-!
Model of `client/repl/player_management.go`: how a REPL server finds a player process, keeps it, and replaces it, with the loop `managePlayers` and the requests that are
handled at the same time by another goroutine. Every access to `server.player` is one step; the steps of the two can be interleaved in any way.

Times are whole milliseconds. Not modelled: logging; that two goroutines access the same memory without synchronisation (in the model every access is atomic).
-/
namespace Alda
namespace Keeper

/-- What `FindPlayerByID` said, client/repl/player_management.go:133-155. -/
inductive Looked where
  | skipped
  | updated (p : Pool.PlayerState)
  | gone
  | failed
deriving DecidableEq, Repr

/-- How far a round of `managePlayers` is. -/
inductive Phase where
  | idle
  | begun
  | looked (r : Looked)
  | noted
  | searched (p : Option Pool.PlayerState)
  | adopted
  | aimed (p : Pool.PlayerState)
deriving DecidableEq, Repr

/-- What has been sent to a port. -/
inductive Sent where
  | ping
  | shutdown
  | request
deriving DecidableEq, Repr

/-- `system.PlayerState{}`, the zero value. -/
def noPlayer : Pool.PlayerState := ⟨"", 0, ""⟩

/-- The server: `server.player`, the local variables of `managePlayers` (client/repl/player_management.go:118-122), what has been sent, with the times and the players
(as they were known to the server), and how many players have been started to fill the pool. -/
structure State where
  player : Pool.PlayerState := noPlayer
  phase : Phase := .idle
  now : Int := 0
  lastFilled : Int := 0
  lastPing : Int := 0
  sent : List (Int × Pool.PlayerState × Sent) := []
  started : Nat := 0

/-- `hasPlayer`, client/repl/player_management.go:78-88. -/
def State.hasPlayer (s : State) : Bool := decide (s.player.port ≠ 0)

/-- The steps. -/
inductive Step where
  /-- The clock is read and the pool is filled, client/repl/player_management.go:122-133. -/
  | tick (now : Int) (w : Pool.World) (dir : Pool.Directory)
  /-- The directory is read, client/repl/player_management.go:137-138; an error, if any. -/
  | look (error : Option String) (dir : Pool.Directory)
  /-- What was found is noted, client/repl/player_management.go:146-159. -/
  | note
  /-- Another player is searched, client/repl/player_management.go:162-163. -/
  | find (w : Cmd.World)
  /-- It is taken, client/repl/player_management.go:164-169. -/
  | adopt
  /-- It is decided whether to send a ping, and where to, client/repl/player_management.go:172-175. -/
  | aim
  /-- The ping is sent, at that time, or that fails for five seconds, client/repl/player_management.go:177-193. -/
  | shoot (time : Int) (reached : Bool)
  /-- A request makes the server send something to the player, client/repl/player_management.go:54-76. -/
  | request (time : Int)
  /-- `shutdownPlayer`: the message, client/repl/player_management.go:200-206. -/
  | shutdown (time : Int)
  /-- `unsetPlayer` at the end of `shutdownPlayer`, client/repl/player_management.go:208-218. -/
  | unset

/-- `playerPoolFillInterval`, client/repl/player_management.go:15. -/
def fillInterval : Int := 10000
/-- `pingInterval`, client/repl/player_management.go:17. -/
def pingInterval : Int := 1000

/-- `FindPlayerByID` in the loop, client/repl/player_management.go:137-159. The error that there is no such player is recognised by its text. -/
def lookFor (error : Option String) (dir : Pool.Directory) (s : State) : Looked :=
  if s.hasPlayer then
    match error with
    | some _ => .failed
    | none =>
      match Pool.findPlayerByID s.player.id dir with
      | some q => .updated q
      | none => .gone
  else .skipped

/-- One step. A step of the loop for which it is not the time changes nothing. A search that does not end leaves the loop where it is. -/
def State.step (s : State) : Step → State
  | .tick now w dir =>
    match s.phase with
    | .idle =>
      if now - s.lastFilled > fillInterval then
        { s with phase := .begun, now := now, lastFilled := now, started := s.started + (Pool.fillPlayerPool w dir).1 }
      else { s with phase := .begun, now := now }
    | _ => s
  | .look error dir =>
    match s.phase with
    | .begun => { s with phase := .looked (lookFor error dir s) }
    | _ => s
  | .note =>
    match s.phase with
    | .looked (.updated p) => { s with phase := .noted, player := p }
    | .looked .gone => { s with phase := .noted, player := noPlayer }
    | .looked _ => { s with phase := .noted }
    | _ => s
  | .find w =>
    match s.phase with
    | .noted =>
      if s.hasPlayer then { s with phase := .searched none }
      else
        match Cmd.await (Cmd.search w) 0 w.tries with
        | .ok p => { s with phase := .searched (some p) }
        | .error .hangs => s
        | .error _ => { s with phase := .searched none }
    | _ => s
  | .adopt =>
    match s.phase with
    | .searched (some p) => { s with phase := .adopted, player := p }
    | .searched none => { s with phase := .adopted }
    | _ => s
  | .aim =>
    match s.phase with
    | .adopted =>
      if s.hasPlayer && decide (s.now - s.lastPing > pingInterval) then { s with phase := .aimed s.player } else { s with phase := .idle }
    | _ => s
  | .shoot time reached =>
    match s.phase with
    | .aimed p =>
      if reached then { s with phase := .idle, lastPing := s.now, sent := s.sent ++ [(time, p, .ping)] }
      else { s with phase := .idle, lastPing := s.now, player := noPlayer }
    | _ => s
  | .request time =>
    if s.hasPlayer then { s with sent := s.sent ++ [(time, s.player, .request)] } else s
  | .shutdown time =>
    if s.hasPlayer then { s with sent := s.sent ++ [(time, s.player, .shutdown)] } else s
  | .unset => { s with player := noPlayer }

/-- Several steps. -/
def State.run (s : State) (steps : List Step) : State := steps.foldl State.step s

/-- What happens during one round of the loop while no request is handled. -/
structure Round where
  now : Int
  fill : Pool.World
  fillDir : Pool.Directory
  error : Option String := none
  dir : Pool.Directory
  search : Cmd.World
  time : Int
  reached : Bool := true

/-- One round of the loop, client/repl/player_management.go:121-197. -/
def Round.steps (r : Round) : List Step := [.tick r.now r.fill r.fillDir, .look r.error r.dir, .note, .find r.search, .adopt, .aim, .shoot r.time r.reached]

/-- Several rounds. -/
def roundSteps (rs : List Round) : List Step := rs.flatMap Round.steps

end Keeper
end Alda
