import Verif.Player.Engine
/-!
Model of how a player process comes to exit for inactivity: `player/src/main/kotlin/io/alda/player/StateManager.kt`, with the places that put it off (`Receiver.kt`,
`Parser.kt`, `MidiEngine.kt`) and the main loop (`Main.kt`).

The offset of the sequencer is a number of milliseconds that goes up with the clock while the sequencer runs. (How it is computed from ticks, and how the sequencer keeps
running, is in `Player/Engine.lean` and C52, C55.) Not modelled: removing old state files, touching the own one, and the other ways to exit.
-/
namespace Alda
namespace Player

/-- `PlayerState`, StateManager.kt:15-17, without the port and the process id, which never change. -/
structure ProcState where
  expiry : Int
  state : String
deriving DecidableEq, Repr

/-- `StateManager`, StateManager.kt:19-149: the timeout drawn at the start, the state, and the contents of the state file. -/
structure Manager where
  timeout : Int
  current : ProcState
  file : Option ProcState

/-- `writeStateFile`, StateManager.kt:79-81. -/
def Manager.write (m : Manager) : Manager := { m with file := some m.current }

/-- A new `StateManager`, StateManager.kt:51, 64-69, 111-118, with `Random.nextInt(5 * 60000, 10 * 60000)` for the timeout. -/
def newManager (now timeout : Int) : Manager := Manager.write { timeout := timeout, current := ⟨now + timeout, "starting"⟩, file := none }

/-- `isExpired`, StateManager.kt:120. -/
def Manager.isExpired (now : Int) (m : Manager) : Bool := decide (now > m.current.expiry)

/-- `delayExpiration(pointInTimeMs)`, StateManager.kt:122-130; without an argument, 132-134, the point in time is now. -/
def Manager.delay (point : Int) (m : Manager) : Manager :=
  let newExpiry := point + m.timeout
  if newExpiry > m.current.expiry then Manager.write { m with current := { m.current with expiry := newExpiry } } else m

/-- `setState`, StateManager.kt:136-143. -/
def Manager.setState (str : String) (m : Manager) : Manager :=
  if m.current.state ≠ str then Manager.write { m with current := { m.current with state := str } } else m

/-- A player process: the clock (`System.currentTimeMillis()`), whether the sequencer runs, its offset, the offsets of the messages scheduled so far, the state manager, and
whether the process has exited for inactivity. -/
structure Proc where
  clock : Int
  playing : Bool
  offset : Rat
  scheduled : List Int
  manager : Manager
  exited : Bool

/-- A process that starts, Main.kt:73-98. -/
def newProc (now timeout : Int) : Proc :=
  { clock := now, playing := false, offset := 0, scheduled := [], manager := newManager now timeout, exited := false }

/-- What happens to a process. -/
inductive Act where
  /-- Time passes. -/
  | pass (ms : Nat)
  /-- The main loop looks at the clock, Main.kt:100-111. -/
  | poll
  /-- The MIDI engine is ready, MidiEngine.kt:385. -/
  | ready
  /-- A packet is received, Receiver.kt:29-32. -/
  | packet
  /-- A ping is parsed, Parser.kt:89-93. -/
  | ping
  /-- A message is scheduled, `scheduleShortMsg`, MidiEngine.kt:264-281. -/
  | short (offset : Int)
  /-- `startSequencer` or `isPlaying = true`, MidiEngine.kt:390-393, Player.kt:428-431. -/
  | play
  /-- `stopSequencer`, MidiEngine.kt:395-398. -/
  | stop
  /-- `setSequencerOffset`, MidiEngine.kt:400-403. -/
  | jump (offset : Int)
deriving DecidableEq, Repr

/-- One thing happens to the process. -/
def Proc.step (p : Proc) (a : Act) : Proc :=
  if p.exited then p
  else
    match a with
    | .pass ms => { p with clock := p.clock + ms, offset := if p.playing then p.offset + ms else p.offset }
    | .poll => { p with exited := p.manager.isExpired p.clock }
    | .ready => { p with manager := p.manager.setState "ready" }
    | .packet => { p with manager := p.manager.delay p.clock }
    | .ping => { p with manager := (p.manager.setState "active").delay p.clock }
    | .short offset =>
      { p with scheduled := offset :: p.scheduled, manager := (p.manager.setState "active").delay (p.clock + (offset - javaRound p.offset)) }
    | .play => { p with playing := true }
    | .stop => { p with playing := false }
    | .jump offset => { p with offset := offset }

/-- Several things happen. -/
def Proc.run (p : Proc) (as : List Act) : Proc := as.foldl Proc.step p

end Player
end Alda
