import Verif.Player.Engine
/-!
Model of the player, `player/src/main/kotlin/io/alda/player/Player.kt`, `Parser.kt` and `Events.kt`.

Patterns and loops, which the Alda client never uses, and the messages to clear tracks are left out. The events of a bundle for one track are scheduled by a thread of that track, so
the threads of different tracks interleave: the interleaving is a parameter, as is what the clock shows when a thread begins. All of them are taken to be finished before the next bundle is
processed (`awaitActiveTasks`, Player.kt:343-349, is called for playing, for exporting and for setting the offset).
-/
namespace Alda
namespace Player

/-- OSC messages as the client sends them, client/transmitter/osc.go:19-92; those of a score are `Msg`. The address patterns are in Parser.kt:87-312. -/
inductive Instr where
  | score (m : Msg)
  | ping
  | stop
  | offset (ms : Int)
  | exportTo (file : String)
deriving DecidableEq, Repr

/-- The events of a track, `Event`, Events.kt:19, of the types of Events.kt:42-72. -/
inductive Event where
  | patch (channel offset patch : Int)
  | volume (channel offset volume : Int)
  | panning (channel offset panning : Int)
  | note (channel offset note duration audible velocity : Int)
deriving DecidableEq, Repr

/-- `addOffset`, Events.kt:21-23. -/
def Event.shift (by_ : Int) : Event → Event
  | .patch c o v => .patch c (o + by_) v
  | .volume c o v => .volume c (o + by_) v
  | .panning c o v => .panning c (o + by_) v
  | .note c o n d a v => .note c (o + by_) n d a v

/-- `endOffset`, Events.kt:25-31. -/
def Event.endOffset : Event → Int
  | .note _ o _ d _ _ => o + d
  | _ => 0

/-- `schedule`, Events.kt:41-73; `none` is an exception. -/
def Event.schedule : Event → Engine → Option Engine
  | .note c o n _ a v, m => m.note o (o + a) c n v
  | .panning c o v, m => m.panning o c v
  | .patch c o v, m => m.patch o c v
  | .volume c o v, m => m.volume o c v

/-- `Updates`, Parser.kt:22-29, without patterns and clearing. -/
structure Updates where
  shutdown : Bool := false
  play : Bool := false
  stop : Bool := false
  shutdowns : List Int := []
  offsets : List Int := []
  tempos : List (Int × Rat) := []
  exports : List String := []
  tracks : List (Int × List Event) := []

/-- `addTrackEvent`, Parser.kt:45-50; the map keeps the order in which the tracks came. -/
def addTrackEvent (track : Int) (e : Event) : List (Int × List Event) → List (Int × List Event)
  | [] => [(track, [e])]
  | (t, es) :: rest => if t = track then (t, es ++ [e]) :: rest else (t, es) :: addTrackEvent track e rest

/-- `parse`, Parser.kt:73-340. -/
def Updates.parse (u : Updates) : Instr → Updates
  | .ping => u
  | .stop => { u with stop := true }
  | .offset ms => { u with offsets := u.offsets ++ [ms] }
  | .exportTo f => { u with exports := u.exports ++ [f] }
  | .score (.shutdown o) => if o = 0 then { u with shutdown := true } else { u with shutdowns := u.shutdowns ++ [o] }
  | .score .play => { u with play := true }
  | .score (.tempo o v) => { u with tempos := u.tempos ++ [(o, v)] }
  | .score (.patch t c o v) => { u with tracks := addTrackEvent t (.patch c o v) u.tracks }
  | .score (.volume t c o v) => { u with tracks := addTrackEvent t (.volume c o v) u.tracks }
  | .score (.panning t c o v) => { u with tracks := addTrackEvent t (.panning c o v) u.tracks }
  | .score (.note t c o n d a v) => { u with tracks := addTrackEvent t (.note c o n d a v) u.tracks }

/-- `parseUpdates`, Parser.kt:343-347. -/
def parseUpdates (is : List Instr) : Updates := is.foldl Updates.parse {}

/-- The state of the player: the engine, the start offsets of the tracks (`Track.startOffset`, Player.kt:50), `isRunning`, and the files written so far. -/
structure State where
  engine : Engine
  starts : Int → Int
  running : Bool
  files : List (String × List MidiEvent)

/-- A player process that has just started. -/
def fresh : State := { engine := newEngine, starts := fun _ => 0, running := true, files := [] }

/-- What is left open for the processing of a bundle: how the threads of the tracks interleave, and where the sequencer is when the thread of a track begins and when a shutdown is scheduled, if it is running. -/
structure Timing where
  mix : List (Int × List Event) → List (Int × Event)
  tickOf : Int → Int
  tickLater : Int

/-- Each thread goes through its events in order. -/
def Timing.Fair (x : Timing) : Prop :=
  ∀ l : List (Int × List Event), (l.map (·.1)).Nodup → ∀ t, ((x.mix l).filter (fun e => decide (e.1 = t))).map (·.2) = (l.lookup t).getD []

/-- The engine at a moment: the sequencer has moved, if it is running. -/
def Engine.moved (tick : Int) (m : Engine) : Engine := if m.playing then { m with position := tick } else m

/-- `adjustStartOffset`, Player.kt:177-195. -/
def adjustStart (m : Engine) (start : Int) : Option Int :=
  m.now.map (fun now =>
    let start := if start < now then now else start
    if m.playing ∧ start - now < scheduleBuffer then start + scheduleBuffer else start)

/-- One event of a track, in the middle of the interleaved threads (Player.kt:208-210). `failed`: the tracks whose thread ended with an exception. `base`: the adjusted start offsets. -/
def scheduleStep (base : Int → Option Int) (r : Engine × List Int) (e : Int × Event) : Engine × List Int :=
  if e.1 ∈ r.2 then r
  else match base e.1 with
    | none => (r.1, e.1 :: r.2)
    | some b => match (e.2.shift b).schedule r.1 with
      | none => (r.1, e.1 :: r.2)
      | some m => (m, r.2)

/-- The largest of a list of numbers that is not empty (`max()`, Player.kt:255). -/
def maxOf (a : Int) (l : List Int) : Int := l.foldl max a

/-- The new start offset of a track, `scheduleEvents`, Player.kt:197-256; unchanged if there was an exception. -/
def newStart (old : Int) (base : Option Int) (failed : Bool) (events : List Event) : Int :=
  match base, failed with
  | some b, false => match events.map (fun e => (e.shift b).endOffset) with
    | [] => old
    | a :: l => maxOf a l
  | _, _ => old

/-- PHASE 3 of `applyUpdates`, Player.kt:402-406, and the threads that it starts (Player.kt:258-316). -/
def scheduleTracks (x : Timing) (tracks : List (Int × List Event)) (s : State) : State :=
  let base : Int → Option Int := fun t => adjustStart (s.engine.moved (x.tickOf t)) (s.starts t)
  let r := (x.mix tracks).foldl (scheduleStep base) (s.engine, [])
  { s with
    engine := r.1
    starts := fun t => match tracks.lookup t with
      | none => s.starts t
      | some events => newStart (s.starts t) (base t) (decide (t ∈ r.2)) events }

/-- Doing something for every element of a list; at an exception the rest is not done. -/
def eachOf {α : Type} (f : α → Engine → Option Engine) : List α → Engine → Engine × Bool
  | [], m => (m, true)
  | a :: as, m => match f a m with
    | none => (m, false)
    | some m => eachOf f as m

/-- `applyUpdates`, Player.kt:351-430. An exception ends the thread of the player (Player.kt:432-444). -/
def applyUpdates (x : Timing) (u : Updates) (s : State) : State :=
  let s := if u.shutdown then { s with running := false } else s
  let s := if u.stop then { s with engine := { s.engine with playing := false } } else s
  let r := eachOf Engine.setOffset u.offsets s.engine
  let s := { s with engine := r.1 }
  if !r.2 then s
  else
    let r := eachOf (fun t m => m.setTempo t.1 t.2) u.tempos s.engine
    let s := { s with engine := r.1 }
    if !r.2 then s
    else
      let s := scheduleTracks x u.tracks s
      let s := { s with files := s.files ++ u.exports.map (fun f => (f, s.engine.export)) }
      let r := eachOf (fun o m => Engine.scheduleShutdown o (m.moved x.tickLater)) u.shutdowns s.engine
      let s := { s with engine := r.1 }
      if !r.2 then s
      else if u.play then { s with engine := { s.engine with playing := true } } else s

/-- One round of the loop of `player`, Player.kt:432-444. -/
def receive (x : Timing) (is : List Instr) (s : State) : State := applyUpdates x (parseUpdates is) s

end Player
end Alda
