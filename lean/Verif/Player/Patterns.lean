/-!
Patterns in the player: named lists of events that a track plays a number of times or in a loop, and that may change while they are played (`player/src/main/kotlin/io/alda/player/Player.kt`, `Events.kt`).

What the thread of a pattern reads while it runs is given as a sequence of moments: one for each time that the loop of `schedulePattern` gets past `isDone`. So the theorems hold however the threads of the
player take turns.

Simplifications: numbers are unbounded, and `Math.round` of the clock is a number already; the check of the era is left out, as the two eras are one object (see `TrackThreads`); logging is left out. A
pattern that refers to itself, or a loop that is never stopped, runs for ever: here the functions have a number of calls that they may nest, and the answer `none` if it does not suffice.
-/
namespace Alda
namespace Patterns

/-- Events of patterns, Parser.kt:269-331. -/
inductive Event where
  | note (offset number duration audible velocity : Int)
  | volume (offset volume : Int)
  | panning (offset panning : Int)
  | pattern (offset : Int) (name : String) (times : Int)
deriving DecidableEq, Repr

/-- What is scheduled: an event other than a pattern, with the channel. -/
structure Scheduled where
  channel : Int
  event : Event
deriving DecidableEq, Repr

/-- `addOffset`, Events.kt:21-23. -/
def addOffset (amount : Int) : Event → Event
  | .note o n d a v => .note (o + amount) n d a v
  | .volume o v => .volume (o + amount) v
  | .panning o p => .panning (o + amount) p
  | .pattern o n t => .pattern (o + amount) n t

/-- `endOffset`, Events.kt:25-31: only notes have a duration. -/
def endOffset : Event → Int
  | .note o _ d _ _ => o + d
  | _ => 0

/-- `isDone`, Events.kt:33-39; `none` is a loop. -/
def isDone (times : Option Int) (iteration : Int) : Bool :=
  match times with
  | some n => decide (n < iteration)
  | none => false

/-- `it["type"] == "pattern"`, Player.kt:128. -/
def isPattern : Event → Bool
  | .pattern _ _ _ => true
  | _ => false

/-- What is read in one pass through the loop. -/
structure Moment where
  /-- `activePatterns.contains(patternName)`, Player.kt:94 -/
  active : Bool
  /-- `midi().currentOffset()`, Player.kt:180 -/
  now : Int
  /-- `midi().isPlaying`, Player.kt:188 -/
  playing : Bool
  /-- `pattern(patternName).events` when the latch has been counted down, Player.kt:125 -/
  patterns : String → List Event

/-- `SCHEDULE_BUFFER_TIME_MS`, MidiEngine.kt. -/
def bufferTime : Int := 500

/-- `adjustStartOffset`, Player.kt:177-195. -/
def adjustStartOffset (m : Moment) (start : Int) : Int :=
  let start := if start < m.now then m.now else start
  if m.playing && decide (start - m.now < bufferTime) then start + bufferTime else start

/-- `immediateEvents`, Player.kt:132-141. -/
def immediate (channel at_ : Int) (events : List Event) : List Scheduled :=
  (events.filter (fun e => !isPattern e)).map (fun e => ⟨channel, addOffset at_ e⟩)

/-- `patternEvents.flatMap { … }`, Player.kt:152-158; `f` is `schedulePattern` of a name, a number of times, an offset, and the moments gone by. -/
def deferred (f : String → Int → Int → Nat → Option (List Scheduled × Nat)) (at_ : Int) : List Event → Nat → Option (List Scheduled × Nat)
  | [], p => some ([], p)
  | .pattern o name times :: es, p =>
    match f name times (at_ + o) p with
    | none => none
    | some (out, p) =>
      match deferred f at_ es p with
      | none => none
      | some (outs, p) => some (out ++ outs, p)
  | _ :: es, p => deferred f at_ es p

/-- `.max()` of the ends, Player.kt:163. -/
def lastEnd : List Scheduled → Int
  | [] => 0
  | [s] => endOffset s.event
  | s :: rest => max (endOffset s.event) (lastEnd rest)

/-- The loop of `schedulePattern`, Player.kt:79-172, from an iteration on; `fuel`: how deep it may call itself; `p`: the moments gone by. -/
def loop (w : Nat → Moment) : (fuel : Nat) → (channel : Int) → (name : String) → (times : Option Int) → (iteration start : Int) → (p : Nat) → Option (List Scheduled × Nat)
  | 0, _, _, _, _, _, _ => none
  | fuel + 1, channel, name, times, iteration, start, p =>
    if isDone times iteration then some ([], p)
    else if !(w p).active then some ([], p + 1)
    else
      let at_ := adjustStartOffset (w p) start
      let events := (w p).patterns name
      match deferred (fun n t s p => loop w fuel channel n (some t) 1 s p) at_ events (p + 1) with
      | none => none
      | some (outs, p') =>
        let all := immediate channel at_ events ++ outs
        match loop w fuel channel name times (iteration + 1) (if all.isEmpty then start else lastEnd all) p' with
        | none => none
        | some (rest, p'') => some (all ++ rest, p'')

/-- `schedulePattern`, Player.kt:79-172: of a pattern event of a track with an offset. -/
def schedulePattern (w : Nat → Moment) (fuel : Nat) (channel : Int) (name : String) (times : Option Int) (offset start : Int) : Option (List Scheduled) :=
  (loop w fuel channel name times 1 (start + offset) 0).map (·.1)

/-! ### Patterns and the message to play -/

/-- What matters here of the messages that arrive together, Parser.kt:20-29. -/
structure Bundle where
  shutdown : Bool
  stop : Bool
  /-- how many events of tracks are patterns -/
  patterns : Nat
  play : Bool
deriving DecidableEq, Repr

/-- The player with its threads. -/
structure Player where
  /-- `playerQueue` -/
  inbox : List Bundle
  /-- whether the player waits in `awaitActiveTasks`, in the last phase of `applyUpdates` -/
  awaiting : Bool
  /-- `midi().isPlaying` -/
  playing : Bool
  /-- the threads of patterns that wait for their latch; the tasks that they belong to are active until then -/
  latches : Nat
  /-- `isRunning` -/
  running : Bool
deriving DecidableEq, Repr

/-- What can happen to it. -/
inductive Act where
  | receive
  | wake
  | reach
  | arrive (b : Bundle)
deriving DecidableEq, Repr

/-- One step; `none` if it is not possible in this state. -/
def step (s : Player) : Act → Option Player
  /- Receiver.kt: the messages are put into the queue -/
  | .arrive b => some { s with inbox := s.inbox ++ [b] }
  /- `playerQueue.take()` and `applyUpdates`, Player.kt:352-445 -/
  | .receive =>
    if s.awaiting then none
    else match s.inbox with
      | [] => none
      | b :: rest =>
        let playing := if b.stop then false else s.playing
        some ⟨rest, b.play && !playing, playing, s.latches + b.patterns, s.running && !b.shutdown⟩
  /- `awaitActiveTasks` ends, Player.kt:343-349, and `midi().isPlaying = true`, :426-429 -/
  | .wake => if s.awaiting && s.latches == 0 then some { s with awaiting := false, playing := true } else none
  /- the sequencer reaches the meta message of a pattern, MidiEngine.kt:325-338 -/
  | .reach => if s.playing && decide (0 < s.latches) then some { s with latches := s.latches - 1 } else none

/-- Several steps. -/
def run : Player → List Act → Option Player
  | s, [] => some s
  | s, a :: as => match step s a with
    | none => none
    | some s => run s as

end Patterns
end Alda
