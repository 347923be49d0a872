import Verif.Transmit.Osc
/-!
Model of the MIDI engine of the player, `player/src/main/kotlin/io/alda/player/MidiEngine.kt`.

`double` and `float` are `Rat`, `int` and `long` are `Int`. The sequencer and the synthesizer are those of the Java library; of the sequencer the model has the list
of events (`Track`), the position, and whether the player lets it run. Continuation messages, which only keep the sequencer running, logging, and the expiry of the process are left out.
-/
namespace Alda
namespace Player

/-- `Math.round` (Java library): halves are rounded up. -/
def javaRound (x : Rat) : Int := (x + 1 / 2).floor

/-- `RESOLUTION`, MidiEngine.kt:48: ticks per quarter note. -/
def resolution : Rat := 128

/-- `SCHEDULE_BUFFER_TIME_MS`, MidiEngine.kt:61. -/
def scheduleBuffer : Int := 500

/-- `TempoEntry`, MidiEngine.kt:109-111. -/
structure TempoEntry where
  offsetMs : Int
  tempo : Rat
  ticks : Int
deriving DecidableEq, Repr

/-- The MIDI messages that the player makes: `ShortMessage`, and `MetaMessage` of the types `MIDI_SET_TEMPO`, `CONTINUE` and `SHUTDOWN` (MidiEngine.kt:76-86). -/
inductive MidiMsg where
  | noteOn (channel note velocity : Int)
  | noteOff (channel note velocity : Int)
  | program (channel patch : Int)
  | control (channel controller value : Int)
  | setTempo (uspq : Int)
  | go
  | shutdown
deriving DecidableEq, Repr

/-- `MidiEvent` (Java library). -/
structure MidiEvent where
  tick : Int
  msg : MidiMsg
deriving DecidableEq, Repr

/-- The state of `MidiEngine`, MidiEngine.kt:159-177, as far as it is modelled. `position` is the tick position of the sequencer. -/
structure Engine where
  itinerary : List TempoEntry
  track : List MidiEvent
  playing : Bool
  position : Int

/-- A new `MidiEngine`, MidiEngine.kt:159-177, 305-309. -/
def newEngine : Engine := { itinerary := [⟨0, 120, 0⟩], track := [], playing := false, position := 0 }

/-- The loop of `Track.add` (Java library), from the end of the track: an event comes after all events that are not later. -/
def addFromEnd (e : MidiEvent) : List MidiEvent → List MidiEvent
  | [] => [e]
  | x :: xs => if e.tick ≥ x.tick then e :: x :: xs else x :: addFromEnd e xs

/-- `Track.add` (Java library). The end-of-track event, which is always the last one, is left out. -/
def addEvent (e : MidiEvent) (track : List MidiEvent) : List MidiEvent := (addFromEnd e track.reverse).reverse

/-- `setTempoMessage`, MidiEngine.kt:141-157. -/
def setTempoMessage (bpm : Rat) : MidiMsg :=
  if bpm = 0 then .go
  else
    let uspq := javaRound (60000000 / bpm)
    if uspq > 2 ^ 24 - 1 then .go else .setTempo (uspq % 2 ^ 24)

/-- `addTempoEntry`, MidiEngine.kt:180-188: before the first entry that is later. -/
def addTempoEntry (entry : TempoEntry) : List TempoEntry → List TempoEntry
  | [] => [entry]
  | x :: xs => if x.offsetMs > entry.offsetMs then entry :: x :: xs else x :: addTempoEntry entry xs

/-- `msToTicks`, MidiEngine.kt:206-215, with `mostRecentTempoEntryByOffset`, MidiEngine.kt:190-192, which throws an exception (`none`) if there is no entry.
The length of a tick is multiplied out. -/
def msToTicks (itinerary : List TempoEntry) (offsetMs : Rat) : Option Int :=
  if offsetMs = 0 then some 0
  else match (itinerary.takeWhile (fun x => decide ((x.offsetMs : Rat) ≤ offsetMs))).getLast? with
    | none => none
    | some x =>
      let msDelta := offsetMs - x.offsetMs
      some (javaRound (x.ticks + msDelta * (x.tempo * resolution) / 60000))

/-- `ticksToMs`, MidiEngine.kt:217-223, with `mostRecentTempoEntryByTicks`, MidiEngine.kt:194-196. For tempo 0 Java computes with infinity: `none`. -/
def ticksToMs (itinerary : List TempoEntry) (ticks : Int) : Option Rat :=
  match (itinerary.takeWhile (fun x => decide (x.ticks ≤ ticks))).getLast? with
  | none => none
  | some x => if x.tempo = 0 then none else some (x.offsetMs + ((ticks : Rat) - x.ticks) * (60000 / (x.tempo * resolution)))

/-- `currentOffset`, MidiEngine.kt:225-227, rounded to `int` as everywhere. -/
def Engine.now (m : Engine) : Option Int := (ticksToMs m.itinerary m.position).map javaRound

/-- `scheduleMidiMsg`, MidiEngine.kt:260-262. -/
def Engine.scheduleMsg (offset : Int) (msg : MidiMsg) (m : Engine) : Option Engine :=
  (msToTicks m.itinerary offset).map (fun t => { m with track := addEvent ⟨t, msg⟩ m.track })

/-- `setTempo`, MidiEngine.kt:253-258. -/
def Engine.setTempo (offset : Int) (bpm : Rat) (m : Engine) : Option Engine :=
  (msToTicks m.itinerary offset).map (fun t =>
    { m with itinerary := addTempoEntry ⟨offset, bpm, t⟩ m.itinerary, track := addEvent ⟨t, setTempoMessage bpm⟩ m.track })

/-- What the constructor of `ShortMessage` (Java library) accepts. -/
def validShort (channel data1 data2 : Int) : Bool :=
  decide (0 ≤ channel) && decide (channel ≤ 15) && decide (0 ≤ data1) && decide (data1 ≤ 127) && decide (0 ≤ data2) && decide (data2 ≤ 127)

/-- `note`, MidiEngine.kt:409-423, with `scheduleShortMsg`, MidiEngine.kt:264-281. (If only the end of the note is out of range, which takes a negative length, Java has scheduled the start
before the exception.) -/
def Engine.note (start end_ channel note velocity : Int) (m : Engine) : Option Engine :=
  if validShort channel note velocity then (m.scheduleMsg start (.noteOn channel note velocity)).bind (fun m => m.scheduleMsg end_ (.noteOff channel note velocity))
  else none

/-- `patch`, MidiEngine.kt:405-407. -/
def Engine.patch (offset channel patch : Int) (m : Engine) : Option Engine :=
  if validShort channel patch 0 then m.scheduleMsg offset (.program channel patch) else none

/-- `MIDI_EXPRESSION`, MidiEngine.kt:34. -/
def expression : Int := 11

/-- `MIDI_PANNING`, MidiEngine.kt:30. -/
def panPosition : Int := 10

/-- `volume`, MidiEngine.kt:425-429. -/
def Engine.volume (offset channel volume : Int) (m : Engine) : Option Engine :=
  if validShort channel expression volume then m.scheduleMsg offset (.control channel expression volume) else none

/-- `panning`, MidiEngine.kt:431-435. -/
def Engine.panning (offset channel panning : Int) (m : Engine) : Option Engine :=
  if validShort channel panPosition panning then m.scheduleMsg offset (.control channel panPosition panning) else none

/-- `scheduleShutdown`, MidiEngine.kt:298-303. -/
def Engine.scheduleShutdown (offset : Int) (m : Engine) : Option Engine :=
  m.now.bind (fun now => m.scheduleMsg (now + offset) .shutdown)

/-- `setSequencerOffset`, MidiEngine.kt:400-403. -/
def Engine.setOffset (offset : Int) (m : Engine) : Option Engine := (msToTicks m.itinerary offset).map (fun t => { m with position := t })

/-- `isNoteOnEvent` or `isControlChangeEvent`, MidiEngine.kt:99-107. -/
def MidiMsg.countsForExport : MidiMsg → Bool
  | .noteOn .. => true
  | .control .. => true
  | _ => false

/-- `Long.MAX_VALUE`. -/
def maxLong : Int := 2 ^ 63 - 1

/-- `export`, MidiEngine.kt:457-482: the events of the file. -/
def Engine.export (m : Engine) : List MidiEvent :=
  let earliest := (m.track.filter (fun e => e.msg.countsForExport)).foldl (fun a e => min a e.tick) maxLong
  m.track.foldl (fun copy e => addEvent { e with tick := max 0 (e.tick - earliest) } copy) []

end Player
end Alda
