import Verif.Model.Instruments
import Verif.Model.Lisp
/-!
Data types of the score: `client/model/score.go`, `part.go`, `voice.go`, `note.go` and the event structs
(`chord.go`, `cram.go`, `repeat.go`, `repetitions.go`, `event_sequence.go`, `marker.go`, `variable.go`).

Go pointers to parts are natural numbers, addresses in the heap `Score.heap`; the same for the `Voices` objects.
-/
namespace Alda

/-- The implementations of `ScoreUpdate` (client/model/score.go:17-33). Source contexts are left out.
`leaf`: `Note`, `Rest`, `AttributeUpdate`, `GlobalAttributeUpdate`; `lisp`: `LispList`. -/
inductive Upd where
  | leaf (l : Leaf)
  | lisp (elements : List LispForm)                      -- lisp.go:1638
  | lispNil                                              -- lisp.go:1380
  | barline                                              -- barline.go:9
  | chord (events : List Upd)                            -- chord.go:11-14
  | cram (events : List Upd) (dur : Dur)                 -- cram.go:10-14
  | seq (events : List Upd)                              -- event_sequence.go:10-13
  | rep (event : Upd) (times : Int)                      -- repeat.go:9-13
  | onReps (ranges : List (Int × Int)) (event : Upd)     -- repetitions.go:9-23
  | voice (number : Int)                                 -- voice.go:67-70
  | voiceEnd                                             -- voice.go:122-124
  | marker (name : String)                               -- marker.go:10-13
  | atMarker (name : String)                             -- marker.go:70-73
  | varDef (name : String) (events : List Upd)           -- variable.go:34-38
  | varRef (name : String)                               -- variable.go:103-106
  | partDecl (names : List String) (alias : String)      -- part.go:14-18

/-- `Part`, client/model/part.go:38-89. `tempoValues` lists the assignments to the Go map, latest first. `TempoRole` is
`tempoMaster`. The pointer to the score is left out (there is one score). -/
structure Part where
  name : String
  instr : Instrument
  tempoMaster : Bool
  tempo : Rat
  keySig : KeySig
  transposition : Int
  refPitch : Rat
  offset : Rat
  lastOffset : Rat
  octave : Int
  volume : Rat
  trackVolume : Rat
  panning : Rat
  midiChannel : Int
  explicitChannel : Bool
  quant : Rat
  dur : Dur
  timeScale : Rat
  tempoValues : List (Rat × Rat)
  override : Option PartUpd
  repetition : Int
  template : Option Nat
  origin : Nat
  voices : Nat

/-- Content of unallocated heap cells; never read by the Go program. -/
def Part.junk : Part :=
  { name := "", instr := ⟨"", 0, false⟩, tempoMaster := false, tempo := 120, keySig := KeySig.empty,
    transposition := 0, refPitch := 440, offset := 0, lastOffset := -1, octave := 4, volume := 0,
    trackVolume := 0, panning := 0, midiChannel := -1, explicitChannel := false, quant := 0, dur := [],
    timeScale := 1, tempoValues := [], override := none, repetition := 0, template := none, origin := 0,
    voices := 0 }

/-- `NoteEvent`, client/model/note.go:41-51. `part` is the address of the (origin) part. -/
structure NoteEvent where
  part : Nat
  channel : Int
  note : Int
  offset : Rat
  duration : Rat
  audible : Rat
  volume : Rat
  trackVolume : Rat
  panning : Rat
deriving DecidableEq, Repr

/-- `GlobalAttributes`, client/model/attributes.go:64-69. -/
structure GlobalAttributes where
  itinerary : Rat → Option (List PartUpd)
  offsets : List Rat

/-- `Score`, client/model/score.go:50-62, with the heaps. `vheap` holds the `Voices` objects (client/model/voice.go:13-16): map and insertion order as
one association list in insertion order (`AddVoice`, voice.go:27-30, is only called for absent numbers). The maps
`Markers` and `Variables` are functions; `Aliases` is an association list (the code iterates over it). -/
structure Score where
  heap : Nat → Part
  next : Nat
  vheap : Nat → List (Int × Nat)
  vnext : Nat
  parts : List Nat
  current : List Nat
  aliases : List (String × List Nat)
  events : List NoteEvent
  globals : GlobalAttributes
  markers : String → Option Rat
  vars : String → Option (List Upd)
  usage : Nat → List Nat
  chordMode : Bool

/-- `NewScore`, client/model/score.go:113-122, and `NewGlobalAttributes`, attributes.go:87-92. -/
def newScore : Score :=
  { heap := fun _ => Part.junk, next := 0, vheap := fun _ => [], vnext := 0, parts := [], current := [],
    aliases := [], events := [], globals := { itinerary := fun _ => none, offsets := [] },
    markers := fun _ => none, vars := fun _ => none, usage := fun _ => [], chordMode := false }

/-- Writing through a part pointer. -/
def Score.setPart (s : Score) (id : Nat) (p : Part) : Score :=
  { s with heap := fun i => if i = id then p else s.heap i }

/-- Changing fields of the part at an address. -/
def Score.modPart (s : Score) (id : Nat) (f : Part → Part) : Score := s.setPart id (f (s.heap id))

/-- Allocation of a part. -/
def Score.alloc (s : Score) (p : Part) : Nat × Score :=
  (s.next, { s.setPart s.next p with next := s.next + 1 })

/-- Allocation of an empty `Voices` object: `NewVoices`, client/model/voice.go:19-24. -/
def Score.newVoices (s : Score) : Nat × Score :=
  (s.vnext, { s with vheap := fun i => if i = s.vnext then [] else s.vheap i, vnext := s.vnext + 1 })

/-- The result of an operation on a score: Go's `error` (or a panic), and the score as the operation left it. -/
structure Out where
  err : Option Err
  s : Score

/-- Success. -/
def Out.ok (s : Score) : Out := ⟨none, s⟩

/-- Failure; the state changes so far stay. -/
def Out.fail (e : Err) (s : Score) : Out := ⟨some e, s⟩

/-- `if err := ...; err != nil { return err }` followed by `k`. -/
def Out.andThen (o : Out) (k : Score → Out) : Out :=
  match o.err with
  | none => k o.s
  | some e => ⟨some e, o.s⟩

/-- `for _, part := range parts { if err := f(part); err != nil { return err } }`. -/
def forIds (f : Nat → Score → Out) : List Nat → Score → Out
  | [], s => .ok s
  | i :: is, s => (f i s).andThen (forIds f is)

end Alda
