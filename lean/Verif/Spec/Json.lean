import Verif.Model.Json
/-!
Specification for C65: reading JSON, and what two programs with the same events may differ in.
-/
namespace Alda.Spec

/-- The value of a field of an object. -/
def field (k : String) : Json → Option Json
  | .obj fs => fs.lookup k
  | _ => none

/-- The elements of an array. -/
def elements : Json → List Json
  | .arr js => js
  | _ => []

mutual
/-- An update in which the names of the variables that it defines are left out. -/
def nameless : Upd → Upd
  | .chord us => .chord (namelesses us)
  | .cram us d => .cram (namelesses us) d
  | .seq us => .seq (namelesses us)
  | .rep u n => .rep (nameless u) n
  | .onReps rs u => .onReps rs (nameless u)
  | .varDef _ us => .varDef "" (namelesses us)
  | u => u
/-- The same for lists. -/
def namelesses : List Upd → List Upd
  | [] => []
  | u :: us => nameless u :: namelesses us
end

mutual
/-- No variable is defined. -/
def NoDefinitions : Upd → Prop
  | .chord us => NoDefinitionsL us
  | .cram us _ => NoDefinitionsL us
  | .seq us => NoDefinitionsL us
  | .rep u _ => NoDefinitions u
  | .onReps _ u => NoDefinitions u
  | .varDef _ _ => False
  | _ => True
/-- The same for lists. -/
def NoDefinitionsL : List Upd → Prop
  | [] => True
  | u :: us => NoDefinitions u ∧ NoDefinitionsL us
end

mutual
/-- No voice begins. -/
def Calm : Upd → Prop
  | .voice _ => False
  | .chord es => CalmL es
  | .cram es _ => CalmL es
  | .seq es => CalmL es
  | .rep e _ => Calm e
  | .onReps _ e => Calm e
  | .varDef _ es => CalmL es
  | _ => True
/-- The same for lists. -/
def CalmL : List Upd → Prop
  | [] => True
  | e :: es => Calm e ∧ CalmL es
end

/-- What is heard of a note event: the instrument, and all that the event says. -/
structure HeardNote where
  instrument : String
  note : Int
  offset : Rat
  duration : Rat
  audible : Rat
  volume : Rat
  trackVolume : Rat
  panning : Rat
  channel : Int
deriving DecidableEq, Repr

/-- What is heard of a score. -/
def soundings (s : Score) : List HeardNote :=
  s.events.map fun e => ⟨(s.heap e.part).instr.name, e.note, e.offset, e.duration, e.audible, e.volume, e.trackVolume, e.panning, e.channel⟩

/-- A number. -/
def number : Json → Option Rat
  | .num q => some q
  | _ => none

/-- A text. -/
def string : Json → Option String
  | .str s => some s
  | _ => none

/-- What a program that only has the JSON of a score can tell of an event: it looks up the part of the event among the parts. -/
def reading (parts event : Json) : Option HeardNote := do
  let part ← field (← string (← field "part" event)) parts
  let instrument ← string (← field "stock-instrument" part)
  let note ← number (← field "midi-note" event)
  let offset ← number (← field "offset" event)
  let duration ← number (← field "duration" event)
  let audible ← number (← field "audible-duration" event)
  let volume ← number (← field "volume" event)
  let trackVolume ← number (← field "track-volume" event)
  let panning ← number (← field "panning" event)
  let channel ← number (← field "midi-channel" event)
  return ⟨instrument, note.num, offset, duration, audible, volume, trackVolume, panning, channel.num⟩

/-- The same for all events. -/
def readings (parts : Json) : List Json → Option (List HeardNote)
  | [] => some []
  | e :: es => do return (← reading parts e) :: (← readings parts es)

/-- What can be told from the JSON of a score. -/
def readSoundings (score : Json) : Option (List HeardNote) := do
  let parts ← field "parts" score
  readings parts (elements (← field "events" score))

end Alda.Spec
