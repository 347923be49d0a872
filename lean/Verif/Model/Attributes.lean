import Verif.Model.Key
import Verif.Model.Duration
/-!
The part updates and leaf score updates: data types of `client/model/attributes.go` and
`client/model/note.go`, and the error type of the model.
-/
namespace Alda

/-- Why an operation failed. The texts of error messages are not modelled, only their kind.
`panic` is a Go run-time panic. `nonFinite` marks the point where Go would compute an infinity or NaN, which
the model does not follow. `unreachable` marks a branch that the model claims is never taken. -/
inductive Err where
  | user (what : String)
  | panic (what : String)
  | nonFinite
  | unreachable
deriving DecidableEq, Repr, Inhabited

/-- `DynamicVolumes`, client/model/attributes.go:367-382, as an association list. -/
def dynamicVolumes : List (String × Rat) :=
  [("pppppp", 787/100000), ("ppppp", 8419/100000), ("pppp", 16051/100000), ("ppp", 23683/100000),
   ("pp", 31314/100000), ("p", 38946/100000), ("mp", 46578/100000), ("mf", 54210/100000),
   ("f", 61841/100000), ("ff", 69473/100000), ("fff", 77105/100000), ("ffff", 84737/100000),
   ("fffff", 92368/100000), ("ffffff", 1)]

/-- `DynamicVolumes[marking]`: a missing key reads as 0 (Go map). -/
def dynamicVolume (marking : String) : Rat := (dynamicVolumes.lookup marking).getD 0

/-- The implementations of `PartUpdate`, client/model/attributes.go:231-542. -/
inductive PartUpd where
  | tempo (bpm : Rat)
  | metricModulation (ratio : Rat)
  | octave (n : Int)
  | octaveUp
  | octaveDown
  | volume (v : Rat)
  | trackVolume (v : Rat)
  | dynamic (marking : String)
  | panning (p : Rat)
  | quantization (q : Rat)
  | duration (d : Dur)
  | keySignature (ks : KeySig)
  | transposition (semitones : Int)
  | referencePitch (f : Rat)
  | midiChannel (n : Int)

/-- The dynamic Go type of a part update, as compared by `reflect.TypeOf` at client/model/attributes.go:145. -/
inductive AttrKind where
  | tempo | metricModulation | octave | octaveUp | octaveDown | volume | trackVolume | dynamic | panning
  | quantization | duration | keySignature | transposition | referencePitch | midiChannel
deriving DecidableEq, Repr

/-- `reflect.TypeOf(update)`. -/
def PartUpd.kind : PartUpd → AttrKind
  | .tempo _ => .tempo
  | .metricModulation _ => .metricModulation
  | .octave _ => .octave
  | .octaveUp => .octaveUp
  | .octaveDown => .octaveDown
  | .volume _ => .volume
  | .trackVolume _ => .trackVolume
  | .dynamic _ => .dynamic
  | .panning _ => .panning
  | .quantization _ => .quantization
  | .duration _ => .duration
  | .keySignature _ => .keySignature
  | .transposition _ => .transposition
  | .referencePitch _ => .referencePitch
  | .midiChannel _ => .midiChannel

/-- The score updates that a lisp expression can produce: `Note` (client/model/note.go:10-17), `Rest`
(note.go:212-215), `AttributeUpdate` and `GlobalAttributeUpdate` (attributes.go:14-17, 171-174).
Source contexts are left out. -/
inductive Leaf where
  | note (pitch : Pitch) (dur : Dur) (slurred : Bool)
  | rest (dur : Dur)
  | attr (u : PartUpd)
  | globalAttr (u : PartUpd)

end Alda
