import Verif.Spec.Music
/-!
Global attribute changes: what was recorded, and what a change does.
-/
namespace Alda.Spec

/-- The global attributes after recording these changes (offset and change), in the order in which they were written. -/
def recorded (changes : List (Rat × PartUpd)) : GlobalAttributes :=
  changes.foldl (fun g x => g.record x.1 x.2) { itinerary := fun _ => none, offsets := [] }

/-- `due` lists, in order of offset and at equal offsets in written order, exactly the changes with an offset after `from'` and not after `to`. -/
def DueBetween (changes : List (Rat × PartUpd)) (from' to : Rat) (due : List (Rat × PartUpd)) : Prop :=
  due.Pairwise (fun x y => x.1 ≤ y.1) ∧
  ∀ o, due.filter (fun x => x.1 == o) = if from' < o ∧ o ≤ to then changes.filter (fun x => x.1 == o) else []

/-- 32 bit arithmetic. -/
def int32 (n : Int) : Int := Int.bmod n (2 ^ 32)

/-- What a change does to the attributes of a part. (MIDI channels are not among them.) -/
def change (u : PartUpd) (a : Attributes) : Attributes :=
  match u with
  | .tempo t => { a with tempo := t }
  | .metricModulation r => { a with tempo := a.tempo * r }
  | .octave n => { a with octave := n }
  | .octaveUp => { a with octave := int32 (a.octave + 1) }
  | .octaveDown => { a with octave := int32 (a.octave - 1) }
  | .volume v => { a with volume := v }
  | .trackVolume v => { a with trackVolume := v }
  | .dynamic m => { a with volume := dynamicVolume m }
  | .panning x => { a with panning := x }
  | .quantization q => { a with quant := q }
  | .duration d => { a with dur := d }
  | .keySignature k => { a with keySig := k }
  | .transposition n => { a with transposition := n }
  | .referencePitch f => { a with refPitch := f }
  | .midiChannel _ => a

/-- Several changes, one after the other. -/
def changes (us : List PartUpd) (a : Attributes) : Attributes := us.foldl (fun a u => change u a) a

/-- Equal except for position and default duration, which notes and rests change themselves. -/
def SameSettings (a b : Attributes) : Prop := { a with dur := [], position := 0 } = { b with dur := [], position := 0 }

/-- The attributes a user can set. -/
inductive Setting where
  | tempo | octave | volume | trackVolume | panning | quant | dur | keySig | transposition | refPitch | channel
deriving DecidableEq

/-- Which one a change is about. -/
def setting : PartUpd → Setting
  | .tempo _ | .metricModulation _ => .tempo
  | .octave _ | .octaveUp | .octaveDown => .octave
  | .volume _ | .dynamic _ => .volume
  | .trackVolume _ => .trackVolume
  | .panning _ => .panning
  | .quantization _ => .quant
  | .duration _ => .dur
  | .keySignature _ => .keySig
  | .transposition _ => .transposition
  | .referencePitch _ => .refPitch
  | .midiChannel _ => .channel

/-- Two parts have the same value of an attribute (MIDI channels aside). -/
def SameValue (x : Setting) (a b : Attributes) : Prop :=
  match x with
  | .tempo => a.tempo = b.tempo
  | .octave => a.octave = b.octave
  | .volume => a.volume = b.volume
  | .trackVolume => a.trackVolume = b.trackVolume
  | .panning => a.panning = b.panning
  | .quant => a.quant = b.quant
  | .dur => a.dur = b.dur
  | .keySig => a.keySig = b.keySig
  | .transposition => a.transposition = b.transposition
  | .refPitch => a.refPitch = b.refPitch
  | .channel => True

/-- Positions that never go back. -/
def Forward (from' : Rat) (ps : List Rat) : Prop := List.Pairwise (· ≤ ·) (from' :: ps)

/-- The pairs of successive positions. -/
def stretches (from' : Rat) : List Rat → List (Rat × Rat)
  | [] => []
  | p :: ps => (from', p) :: stretches p ps

end Alda.Spec
