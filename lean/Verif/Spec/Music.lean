import Verif.Model.Update
import Verif.Spec.Duration
import Verif.Spec.Pitch
/-!
What is said about the music of one instrument: its sounds, its attributes, and which events are considered.
-/
namespace Alda.Spec

/-- A note as it is heard, MIDI channel aside. -/
structure Sound where
  note : Int
  start : Rat
  duration : Rat
  audible : Rat
  volume : Rat
  trackVolume : Rat
  panning : Rat
deriving DecidableEq, Repr

/-- The sound of a note event. -/
def soundOf (e : NoteEvent) : Sound := ⟨e.note, e.offset, e.duration, e.audible, e.volume, e.trackVolume, e.panning⟩

/-- The sounds of an instrument (identified by the address of its original part), in the order in which they were added. -/
def sounds (s : Score) (instrument : Nat) : List Sound := (s.events.filter (fun e => e.part = instrument)).map soundOf

/-- The attributes of a part that a user can set, and its position. -/
structure Attributes where
  tempo : Rat
  octave : Int
  volume : Rat
  trackVolume : Rat
  panning : Rat
  quant : Rat
  dur : Dur
  keySig : KeySig
  transposition : Int
  refPitch : Rat
  position : Rat
  timeScale : Rat

/-- The attributes of a part. -/
def attributes (p : Part) : Attributes :=
  ⟨p.tempo, p.octave, p.volume, p.trackVolume, p.panning, p.quant, p.dur, p.keySig, p.transposition, p.refPitch, p.offset, p.timeScale⟩

/-- The attributes of the part at an address. -/
def attributesAt (s : Score) (id : Nat) : Attributes := attributes (s.heap id)

/-! ### Kinds of events -/

/-- Which events may occur: events for numbered repetitions, variables, voices in variables. -/
structure Mode where
  ranges : Bool
  vars : Bool
  varVoices : Bool

mutual
/-- The event contains no part declaration, no voice inside a chord or a cram, and only what `m` allows; voices only if `vf`. -/
def Tame (m : Mode) (vf : Bool) : Upd → Prop
  | .leaf _ | .lisp _ | .lispNil | .barline | .marker _ | .atMarker _ => True
  | .chord es => TameL m false es
  | .cram es _ => TameL m false es
  | .seq es => TameL m vf es
  | .rep e _ => Tame m vf e
  | .onReps _ e => m.ranges = true ∧ Tame m vf e
  | .voice _ | .voiceEnd => vf = true
  | .varDef _ es => m.vars = true ∧ TameL m m.varVoices es
  | .varRef _ => m.vars = true ∧ (m.varVoices = true → vf = true)
  | .partDecl _ _ => False
/-- The same for lists. -/
def TameL (m : Mode) (vf : Bool) : List Upd → Prop
  | [] => True
  | e :: es => Tame m vf e ∧ TameL m vf es
end

/-- A note, a rest, a change of attributes, or a barline. -/
def Melodic : Upd → Prop
  | .leaf (.note _ _ _) | .leaf (.rest _) | .leaf (.attr _) | .barline => True
  | _ => False

/-- No recorded global change is of one of these kinds. -/
def NoGlobal (g : GlobalAttributes) (kinds : List AttrKind) : Prop := ∀ o us, g.itinerary o = some us → ∀ u ∈ us, u.kind ∉ kinds

/-- No global change was recorded. -/
def NoGlobals (g : GlobalAttributes) : Prop := ∀ o, g.itinerary o = none

/-! ### Lines of notes -/

/-- One event of a line: where it starts, how long it lasts in the score, what is heard, and the attributes it was played with. -/
structure Play where
  start : Rat
  length : Rat
  sounds : List Sound
  attrs : Attributes

/-- Each one starts where the previous one ended; from `t` to `u`. -/
inductive Chain : Rat → List Play → Rat → Prop where
  | nil (t : Rat) : Chain t [] t
  | cons {t u : Rat} {p : Play} {ps : List Play} (hs : p.start = t) (h : Chain (t + p.length) ps u) : Chain t (p :: ps) u

/-- The length of a duration for a part with these attributes; without a written duration the part's default duration counts. -/
def lengthFor (a : Attributes) (d : Dur) : Rat :=
  total a.tempo (atoms (match d with | [] => a.dur | _ :: _ => d)) * a.timeScale

/-- The pitch a note has with these attributes. -/
def soundingPitch (a : Attributes) : Pitch → Int
  | .letter l none => pitchOf l (onLetter a.keySig l) a.octave a.transposition
  | .letter l (some as) => pitchOf l as a.octave a.transposition
  | .midi n => n + a.transposition

/-- How an event is played. (Pitches are 32 bit numbers.) -/
def PlayedAs : Upd → Play → Prop
  | .leaf (.note pitch d slurred), p =>
    p.length = lengthFor p.attrs d ∧
    (let audible := if slurred then p.length else p.length * p.attrs.quant
     if audible > 0 then ∃ n, (InInt32 (soundingPitch p.attrs pitch) → n = soundingPitch p.attrs pitch) ∧
       p.sounds = [⟨n, p.start, p.length, audible, p.attrs.volume, p.attrs.trackVolume, p.attrs.panning⟩]
     else p.sounds = [])
  | .leaf (.rest d), p => p.length = lengthFor p.attrs d ∧ p.sounds = []
  | _, p => p.length = 0 ∧ p.sounds = []

/-- The last written duration in a list of written durations (an empty one is not written), or the default. -/
def lastWritten (default : Dur) (ds : List Dur) : Dur := ((ds.filter (fun d => !d.isEmpty)).getLast?).getD default

/-- The written duration of a note or rest. -/
def written : Upd → Dur
  | .leaf (.note _ d _) => d
  | .leaf (.rest d) => d
  | _ => []

/-- A note or a rest. -/
def Sounding : Upd → Prop
  | .leaf (.note _ _ _) | .leaf (.rest _) => True
  | _ => False

/-- A note, a rest, a barline, or a change of an attribute that has nothing to do with time. -/
def ChordMember : Upd → Prop
  | .leaf (.note _ _ _) | .leaf (.rest _) | .barline => True
  | .leaf (.attr u) => u.kind ∉ [AttrKind.duration, AttrKind.tempo, AttrKind.metricModulation]
  | _ => False

/-! ### Voices -/

/-- The events of a voice group without its end: each voice (or continuation of a voice) with its events. -/
def playVoices (segs : List (Int × List Upd)) : List Upd := segs.flatMap (fun x => .voice x.1 :: x.2)

/-- Voices are listed in the order in which they first appear; a voice that is taken up again keeps its place. -/
def place {α : Type} (l : List (Int × α)) (n : Int) (a : α) : List (Int × α) :=
  if n ∈ l.map (·.1) then l.map (fun x => if x.1 = n then (n, a) else x) else l ++ [(n, a)]

/-- The voices of a group, each with what it had reached when it was played last. -/
def reached {α : Type} (l : List (Int × α)) : List (Int × α) := l.foldl (fun acc x => place acc x.1 x.2) []

/-- `a` belongs to the voice that is furthest; of several such voices to the last voice of all, if it is one of them, otherwise to the first of them. -/
def Furthest (voices : List (Int × Attributes)) (a : Attributes) : Prop :=
  ∃ (j : Nat) (n : Int), voices[j]? = some (n, a) ∧ (∀ x ∈ voices, x.2.position ≤ a.position) ∧
    (∀ x, voices.getLast? = some x → x.2.position = a.position → j + 1 = voices.length) ∧
    (j + 1 < voices.length → ∀ k < j, ∀ x, voices[k]? = some x → x.2.position < a.position)

/-- The attributes of the `i`-th active part after a program. -/
def attributesAfter (s : Score) (i : Nat) (program : List Upd) : Option Attributes :=
  ((update program s).s.current[i]?).map (attributesAt (update program s).s)

end Alda.Spec
