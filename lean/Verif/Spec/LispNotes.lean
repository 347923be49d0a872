import Verif.Spec.Attributes
/-!
Specification for C66: notes and rests that are written as lisp expressions, and what they are in Alda's own notation.
-/
namespace Alda.Spec

/-- The lisp expression `(f a b …)`. -/
def call (f : String) (args : List LispForm) : LispForm := .list (.sym f :: args)

/-- A pitch: `(pitch '(c sharp))` is `c+`, `(midi-note 60)` is a MIDI note. -/
inductive PitchForm : LispForm → Pitch → Prop where
  | plain (l : Letter) : PitchForm (call "pitch" [.quoted (.list [.sym (letterName l)])]) (.letter l none)
  | altered (l : Letter) (as : List Accidental) : as ≠ [] →
      PitchForm (call "pitch" [.quoted (.list (.sym (letterName l) :: as.map fun a => .sym (accidentalName a)))]) (.letter l (some as))
  | midi (n : Int) : InInt32 n → PitchForm (call "midi-note" [.num n]) (.midi n)

mutual
/-- A duration: `(note-length 4)` and `(note-length "4")` are `4`, `(ms 500)` is `500ms`, and `(duration a b …)` is `a~b~…`. -/
inductive DurationForm : LispForm → Dur → Prop where
  | number (q : Rat) : 0 < q → DurationForm (call "note-length" [.num q]) [.length q 0]
  | text (s : String) (q : Rat) (k : Nat) : NoteLengthText s.toList q k → DurationForm (call "note-length" [.str s]) [.length q k]
  | ms (q : Rat) : 0 < q → DurationForm (call "ms" [.num q]) [.ms q]
  | tied (fs : List LispForm) (d : Dur) : fs ≠ [] → DurationForms fs d → DurationForm (call "duration" fs) d
/-- Several durations, tied. -/
inductive DurationForms : List LispForm → Dur → Prop where
  | nil : DurationForms [] []
  | cons (f : LispForm) (fs : List LispForm) (d ds : Dur) : DurationForm f d → DurationForms fs ds → DurationForms (f :: fs) (d ++ ds)
end

/-- A note or a rest. -/
inductive NoteForm : LispForm → Leaf → Prop where
  | note (f : LispForm) (p : Pitch) : PitchForm f p → NoteForm (call "note" [f]) (.note p [] false)
  | timed (f g : LispForm) (p : Pitch) (d : Dur) : PitchForm f p → DurationForm g d → NoteForm (call "note" [f, g]) (.note p d false)
  | slur (f : LispForm) (p : Pitch) (d : Dur) (b : Bool) : NoteForm f (.note p d b) → NoteForm (call "slur" [f]) (.note p d true)
  | pause : NoteForm (call "pause" []) (.rest [])
  | pauseFor (f : LispForm) (d : Dur) : DurationForm f d → NoteForm (call "pause" [f]) (.rest d)

mutual
/-- No number in the form lies between 0 and 1. -/
def Large : LispForm → Prop
  | .num q => 1 ≤ q ∨ q ≤ 0
  | .list fs => LargeL fs
  | _ => True
/-- The same for lists. -/
def LargeL : List LispForm → Prop
  | [] => True
  | f :: fs => Large f ∧ LargeL fs
end

/-- The scores are the same, except that the durations that notes without one would have may be written differently; they last equally long. -/
def SoundsAlike (s t : Score) : Prop :=
  ∃ d : Nat → Dur, t = { s with heap := fun i => { s.heap i with dur := d i } } ∧ ∀ i tempo, (d i).toMs tempo = (s.heap i).dur.toMs tempo

end Alda.Spec
