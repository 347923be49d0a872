/-!
Model of `client/model/pitch.go`.
-/
namespace Alda

/-- `NoteLetter`, client/model/pitch.go:10-27. -/
inductive Letter where
  | A | B | C | D | E | F | G
deriving DecidableEq, Repr, Inhabited

/-- The seven letters in the order of the Go constants, client/model/pitch.go:12-27
(also the literal slice at client/model/key.go:92). -/
def Letter.all : List Letter := [.A, .B, .C, .D, .E, .F, .G]

/-- `NoteLetterIntervals`, client/model/pitch.go:29-31. -/
def Letter.interval : Letter → Int
  | .C => 0 | .D => 2 | .E => 4 | .F => 5 | .G => 7 | .A => 9 | .B => 11

/-- `NewNoteLetter`, client/model/pitch.go:58-77. The error is `none`. -/
def newNoteLetter (c : Char) : Option Letter :=
  if c = 'a' then some .A else if c = 'b' then some .B else if c = 'c' then some .C
  else if c = 'd' then some .D else if c = 'e' then some .E else if c = 'f' then some .F
  else if c = 'g' then some .G else none

/-- `Accidental`, client/model/pitch.go:81-90. -/
inductive Accidental where
  | flat | natural | sharp
deriving DecidableEq, Repr, Inhabited

/-- `NewAccidental`, client/model/pitch.go:109-120. The error is `none`. -/
def newAccidental (s : String) : Option Accidental :=
  if s = "flat" then some .flat else if s = "natural" then some .natural
  else if s = "sharp" then some .sharp else none

/-- Go's `int32` arithmetic wraps around modulo 2^32 (language semantics; used by the `int32`
arithmetic in client/model/pitch.go:167-186 and client/model/attributes.go:306-324). -/
def wrap32 (n : Int) : Int := (n + 2147483648) % 4294967296 - 2147483648

/-- `n` fits in an `int32`. -/
def InInt32 (n : Int) : Prop := -2147483648 ≤ n ∧ n ≤ 2147483647

instance (n : Int) : Decidable (InInt32 n) := by unfold InInt32; infer_instance

/-- `KeySignature`, client/model/key.go:47: a Go map from letters to accidentals;
`none` is "not in the map". -/
abbrev KeySig := Letter → Option (List Accidental)

/-- The empty map `KeySignature{}`. -/
def KeySig.empty : KeySig := fun _ => none

/-- Reading `ks[letter]`: a missing entry reads as the nil slice (client/model/pitch.go:172). -/
def KeySig.read (ks : KeySig) (l : Letter) : List Accidental := (ks l).getD []

/-- `PitchIdentifier` with its two implementations, client/model/pitch.go:130-205.
`Accidentals` is `none` for a nil slice, which is what the code tests at line 171. -/
inductive Pitch where
  | letter (l : Letter) (accidentals : Option (List Accidental))
  | midi (note : Int)
deriving DecidableEq, Repr, Inhabited

/-- The loop over accidentals of `CalculateMidiNote`, client/model/pitch.go:177-184. -/
def applyAccidentals (n : Int) : List Accidental → Int
  | [] => n
  | .flat :: as => applyAccidentals (wrap32 (n - 1)) as
  | .sharp :: as => applyAccidentals (wrap32 (n + 1)) as
  | .natural :: as => applyAccidentals n as

/-- `CalculateMidiNote`, client/model/pitch.go:164-187 and 201-205. -/
def calculateMidiNote (p : Pitch) (octave : Int) (ks : KeySig) (transposition : Int) : Int :=
  match p with
  | .letter l acc =>
    let base := wrap32 (wrap32 (wrap32 (octave + 1) * 12) + l.interval)
    let accidentals := match acc with
      | none => ks.read l
      | some as => as
    wrap32 (applyAccidentals base accidentals + transposition)
  | .midi n => wrap32 (n + transposition)

end Alda
