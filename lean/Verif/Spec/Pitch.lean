import Verif.Model.Key
/-!
What a musician means by pitch, key signatures and scales, without reference to how the code computes them.
-/
namespace Alda.Spec

/-- Semitones of the white keys above C. -/
def semitone : Letter → Int
  | .C => 0 | .D => 2 | .E => 4 | .F => 5 | .G => 7 | .A => 9 | .B => 11

/-- A sharp raises, a flat lowers by one semitone, a natural does neither. -/
def signOf : Accidental → Int
  | .sharp => 1 | .flat => -1 | .natural => 0

/-- Effect of a list of accidentals in semitones. -/
def alteration (as : List Accidental) : Int := (as.map signOf).sum

/-- The pitch of a letter with accidentals in an octave: middle C (C4) is 60. -/
def pitchOf (l : Letter) (as : List Accidental) (octave transposition : Int) : Int :=
  60 + 12 * (octave - 4) + semitone l + alteration as + transposition

/-- The letter after a letter, cyclically. -/
def nextLetter : Letter → Letter
  | .A => .B | .B => .C | .C => .D | .D => .E | .E => .F | .F => .G | .G => .A

/-- Degree `i` of the scale on a letter: the letter, and how many octave boundaries (B to C) were crossed. -/
def degree (t : Letter) : Nat → Letter × Int
  | 0 => (t, 0)
  | i + 1 =>
    let d := degree t i
    (nextLetter d.1, if d.1 = .B then d.2 + 1 else d.2)

/-- Semitones above the tonic of the seven degrees of each mode. -/
def modeIntervals : Scale → List Int
  | .ionian     => [0, 2, 4, 5, 7, 9, 11]
  | .dorian     => [0, 2, 3, 5, 7, 9, 10]
  | .phrygian   => [0, 1, 3, 5, 7, 8, 10]
  | .lydian     => [0, 2, 4, 6, 7, 9, 11]
  | .mixolydian => [0, 2, 4, 5, 7, 9, 10]
  | .aeolian    => [0, 2, 3, 5, 7, 8, 10]
  | .locrian    => [0, 1, 3, 5, 6, 8, 10]

/-- The order in which sharps are added. -/
def sharpsOrder : List Letter := [.F, .C, .G, .D, .A, .E, .B]

/-- The order in which flats are added. -/
def flatsOrder : List Letter := [.B, .E, .A, .D, .G, .C, .F]

/-- The accidentals a key signature puts on a letter. -/
def onLetter (ks : KeySig) (l : Letter) : List Accidental :=
  match ks l with
  | none => []
  | some as => as

/-- Total signed number of accidentals in a key signature. -/
def totalAlteration (ks : KeySig) : Int :=
  alteration (onLetter ks .A) + alteration (onLetter ks .B) + alteration (onLetter ks .C)
    + alteration (onLetter ks .D) + alteration (onLetter ks .E) + alteration (onLetter ks .F)
    + alteration (onLetter ks .G)

end Alda.Spec
