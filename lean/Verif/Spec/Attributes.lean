import Verif.Spec.Globals
import Verif.Spec.Text
import Verif.Spec.Duration
import Verif.Spec.Pitch
import Verif.Spec.Gen
/-!
What a user asks for with an attribute expression such as `(vol 50)`, as documented in doc/attributes.md and doc/tempo.md.
-/
namespace Alda.Spec

/-- Note lengths joined by ties, and their numbers and dots. -/
inductive Lengths : List Char → List (Rat × Nat) → Prop where
  | one (cs : List Char) (d : Rat) (k : Nat) : NoteLengthText cs d k → Lengths cs [(d, k)]
  | tied (cs rest : List Char) (d : Rat) (k : Nat) (ls : List (Rat × Nat)) : NoteLengthText cs d k → Lengths rest ls →
      Lengths (cs ++ '~' :: rest) ((d, k) :: ls)

/-- Beats of tied note lengths: a whole note has four. -/
def tiedBeats (ls : List (Rat × Nat)) : Rat := (ls.map (fun x => 4 / x.1 * dotted x.2)).sum

/-- A note value given to a function, and how many beats it has. -/
inductive Value : LispForm → Rat → Prop where
  | number (d : Rat) : 0 < d → Value (.num d) (4 / d)
  | text (s : String) (ls : List (Rat × Nat)) : Lengths s.toList ls → (∀ x ∈ ls, x.1 ≠ 0) → Value (.str s) (tiedBeats ls)

/-- The volume of the `i`-th marking, from the softest to the loudest: the fourteen markings divide the MIDI velocities 1 to 127 evenly; as a fraction of 127, to five decimals. -/
def markingVolume (i : Nat) : Rat := ((((1 + 126 / 13 * (i : Rat)) / 127 * 100000 + 1 / 2).floor : Int) : Rat) / 100000

/-- The name of a letter. -/
def letterName : Letter → String
  | .A => "a" | .B => "b" | .C => "c" | .D => "d" | .E => "e" | .F => "f" | .G => "g"

/-- The name of an accidental. -/
def accidentalName : Accidental → String
  | .flat => "flat" | .natural => "natural" | .sharp => "sharp"

/-- The sign of an accidental. -/
def accidentalSign : Accidental → Char
  | .flat => '-' | .natural => '_' | .sharp => '+'

/-- The names of the modes. -/
def modeNames : Scale → List String
  | .ionian => ["ionian", "major"]
  | .dorian => ["dorian"]
  | .phrygian => ["phrygian"]
  | .lydian => ["lydian"]
  | .mixolydian => ["mixolydian"]
  | .aeolian => ["aeolian", "minor"]
  | .locrian => ["locrian"]

/-- The accidentals that a list of letters with accidentals puts on a letter: those of its last mention. -/
def mentioned (ps : List (Letter × List Accidental)) (l : Letter) : List Accidental :=
  ((ps.filter (fun p => p.1 = l)).getLast?.map (·.2)).getD []

/-- Flats and sharps only. -/
def Signs (ps : List (Letter × List Accidental)) : Prop := ∀ p ∈ ps, p.2 ≠ [] ∧ Accidental.natural ∉ p.2

/-- Words with single spaces between them. -/
def spaced : List (List Char) → List Char
  | [] => []
  | [w] => w
  | w :: v :: ws => w ++ ' ' :: spaced (v :: ws)

/-- The seven letters from the tonic up have the intervals of the mode, starting at the pitch of the tonic. -/
def ScaleOn (t : Letter) (accs : List Accidental) (mode : Scale) (ks : KeySig) : Prop :=
  ∀ i < 7, ∀ octave, pitchOf (degree t i).1 (onLetter ks (degree t i).1) (octave + (degree t i).2) 0 =
    pitchOf t accs octave 0 + (modeIntervals mode).getD i 0

/-- A key signature as an argument, and what it says. -/
inductive Key : LispForm → (KeySig → Prop) → Prop where
  | words (ps : List (Letter × List Accidental)) (s : String) : Signs ps →
      s.toList = spaced (ps.map (fun p => (letterName p.1).toList ++ p.2.map accidentalSign)) →
      Key (.str s) (fun ks => ∀ l, onLetter ks l = mentioned ps l)
  | pairs (ps : List (Letter × List Accidental)) : Signs ps →
      Key (.quoted (.list (ps.flatMap (fun p => [.sym (letterName p.1), .list (p.2.map (fun a => .sym (accidentalName a)))]))))
        (fun ks => ∀ l, onLetter ks l = mentioned ps l)
  | scale (t : Letter) (accs : List Accidental) (mode : Scale) (name : String) : name ∈ modeNames mode →
      Key (.quoted (.list (.sym (letterName t) :: (accs.map (fun a => .sym (accidentalName a)) ++ [.sym name])))) (ScaleOn t accs mode)

/-- What an attribute expression, given by its name and arguments, asks for: how the attributes of an instrument before and after it are related.
(For `midi-channel` see C04.) -/
inductive Asks : String → List LispForm → (Attributes → Attributes → Prop) → Prop where
  | octave (n : Int) : InInt32 n → Asks "octave" [.num n] (fun a b => b = { a with octave := n })
  | up : Asks "octave" [.quoted (.sym "up")] (fun a b => b = { a with octave := int32 (a.octave + 1) })
  | down : Asks "octave" [.quoted (.sym "down")] (fun a b => b = { a with octave := int32 (a.octave - 1) })
  | tempo (bpm : Rat) : 0 < bpm → Asks "tempo" [.num bpm] (fun a b => b = { a with tempo := bpm })
  /-- `bpm` times per minute the given note value. -/
  | tempoOf (v : LispForm) (q bpm : Rat) : Value v q → 0 < bpm → Asks "tempo" [v, .num bpm] (fun a b => b = { a with tempo := q * bpm })
  /-- The second note value lasts as long as the first did. -/
  | modulation (v w : LispForm) (p q : Rat) : Value v p → Value w q →
      Asks "metric-modulation" [v, w] (fun a b => ∃ t, p * a.tempo⁻¹ = q * t⁻¹ ∧ b = { a with tempo := t })
  | quantization (name : String) (v : Rat) : name ∈ ["quantization", "quantize", "quant"] → 0 ≤ v →
      Asks name [.num v] (fun a b => b = { a with quant := v / 100 })
  | volume (name : String) (v : Rat) : name ∈ ["volume", "vol"] → 0 ≤ v → v ≤ 100 → Asks name [.num v] (fun a b => b = { a with volume := v / 100 })
  | trackVolume (name : String) (v : Rat) : name ∈ ["track-volume", "track-vol"] → 0 ≤ v → v ≤ 100 →
      Asks name [.num v] (fun a b => b = { a with trackVolume := v / 100 })
  | dynamic (i : Nat) (name : String) : markings[i]? = some name → Asks name [] (fun a b => b = { a with volume := markingVolume i })
  | panning (name : String) (v : Rat) : name ∈ ["panning", "pan"] → 0 ≤ v → v ≤ 100 → Asks name [.num v] (fun a b => b = { a with panning := v / 100 })
  | beats (q : Rat) : 0 < q →
      Asks "set-duration" [.num q] (fun a b => ∃ d, (∀ t, total t (atoms d) = q * 60000 / t) ∧ b = { a with dur := d })
  | ms (q : Rat) : 0 < q → Asks "set-duration-ms" [.num q] (fun a b => ∃ d, (∀ t, total t (atoms d) = q) ∧ b = { a with dur := d })
  | noteLength (v : LispForm) (q : Rat) : Value v q →
      Asks "set-note-length" [v] (fun a b => ∃ d, (∀ t, total t (atoms d) = q * 60000 / t) ∧ b = { a with dur := d })
  | key (name : String) (v : LispForm) (says : KeySig → Prop) : name ∈ ["key-signature", "key-sig"] → Key v says →
      Asks name [v] (fun a b => ∃ ks, says ks ∧ b = { a with keySig := ks })
  | transposition (name : String) (n : Int) : name ∈ ["transposition", "transpose"] → InInt32 n →
      Asks name [.num n] (fun a b => b = { a with transposition := n })
  | referencePitch (name : String) (f : Rat) : name ∈ ["reference-pitch", "tuning-constant"] → 0 < f →
      Asks name [.num f] (fun a b => b = { a with refPitch := f })

/-- The functions whose arguments are percentages. -/
def percentages : List String :=
  ["quantization", "quantize", "quant", "volume", "vol", "track-volume", "track-vol", "panning", "pan"]

/-- The names of all attribute functions except `midi-channel`. -/
def attributeNames : List String :=
  ["octave", "tempo", "metric-modulation", "set-duration", "set-duration-ms", "set-note-length", "key-signature", "key-sig", "transposition", "transpose",
   "reference-pitch", "tuning-constant"] ++ percentages ++ markings

end Alda.Spec
