import Verif.Spec.Music
import Verif.Spec.Parts
/-!
# Specification of C69: how an instrument begins, and that it goes on where it left off

The initial values are those of doc/attributes.md:152-323 and doc/notes.md:51-52.
-/
namespace Alda.Spec

/-- The documented initial values of the attributes of an instrument, and its position at the beginning of the score. The volume
is that of the marking mf; doc/attributes.md gives it as 54, in percent without decimals. -/
structure Begins (a : Attributes) : Prop where
  tempo : a.tempo = 120
  octave : a.octave = 4
  volume : a.volume = 54210 / 100000
  trackVolume : a.trackVolume = 100 / 127
  panning : a.panning = 50 / 100
  quant : a.quant = 90 / 100
  quarter : lengthFor a [] = 60000 / 120
  key : ∀ l, onLetter a.keySig l = []
  transposition : a.transposition = 0
  refPitch : a.refPitch = 440
  position : a.position = 0
  timeScale : a.timeScale = 1

/-- The length of a note at 120 beats per minute; a quarter note, half a second, if none is written. -/
def firstLength : Dur → Rat
  | [] => 500
  | c :: cs => total 120 (atoms (c :: cs))

/-- The pitch of a note in octave 4, without a key signature. -/
def plainPitch : Pitch → Int
  | .letter l none => pitchOf l [] 4 0
  | .letter l (some as) => pitchOf l as 4 0
  | .midi n => n

/-- While the instance `o` is not playing, other instances are declared and other events happen, successfully or not. -/
inductive Away (o : Nat) : Score → Score → Prop where
  | start {s} (h : o ∉ playing s) : Away o s s
  | event {s t} (e : Upd) : Away o s t → NoDecl e → Away o s (update [e] t).s
  | declare {s t} (names : List String) (alias : String) : Away o s t → o ∉ playing (update [.partDecl names alias] t).s →
      Away o s (update [.partDecl names alias] t).s

end Alda.Spec
