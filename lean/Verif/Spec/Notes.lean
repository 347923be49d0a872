import Verif.Model.Score
/-!
What is said about the notes of a score.
-/
namespace Alda.Spec

/-- The note is audible at time `t` (ms). -/
def SoundsAt (n : NoteEvent) (t : Rat) : Prop := n.offset ≤ t ∧ t < n.offset + n.audible

/-- The note belongs to a percussion instrument. -/
def IsPercussive (s : Score) (n : NoteEvent) : Prop := (s.heap n.part).instr.percussion = true

end Alda.Spec
