import Verif.Model.Update
/-!
What the MusicXML importer builds, and what it means that two lists of updates sound the same.
-/
namespace Alda.Spec

/-- A duration does not consist of barlines only. -/
def NotOnlyBars (d : Dur) : Prop := d = [] ∨ ∃ x ∈ d, x ≠ .barline

/-- What occurs in an imported chord. -/
def Member : Upd → Prop
  | .leaf (.note _ d _) => NotOnlyBars d
  | .leaf (.rest d) => NotOnlyBars d
  | .leaf (.attr u) => u.kind ≠ .keySignature ∧ u.kind ≠ .duration
  | .barline => True
  | _ => False

mutual
/-- The updates that the importer collects for one voice: notes, rests, chords, barlines, sequences, repeats that play at least once, numbered endings, and
attributes other than the key signature and the default duration (a key signature closes the voices). A duration does not consist of barlines only. -/
def Imported : Upd → Prop
  | .leaf (.note _ d _) => NotOnlyBars d
  | .leaf (.rest d) => NotOnlyBars d
  | .leaf (.attr u) => u.kind ≠ .keySignature ∧ u.kind ≠ .duration
  | .barline => True
  | .chord es => ∀ e ∈ es, Member e
  | .seq es => ImportedL es
  | .rep (.seq es) n => n ≠ 0 ∧ ImportedL es
  | .onReps _ (.seq es) => ImportedL es
  | _ => False
/-- The same for lists. -/
def ImportedL : List Upd → Prop
  | [] => True
  | e :: es => Imported e ∧ ImportedL es
end

mutual
/-- Every note has a letter: the part is not a percussion part. -/
def Lettered : Upd → Prop
  | .leaf (.note (.midi _) _ _) => False
  | .chord es => LetteredL es
  | .seq es => LetteredL es
  | .rep (.seq es) _ => LetteredL es
  | .onReps _ (.seq es) => LetteredL es
  | _ => True
/-- The same for lists. -/
def LetteredL : List Upd → Prop
  | [] => True
  | e :: es => Lettered e ∧ LetteredL es
end

mutual
/-- Every note has a MIDI number from 24 to 127, there are no chords, and the octave is not set: the part is a percussion part. -/
def Percussive : Upd → Prop
  | .leaf (.note (.midi n) _ _) => 24 ≤ n ∧ n ≤ 127
  | .leaf (.note (.letter _ _) _ _) => False
  | .leaf (.attr u) => u.kind ≠ .octave ∧ u.kind ≠ .octaveUp ∧ u.kind ≠ .octaveDown
  | .chord _ => False
  | .seq es => PercussiveL es
  | .rep (.seq es) _ => PercussiveL es
  | .onReps _ (.seq es) => PercussiveL es
  | _ => True
/-- The same for lists. -/
def PercussiveL : List Upd → Prop
  | [] => True
  | e :: es => Percussive e ∧ PercussiveL es
end

/-- No global attribute change has been recorded. -/
def NothingGlobal (s : Score) : Prop := s.globals.offsets = []

/-- What is heard: the notes in order, each with instrument, channel, pitch, start, length and volumes; and whether there was an error, and which. -/
def heard (o : Out) : Option Err × List NoteEvent := (o.err, o.s.events)

end Alda.Spec
