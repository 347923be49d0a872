import Verif.Importer.Import
import Verif.Model.Update
import Verif.Spec.Pitch
import Verif.Spec.Text
/-!
What a MusicXML file means, as far as pitch and time are concerned: a cursor moves through the measures, a note sounds where the cursor is and moves it on, `backup` and
`forward` move it back and on, and a note with `<chord/>` starts together with the note before it. Times are counted in divisions of a quarter note.
-/
namespace Alda.Spec
open Importer (Elem)

/-! ### The music -/

/-- A written pitch: 1 is a sharp, -1 a flat. -/
structure XmlPitch where
  letter : Letter
  alter : Int
  octave : Nat
deriving DecidableEq, Repr

/-- The MIDI number of a written pitch on an instrument that sounds so many semitones higher than written. -/
def XmlPitch.number (p : XmlPitch) (transpose : Int) : Int := 12 * ((p.octave : Int) + 1) + semitone p.letter + p.alter + transpose

/-- What occurs in a measure. A note without pitch is a rest. `mention` is something else that is said about a voice, `dynamics` a dynamic marking. -/
inductive XmlItem where
  | note (voice length : Nat) (chord : Bool) (pitch : Option XmlPitch)
  | forward (length : Nat)
  | backup (length : Nat)
  | mention (voice : Nat)
  | dynamics

/-- A note with its voice and its place in time. -/
structure XmlNote where
  voice : Nat
  start : Nat
  length : Nat
  pitch : XmlPitch
deriving DecidableEq, Repr

/-- How far a reader has come: the cursor, the beginning of the measure, the note that a chord note would join, up to where each voice has been written and the furthest
of these points, the voice spoken of last in this measure, whether the previous measure ended at its furthest point, and the notes so far. -/
structure XmlReading where
  cursor : Nat
  bar : Nat
  last : Option XmlNote
  reached : Nat → Nat
  furthest : Nat
  now : Option Nat
  even : Bool
  notes : List XmlNote

/-- At the beginning. -/
def XmlReading.start : XmlReading := ⟨0, 0, none, fun _ => 0, 0, none, true, []⟩

/-- Reading one item. -/
def XmlReading.item (r : XmlReading) : XmlItem → XmlReading
  | .note v t false p =>
    let new := p.map (fun p => XmlNote.mk v r.cursor t p)
    { r with
      cursor := r.cursor + t, last := new, notes := r.notes ++ new.toList, now := some v,
      reached := fun w => if w = v then r.cursor + t else r.reached w, furthest := max r.furthest (r.cursor + t) }
  | .note v t true p =>
    { r with now := some v, notes := r.notes ++ (p.map (fun p => XmlNote.mk v ((r.last.map (·.start)).getD r.cursor) t p)).toList }
  | .forward t => { r with cursor := r.cursor + t, last := none }
  | .backup t => { r with cursor := r.cursor - t, last := none }
  | .mention v => { r with now := some v }
  | .dynamics => { r with last := none }

/-- Reading several items. -/
def XmlReading.items (r : XmlReading) (is : List XmlItem) : XmlReading := is.foldl XmlReading.item r

/-- The next measure begins at the cursor, or after the last note if that is later. -/
def XmlReading.nextBar (r : XmlReading) : XmlReading :=
  { r with cursor := max r.cursor r.furthest, bar := max r.cursor r.furthest, last := none, now := none, even := decide (r.furthest ≤ r.cursor) }

/-- Reading all measures. -/
def XmlReading.measures (r : XmlReading) (ms : List (List XmlItem)) : XmlReading := ms.foldl (fun r m => (r.items m).nextBar) r

/-- The notes of a part. -/
def xmlNotes (ms : List (List XmlItem)) : List XmlNote := (XmlReading.start.measures ms).notes

/-! ### Restrictions -/

/-- Where a voice has come to: if the previous measure ended at its furthest point, it has come to the beginning of this measure at least. -/
def XmlReading.position (r : XmlReading) (v : Nat) : Nat := if r.even then max (r.reached v) r.bar else r.reached v

/-- An item that makes sense where it stands: no length is zero, a voice does not go back behind what was written of it, a chord note has the voice and length of the
note that it joins, the cursor stays in the measure, which is not longer than five thousand whole notes (there are `d` divisions in a quarter note), nothing is said about
a voice that lags behind except its next note, and a dynamic marking stands where the voice spoken of last has come to, or at the beginning of a measure. -/
def XmlReading.Sensible (d : Nat) (r : XmlReading) : XmlItem → Prop
  | .note v t false _ => 0 < t ∧ r.reached v ≤ r.cursor ∧ r.cursor + t ≤ r.bar + 20000 * d
  | .note v t true p => p.isSome ∧ ∃ n, r.last = some n ∧ n.voice = v ∧ n.length = t
  | .forward t => 0 < t ∧ r.cursor + t ≤ r.bar + 20000 * d
  | .backup t => 0 < t ∧ r.bar + t ≤ r.cursor
  | .mention v => r.cursor ≤ r.position v
  | .dynamics => (∃ v, r.now = some v ∧ r.position v = r.cursor) ∨ (r.now = none ∧ r.even = true ∧ r.cursor = r.bar)

/-- All items make sense. -/
def XmlReading.SensibleItems (d : Nat) : XmlReading → List XmlItem → Prop
  | _, [] => True
  | r, i :: is => r.Sensible d i ∧ (r.item i).SensibleItems d is

/-- The same for all measures. -/
def XmlReading.SensibleMeasures (d : Nat) : XmlReading → List (List XmlItem) → Prop
  | _, [] => True
  | r, m :: ms => r.SensibleItems d m ∧ (r.items m).nextBar.SensibleMeasures d ms

/-! ### The file -/

/-- Decimal digits. -/
def NumeralOf (n : Nat) (s : String) : Prop := s.toList ≠ [] ∧ AllDigits s.toList ∧ decimal s.toList = n

/-- Decimal digits, with a minus sign for a negative number. -/
def IntegerOf (z : Int) (s : String) : Prop :=
  (∃ n : Nat, NumeralOf n s ∧ z = n) ∨ ∃ (cs : List Char) (n : Nat), s.toList = '-' :: cs ∧ NumeralOf n (String.ofList cs) ∧ z = -n

/-- The first child with a tag has a number as its text. -/
def Says (e : Elem) (tag : String) (n : Nat) : Prop := ∃ c, e.find tag = some c ∧ NumeralOf n c.text

/-- The tags that the importer acts upon. -/
def actedUpon : List String :=
  ["score-part", "part", "measure", "barline", "key", "dynamics", "divisions", "transpose", "note", "forward", "backup"]

mutual
/-- An element without notes and attributes: a barline without a repeat or an ending; a dynamic marking, if `loud`; or an element with another tag than the ones
above, whose children are like that. -/
def Quiet (loud : Bool) : Elem → Prop
  | .mk tag attrs text children =>
    (tag = "barline" ∧ Elem.find (.mk tag attrs text children) "repeat" = none ∧ Elem.find (.mk tag attrs text children) "ending" = none) ∨
    (tag = "dynamics" ∧ loud = true) ∨ (tag ∉ actedUpon ∧ QuietL loud children)
/-- The same for lists. -/
def QuietL (loud : Bool) : List Elem → Prop
  | [] => True
  | e :: es => Quiet loud e ∧ QuietL loud es
end

/-- The text of a `<step>`. -/
def stepText : Letter → String
  | .C => "C" | .D => "D" | .E => "E" | .F => "F" | .G => "G" | .A => "A" | .B => "B"

/-- A key with so many sharps (or flats, if negative) changes a letter. -/
def InSignature (fifths : Int) (l : Letter) : Prop := (sharpsOrder.idxOf l : Int) < fifths ∨ (flatsOrder.idxOf l : Int) < -fifths

/-- The alteration of a pitch. -/
def AlterOf (pitch : Elem) (z : Int) : Prop := (pitch.find "alter" = none ∧ z = 0) ∨ ∃ c, pitch.find "alter" = some c ∧ IntegerOf z c.text ∧ -128 ≤ z ∧ z ≤ 127

/-- A natural sign is shown. -/
def Natural (e : Elem) : Prop := ∃ c, e.find "accidental" = some c ∧ c.text = "natural"

/-- The pitch of a note, or a rest. A note without alteration shows a natural sign if the key would change it, and no other note shows one. -/
def PitchOf (fifths : Int) (e : Elem) : Option XmlPitch → Prop
  | none => e.find "pitch" = none ∧ (e.find "rest").isSome
  | some p => ∃ c step, e.find "pitch" = some c ∧ c.find "step" = some step ∧ step.text = stepText p.letter ∧ AlterOf c p.alter ∧ Says c "octave" p.octave ∧ p.octave ≤ 127 ∧
      (Natural e → p.alter = 0) ∧ (p.alter = 0 → InSignature fifths p.letter → Natural e)

/-- A `<note>` of normal size that is not tied to the one before. -/
structure NoteOf (fifths : Int) (e : Elem) (voice length : Nat) (chord : Bool) (pitch : Option XmlPitch) : Prop where
  tag : e.tag = "note"
  voice : Says e "voice" voice ∧ 1 ≤ voice ∧ voice ≤ 127
  length : Says e "duration" length
  dots : (e.findAll "dot").length ≤ 5
  chord : (e.find "chord").isSome = chord
  pitch : PitchOf fifths e pitch
  full : e.find "cue" = none ∧ e.find "grace" = none ∧ ∀ c, e.find "type" = some c → c.attr "type" = none
  untied : e.findAll "tie" = []

/-- A `<forward>` or `<backup>`. -/
structure MoveOf (tag : String) (e : Elem) (length : Nat) : Prop where
  tag : e.tag = tag
  length : Says e "duration" length
  dots : e.findAll "dot" = []

/-- What an element says about a voice by having a `<voice>`. -/
def MentionOf (e : Elem) (is : List XmlItem) : Prop :=
  (e.find "voice" = none ∧ is = []) ∨ ∃ v, Says e "voice" v ∧ 1 ≤ v ∧ v ≤ 127 ∧ is = [.mention v]

/-- An element of a measure and what it stands for. -/
inductive ItemsOf (fifths : Int) : Elem → List XmlItem → Prop where
  | note (e : Elem) (v t : Nat) (chord : Bool) (p : Option XmlPitch) : NoteOf fifths e v t chord p → ItemsOf fifths e [.note v t chord p]
  | forward (e : Elem) (t : Nat) (is : List XmlItem) : MoveOf "forward" e t → MentionOf e is → ItemsOf fifths e (is ++ [.forward t])
  | backup (e : Elem) (t : Nat) : MoveOf "backup" e t → e.find "voice" = none → ItemsOf fifths e [.backup t]
  | quiet (e : Elem) (is : List XmlItem) : Quiet false e → MentionOf e is → ItemsOf fifths e is
  | loud (e : Elem) (is : List XmlItem) : Quiet true e → MentionOf e is → ItemsOf fifths e (is ++ [.dynamics])

/-- The content of a measure. -/
inductive ContentOf (fifths : Int) : List Elem → List XmlItem → Prop where
  | nil : ContentOf fifths [] []
  | cons {e : Elem} {es : List Elem} {is js : List XmlItem} : ItemsOf fifths e is → ContentOf fifths es js → ContentOf fifths (e :: es) (is ++ js)

/-- What is said at the beginning of a part. -/
structure XmlHead where
  divisions : Nat
  fifths : Int
  transpose : Int

/-- What is said in elements at the beginning of a part, from what is in force before to what is in force afterwards. -/
inductive HeadOf : XmlHead → List Elem → XmlHead → Prop where
  | nil (h : XmlHead) : HeadOf h [] h
  | quiet {h h' : XmlHead} {e : Elem} {es : List Elem} : Quiet false e → e.find "voice" = none → HeadOf h es h' → HeadOf h (e :: es) h'
  | attributes {h h1 h' : XmlHead} {e : Elem} {es : List Elem} : e.tag = "attributes" → e.find "voice" = none → HeadOf h e.children h1 → HeadOf h1 es h' → HeadOf h (e :: es) h'
  | divisions {h h' : XmlHead} {e : Elem} {es : List Elem} (n : Nat) : e.tag = "divisions" → e.find "voice" = none → NumeralOf n e.text → n ≤ 127 →
      HeadOf { h with divisions := n } es h' → HeadOf h (e :: es) h'
  | key {h h' : XmlHead} {e c : Elem} {es : List Elem} (z : Int) : e.tag = "key" → e.find "voice" = none → e.find "key-step" = none → e.find "key-alter" = none →
      e.find "key-accidental" = none → e.find "fifths" = some c → IntegerOf z c.text → -7 ≤ z → z ≤ 7 → HeadOf { h with fifths := z } es h' → HeadOf h (e :: es) h'
  | transpose {h h' : XmlHead} {e c : Elem} {es : List Elem} (z : Int) : e.tag = "transpose" → e.find "voice" = none → e.find "octave-change" = none →
      e.find "chromatic" = some c → IntegerOf z c.text → -128 ≤ z → z ≤ 127 → HeadOf { h with transpose := z } es h' → HeadOf h (e :: es) h'

/-- The measures after the first. -/
inductive MeasuresOf (fifths : Int) : List Elem → List (List XmlItem) → Prop where
  | nil : MeasuresOf fifths [] []
  | cons {e : Elem} {es : List Elem} {m : List XmlItem} {ms : List (List XmlItem)} : e.tag = "measure" → ContentOf fifths e.children m → MeasuresOf fifths es ms →
      MeasuresOf fifths (e :: es) (m :: ms)

/-- What is in force if nothing is said. -/
def XmlHead.default : XmlHead := ⟨1, 0, 0⟩

mutual
/-- The texts of all `<voice>` elements in an element. -/
def voiceTexts : Elem → List String
  | .mk tag _ text children => (if tag = "voice" then [text] else []) ++ voiceTextsIn children
/-- The same for lists. -/
def voiceTextsIn : List Elem → List String
  | [] => []
  | e :: es => voiceTexts e ++ voiceTextsIn es
end

/-- A part: divisions, key and transposition are given at the beginning of the first measure and do not change. There are at most 24 divisions, the voices have
numbers from 1 to 127, and there is a voice 1. -/
structure PartOf (e : Elem) (head : XmlHead) (ms : List (List XmlItem)) : Prop where
  tag : e.tag = "part"
  measures : ∃ m pre content others is js, e.children = m :: others ∧ m.tag = "measure" ∧ m.children = pre ++ content ∧ HeadOf .default pre head ∧
    ContentOf head.fifths content is ∧ MeasuresOf head.fifths others js ∧ ms = is :: js
  divisions : 1 ≤ head.divisions ∧ head.divisions ≤ 24
  voices : ∀ s ∈ voiceTexts e, ∃ n, NumeralOf n s ∧ 1 ≤ n ∧ n ≤ 127
  first : ∃ s ∈ voiceTexts e, NumeralOf 1 s
  sensible : XmlReading.start.SensibleMeasures head.divisions ms

/-! ### The score -/

mutual
/-- An element without anything that the importer acts upon. -/
def Aside : Elem → Prop
  | .mk tag _ _ children => tag ∉ actedUpon ∧ AsideL children
/-- The same for lists. -/
def AsideL : List Elem → Prop
  | [] => True
  | e :: es => Aside e ∧ AsideL es
end

/-- A player: the identifier of the part, the General MIDI program (the piano is number 1), and the music. -/
structure XmlPlayer where
  id : String
  program : Nat
  head : XmlHead
  measures : List (List XmlItem)

/-- A note as it is to be heard at 120 beats per minute: the program as MIDI counts it, from zero, then the note number, the start, and the length in ms. -/
def XmlPlayer.heard (p : XmlPlayer) (x : XmlNote) : Nat × Int × Rat × Rat :=
  (p.program - 1, x.pitch.number p.head.transpose, (x.start : Rat) / p.head.divisions * 500, (x.length : Rat) / p.head.divisions * 500)

/-- The music of a player. -/
def XmlPlayer.music (p : XmlPlayer) : List (Nat × Int × Rat × Rat) := (xmlNotes p.measures).map p.heard

/-- All notes of a player are notes that MIDI knows. -/
def XmlPlayer.Playable (p : XmlPlayer) : Prop := ∀ x ∈ xmlNotes p.measures, 0 ≤ x.pitch.number p.head.transpose ∧ x.pitch.number p.head.transpose ≤ 127

/-- The description of a part: it has one MIDI instrument with a program, or none, then it is for the piano. -/
structure ScorePartOf (e : Elem) (id : String) (program : Nat) : Prop where
  tag : e.tag = "score-part"
  id : e.attr "id" = some id
  instrument : (e.findAll "midi-instrument" = [] ∧ program = 1) ∨
    ∃ m, e.findAll "midi-instrument" = [m] ∧ m.findAll "midi-unpitched" = [] ∧ Says m "midi-program" program ∧ 1 ≤ program ∧ program ≤ 127

/-- The list of the parts. -/
inductive PartListOf : List Elem → List (String × Nat) → Prop where
  | nil : PartListOf [] []
  | aside {e : Elem} {es : List Elem} {l : List (String × Nat)} : Aside e → PartListOf es l → PartListOf (e :: es) l
  | part {e : Elem} {es : List Elem} {l : List (String × Nat)} (id : String) (program : Nat) : ScorePartOf e id program → PartListOf es l → PartListOf (e :: es) ((id, program) :: l)

/-- The parts. -/
inductive PartsOf : List Elem → List XmlPlayer → Prop where
  | nil : PartsOf [] []
  | part {e : Elem} {es : List Elem} {p : XmlPlayer} {ps : List XmlPlayer} : e.attr "id" = some p.id → PartOf e p.head p.measures → PartsOf es ps → PartsOf (e :: es) (p :: ps)

/-- A score: the list of the parts, and the parts. No two have the same identifier or the same instrument. -/
structure ScoreOf (e : Elem) (players : List XmlPlayer) : Prop where
  tag : e.tag = "score-partwise"
  content : ∃ front list parts declared, e.children = front ++ list :: parts ∧ AsideL front ∧ list.tag = "part-list" ∧ PartListOf list.children declared ∧
    declared.Perm (players.map (fun p => (p.id, p.program))) ∧ PartsOf parts players
  ids : (players.map (·.id)).Nodup
  programs : (players.map (·.program)).Nodup

/-- What is heard of a note in Alda: the program of its instrument, the note number, the start and the length in ms. -/
def heardAs (s : Score) (e : NoteEvent) : Nat × Int × Rat × Rat := ((s.heap e.part).instr.patch, e.note, e.offset, e.duration)

/-- A file is imported without an error, the result is played without an error, and this is heard (in any order, since each note has its time). -/
def Renders (o : Importer.Orders) (roots : List Elem) (music : List (Nat × Int × Rat × Rat)) : Prop :=
  ∃ us t, Importer.importMusicXML o roots = .ok us ∧ update us newScore = .ok t ∧ (t.events.map (heardAs t)).Perm music

end Alda.Spec
