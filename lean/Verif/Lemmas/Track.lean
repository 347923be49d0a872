import Verif.Lemmas.Frame
/-!
The music of one instrument, as values instead of pointers: a `Track`. The functions below say what every event does to the track of
one instrument, regardless of the other instruments and of MIDI channels. `Verif.Lemmas.Sim` proves that the interpreter does exactly this to every
active instrument.
-/
namespace Alda

/-- A part without pointers and MIDI channel. -/
def Part.bare (p : Part) : Part :=
  { p with midiChannel := 0, explicitChannel := false, template := none, origin := 0, voices := 0 }

/-- A note without channel and owner. -/
def NoteEvent.bare (e : NoteEvent) : NoteEvent := { e with part := 0, channel := 0 }

/-- The state of one instrument: its attributes, the voices of the current voice group (`none` is the one that is being played) and the template
of the group, and its notes; and the parts of the score that events read. -/
structure Track where
  cell : Part
  group : List (Int × Option Part)
  template : Option Part
  notes : List NoteEvent
  globals : GlobalAttributes
  markers : String → Option Rat
  vars : String → Option (List Upd)
  chordMode : Bool

/-- The voices of a part, as values. -/
def groupOf (s : Score) (id : Nat) : List (Int × Option Part) :=
  (s.vheap (s.heap id).voices).map (fun x => (x.1, if x.2 = id then none else some (s.heap x.2).bare))

/-- The template of a part, as a value. -/
def templateOf (s : Score) (id : Nat) : Option Part := (s.heap id).template.map (fun t => (s.heap t).bare)

/-- The notes of an instrument. -/
def notesOf (s : Score) (o : Nat) : List NoteEvent := (s.events.filter (fun e => e.part = o)).map NoteEvent.bare

/-- The track of the part at an address. -/
def trackOf (s : Score) (id : Nat) : Track :=
  { cell := (s.heap id).bare, group := groupOf s id, template := templateOf s id, notes := notesOf s (s.heap id).origin,
    globals := s.globals, markers := s.markers, vars := s.vars, chordMode := s.chordMode }

namespace Track

/-- Change of attributes. -/
def set (t : Track) (p : Part) : Track := { t with cell := p.bare }

def attr (u : PartUpd) (t : Track) : Option Track :=
  match updatePart u false t.cell with
  | .error _ => none
  | .ok p => some (t.set { p with override := some u })

def applyGlobals (t : Track) : Option Track :=
  match applyUpdates (t.globals.inWindow t.cell.lastOffset t.cell.offset) t.cell with
  | (some _, _) => none
  | (none, p) => some (t.set { p with override := none })

def globalAttr (u : PartUpd) (t : Track) : Option Track := some { t with globals := t.globals.record t.cell.offset u }

def advance (ms : Rat) (d : Dur) (t : Track) : Track :=
  t.set (updateDefaultDuration
    (if t.chordMode then t.cell else { t.cell with lastOffset := t.cell.offset, offset := t.cell.offset + ms }) d)

def emit (pitch : Pitch) (ms audible : Rat) (t : Track) : Option Track :=
  let n := calculateMidiNote pitch t.cell.octave t.cell.keySig t.cell.transposition
  if n < 0 ∨ n > 127 then none
  else some { t with notes := t.notes ++
    [{ part := 0, channel := 0, note := n, offset := t.cell.offset, duration := ms, audible := audible, volume := t.cell.volume,
       trackVolume := t.cell.trackVolume, panning := t.cell.panning }] }

def note (pitch : Pitch) (dur : Dur) (slurred : Bool) (t : Track) : Option Track :=
  let d := effectiveDuration dur t.cell
  match d.toMs t.cell.tempo with
  | none => none
  | some ms =>
    let ms := ms * t.cell.timeScale
    let audible := if slurred then ms else ms * t.cell.quant
    (if audible > 0 then emit pitch ms audible t else some t).bind fun t => some (advance ms d t)

def rest (dur : Dur) (t : Track) : Option Track :=
  let d := effectiveDuration dur t.cell
  match d.toMs t.cell.tempo with
  | none => none
  | some ms => some (advance (ms * t.cell.timeScale) d t)

def beforeNote (dur : Dur) (t : Track) : Option Track :=
  (if t.chordMode then some t else applyGlobals t).bind fun t => if dur.valid then some t else none

def leaf : Leaf → Track → Option Track
  | .note p d sl, t => (beforeNote d t).bind (note p d sl)
  | .rest d, t => (beforeNote d t).bind (rest d)
  | .attr u, t => attr u t
  | .globalAttr u, t => globalAttr u t

/-- All voices of the group. -/
def voices (t : Track) : List (Int × Part) := t.group.map (fun x => (x.1, x.2.getD t.cell))

def voice (n : Int) (t : Track) : Option Track :=
  match t.voices.lookup n with
  | some p => some { t with cell := p, group := t.voices.map (fun x => (x.1, if x.1 = n then none else some x.2)) }
  | none =>
    match t.group, t.template with
    | [], some _ => none
    | [], none => some { t with cell := t.cell.clone, template := some t.cell.clone, group := [(n, none)] }
    | _ :: _, none => none
    | _ :: _, some c => some { t with cell := c.clone, group := t.voices.map (fun x => (x.1, some x.2)) ++ [(n, none)] }

def lastToFinish (best : Part) : List (Int × Part) → Part
  | [] => best
  | (_, v) :: vs => lastToFinish (if v.offset > best.offset then v else best) vs

def voiceEnd (t : Track) : Option Track :=
  match t.voices.getLast? with
  | none => some t
  | some (_, last) => some { t with cell := lastToFinish last t.voices.dropLast, group := [], template := none }

def marker (n : String) (t : Track) : Option Track :=
  some { t with markers := fun m => if m = n then some t.cell.offset else t.markers m }

def jump (o : Rat) (t : Track) : Option Track := some (t.set { t.cell with lastOffset := t.cell.offset, offset := o })

def atMarker (n : String) (t : Track) : Option Track :=
  (applyGlobals t).bind fun t =>
    match t.markers n with
    | none => none
    | some o => jump o t

def varDef (n : String) (es : List Upd) (t : Track) : Option Track :=
  match varValues t.vars es with
  | .error _ => none
  | .ok vs => some { t with vars := fun m => if m = n then some vs else t.vars m }

def setRepetition (r : Int) (t : Track) : Option Track := some (t.set { t.cell with repetition := r })

def repeated (body : Track → Option Track) : Nat → Int → Track → Option Track
  | 0, _, t => some t
  | k + 1, r, t => (setRepetition r t).bind fun t => (body t).bind (repeated body k (r + 1))

def chordAdvance (m : Option Rat) (t : Track) : Option Track :=
  some (t.set { t.cell with lastOffset := t.cell.offset, offset := t.cell.offset + m.getD maxFloat })

def cramScale (es : List Upd) (d : Dur) (t : Track) : Option Track :=
  match cramTimeScale t.vars es d t.cell with
  | none => none
  | some x => some (t.set { t.cell with timeScale := x })

def cramRestore (old : Part) (d : Dur) (t : Track) : Option Track :=
  some (t.set { t.cell with dur := (match d with | [] => old.dur | _ :: _ => d), timeScale := old.timeScale })

mutual
/-- What an event does to a track. -/
def updWith (deref : List Upd → Track → Option Track) : Upd → Track → Option Track
  | .leaf l, t => leaf l t
  | .lisp es, t =>
    match lispUpdate es with
    | .error _ => none
    | .ok none => some t
    | .ok (some l) => leaf l t
  | .lispNil, t => some t
  | .barline, t => some t
  | .chord es, t =>
    (applyGlobals t).bind fun t =>
      (chordWith deref es none { t with chordMode := true }).bind fun (m, t) => chordAdvance m { t with chordMode := false }
  | .cram es d, t => (cramScale es d t).bind fun t1 => (listWith deref es t1).bind (cramRestore t.cell d)
  | .seq es, t => listWith deref es t
  | .rep e n, t => repeated (updWith deref e) n.toNat 1 t
  | .onReps rs e, t => if appliesTo rs t.cell.repetition then updWith deref e t else some t
  | .voice n, t => voice n t
  | .voiceEnd, t => voiceEnd t
  | .marker n, t => marker n t
  | .atMarker n, t => atMarker n t
  | .varDef n es, t => varDef n es t
  | .varRef n, t =>
    match t.vars n with
    | none => none
    | some es => deref es t
  | .partDecl _ _, _ => none
/-- The same for lists. -/
def listWith (deref : List Upd → Track → Option Track) : List Upd → Track → Option Track
  | [], t => some t
  | e :: es, t => (updWith deref e t).bind (listWith deref es)
/-- The events of a chord; `m` is the shortest duration so far. -/
def chordWith (deref : List Upd → Track → Option Track) : List Upd → Option Rat → Track → Option (Option Rat × Track)
  | [], m, t => some (m, t)
  | e :: es, m, t =>
    match (effectiveDuration (specifiedDuration e) t.cell).toMs t.cell.tempo with
    | none => none
    | some ms => (updWith deref e t).bind (chordWith deref es (minOpt m (ms * t.cell.timeScale)))
end

/-- What an event, or a list of events, does to a track. -/
def upd : Upd → Track → Option Track := updWith (listWith (fun _ _ => none))
def list : List Upd → Track → Option Track := listWith (listWith (fun _ _ => none))

end Track
end Alda
