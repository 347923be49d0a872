import Verif.Model.Score
/-!
Model of `client/json` and of the `JSON` methods of `client/model`: the JSON values that `alda parse` and the REPL server show. A JSON value is modelled
as a value; that Go's `encoding/json` prints different values differently, the fields of an object in the order of their names, is taken for granted.
Numbers are rational, so infinities and NaN do not occur.
-/
namespace Alda

/-- A JSON value: `Container`, client/json/interface.go:8. An object lists its fields in the order of their names, which is how Go prints a map. -/
inductive Json where
  | bool (b : Bool)
  | num (q : Rat)
  | str (s : String)
  | arr (elements : List Json)
  | obj (fields : List (String × Json))

namespace Json

/-- Assignment to a key of a Go map: the fields stay in the order of their names. -/
def put (k : String) (v : Json) : List (String × Json) → List (String × Json)
  | [] => [(k, v)]
  | (k', v') :: fs => if k = k' then (k, v) :: fs else if k < k' then (k, v) :: (k', v') :: fs else (k', v') :: put k v fs

/-- `Container.Set(value, key)` of gabs, on an object. Anything else stays as it is (the error is ignored by all callers, and does not occur). -/
def set (j : Json) (k : String) (v : Json) : Json :=
  match j with
  | .obj fs => .obj (put k v fs)
  | j => j

/-- `Object`, client/json/declarative.go:37-57. -/
def object (fields : List (String × Json)) : Json := fields.foldl (fun j f => j.set f.1 f.2) (.obj [])

end Json

/-- An `int32` (or `int`) in JSON. -/
def intJson (n : Int) : Json := .num n

/-- `NoteLetter.String`, client/model/pitch.go:33-55. -/
def Letter.text : Letter → String
  | .A => "A" | .B => "B" | .C => "C" | .D => "D" | .E => "E" | .F => "F" | .G => "G"

/-- `Accidental.String`, client/model/pitch.go:92-106. -/
def Accidental.text : Accidental → String
  | .flat => "flat" | .natural => "natural" | .sharp => "sharp"

/-- The loops over accidentals, client/model/pitch.go:150-153 and key.go:78-81. -/
def accidentalsJson (as : List Accidental) : Json := .arr (as.map fun a => .str a.text)

/-- `JSON` of `LetterAndAccidentals` and `MidiNoteNumber`, client/model/pitch.go:148-159 and 194-197. A nil slice has no elements. -/
def Pitch.json : Pitch → Json
  | .letter l as => Json.object [("letter", .str l.text), ("accidentals", accidentalsJson (as.getD []))]
  | .midi n => Json.object [("midi-note", intJson n)]

/-- `KeySignature.JSON`, client/model/key.go:74-87. The order of the iteration over the map does not matter, as the keys differ. -/
def KeySig.json (ks : KeySig) : Json :=
  Letter.all.foldl (fun j l => match ks l with
    | none => j
    | some as => j.set l.text (accidentalsJson as)) (.obj [])

mutual
/-- `JSON` of the duration components, client/model/duration.go:65-71, 100-103, 132-135, 169-172, 199-208; barline.go:22-25. -/
def DurComp.json : DurComp → Json
  | .length d dots => Json.object [("denominator", .num d), ("dots", intJson dots)]
  | .beats q => Json.object [("beats", .num q)]
  | .ms q => Json.object [("ms", .num q)]
  | .seconds q => Json.object [("s", .num q)]
  | .nested cs => Json.object [("components", .arr (DurComp.jsons cs))]
  | .barline => Json.object [("type", .str "barline")]
/-- The loop over the components, client/model/duration.go:203-205. -/
def DurComp.jsons : List DurComp → List Json
  | [] => []
  | c :: cs => c.json :: DurComp.jsons cs
end

/-- `Duration.JSON`, client/model/duration.go:199-208. -/
def durJson (d : Dur) : Json := Json.object [("components", .arr (DurComp.jsons d))]

/-- `JSON` of the part updates, client/model/attributes.go:236-238, 261-266, 288-290, 302-304, 316-318, 332-334, 348-350, 389-391, 405-407, 421-423,
437-441, 455-460, 474-479, 494-499, 519-524. -/
def PartUpd.json : PartUpd → Json
  | .tempo q => Json.object [("attribute", .str "tempo"), ("value", .num q)]
  | .metricModulation q => Json.object [("attribute", .str "tempo"), ("value", Json.object [("ratio", .num q)])]
  | .octave n => Json.object [("attribute", .str "octave"), ("value", intJson n)]
  | .octaveUp => Json.object [("attribute", .str "octave"), ("value", .str "up")]
  | .octaveDown => Json.object [("attribute", .str "octave"), ("value", .str "down")]
  | .volume q => Json.object [("attribute", .str "volume"), ("value", .num q)]
  | .trackVolume q => Json.object [("attribute", .str "track-volume"), ("value", .num q)]
  | .dynamic m => Json.object [("attribute", .str "dynamic-marking"), ("value", .str m)]
  | .panning q => Json.object [("attribute", .str "panning"), ("value", .num q)]
  | .quantization q => Json.object [("attribute", .str "quantization"), ("value", .num q)]
  | .duration d => (durJson d).set "attribute" (.str "duration")
  | .keySignature ks => Json.object [("attribute", .str "key-signature"), ("value", ks.json)]
  | .transposition n => Json.object [("attribute", .str "transposition"), ("value", intJson n)]
  | .referencePitch q => Json.object [("attribute", .str "reference-pitch"), ("value", .num q)]
  | .midiChannel n => Json.object [("attribute", .str "midi-channel"), ("value", intJson n)]

/-- `value.Set(duration.JSON(), "duration")` if there are components: client/model/note.go:28-30 and 226-228, cram.go:33-35. -/
def withDuration (value : Json) (d : Dur) : Json := if d.isEmpty then value else value.set "duration" (durJson d)

/-- An event with its value, as in `json.Object("type", ..., "value", ...)`. -/
def typed (type : String) (value : Json) : Json := Json.object [("type", .str type), ("value", value)]

/-- `JSON` of `Note`, `Rest`, `AttributeUpdate` and `GlobalAttributeUpdate`, client/model/note.go:24-37 and 222-231, attributes.go:24-29 and 181-186. -/
def Leaf.json : Leaf → Json
  | .note p d slurred =>
    let value := withDuration (Json.object [("pitch", p.json)]) d
    typed "note" (if slurred then value.set "slurred?" (.bool true) else value)
  | .rest d => typed "rest" (withDuration (Json.object []) d)
  | .attr u => u.json.set "type" (.str "attribute-update")
  | .globalAttr u => u.json.set "type" (.str "global-attribute-update")

mutual
/-- `JSON` of the lisp forms, client/model/lisp.go:42-48, 172-181, 1389-1392, 1425-1428, 1456-1459, 1502-1505, 1528-1531, 1548-1551, 1573-1576,
1605-1608, 1643-1651. -/
def LispForm.json : LispForm → Json
  | .quoteForm => typed "special-form" (.str "quote")
  | .fn name => typed "function" (.str ("<fn " ++ name ++ ">"))
  | .nil => Json.object [("type", .str "nil")]
  | .quoted f => typed "quoted-form" f.json
  | .sym s => typed "symbol" (.str s)
  | .num q => typed "number" (.num q)
  | .str s => typed "string" (.str s)
  | .update u => typed "score-update" u.json
  | .pitch p => typed "pitch" p.json
  | .dur d => typed "duration" d.json
  | .list fs => typed "list" (.arr (LispForm.jsons fs))
/-- The loop over the elements, client/model/lisp.go:1646-1648. -/
def LispForm.jsons : List LispForm → List Json
  | [] => []
  | f :: fs => f.json :: LispForm.jsons fs
end

/-- A range of repetitions, client/model/repetitions.go:33-37. -/
def rangeJson (r : Int × Int) : Json := Json.object [("first", intJson r.1), ("last", intJson r.2)]

mutual
/-- `JSON` of the score updates: client/model/barline.go:22-25, chord.go:25-36, cram.go:24-38, event_sequence.go:20-31, repeat.go:20-29,
repetitions.go:30-46, voice.go:77-83 and 131-134, marker.go:20-26 and 79-85, variable.go:45-56 and 113-119, part.go:25-33; lisp.go:1389-1392 and
1643-1651. The definition of a variable is shown without the name. -/
def Upd.json : Upd → Json
  | .leaf l => l.json
  | .lisp fs => typed "list" (.arr (LispForm.jsons fs))
  | .lispNil => Json.object [("type", .str "nil")]
  | .barline => Json.object [("type", .str "barline")]
  | .chord us => typed "chord" (Json.object [("events", .arr (Upd.jsons us))])
  | .cram us d => typed "cram" (withDuration (Json.object [("events", .arr (Upd.jsons us))]) d)
  | .seq us => typed "event-sequence" (Json.object [("events", .arr (Upd.jsons us))])
  | .rep u n => typed "repeat" (Json.object [("event", u.json), ("times", intJson n)])
  | .onReps rs u => typed "on-repetitions" (Json.object [("repetitions", .arr (rs.map rangeJson)), ("event", u.json)])
  | .voice n => typed "voice-marker" (Json.object [("number", intJson n)])
  | .voiceEnd => Json.object [("type", .str "voice-group-end-marker")]
  | .marker s => typed "marker" (Json.object [("name", .str s)])
  | .atMarker s => typed "at-marker" (Json.object [("name", .str s)])
  | .varDef _ us => typed "variable-definition" (Json.object [("events", .arr (Upd.jsons us))])
  | .varRef s => typed "variable-reference" (Json.object [("name", .str s)])
  | .partDecl names alias =>
    let value := Json.object [("names", .arr (names.map .str))]
    typed "part-declaration" (if alias ≠ "" then value.set "alias" (.str alias) else value)
/-- The loops over events in the same functions. -/
def Upd.jsons : List Upd → List Json
  | [] => []
  | u :: us => u.json :: Upd.jsons us
end

/-- `NoteEvent.JSON`, client/model/note.go:53-66. `Part.ID` (part.go:101-103) is the address of the part as a text: `addr` gives the text of each
address. -/
def NoteEvent.json (addr : Nat → String) (e : NoteEvent) : Json :=
  Json.object [("part", .str (addr e.part)), ("midi-channel", intJson e.channel), ("midi-note", intJson e.note), ("offset", .num e.offset),
    ("duration", .num e.duration), ("audible-duration", .num e.audible), ("volume", .num e.volume), ("track-volume", .num e.trackVolume),
    ("panning", .num e.panning)]

/-- `Part.JSON`, client/model/part.go:106-132. `fixed` is `fmt.Sprintf("%f", offset)`. `tempoValues` lists the assignments to the map, latest first, so
that they are repeated from the end of the list; the Go program goes over the map in an unspecified order, which makes a difference if two offsets
have the same text. -/
def Part.json (fixed : Rat → String) (p : Part) : Json :=
  Json.object [("name", .str p.name), ("stock-instrument", .str p.instr.name),
    ("tempo-role", .str (if p.tempoMaster then "master" else "unspecified")), ("tempo", .num p.tempo), ("key-signature", p.keySig.json),
    ("transposition", intJson p.transposition), ("reference-pitch", .num p.refPitch), ("current-offset", .num p.offset),
    ("last-offset", .num p.lastOffset), ("octave", intJson p.octave), ("volume", .num p.volume), ("track-volume", .num p.trackVolume),
    ("panning", .num p.panning), ("midi-channel", intJson p.midiChannel), ("quantization", .num p.quant), ("duration", durJson p.dur),
    ("time-scale", .num p.timeScale),
    ("tempo-values", p.tempoValues.foldr (fun v j => j.set (fixed v.1) (.num v.2)) (.obj []))]

/-- The loop over the parts, client/model/score.go:66-69. -/
def partsJson (addr : Nat → String) (fixed : Rat → String) (s : Score) : Json :=
  s.parts.foldl (fun j i => j.set (addr i) ((s.heap i).json fixed)) (.obj [])

/-- `GlobalAttributes.JSON`, client/model/attributes.go:72-84. `offsets` lists the keys of the map. -/
def GlobalAttributes.json (fixed : Rat → String) (g : GlobalAttributes) : Json :=
  g.offsets.foldl (fun j o => match g.itinerary o with
    | none => j
    | some us => j.set (fixed o) (.arr (us.map PartUpd.json))) (.obj [])

/-- The loop over the aliases, client/model/score.go:76-84. -/
def aliasesJson (addr : Nat → String) (as : List (String × List Nat)) : Json :=
  as.foldr (fun a j => j.set a.1 (.arr (a.2.map fun i => .str (addr i)))) (.obj [])

/-- `Score.JSON`, client/model/score.go:64-110. The maps `Markers` and `Variables` are functions in the model: `names` lists the keys. -/
def Score.json (addr : Nat → String) (fixed : Rat → String) (names : List String) (s : Score) : Json :=
  Json.object [("parts", partsJson addr fixed s), ("current-parts", .arr (s.current.map fun i => .str (addr i))),
    ("aliases", aliasesJson addr s.aliases), ("events", .arr (s.events.map (NoteEvent.json addr))), ("global-attributes", s.globals.json fixed),
    ("markers", names.foldl (fun j n => match s.markers n with
      | none => j
      | some o => j.set n (.num o)) (.obj [])),
    ("variables", names.foldl (fun j n => match s.vars n with
      | none => j
      | some us => j.set n (.arr (Upd.jsons us))) (.obj []))]

end Alda
