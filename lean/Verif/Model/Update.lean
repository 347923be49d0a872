import Verif.Model.Midi
/-!
The interpreter: `UpdateScore`, `DurationMs` and `VariableValue` of every event of `client/model`.
-/
namespace Alda

/-! ### Attributes (client/model/attributes.go) -/

/-- `RecordTempoValue`, client/model/part.go:96-98. -/
def Part.recordTempoValue (p : Part) : Part := { p with tempoValues := (p.offset, p.tempo) :: p.tempoValues }

/-- `updatePart` of every part update, client/model/attributes.go:240-252, 268-280, 292-296, 306-310, 320-324, 336-340, 352-356, 393-397,
409-413, 425-429, 443-447, 462-466, 481-485, 501-505, 526-542. -/
def updatePart (u : PartUpd) (globalUpdate : Bool) (p : Part) : Except Err Part :=
  match u with
  | .tempo t =>
    let p := { p with tempo := t }
    .ok (if globalUpdate then p else p.recordTempoValue)
  | .metricModulation r =>
    let p := { p with tempo := p.tempo * r }
    .ok (if globalUpdate then p else p.recordTempoValue)
  | .octave n => .ok { p with octave := n }
  | .octaveUp => .ok { p with octave := wrap32 (p.octave + 1) }
  | .octaveDown => .ok { p with octave := wrap32 (p.octave - 1) }
  | .volume v => .ok { p with volume := v }
  | .trackVolume v => .ok { p with trackVolume := v }
  | .dynamic m => .ok { p with volume := dynamicVolume m }
  | .panning x => .ok { p with panning := x }
  | .quantization q => .ok { p with quant := q }
  | .duration d => .ok { p with dur := d }
  | .keySignature k => .ok { p with keySig := k }
  | .transposition n => .ok { p with transposition := n }
  | .referencePitch f => .ok { p with refPitch := f }
  | .midiChannel n =>
    if n = 9 ∧ p.instr.percussion = false then .error (.user "Can't use MIDI channel 9")
    else .ok { p with midiChannel := n, explicitChannel := true }

/-- The loop body of `AttributeUpdate.UpdateScore`, client/model/attributes.go:35-42. -/
def attrPart (u : PartUpd) (id : Nat) (s : Score) : Out :=
  match updatePart u false (s.heap id) with
  | .error e => .fail e s
  | .ok p => .ok (s.setPart id { p with override := some u })

/-- `AttributeUpdate.UpdateScore`, client/model/attributes.go:33-46. -/
def attrUpd (u : PartUpd) (s : Score) : Out := forIds (attrPart u) s.current s

/-- Insertion of an offset into a sorted slice. -/
def insertSorted (x : Rat) : List Rat → List Rat
  | [] => [x]
  | y :: ys => if x ≤ y then x :: y :: ys else y :: insertSorted x ys

/-- `GlobalAttributes.Record`, client/model/attributes.go:96-113. `sort.Float64s` of a sorted slice with one element appended is
modelled by sorted insertion. -/
def GlobalAttributes.record (g : GlobalAttributes) (offset : Rat) (u : PartUpd) : GlobalAttributes :=
  match g.itinerary offset with
  | some us => { g with itinerary := fun o => if o = offset then some (us ++ [u]) else g.itinerary o }
  | none =>
    { itinerary := fun o => if o = offset then some [u] else g.itinerary o,
      offsets := insertSorted offset g.offsets }

/-- The loop of `InWindow`, client/model/attributes.go:122-130. -/
def inWindowFrom (g : GlobalAttributes) (start stop : Rat) : List Rat → List PartUpd
  | [] => []
  | o :: os =>
    if o > stop then []
    else if o > start then (g.itinerary o).getD [] ++ inWindowFrom g start stop os
    else inWindowFrom g start stop os

/-- `GlobalAttributes.InWindow`, client/model/attributes.go:117-133. -/
def GlobalAttributes.inWindow (g : GlobalAttributes) (start stop : Rat) : List PartUpd :=
  inWindowFrom g start stop g.offsets

/-- The inner loop of `ApplyGlobalAttributes`, client/model/attributes.go:142-162: the part after the updates, and an error if one
failed. -/
def applyUpdates : List PartUpd → Part → Option Err × Part
  | [], p => (none, p)
  | u :: us, p =>
    if p.override.map PartUpd.kind = some u.kind then applyUpdates us p
    else
      match updatePart u true p with
      | .error e => (some e, p)
      | .ok p' => applyUpdates us p'

/-- The loop body of `ApplyGlobalAttributes`, client/model/attributes.go:142-164. -/
def applyGlobalsPart (id : Nat) (s : Score) : Out :=
  let p := s.heap id
  match applyUpdates (s.globals.inWindow p.lastOffset p.offset) p with
  | (some e, p') => .fail e (s.setPart id p')
  | (none, p') => .ok (s.setPart id { p' with override := none })

/-- `ApplyGlobalAttributes`, client/model/attributes.go:140-168. -/
def applyGlobals (s : Score) : Out := forIds applyGlobalsPart s.current s

/-- The common offset of the current parts, or `none` if they differ: client/model/attributes.go:199-210, marker.go:41-49. -/
def commonOffset (s : Score) : List Nat → Option Rat
  | [] => none
  | i :: is => if is.all (fun j => (s.heap j).offset == (s.heap i).offset) then some (s.heap i).offset else none

/-- `GlobalAttributeUpdate.UpdateScore`, client/model/attributes.go:192-215. -/
def globalAttrUpd (u : PartUpd) (s : Score) : Out :=
  match s.current with
  | [] => .ok { s with globals := s.globals.record 0 u }
  | i :: is =>
    match commonOffset s (i :: is) with
    | some o => .ok { s with globals := s.globals.record o u }
    | none => .fail (.user "can't set global attribute") s

/-! ### Notes and rests (client/model/note.go) -/

/-- `effectiveDuration`, client/model/note.go:74-81. -/
def effectiveDuration (specified : Dur) (p : Part) : Dur :=
  match specified with
  | [] => p.dur
  | _ :: _ => specified

/-- `updateDefaultDuration`, client/model/note.go:85-89. -/
def updateDefaultDuration (p : Part) (d : Dur) : Part :=
  match d with
  | [] => p
  | _ :: _ => { p with dur := d }

/-- The end of the loop body of `addNoteOrRest`, client/model/note.go:173-178. -/
def advancePart (s : Score) (id : Nat) (durationMs : Rat) (duration : Dur) : Score :=
  s.modPart id (fun p =>
    let p := if s.chordMode then p else { p with lastOffset := p.offset, offset := p.offset + durationMs }
    updateDefaultDuration p duration)

/-- Adding the note event itself, client/model/note.go:127-169, when the audible duration is positive. -/
def emitNote (pitch : Pitch) (durationMs audible : Rat) (id : Nat) (s : Score) : Out :=
  let p := s.heap id
  let midiNote := calculateMidiNote pitch p.octave p.keySig p.transposition
  if midiNote < 0 ∨ midiNote > 127 then .fail (.user "MIDI note out of the 0-127 range") s
  else
    match assignMidiChannel s p audible with
    | .error e => .fail e s
    | .ok (ch, s) =>
      let s := s.modPart id (fun p => { p with midiChannel := ch })
      let s := s.modPart p.origin (fun p => { p with midiChannel := ch })
      .ok { s with events := s.events ++
        [{ part := p.origin, channel := ch, note := midiNote, offset := p.offset, duration := durationMs,
           audible := audible, volume := p.volume, trackVolume := p.trackVolume, panning := p.panning }] }

/-- The loop body of `addNoteOrRest` for a note, client/model/note.go:116-178. -/
def notePart (pitch : Pitch) (dur : Dur) (slurred : Bool) (id : Nat) (s : Score) : Out :=
  let p := s.heap id
  let duration := effectiveDuration dur p
  match duration.toMs p.tempo with
  | none => .fail .nonFinite s
  | some ms =>
    let durationMs := ms * p.timeScale
    let audible := if slurred then durationMs else durationMs * p.quant
    (if audible > 0 then emitNote pitch durationMs audible id s else .ok s).andThen fun s =>
      .ok (advancePart s id durationMs duration)

/-- The loop body of `addNoteOrRest` for a rest, client/model/note.go:116-178. -/
def restPart (dur : Dur) (id : Nat) (s : Score) : Out :=
  let p := s.heap id
  let duration := effectiveDuration dur p
  match duration.toMs p.tempo with
  | none => .fail .nonFinite s
  | some ms => .ok (advancePart s id (ms * p.timeScale) duration)

/-- The beginning of `addNoteOrRest`, client/model/note.go:97-113. -/
def beforeNote (dur : Dur) (s : Score) : Out :=
  (if s.chordMode then .ok s else applyGlobals s).andThen fun s =>
    if dur.valid then .ok s else .fail (.user "invalid duration") s

/-- `Note.UpdateScore`, client/model/note.go:187-189 with `addNoteOrRest` 91-182. -/
def noteUpd (pitch : Pitch) (dur : Dur) (slurred : Bool) (s : Score) : Out :=
  (beforeNote dur s).andThen fun s => forIds (notePart pitch dur slurred) s.current s

/-- `Rest.UpdateScore`, client/model/note.go:235-237 with `addNoteOrRest` 91-182. -/
def restUpd (dur : Dur) (s : Score) : Out :=
  (beforeNote dur s).andThen fun s => forIds (restPart dur) s.current s

/-- `UpdateScore` of the leaf updates. -/
def leafUpd : Leaf → Score → Out
  | .note p d sl => noteUpd p d sl
  | .rest d => restUpd d
  | .attr u => attrUpd u
  | .globalAttr u => globalAttrUpd u

/-! ### Voices (client/model/voice.go) -/

/-- `Part.Clone`, client/model/part.go:135-152: everything but `localAttributeOverride` is copied. -/
def Part.clone (p : Part) : Part := { p with override := none }

/-- The first half of `NewVoice`, client/model/voice.go:34-47: makes the template if there are no voices yet. -/
def ensureTemplate (id : Nat) (s : Score) : Out :=
  let p := s.heap id
  match s.vheap p.voices with
  | _ :: _ => .ok s
  | [] =>
    match p.template with
    | some _ => .fail (.panic "Part has no voices, but part.voiceTemplate is set") s
    | none =>
      let (t, s) := s.alloc { p.clone with template := some s.next }
      .ok (s.modPart id (fun p => { p with template := some t }))

/-- The second half of `NewVoice`, client/model/voice.go:49-53: clones the template and records the voice. -/
def addVoice (id : Nat) (number : Int) (s : Score) : Out × Nat :=
  let p := s.heap id
  match p.template with
  | none => (.fail (.panic "nil pointer dereference") s, 0)
  | some t =>
    let (v, s) := s.alloc (s.heap t).clone
    (.ok { s with vheap := fun i => if i = p.voices then s.vheap p.voices ++ [(number, v)] else s.vheap i }, v)

/-- `GetVoice`, client/model/voice.go:57-63, with `NewVoice`, 33-54. -/
def getVoice (id : Nat) (number : Int) (s : Score) : Out × Nat :=
  match (s.vheap (s.heap id).voices).lookup number with
  | some v => (.ok s, v)
  | none =>
    match ensureTemplate id s with
    | ⟨some e, s⟩ => (.fail e s, 0)
    | ⟨none, s⟩ => addVoice id number s

/-- Replace, in a list of part pointers, every part with the same origin as `id` by `v`
(client/model/voice.go:99-103, 168-172, 174-180). -/
def replaceByOrigin (s : Score) (origin v : Nat) (ids : List Nat) : List Nat :=
  ids.map (fun q => if (s.heap q).origin = origin then v else q)

/-- The loop body of `VoiceMarker.UpdateScore`, client/model/voice.go:97-103, for the `i`-th current part. -/
def voiceMarkerAt (number : Int) (i : Nat) (s : Score) : Out :=
  match s.current[i]? with
  | none => .ok s
  | some id =>
    match getVoice id number s with
    | (⟨some e, s⟩, _) => .fail e s
    | (⟨none, s⟩, v) => .ok { s with current := replaceByOrigin s (s.heap id).origin v s.current }

/-- `VoiceMarker.UpdateScore`, client/model/voice.go:91-107. In Go the slice `CurrentParts` may share its array with an alias, whose entry is
then replaced too; every alias entry of that origin is replaced at the end of the voice group anyway and none is read before that, so
the sharing is not modelled. -/
def voiceUpd (number : Int) (s : Score) : Out := forIds (voiceMarkerAt number) (List.range s.current.length) s

/-- The choice of the last voice to finish, client/model/voice.go:154-160: the loop over the voices other than the last one inserted;
`best` is the one found so far. -/
def lastToFinish (s : Score) (best : Nat) : List (Int × Nat) → Nat
  | [] => best
  | (_, v) :: vs => lastToFinish s (if (s.heap v).offset > (s.heap best).offset then v else best) vs

/-- The loop body of `VoiceGroupEndMarker.UpdateScore`, client/model/voice.go:143-181, for the `i`-th current part. -/
def voiceEndAt (i : Nat) (s : Score) : Out :=
  match s.current[i]? with
  | none => .ok s
  | some id =>
    let voices := s.vheap (s.heap id).voices
    match voices.getLast? with
    | none => .ok s
    | some (_, last) =>
      let w := lastToFinish s last voices.dropLast
      let (nv, s) := s.newVoices
      let s := s.modPart w (fun p => { p with voices := nv, template := none })
      let o := (s.heap id).origin
      .ok { s with
        current := s.current.set i w
        parts := replaceByOrigin s o w s.parts
        aliases := s.aliases.map (fun a => (a.1, replaceByOrigin s o w a.2)) }

/-- `VoiceGroupEndMarker.UpdateScore`, client/model/voice.go:142-184. -/
def voiceEndUpd (s : Score) : Out := forIds voiceEndAt (List.range s.current.length) s

/-! ### Markers (client/model/marker.go) -/

/-- `Marker.UpdateScore`, client/model/marker.go:34-54. -/
def markerUpd (name : String) (s : Score) : Out :=
  match s.current with
  | [] => .fail (.user "can't define marker outside the context of a part") s
  | i :: is =>
    match commonOffset s (i :: is) with
    | none => .fail (.user "offset of marker unclear") s
    | some o => .ok { s with markers := fun n => if n = name then some o else s.markers n }

/-- The loop body of `AtMarker.UpdateScore`, client/model/marker.go:102-105. -/
def jumpPart (offset : Rat) (id : Nat) (s : Score) : Out :=
  .ok (s.modPart id (fun p => { p with lastOffset := p.offset, offset := offset }))

/-- `AtMarker.UpdateScore`, client/model/marker.go:92-108. -/
def atMarkerUpd (name : String) (s : Score) : Out :=
  (applyGlobals s).andThen fun s =>
    match s.markers name with
    | none => .fail (.user "Marker undefined") s
    | some o => forIds (jumpPart o) s.current s

/-! ### Part declarations (client/model/part.go) -/

/-- `NewPart`, client/model/part.go:155-189. -/
def newPart (name : String) (s : Score) : Option (Nat × Score) :=
  match stockInstrument name with
  | none => none
  | some instr =>
    let (nv, s) := s.newVoices
    some (s.alloc
      { name := name, instr := instr, tempoMaster := false, tempo := 120, keySig := KeySig.empty,
        transposition := 0, refPitch := 440, offset := 0, lastOffset := -1, octave := 4,
        volume := dynamicVolume "mf", trackVolume := 100 / 127, panning := 1 / 2, midiChannel := -1,
        explicitChannel := false, quant := 9 / 10, dur := [.length 4 0], timeScale := 1, tempoValues := [],
        override := none, repetition := 0, template := none, origin := s.next, voices := nv })

/-- `NamedParts`, client/model/part.go:203-205. -/
def Score.namedParts (s : Score) (alias : String) : List Nat := (s.aliases.lookup alias).getD []

/-- `SetAlias`, client/model/part.go:192-199. -/
def setAlias (aliases : List (String × List Nat)) (alias : String) (parts : List Nat) : List (String × List Nat) :=
  (alias, parts) :: aliases.filter (fun a => a.1 != alias)

/-- The stock name looked for by `UnnamedParts` and `AliasedStockInstruments`, client/model/part.go:211-214, 240-243. -/
def stockOrNA (name : String) : String := (stockInstrumentName name).getD "N/A"

/-- `UnnamedParts`, client/model/part.go:210-234. -/
def Score.unnamedParts (s : Score) (name : String) : List Nat :=
  s.parts.filter (fun id =>
    !(s.aliases.any (fun a => a.2.contains id)) && (s.heap id).instr.name == stockOrNA name)

/-- `AliasedStockInstruments`, client/model/part.go:239-257. -/
def Score.aliasedStockInstruments (s : Score) (name : String) : List Nat :=
  s.aliases.filterMap (fun a =>
    match a.2 with
    | [id] => if (s.heap id).instr.name == stockOrNA name then some id else none
    | _ => none)

/-- `AliasesFor`, client/model/part.go:261-271. The order is that of a Go map, i.e. arbitrary; the caller only assigns
map entries. -/
def Score.aliasesFor (s : Score) (id : Nat) : List String :=
  s.aliases.filterMap (fun a => if a.2 = [id] then some a.1 else none)

/-- `dotAccess`, client/model/part.go:282-284. -/
def dotAccess (name : String) : Bool := name.toList.contains '.'

/-- A result with the score as it was left (parts may have been allocated before an error). -/
abbrev PartsResult := Except Err (List Nat) × Score

/-- `part, err := score.NewPart(name); ...; return []*Part{part}, nil`, client/model/part.go:333-337, 348-352. -/
def onlyNewPart (name : String) (s : Score) : PartsResult :=
  match newPart name s with
  | none => (.error (.user "unrecognized instrument"), s)
  | some (id, s) => (.ok [id], s)

/-- `determineParts` for a single name, client/model/part.go:288-353. -/
def determineSingle (name alias : String) (s : Score) : PartsResult :=
  let named := s.namedParts name
  let unnamed := s.unnamedParts name
  let forAlias := s.namedParts alias
  let aliasedStock := s.aliasedStockInstruments name
  if alias ≠ "" ∧ named ≠ [] then (.error (.user "can't assign alias to existing instance"), s)
  else if alias ≠ "" ∧ forAlias ≠ [] then (.error (.user "alias already assigned"), s)
  else if (alias ≠ "" ∧ unnamed ≠ []) ∨ (alias = "" ∧ aliasedStock ≠ [] ∧ dotAccess name = false) then
    (.error (.user "ambiguous instrument reference"), s)
  else if alias ≠ "" then onlyNewPart name s
  else if named ≠ [] then (.ok named, s)
  else if unnamed ≠ [] then (.ok unnamed, s)
  else onlyNewPart name s

/-- The loop collecting named and stock parts of a group, client/model/part.go:370-384. -/
def collectGroup (s : Score) (named stock : List Nat) : List String → Except Err (List Nat × List Nat) × Score
  | [] => (.ok (named, stock), s)
  | n :: ns =>
    if s.namedParts n ≠ [] then collectGroup s (named ++ s.namedParts n) stock ns
    else if s.unnamedParts n ≠ [] then collectGroup s named (stock ++ s.unnamedParts n) ns
    else
      match newPart n s with
      | none => (.error (.user "unrecognized instrument"), s)
      | some (id, s) => collectGroup s named (stock ++ [id]) ns

/-- Creating new parts for all names, client/model/part.go:417-429 (a new part is never in the set already). -/
def newGroup (s : Score) (parts : List Nat) : List String → PartsResult
  | [] => (.ok parts, s)
  | n :: ns =>
    match newPart n s with
    | none => (.error (.user "unrecognized instrument"), s)
    | some (id, s) => newGroup s (if parts.contains id then parts else parts ++ [id]) ns

/-- Appending parts not yet present, client/model/part.go:432-444. -/
def dedup (acc : List Nat) : List Nat → List Nat
  | [] => acc
  | i :: is => dedup (if acc.contains i then acc else acc ++ [i]) is

/-- The guard against duplicate names, client/model/part.go:356-362. -/
def hasDuplicate : List String → Bool
  | [] => false
  | n :: ns => ns.contains n || hasDuplicate ns

/-- `determineParts`, client/model/part.go:286-447. -/
def determineParts (names : List String) (alias : String) (s : Score) : PartsResult :=
  match names with
  | [name] => determineSingle name alias s
  | _ =>
    if hasDuplicate names then (.error (.user "Name included multiple times in group"), s)
    else
      match collectGroup s [] [] names with
      | (.error e, s) => (.error e, s)
      | (.ok (named, stock), s) =>
        if named ≠ [] ∧ stock ≠ [] then
          (.error (.user "can't use both stock instruments and named parts"), s)
        else if alias ≠ "" ∧ stock ≠ [] then newGroup s [] names
        else (.ok (dedup (dedup [] named) stock), s)

/-- The assignments `alias.partName` and `alias.existingAlias` for one part, client/model/part.go:498-504. -/
def memberAliases (alias : String) (aliases : List (String × List Nat)) (id : Nat) (partName : String)
    (existing : List String) : List (String × List Nat) :=
  existing.foldl (fun as a => setAlias as (alias ++ "." ++ a) [id]) (setAlias aliases (alias ++ "." ++ partName) [id])

/-- The alias bookkeeping of `PartDeclaration.UpdateScore`, client/model/part.go:490-505. -/
def declAliases (alias : String) (parts : List Nat) (s : Score) : List (String × List Nat) :=
  if alias = "" then s.aliases
  else
    parts.foldl (fun as id => memberAliases alias as id (s.heap id).name (s.aliasesFor id))
      (setAlias s.aliases alias parts)

/-- The first part ever becomes the tempo master, client/model/part.go:472-475. -/
def markMaster (parts : List Nat) (s : Score) : Score :=
  match s.parts, parts with
  | [], p0 :: _ => s.modPart p0 (fun p => { p with tempoMaster := true })
  | _, _ => s

/-- The rest of `PartDeclaration.UpdateScore`, client/model/part.go:472-507. -/
def declareParts (parts : List Nat) (alias : String) (s : Score) : Score :=
  let s := markMaster parts s
  let s := { s with parts := dedup s.parts parts }
  { s with aliases := declAliases alias parts s, current := parts }

/-- `PartDeclaration.UpdateScore`, client/model/part.go:459-510. -/
def partDeclUpd (names : List String) (alias : String) (s : Score) : Out :=
  (voiceEndUpd s).andThen fun s =>
    match determineParts names alias s with
    | (.error e, s) => .fail e s
    | (.ok parts, s) =>
      if s.parts = [] ∧ parts = [] then .fail (.panic "index out of range") s
      else .ok (declareParts parts alias s)

/-! ### Durations (`DurationMs`) -/

/-- `math.MaxFloat64`. -/
def maxFloat : Rat := 2 ^ 1024 - 2 ^ 971

/-- `DurationMs` of the leaf updates, client/model/note.go:197-201, 245-249 and attributes.go:50-52, 219-221. The part is a copy that may be changed. -/
def leafDurMs : Leaf → Part → Option (Rat × Part)
  | .note _ d _, p | .rest d, p =>
    match (effectiveDuration d p).toMs p.tempo with
    | none => none
    | some ms => some (ms, updateDefaultDuration p d)
  | .attr _, p => some (0, p)
  | .globalAttr _, p => some (0, p)

/-- `OnRepetitions.AppliesTo`, client/model/repetitions.go:50-58. -/
def appliesTo (ranges : List (Int × Int)) (repetition : Int) : Bool :=
  ranges.any (fun r => decide (r.1 ≤ repetition) && decide (repetition ≤ r.2))

/-- The loop of `Repeat.DurationMs`, client/model/repeat.go:52-55: `k` rounds, the next one numbered `r`. For `Times` = 2^31-1 the Go loop does
not end, since the `int32` counter wraps around; that is not modelled. -/
def repDurMs (f : Part → Option (Rat × Part)) : Nat → Int → Rat → Part → Option (Rat × Part)
  | 0, _, acc, p => some (acc, p)
  | k + 1, r, acc, p =>
    match f { p with repetition := r } with
    | none => none
    | some (ms, p) => repDurMs f k (r + 1) (acc + ms) p

/-- `math.Min` of the shortest so far (`none` = `math.MaxFloat64`) and a duration. -/
def minOpt : Option Rat → Rat → Option Rat
  | none, x => some x
  | some y, x => some (if x < y then x else y)

mutual
/-- `DurationMs` of every event. `deref` gives the duration of a variable's events. `none`: a non-finite number. -/
def durMsWith (vars : String → Option (List Upd)) (deref : List Upd → Part → Option (Rat × Part)) :
    Upd → Part → Option (Rat × Part)
  | .leaf l, p => leafDurMs l p
  | .lisp es, p =>                                           -- lisp.go:1740-1756
    match lispUpdate es with
    | .error _ => some (0, p)
    | .ok none => some (0, p)
    | .ok (some l) => leafDurMs l p
  | .chord es, p =>                                          -- chord.go:91-106
    match chordDurMs vars deref none es p with
    | none => none
    | some (m, p) => some (m.getD maxFloat, p)
  | .cram _ d, p =>                                          -- cram.go:138-140
    match (effectiveDuration d p).toMs p.tempo with
    | none => none
    | some ms => some (ms, p)
  | .seq es, p => listDurMs vars deref 0 es p                -- event_sequence.go:41-49
  | .rep e n, p => repDurMs (durMsWith vars deref e) n.toNat 1 0 p      -- repeat.go:49-58
  | .onReps rs e, p =>                                       -- repetitions.go:77-83
    if appliesTo rs p.repetition then durMsWith vars deref e p else some (0, p)
  | .varRef n, p =>                                          -- variable.go:147-163
    match vars n with
    | none => some (0, p)
    | some es => deref es p
  | .lispNil, p | .barline, p | .voice _, p | .voiceEnd, p | .marker _, p | .atMarker _, p
  | .varDef _ _, p | .partDecl _ _, p => some (0, p)
/-- The summing loop, e.g. client/model/event_sequence.go:44-46, cram.go:51-53. -/
def listDurMs (vars : String → Option (List Upd)) (deref : List Upd → Part → Option (Rat × Part)) (acc : Rat) :
    List Upd → Part → Option (Rat × Part)
  | [], p => some (acc, p)
  | e :: es, p =>
    match durMsWith vars deref e p with
    | none => none
    | some (ms, p) => listDurMs vars deref (acc + ms) es p
/-- The loop of `Chord.DurationMs`, client/model/chord.go:94-103. -/
def chordDurMs (vars : String → Option (List Upd)) (deref : List Upd → Part → Option (Rat × Part)) (m : Option Rat) :
    List Upd → Part → Option (Option Rat × Part)
  | [], p => some (m, p)
  | e :: es, p =>
    match durMsWith vars deref e p with
    | none => none
    | some (ms, p) => chordDurMs vars deref (if ms > 0 then minOpt m ms else m) es p
end

/-- Duration of a list without variable references (what is stored in a variable). -/
def durMs0 (vars : String → Option (List Upd)) (es : List Upd) (p : Part) : Option (Rat × Part) :=
  listDurMs vars (fun _ _ => none) 0 es p

/-- The summed `DurationMs` of a list of events, for a copy of a part (`innerDurationMs`, client/model/cram.go:46-56). -/
def eventsDurMs (vars : String → Option (List Upd)) (es : List Upd) (p : Part) : Option (Rat × Part) :=
  listDurMs vars (durMs0 vars) 0 es p

/-! ### Variables (`VariableValue`) -/

mutual
/-- `VariableValue` of every event: note.go:204, attributes.go:55 and 224, lisp.go:1760-1773, barline.go:56, chord.go:110-124,
cram.go:144-158, event_sequence.go:53-67, repeat.go:62-74, repetitions.go:87-99, voice.go:116 and 193, marker.go:64 and 120, variable.go:84-98
and 167-174, part.go:519-523. -/
def varValue (vars : String → Option (List Upd)) : Upd → Except Err Upd
  | .leaf l => .ok (.leaf l)
  | .lisp es =>
    match lispUpdate es with
    | .error e => .error e
    | .ok none => .ok .lispNil
    | .ok (some l) => .ok (.leaf l)
  | .lispNil => .ok .lispNil
  | .barline => .ok .barline
  | .chord es =>
    match varValues vars es with
    | .error e => .error e
    | .ok vs => .ok (.chord vs)
  | .cram es d =>
    match varValues vars es with
    | .error e => .error e
    | .ok vs => .ok (.cram vs d)
  | .seq es =>
    match varValues vars es with
    | .error e => .error e
    | .ok vs => .ok (.seq vs)
  | .rep e n =>
    match varValue vars e with
    | .error e => .error e
    | .ok v => .ok (.rep v n)
  | .onReps rs e =>
    match varValue vars e with
    | .error e => .error e
    | .ok v => .ok (.onReps rs v)
  | .voice n => .ok (.voice n)
  | .voiceEnd => .ok .voiceEnd
  | .marker n => .ok (.marker n)
  | .atMarker n => .ok (.atMarker n)
  | .varDef n es =>
    match varValues vars es with
    | .error e => .error e
    | .ok vs => .ok (.varDef n vs)
  | .varRef n =>
    match vars n with
    | none => .error (.user "undefined variable")
    | some es => .ok (.seq es)
  | .partDecl _ _ => .error (.user "a part declaration cannot be part of a variable definition")
/-- The loops over events in the functions above. -/
def varValues (vars : String → Option (List Upd)) : List Upd → Except Err (List Upd)
  | [] => .ok []
  | e :: es =>
    match varValue vars e with
    | .error e => .error e
    | .ok v =>
      match varValues vars es with
      | .error e => .error e
      | .ok vs => .ok (v :: vs)
end

/-- `VariableDefinition.UpdateScore`, client/model/variable.go:59-74. -/
def varDefUpd (name : String) (es : List Upd) (s : Score) : Out :=
  match varValues s.vars es with
  | .error e => .fail e s
  | .ok vs => .ok { s with vars := fun n => if n = name then some vs else s.vars n }

/-! ### Compound events -/

/-- The specified duration of a chord member, client/model/chord.go:59-65 (only `Note` and `Rest` values are looked at, not what a lisp
expression evaluates to). -/
def specifiedDuration : Upd → Dur
  | .leaf (.note _ d _) => d
  | .leaf (.rest d) => d
  | _ => []

/-- The map `shortestDurationMs` of `Chord.UpdateScore`; `none` is `math.MaxFloat64`. An id that was not a current part at the start reads as 0
(Go map default), client/model/chord.go:46-49. -/
abbrev Shortest := Nat → Option Rat

/-- The loop over the current parts for one chord member, client/model/chord.go:67-71. `none`: a non-finite number. -/
def shortestLoop (s : Score) (d : Dur) : List Nat → Shortest → Option Shortest
  | [], m => some m
  | i :: is, m =>
    let p := s.heap i
    match (effectiveDuration d p).toMs p.tempo with
    | none => none
    | some ms =>
      shortestLoop s d is (fun j => if j = i then minOpt (m i) (ms * p.timeScale) else m j)

/-- The last loop of `Chord.UpdateScore`, client/model/chord.go:80-83. -/
def chordAdvance (m : Shortest) (id : Nat) (s : Score) : Out :=
  .ok (s.modPart id (fun p => { p with lastOffset := p.offset, offset := p.offset + (m id).getD maxFloat }))

/-- `timeScale`, client/model/cram.go:58-79. `none`: a non-finite number (in particular an inner duration of zero). -/
def cramTimeScale (vars : String → Option (List Upd)) (es : List Upd) (d : Dur) (p : Part) : Option Rat :=
  match (effectiveDuration d p).toMs p.tempo with
  | none => none
  | some outer =>
    match eventsDurMs vars es p.clone with
    | none => none
    | some (inner, _) => if inner = 0 then none else some ((p.timeScale / inner) * outer)

/-- The second loop of `Cram.UpdateScore`, client/model/cram.go:104-111, for one part. -/
def cramScalePart (vars : String → Option (List Upd)) (es : List Upd) (d : Dur) (id : Nat) (s : Score) : Out :=
  match cramTimeScale vars es d (s.heap id) with
  | none => .fail .nonFinite s
  | some t => .ok (s.modPart id (fun p => { p with timeScale := t }))

/-- The last loop of `Cram.UpdateScore`, client/model/cram.go:119-130, for one part. `old` is the heap, and `ids` are the current parts, at the start; for any
other part the maps read as `Duration{}` and 0. -/
def cramRestorePart (old : Nat → Part) (ids : List Nat) (d : Dur) (id : Nat) (s : Score) : Out :=
  let prevDur : Dur := if ids.contains id then (old id).dur else []
  let prevScale : Rat := if ids.contains id then (old id).timeScale else 0
  .ok (s.modPart id (fun p => { p with
    dur := match d with | [] => prevDur | _ :: _ => d
    timeScale := prevScale }))

/-- Setting `currentRepetition`, client/model/repeat.go:35-37. -/
def setRepetition (r : Int) (id : Nat) (s : Score) : Out := .ok (s.modPart id (fun p => { p with repetition := r }))

/-- The loop of `Repeat.UpdateScore`, client/model/repeat.go:34-42: `k` rounds, the next one numbered `r`. (For `Times` = 2^31-1 the Go loop
does not end, since the `int32` counter wraps around; that is not modelled.) -/
def repLoop (body : Score → Out) : Nat → Int → Score → Out
  | 0, _, s => .ok s
  | k + 1, r, s =>
    (forIds (setRepetition r) s.current s).andThen fun s => (body s).andThen (repLoop body k (r + 1))

/-- The loop body of `OnRepetitions.UpdateScore`, client/model/repetitions.go:64-70, for the `i`-th current part. (The loop reads the elements of the
slice as it was at the start. Only a part declaration replaces the slice, and part declarations do not occur inside events.) -/
def onRepsAt (ranges : List (Int × Int)) (body : Score → Out) (i : Nat) (s : Score) : Out :=
  match s.current[i]? with
  | none => .ok s
  | some id => if appliesTo ranges (s.heap id).repetition then body s else .ok s

/-- The result of the event loop of a chord. -/
structure ChordOut where
  out : Out
  shortest : Shortest

mutual
/-- `UpdateScore` of every event. `deref` runs the events stored in a variable. -/
def updWith (deref : List Upd → Score → Out) : Upd → Score → Out
  | .leaf l, s => leafUpd l s
  | .lisp es, s =>                                           -- lisp.go:1729-1736
    match lispUpdate es with
    | .error e => .fail e s
    | .ok none => .ok s
    | .ok (some l) => leafUpd l s
  | .lispNil, s => .ok s
  | .barline, s => .ok s
  | .chord es, s =>                                          -- chord.go:41-86
    (applyGlobals s).andThen fun s =>
      let m0 : Shortest := fun i => if s.current.contains i then none else some 0
      let r := chordEvents deref es m0 { s with chordMode := true }
      r.out.andThen fun s =>
        forIds (chordAdvance r.shortest) s.current { s with chordMode := false }
  | .cram es d, s =>                                         -- cram.go:96-133
    let old := s.heap
    let ids := s.current
    (forIds (cramScalePart s.vars es d) s.current s).andThen fun s =>
      (updListWith deref es s).andThen fun s => forIds (cramRestorePart old ids d) s.current s
  | .seq es, s => updListWith deref es s                     -- event_sequence.go:35-37
  | .rep e n, s => repLoop (updWith deref e) n.toNat 1 s     -- repeat.go:33-45
  | .onReps rs e, s =>                                       -- repetitions.go:63-73
    forIds (onRepsAt rs (updWith deref e)) (List.range s.current.length) s
  | .voice n, s => voiceUpd n s
  | .voiceEnd, s => voiceEndUpd s
  | .marker n, s => markerUpd n s
  | .atMarker n, s => atMarkerUpd n s
  | .varDef n es, s => varDefUpd n es s
  | .varRef n, s =>                                          -- variable.go:124-142
    match s.vars n with
    | none => .fail (.user "undefined variable") s
    | some es => deref es s
  | .partDecl ns a, s => partDeclUpd ns a s
/-- `Score.Update`, client/model/score.go:128-136, and the same loop in variable.go:135-139 and cram.go:113-117. -/
def updListWith (deref : List Upd → Score → Out) : List Upd → Score → Out
  | [], s => .ok s
  | e :: es, s => (updWith deref e s).andThen (updListWith deref es)
/-- The event loop of `Chord.UpdateScore`, client/model/chord.go:52-78. -/
def chordEvents (deref : List Upd → Score → Out) : List Upd → Shortest → Score → ChordOut
  | [], m, s => ⟨.ok s, m⟩
  | e :: es, m, s =>
    match shortestLoop s (specifiedDuration e) s.current m with
    | none => ⟨.fail .nonFinite s, m⟩
    | some m =>
      match updWith deref e s with
      | ⟨some err, s⟩ => ⟨.fail err s, m⟩
      | ⟨none, s⟩ => chordEvents deref es m s
end

/-- Running the events stored in a variable. They contain no variable references (every `VariableValue` replaces references by the stored
events), which is proved as an invariant in `Verif.Props.Variables`; so the inner `deref` is never called. -/
def derefUpd : List Upd → Score → Out := updListWith (fun _ s => .fail .unreachable s)

/-- `update.UpdateScore(score)` for any update. -/
def upd : Upd → Score → Out := updWith derefUpd

/-- `Score.Update`, client/model/score.go:128-136. -/
def update : List Upd → Score → Out := updListWith derefUpd

end Alda
