import Verif.Importer.State
/-!
Model of the handlers of the MusicXML importer, `client/interop/musicxml/importer/handlers.go`.
-/
namespace Alda
namespace Importer

/-- A nil pointer is dereferenced. -/
def need {α : Type} : Option α → Except Stop α
  | some a => .ok a
  | none => .error .panics

/-! ### Barlines between measures -/

mutual
/-- `tryAddBarline`, client/interop/musicxml/importer/handlers.go:185-215; `none` is failure. -/
def tryBarline : Upd → Option Upd
  | .leaf (.note p d false) => some (.leaf (.note p (d ++ [.barline]) false))
  | .leaf (.rest d) => some (.leaf (.rest (d ++ [.barline])))
  | .chord es => (tryBarlineLast es).map .chord
  | _ => none
/-- The same for the last event of a chord, handlers.go:202-212. -/
def tryBarlineLast : List Upd → Option (List Upd)
  | [] => none
  | [e] => (tryBarline e).map (fun e => [e])
  | e :: es => (tryBarlineLast es).map (fun es => e :: es)
end

/-- `addBarline`, handlers.go:175-226. -/
def addBarline (p : XPart) : Except Stop XPart := do
  let us ← p.openUpdates
  match tryBarlineLast us with
  | some us => p.setAll us
  | none => p.append [.barline]

/-! ### Durations -/

/-- `idiomaticDuration` for a finite number that is not zero; with zero Go goes on with a note length of denominator zero, if it returns at all. -/
def idiomatic (x : Rat) (dots : Nat) : Except Stop Dur :=
  match idiomaticDuration x dots with
  | none => .error .hangs
  | some d => if x = 0 then .error .notFollowed else .ok d

/-- `translateDuration`, handlers.go:537-557; its arithmetic is `Importer.translateDuration`. -/
def elemDuration (e : Elem) (p : XPart) : Except Stop Dur := do
  let dots := (e.findAll "dot").length
  let d ← need (e.find "duration")
  match parseFloat d.text with
  | none => .error .notFollowed
  | some t =>
    if t = 0 ∨ (p.divisions = 0 ∧ dots ≠ 0) then .error .notFollowed
    else match translateDuration p.divisions dots t with
      | none => .error .hangs
      | some d => .ok d

/-- `padVoiceToPresent`, handlers.go:271-289. -/
def padVoice (p : XPart) : Except Stop XPart := do
  let v ← p.voice
  let diff := p.beats - v.beats
  if diff > 0 then do
    let d ← idiomatic (4 / diff) 0
    let p ← p.append [.leaf (.rest d)]
    let v ← p.voice
    pure (p.setVoice { v with beats := v.beats + diff })
  else pure p

/-- `backupHandler`, handlers.go:466-473. -/
def backup (e : Elem) (p : XPart) : Except Stop XPart := do
  let d ← elemDuration e p
  pure { p with beats := p.beats - beatsSum [.leaf (.rest d)] }

/-- `forwardHandler`, handlers.go:475-480. -/
def forward (e : Elem) (p : XPart) : Except Stop XPart := do
  let d ← elemDuration e p
  pure { p with beats := p.beats + beatsSum [.leaf (.rest d)] }

/-! ### Attributes -/

/-- `keyHandler`, handlers.go:482-502. -/
def keyElem (e : Elem) (p : XPart) : Except Stop XPart :=
  if (e.find "key-step").isSome ∨ (e.find "key-alter").isSome ∨ (e.find "key-accidental").isSome then pure p
  else do
    let f ← need (e.find "fifths")
    p.appendAttr (.keySignature (keySigFromFifths (parseInt 8 f.text)))

/-- The loop of `dynamicsHandler`, handlers.go:505-513. -/
def dynamics : List Elem → XPart → Except Stop XPart
  | [], p => pure p
  | m :: ms, p =>
    if (dynamicVolumes.lookup m.tag).isSome then do
      let p ← p.append [.leaf (.attr (.dynamic m.tag))]
      dynamics ms p
    else dynamics ms p

/-- `divisionsHandler`, handlers.go:516-521. -/
def divisionsElem (e : Elem) (p : XPart) : XPart := { p with divisions := parseInt 8 e.text }

/-- `transposeHandler`, handlers.go:523-533. -/
def transposeElem (e : Elem) (p : XPart) : Except Stop XPart := do
  let c ← need (e.find "chromatic")
  p.appendAttr (.transposition (parseInt 8 c.text))

/-! ### Repeats -/

/-- The number of endings in the repeat that was found, `countEndings`, handlers.go:366-378. -/
def countEndings (p : XPart) : Except Stop Nat := do
  match ← p.findLast isRepeat with
  | some (.rep (.seq es) _, _) => pure (es.countP isEnding)
  | _ => .error .panics

/-- `startRepeat`, handlers.go:333-336. -/
def startRepeat (p : XPart) : Except Stop XPart := do
  let v ← p.voice
  (p.setVoice { v with sectionOctave := v.octave }).append [.rep (.seq []) 0]

/-- `startEnding`, handlers.go:338-341. -/
def startEnding (p : XPart) : Except Stop XPart := do
  let v ← p.voice
  (p.setVoice { v with endingOctave := v.octave }).append [.onReps [] (.seq [])]

/-- A repeat around all updates of the voice, handlers.go:353-357, 433-438. -/
def wrapInRepeat (p : XPart) : Except Stop XPart := do
  let v ← p.voice
  p.setAll [.rep (.seq v.events) 0]

/-- One of the loops of `maintainRepeatOctaveIntegrity`, handlers.go:381-394, for the number of rounds that it makes: an octave change, and the voice's
octave follows. -/
def octaveSteps (u : PartUpd) (step : Int) : Nat → XPart → Except Stop XPart
  | 0, p => pure p
  | k + 1, p => do
    let p ← p.append [.leaf (.attr u)]
    let v ← p.voice
    octaveSteps u step k (p.setVoice { v with octave := v.octave + step })

/-- `maintainRepeatOctaveIntegrity`, handlers.go:380-395. -/
def restoreOctave (p : XPart) : Except Stop XPart := do
  let v ← p.voice
  if v.octave > v.sectionOctave then octaveSteps .octaveDown (-1) (v.octave - v.sectionOctave).toNat p
  else octaveSteps .octaveUp 1 (v.sectionOctave - v.octave).toNat p

/-- `setEndingRepetitions`, handlers.go:397-416. If the update that is imported into is not an ending, the type assertion panics. -/
def setEndingRanges (p : XPart) : Except Stop XPart := do
  let n ← countEndings p
  let r ← p.importInto
  match r.1 with
  | .onReps _ _ => p.modifyAt r.2 (fun u => match u with | .onReps _ e => .onReps [((n : Int), (n : Int))] e | u => u)
  | _ => .error .panics

/-- `setRepeatTimes`, handlers.go:418-428. -/
def setRepeatTimes (times : Int) (p : XPart) : Except Stop XPart := do
  match ← p.findLast isRepeat with
  | some (_, path) => p.modifyAt path (fun u => match u with | .rep e _ => .rep e times | u => u)
  | none => .error .panics

/-- `barlineHandler`, handlers.go:306-464. (If `setRepeatTimes` finds no repeat, its index has no entries, and `modifyAt` panics.) -/
def barlineElem (e : Elem) (p : XPart) : Except Stop XPart := do
  let ending := e.find "ending"
  let endingType := match ending with
    | none => ""
    | some x => if x.attrOr "type" "" = "discontinue" then "stop" else x.attrOr "type" ""
  let repeat_ := e.find "repeat"
  let direction := match repeat_ with
    | none => ""
    | some x => x.attrOr "direction" ""
  let importTo ← p.importInto
  let ongoing := isRepeat importTo.1
  if ending.isNone ∧ repeat_.isNone then pure p
  else do
    let p ←
      if ending.isNone ∧ direction = "forward" then startRepeat p
      else if endingType = "start" ∧ direction = "forward" then do startEnding (← startRepeat p)
      else if endingType = "start" ∧ !ongoing then do startEnding (← wrapInRepeat p)
      else if endingType = "start" ∧ ongoing then p.append [.onReps [] (.seq [])]
      else pure p
    if ending.isNone ∧ direction = "backward" then do
      let p ← restoreOctave p
      let times := parseInt 8 ((repeat_.map (fun x => x.attrOr "times" "2")).getD "2")
      if ongoing then setRepeatTimes times p
      else do setRepeatTimes times (← wrapInRepeat p)
    else if endingType = "stop" ∧ repeat_.isNone then do
      let p ← setEndingRanges p
      setRepeatTimes (← countEndings p) p
    else if endingType = "stop" ∧ direction = "backward" then do
      let p ← restoreOctave p
      let p ← setEndingRanges p
      let v ← p.voice
      pure (p.setVoice { v with octave := v.endingOctave })
    else pure p

/-! ### Notes -/

/-- The result of `translateNote`: the updates, the octave, and the change of the slur count. The duration as a number is not used by the caller. -/
structure Translated where
  updates : List Upd
  octave : Int
  slurChange : Int

/-- A cue note or a grace note, handlers.go:574-593. `panics`: only the type says so, and `unsupportedHandler` gets a nil element. -/
def skipped (e : Elem) : Except Stop Bool :=
  let ofType (t : String) : Bool := match e.find "type" with
    | none => false
    | some x => x.attrOr "type" "full" = t
  if (e.find "cue").isSome then pure true
  else if ofType "cue" then .error .panics
  else if (e.find "grace").isSome then pure true
  else if ofType "grace" then .error .panics
  else pure false

/-- The change of the slur count, handlers.go:602-610. -/
def slurChange (e : Elem) : Int :=
  (e.findAll2 "notations" "slur").foldl (fun n s =>
    if s.attrOr "type" "none" = "start" then n + 1 else if s.attrOr "type" "none" = "stop" then n - 1 else n) 0

/-- The letter, handlers.go:617-621. Another character makes Go go on with a letter that does not exist. -/
def letterOf (step : Elem) : Except Stop Letter :=
  match step.text.toList with
  | [] => .error .panics
  | c :: _ => match newNoteLetter c.toLower with
    | some l => .ok l
    | none => .error .notFollowed

/-- The accidentals, handlers.go:623-642; a nil slice is `none`. -/
def accidentalsOf (e pitch : Elem) : Option (List Accidental) :=
  if (e.find "accidental").any (fun a => a.text = "natural") then some [.natural]
  else match pitch.find "alter" with
    | none => none
    | some a =>
      let n := parseInt 8 a.text
      if n > 0 then some (List.replicate n.natAbs .sharp)
      else if n < 0 then some (List.replicate n.natAbs .flat)
      else none

/-- The octave changes before a note, handlers.go:647-674. -/
def octaveChanges (v : Voice) (octave : Int) : List Upd :=
  if octave = v.octave then []
  else if v.events = [] then [.leaf (.attr (.octave octave))]
  else if octave > v.octave then List.replicate (octave - v.octave).toNat (.leaf (.attr .octaveUp))
  else List.replicate (v.octave - octave).toNat (.leaf (.attr .octaveDown))

/-- `translateNote`, handlers.go:567-724. -/
def translateNote (e : Elem) (p : XPart) : Except Stop Translated := do
  if ← skipped e then pure ⟨[], 0, 0⟩
  else do
    let d ← elemDuration e p
    let v ← p.voice
    let slurred := decide (v.slurs + slurChange e > 0)
    match e.find "pitch" with
    | some pitch => do
      let step ← need (pitch.find "step")
      let l ← letterOf step
      let o ← need (pitch.find "octave")
      let octave := parseInt 8 o.text
      pure ⟨octaveChanges v octave ++ [.leaf (.note (.letter l (accidentalsOf e pitch)) d slurred)], octave, slurChange e⟩
    | none =>
      match e.find "rest" with
      | some _ => pure ⟨[.leaf (.rest d)], v.octave, 0⟩
      | none => do
        let i ← need (e.find "instrument")
        match p.unpitched.lookup (i.attrOr "id" "") with
        | some n => pure ⟨[.leaf (.note (.midi n) d slurred)], v.octave, slurChange e⟩
        | none => pure ⟨[.leaf (.rest d)], v.octave, slurChange e⟩

/-- `getOctaveChange`, handlers.go:764-778. -/
def octaveBack : Upd → Int → Int
  | .leaf (.attr .octaveUp), o => o + -1
  | .leaf (.attr .octaveDown), o => o + 1
  | _, o => o

/-- The filter for the note at the start of a tie, handlers.go:781-803. -/
def startsTie (pitch : Pitch) (octave : Int) (u : Upd) (o : Int) : Bool :=
  match u with
  | .leaf (.note (.letter l _) _ _) => match pitch with
    | .letter l' _ => o = octave ∧ l = l'
    | _ => false
  | .leaf (.note (.midi n) _ _) => match pitch with
    | .midi n' => n = n'
    | _ => false
  | _ => false

/-- Whether the note with the tie's end follows the tie's start immediately, handlers.go:824-854, with the state that `valid` leaves. `path`: the
index of the tie's start. (Go slices `flatUpdates()` up to an index that may belong to a nested list; beyond the end of the slice Go panics or finds nil
updates, here the whole list is taken.) -/
def adjacentTie (p : XPart) (path : List Nat) (isChord : Bool) : Except Stop (Bool × XPart) := do
  match ← p.findLast hasDuration with
  | none => .error .panics
  | some (_, last) => do
    let diff ← lastDiff last path
    if diff ≤ 0 then pure (true, p)
    else if isChord then do
      let v ← p.voice
      let lastLast := (findLastIn hasDuration 0 (v.events.take (last.getLast?.getD 0))).map (fun r => 0 :: r.2)
      let r ← p.valid (some last)
      if r.1 then do
        let diff ← lastDiff (lastLast.getD []) path
        pure (decide (diff ≤ 0), r.2)
      else pure (true, r.2)
    else pure (false, p)

/-- A note with the end of a tie, handlers.go:757-871. -/
def tiedNote (p : XPart) (pitch : Pitch) (d : Dur) (octave : Int) (isChord : Bool) : Except Stop XPart := do
  let v ← p.voice
  match (findStateIn (startsTie pitch octave) octaveBack 0 [.seq v.events] v.octave).1 with
  | none => pure p
  | some (start, path) => do
    let r ← p.valid (some path)
    if r.1 then do
      let a ← adjacentTie r.2 path isChord
      if a.1 then
        match start with
        | .leaf (.note q d' sl) => a.2.setAt path (.leaf (.note q (d' ++ d) sl))
        | _ => .error .panics
      else pure a.2
    else pure r.2

/-- A note that belongs to a chord, handlers.go:872-890. The state of the importer is updated before the change. -/
def chordNote (p : XPart) (t : Translated) : Except Stop XPart := do
  match ← p.findLast hasDuration with
  | none => pure p
  | some (u, path) => do
    let r ← p.valid (some path)
    if r.1 then do
      let v ← r.2.voice
      let p := r.2.setVoice { v with octave := t.octave, slurs := v.slurs + t.slurChange }
      match u with
      | .chord es => p.setAt path (.chord (es ++ t.updates))
      | _ => do
        let us ← p.openUpdates
        let i := path.getLast?.getD 0
        if i > us.length then .error .panics
        else p.setAll (us.take i ++ [.chord (us.drop i ++ t.updates)])
    else pure r.2

/-- The end of a tie, handlers.go:743-755: rests cannot be tied. -/
def isTieStop (e : Elem) : Bool := (e.findAll "tie").any (fun t => t.attrOr "type" "" = "stop")

/-- `noteHandler`, handlers.go:726-895. -/
def noteElem (e : Elem) (p : XPart) : Except Stop XPart := do
  let t ← translateNote e p
  match t.updates.getLast? with
  | none => pure p
  | some last =>
    let isChord := (e.find "chord").isSome
    match (if isTieStop e then (match last with | .leaf (.note q d _) => some (q, d) | _ => none) else none) with
    | some (q, d) => tiedNote p q d t.octave isChord
    | none =>
      if isChord then chordNote p t
      else do
        let v ← p.voice
        (p.setVoice { v with octave := t.octave, slurs := v.slurs + t.slurChange }).append t.updates

end Importer
end Alda
