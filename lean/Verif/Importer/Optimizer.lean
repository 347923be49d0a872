import Verif.Importer.Util
/-!
Model of `client/interop/musicxml/importer/optimizer.go`.
-/
namespace Alda
namespace Importer

/-- `optimizer`, client/interop/musicxml/importer/optimizer.go:10-28. -/
structure Opt where
  noteState : Letter → Bool
  dur : Dur
  octave : Int
  key : KeySig

/-- `resetNoteState`, optimizer.go:40-44. -/
def Opt.resetNoteState (o : Opt) : Opt := { o with noteState := fun _ => false }

/-- `resetDuration`, optimizer.go:46-48. -/
def Opt.resetDuration (o : Opt) : Opt := { o with dur := [] }

/-- `resetOctave`, optimizer.go:50-52. -/
def Opt.resetOctave (o : Opt) : Opt := { o with octave := -1 }

/-- `softReset`, optimizer.go:54-58. -/
def Opt.softReset (o : Opt) : Opt := o.resetNoteState.resetDuration.resetOctave

/-- `newOptimizer`, optimizer.go:30-38. -/
def newOptimizer : Opt := { noteState := fun _ => false, dur := [], octave := -1, key := keySigFromFifths 0 }

/-- `deep.Equal` of two key signatures finds no difference. -/
def sameKey (a b : KeySig) : Bool := Letter.all.all (fun l => a l == b l)

/-! ### Accidentals -/

/-- `modify` of `removeRedundantAccidentals`, optimizer.go:68-108, before the test for barlines. -/
def modifyAccidentals (o : Opt) : Upd → Upd × Opt
  | .leaf (.attr (.keySignature ks)) =>
    (.leaf (.attr (.keySignature ks)), if sameKey o.key ks then o else { o.resetNoteState with key := ks })
  | .leaf (.note (.letter l acc) d sl) =>
    if acc ≠ o.key l then (.leaf (.note (.letter l acc) d sl), { o with noteState := fun l' => if l' = l then true else o.noteState l' })
    else if o.noteState l = false then (.leaf (.note (.letter l none) d sl), o)
    else (.leaf (.note (.letter l acc) d sl), o)
  | e => (e, o)

/-- The test for barlines, optimizer.go:110-112. -/
def resetAtBarline (r : Upd × Opt) : Upd × Opt := if isOrContainsBarline r.1 then (r.1, r.2.resetNoteState) else r

mutual
/-- The loop body of `removeRedundantAccidentals`, optimizer.go:117-128. (A nested update is not changed by `modify`, nor does it contain a barline itself.) -/
def accUpd (o : Opt) : Upd → Upd × Opt
  | .chord es => let r := accList o es; (.chord r.1, r.2)
  | .seq es => let r := accList o es; (.seq r.1, r.2)
  | .rep (.seq es) n => let r := accList o es; (.rep (.seq r.1) n, r.2)
  | .onReps rs (.seq es) => let r := accList o es; (.onReps rs (.seq r.1), r.2)
  | e => resetAtBarline (modifyAccidentals o e)
/-- `removeRedundantAccidentals`, optimizer.go:65-131. -/
def accList (o : Opt) : List Upd → List Upd × Opt
  | [] => ([], o)
  | e :: es =>
    let r := accUpd o e
    let rs := accList r.2 es
    (r.1 :: rs.1, rs.2)
end

/-! ### Durations -/

mutual
/-- `deep.Equal` of two duration components finds no difference. (`deep.Equal` compares numbers up to ten decimal places; that is not modelled.) -/
def sameComp : DurComp → DurComp → Bool
  | .length d k, .length d' k' => d == d' && k == k'
  | .beats q, .beats q' => q == q'
  | .ms q, .ms q' => q == q'
  | .seconds q, .seconds q' => q == q'
  | .nested cs, .nested cs' => sameDur cs cs'
  | .barline, .barline => true
  | _, _ => false
/-- `deep.Equal` of two durations finds no difference. -/
def sameDur : List DurComp → List DurComp → Bool
  | [], [] => true
  | c :: cs, c' :: cs' => sameComp c c' && sameDur cs cs'
  | _, _ => false
end

/-- `modify` of `removeRedundantDurations`, optimizer.go:141-164. -/
def modifyDuration (o : Opt) (e : Upd) : Upd × Opt :=
  if isOrContainsBarline e then (e, o.resetDuration)
  else
    let d := noteOrRestDuration e
    if d.isEmpty then (e, o)
    else (if !o.dur.isEmpty && sameDur o.dur d then setNoteOrRestDuration [] e else e, { o with dur := d })

mutual
/-- The loop body of `removeRedundantDurations`, optimizer.go:166-182. -/
def durUpd (o : Opt) : Upd → Upd × Opt
  | .chord es => let r := durList o.resetDuration es; (.chord r.1, r.2.resetDuration)
  | .seq es => let r := durList o.resetDuration es; (.seq r.1, r.2.resetDuration)
  | .rep (.seq es) n => let r := durList o.resetDuration es; (.rep (.seq r.1) n, r.2.resetDuration)
  | .onReps rs (.seq es) => let r := durList o.resetDuration es; (.onReps rs (.seq r.1), r.2.resetDuration)
  | e => modifyDuration o e
/-- `removeRedundantDurations`, optimizer.go:138-185. -/
def durList (o : Opt) : List Upd → List Upd × Opt
  | [] => ([], o)
  | e :: es =>
    let r := durUpd o e
    let rs := durList r.2 es
    (r.1 :: rs.1, rs.2)
end

/-! ### Percussion -/

/-- The translation of one update, optimizer.go:198-214, with the octave change that is inserted before it (237-243). -/
def modifyMidi (o : Opt) : Upd → List Upd × Opt
  | .leaf (.note (.midi n) d sl) =>
    let r := toLetterAndOctave n
    let note := Upd.leaf (.note (.letter r.1 r.2.1) d sl)
    if r.2.2 ≠ o.octave then ([.leaf (.attr (.octave r.2.2)), note], { o with octave := r.2.2 })
    else ([note], o)
  | e => ([e], o)

mutual
/-- The loop body of `translateMidiNotePitches`, optimizer.go:197-234. The octave changes are inserted after the loop, from the last one to the first, so that each one
ends up right before its note. -/
def midiUpd (o : Opt) : Upd → List Upd × Opt
  | .chord es => let r := midiList o.resetOctave es; ([.chord r.1], r.2.resetOctave)
  | .seq es => let r := midiList o.resetOctave es; ([.seq r.1], r.2.resetOctave)
  | .rep (.seq es) n => let r := midiList o.resetOctave es; ([.rep (.seq r.1) n], r.2.resetOctave)
  | .onReps rs (.seq es) => let r := midiList o.resetOctave es; ([.onReps rs (.seq r.1)], r.2.resetOctave)
  | e =>
    let r := modifyMidi o e
    (r.1, if isOrContainsBarline e then r.2.resetOctave else r.2)
/-- `translateMidiNotePitches`, optimizer.go:190-246. -/
def midiList (o : Opt) : List Upd → List Upd × Opt
  | [] => ([], o)
  | e :: es =>
    let r := midiUpd o e
    let rs := midiList r.2 es
    (r.1 ++ rs.1, rs.2)
end

/-! ### Repeats -/

/-- `modify` of `handleUnfinishedRepeats`, optimizer.go:254-263. -/
def closedTimes (n : Int) : Int := if n = 0 then 1 else n

mutual
/-- The loop body of `handleUnfinishedRepeats`, optimizer.go:265-274. -/
def closeUpd : Upd → Upd
  | .chord es => .chord (closeList es)
  | .seq es => .seq (closeList es)
  | .rep (.seq es) n => .rep (.seq (closeList es)) (closedTimes n)
  | .onReps rs (.seq es) => .onReps rs (.seq (closeList es))
  | e => e
/-- `handleUnfinishedRepeats`, optimizer.go:251-277. -/
def closeList : List Upd → List Upd
  | [] => []
  | e :: es => closeUpd e :: closeList es
end

/-- `optimize`, optimizer.go:281-299. -/
def optimize (o : Opt) (es : List Upd) : List Upd × Opt :=
  let es := standardizeBarlines es
  let r := accList o es
  let r := midiList r.2 r.1
  let r := durList r.2 r.1
  (closeList r.1, r.2.softReset)

end Importer
end Alda
