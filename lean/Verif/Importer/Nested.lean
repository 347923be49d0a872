import Verif.Importer.Optimizer
/-!
Model of the search in nested updates: `client/interop/musicxml/importer/nested_index.go`, the nested part of `util.go`, and the search functions of
`importer.go`.

A slice of updates is a list. In Go the slices are changed in place where possible; the importer keeps no second reference to a slice that it changes (an
exception is named at `collapseVoices`). A `Repeat` or `OnRepetitions` whose event is not an `EventSequence` makes Go panic (util.go:49, 55, 75,
80); the importer builds none, and here it has no nested updates.
-/
namespace Alda
namespace Importer

/-- `getNestedUpdates`, client/interop/musicxml/importer/util.go:40-65. -/
def nestedUpdates (toImport : Bool) : Upd → Option (List Upd)
  | .rep (.seq es) times => if toImport ∧ times > 0 then none else some es
  | .onReps ranges (.seq es) => if toImport ∧ ranges ≠ [] then none else some es
  | .chord es => if toImport then none else some es
  | .seq es => some es
  | _ => none

/-- `modifyNestedUpdates`, util.go:69-92 (`setNestedUpdates`, util.go:95-105, with a constant function). -/
def modifyNested (f : List Upd → List Upd) : Upd → Upd
  | .rep (.seq es) times => .rep (.seq (f es)) times
  | .onReps ranges (.seq es) => .onReps ranges (.seq (f es))
  | .chord es => .chord (f es)
  | .seq es => .seq (f es)
  | e => e

/-! ### Beats -/

/-- `Duration.Beats()` for a duration made of note lengths and barlines, which is what the importer builds (for other durations see `Dur.toBeats`). -/
def beatsOf (d : Dur) : Rat :=
  match d.toBeats with
  | .ok q => q
  | _ => 0

/-- The loop over the events of a chord in `getBeats`, util.go:118-129: the least positive number, if any. -/
def leastPositive : List Rat → Option Rat
  | [] => none
  | x :: xs => match leastPositive xs with
    | none => if x > 0 then some x else none
    | some y => if x > 0 ∧ x < y then some x else some y

mutual
/-- `getBeats` of one update, util.go:109-139. -/
def beatsUpd : Upd → Rat
  | .leaf (.note _ d _) => beatsOf d
  | .leaf (.rest d) => beatsOf d
  | .chord es => (leastPositive (beatsEach es)).getD 0
  | .rep e _ => beatsUpd e
  | .onReps _ e => beatsUpd e
  | .seq es => beatsSum es
  | _ => 0
/-- `getBeats` of each event of a chord, util.go:120. -/
def beatsEach : List Upd → List Rat
  | [] => []
  | e :: es => beatsUpd e :: beatsEach es
/-- `getBeats`, util.go:109-139. -/
def beatsSum : List Upd → Rat
  | [] => 0
  | e :: es => beatsUpd e + beatsSum es
end

/-! ### Searching -/

/-- `filterUpdateWithDuration`, util.go:232-236. -/
def hasDuration : Upd → Bool
  | .leaf (.note _ _ _) | .leaf (.rest _) | .chord _ => true
  | _ => false

/-- `filterNestedImportableUpdate`, util.go:239-252. -/
def importable (e : Upd) : Bool :=
  match nestedUpdates true e with
  | none => false
  | some es => match es.getLast? with
    | none => true
    | some last => (nestedUpdates true last).isNone

/-- `filterType(repeatType)`, util.go:255-259. -/
def isRepeat : Upd → Bool
  | .rep _ _ => true
  | _ => false

/-- `reflect.TypeOf(update) == repetitionType`. -/
def isEnding : Upd → Bool
  | .onReps _ _ => true
  | _ => false

mutual
/-- The body of the loop of `findLastRecursive`, client/interop/musicxml/importer/importer.go:350-362, for the update with index `i`: what is found, with its
`nestedIndex`. -/
def findLastUpd (p : Upd → Bool) (i : Nat) : Upd → Option (Upd × List Nat)
  | .rep (.seq es) times =>
    if p (.rep (.seq es) times) then some (.rep (.seq es) times, [i]) else (findLastIn p 0 es).map (fun r => (r.1, i :: r.2))
  | .onReps ranges (.seq es) =>
    if p (.onReps ranges (.seq es)) then some (.onReps ranges (.seq es), [i]) else (findLastIn p 0 es).map (fun r => (r.1, i :: r.2))
  | .chord es => if p (.chord es) then some (.chord es, [i]) else (findLastIn p 0 es).map (fun r => (r.1, i :: r.2))
  | .seq es => if p (.seq es) then some (.seq es, [i]) else (findLastIn p 0 es).map (fun r => (r.1, i :: r.2))
  | e => if p e then some (e, [i]) else none
/-- `findLastRecursive`, importer.go:345-364, on the updates from index `i` on. The last ones are looked at first. -/
def findLastIn (p : Upd → Bool) (i : Nat) : List Upd → Option (Upd × List Nat)
  | [] => none
  | e :: es => match findLastIn p (i + 1) es with
    | some r => some r
    | none => findLastUpd p i e
end

mutual
/-- The body of the loop of `findLastWithStateRecursive`, importer.go:386-404, for the update with index `i`; with the state afterwards. -/
def findStateUpd {α : Type} (p : Upd → α → Bool) (step : Upd → α → α) (i : Nat) : Upd → α → Option (Upd × List Nat) × α
  | .rep (.seq es) times, a =>
    if p (.rep (.seq es) times) a then (some (.rep (.seq es) times, [i]), a)
    else let r := findStateIn p step 0 es (step (.rep (.seq es) times) a); (r.1.map (fun x => (x.1, i :: x.2)), r.2)
  | .onReps ranges (.seq es), a =>
    if p (.onReps ranges (.seq es)) a then (some (.onReps ranges (.seq es), [i]), a)
    else let r := findStateIn p step 0 es (step (.onReps ranges (.seq es)) a); (r.1.map (fun x => (x.1, i :: x.2)), r.2)
  | .chord es, a =>
    if p (.chord es) a then (some (.chord es, [i]), a)
    else let r := findStateIn p step 0 es (step (.chord es) a); (r.1.map (fun x => (x.1, i :: x.2)), r.2)
  | .seq es, a =>
    if p (.seq es) a then (some (.seq es, [i]), a)
    else let r := findStateIn p step 0 es (step (.seq es) a); (r.1.map (fun x => (x.1, i :: x.2)), r.2)
  | e, a => if p e a then (some (e, [i]), a) else (none, step e a)
/-- `findLastWithStateRecursive`, importer.go:379-406, on the updates from index `i` on. -/
def findStateIn {α : Type} (p : Upd → α → Bool) (step : Upd → α → α) (i : Nat) : List Upd → α → Option (Upd × List Nat) × α
  | [], a => (none, a)
  | e :: es, a =>
    let r := findStateIn p step (i + 1) es a
    match r.1 with
    | some x => (some x, r.2)
    | none => findStateUpd p step i e r.2
end

/-! ### Changing one update -/

/-- `modifyAt`, importer.go:268-303, without `recountBeats`: changes the update with the given index. The first index counts in the list given. (An index
that does not exist makes Go panic; the importer only uses indices that a search has found. Here nothing is changed.) -/
def modifyPath (f : Upd → Upd) : List Nat → List Upd → List Upd
  | [], es => es
  | [i], es => es.modify i f
  | i :: is, es => es.modify i (modifyNested (modifyPath f is))

/-- `getAt`, importer.go:306-313, without `recountBeats`; nil is `none`. -/
def getPath : List Nat → List Upd → Option Upd
  | [], _ => none
  | [i], es => es[i]?
  | i :: is, es => match es[i]? with
    | none => none
    | some e => match nestedUpdates false e with
      | none => none
      | some inner => getPath is inner

end Importer
end Alda
