import Verif.Model.Update
/-!
Where an error happened: the source contexts of the updates, and what becomes of them when an update fails
(`client/model/source_context.go`, `score.go:128-136`, and the places where `UpdateScore` of one event calls another one).

Not modelled: the names of files; the errors of a lisp expression that are located inside of it (their place is inside of the expression, or missing); that
the parser gives every update the place of one of its tokens (the scanner's places are those of C29).
-/
namespace Alda
namespace Located

/-- `AldaSourceContext`, client/model/source_context.go:10-14: line and column. The line is 0 if there is no context. -/
abbrev Place := Nat × Nat

/-- No context: the zero value. -/
def nowhere : Place := (0, 0)

/-- The updates that contain no other ones. -/
inductive Simple where
  | leaf (l : Leaf)
  | lisp (elements : List LispForm)
  | lispNil
  | barline
  | voice (number : Int)
  | voiceEnd
  | marker (name : String)
  | atMarker (name : String)
  | partDecl (names : List String) (alias : String)

/-- Such an update in the model without places. -/
def Simple.upd : Simple → Upd
  | .leaf l => .leaf l
  | .lisp es => .lisp es
  | .lispNil => .lispNil
  | .barline => .barline
  | .voice n => .voice n
  | .voiceEnd => .voiceEnd
  | .marker n => .marker n
  | .atMarker n => .atMarker n
  | .partDecl ns a => .partDecl ns a

/-- The implementations of `ScoreUpdate` (client/model/score.go:17-33) with their field `SourceContext`. -/
inductive LUpd where
  | simple (place : Place) (u : Simple)
  | chord (place : Place) (events : List LUpd)
  | cram (place : Place) (events : List LUpd) (dur : Dur)
  | seq (place : Place) (events : List LUpd)
  | rep (place : Place) (event : LUpd) (times : Int)
  | onReps (place : Place) (ranges : List (Int × Int)) (event : LUpd)
  | varDef (place : Place) (name : String) (events : List LUpd)
  | varRef (place : Place) (name : String)

/-- `GetSourceContext` of every update, e.g. client/model/note.go:20, event_sequence.go:16, lisp.go:1639. -/
def LUpd.place : LUpd → Place
  | .simple p _ | .chord p _ | .cram p _ _ | .seq p _ | .rep p _ _ | .onReps p _ _ | .varDef p _ _ | .varRef p _ => p

mutual
/-- The update without its places. -/
def LUpd.erase : LUpd → Upd
  | .simple _ u => u.upd
  | .chord _ es => .chord (erases es)
  | .cram _ es d => .cram (erases es) d
  | .seq _ es => .seq (erases es)
  | .rep _ e n => .rep e.erase n
  | .onReps _ rs e => .onReps rs e.erase
  | .varDef _ n es => .varDef n (erases es)
  | .varRef _ n => .varRef n
/-- The same for a list. -/
def erases : List LUpd → List Upd
  | [] => []
  | e :: es => e.erase :: erases es
end

/-- A score whose variables have places. -/
structure LState where
  score : Score
  vars : String → Option (List LUpd)

/-- How an update ends. An error is what has gone wrong and the contexts of the `AldaSourceError`s around it, outermost first, client/model/source_context.go:26-34. -/
structure LOut where
  err : Option (Err × List Place)
  st : LState

/-- `if err := ...; err != nil { return err }` followed by `k`. -/
def LOut.andThen (o : LOut) (k : LState → LOut) : LOut :=
  match o.err with
  | none => k o.st
  | some e => ⟨some e, o.st⟩

/-- What an operation on the score gives that has to do with neither places nor variables; its errors are plain ones. -/
def keep (vars : String → Option (List LUpd)) (o : Out) : LOut := ⟨o.err.map (fun e => (e, [])), ⟨o.s, vars⟩⟩

/-- `&AldaSourceError{Context: update.GetSourceContext(), Err: err}`, client/model/score.go:130-132. -/
def wrap (p : Place) (o : LOut) : LOut := ⟨o.err.map (fun x => (x.1, p :: x.2)), o.st⟩

mutual
/-- `VariableValue` of every event (the lines are at `varValue`): what a lisp expression gives has no context, and so has the sequence that stands for a variable
(client/model/variable.go:173); the other updates keep theirs. -/
def lvarValue (vars : String → Option (List LUpd)) : LUpd → Except Err LUpd
  | .simple p u =>
    match u with
    | .lisp es =>
      match lispUpdate es with
      | .error e => .error e
      | .ok none => .ok (.simple nowhere .lispNil)
      | .ok (some l) => .ok (.simple nowhere (.leaf l))
    | .partDecl _ _ => .error (.user "a part declaration cannot be part of a variable definition")
    | u => .ok (.simple p u)
  | .chord p es =>
    match lvarValues vars es with
    | .error e => .error e
    | .ok vs => .ok (.chord p vs)
  | .cram p es d =>
    match lvarValues vars es with
    | .error e => .error e
    | .ok vs => .ok (.cram p vs d)
  | .seq p es =>
    match lvarValues vars es with
    | .error e => .error e
    | .ok vs => .ok (.seq p vs)
  | .rep p e n =>
    match lvarValue vars e with
    | .error e => .error e
    | .ok v => .ok (.rep p v n)
  | .onReps p rs e =>
    match lvarValue vars e with
    | .error e => .error e
    | .ok v => .ok (.onReps p rs v)
  | .varDef p n es =>
    match lvarValues vars es with
    | .error e => .error e
    | .ok vs => .ok (.varDef p n vs)
  | .varRef _ n =>
    match vars n with
    | none => .error (.user "undefined variable")
    | some es => .ok (.seq nowhere es)
/-- The loops over events in the functions above. -/
def lvarValues (vars : String → Option (List LUpd)) : List LUpd → Except Err (List LUpd)
  | [] => .ok []
  | e :: es =>
    match lvarValue vars e with
    | .error e => .error e
    | .ok v =>
      match lvarValues vars es with
      | .error e => .error e
      | .ok vs => .ok (v :: vs)
end

/-- `VariableDefinition.UpdateScore`, client/model/variable.go:59-74. -/
def lvarDef (name : String) (es : List LUpd) (st : LState) : LOut :=
  match lvarValues st.vars es with
  | .error e => ⟨some (e, []), st⟩
  | .ok vs => ⟨none, ⟨{ st.score with vars := fun n => if n = name then some (erases vs) else st.score.vars n }, fun n => if n = name then some vs else st.vars n⟩⟩

/-- The number of the round is set, client/model/repeat.go:35-37. -/
def number (r : Int) (st : LState) : LOut := keep st.vars (forIds (setRepetition r) st.score.current st.score)

/-- The loop of `Repeat.UpdateScore`, client/model/repeat.go:34-42. -/
def lrepLoop (body : LState → LOut) : Nat → Int → LState → LOut
  | 0, _, st => ⟨none, st⟩
  | k + 1, r, st => (number r st).andThen fun st => (body st).andThen (lrepLoop body k (r + 1))

/-- Does the event apply to the `i`-th active part? client/model/repetitions.go:65. -/
def turn (ranges : List (Int × Int)) (i : Nat) (s : Score) : Bool :=
  match s.current[i]? with
  | none => false
  | some id => appliesTo ranges (s.heap id).repetition

/-- The loop of `OnRepetitions.UpdateScore`, client/model/repetitions.go:64-70. -/
def lonReps (ranges : List (Int × Int)) (body : LState → LOut) : List Nat → LState → LOut
  | [], st => ⟨none, st⟩
  | i :: is, st => (if turn ranges i st.score then body st else ⟨none, st⟩).andThen (lonReps ranges body is)

/-- Where a chord begins, client/model/chord.go:42-51: the lengths so far, and the score in chord mode. -/
def chordStart (st : LState) : Shortest × LState :=
  (fun i => if st.score.current.contains i then none else some 0, { st with score := { st.score with chordMode := true } })

mutual
/-- `UpdateScore` of every event (the lines are at `updWith`). A sequence, a repeat and an event with repetitions run their events by `Score.Update`, which adds their contexts to
an error; a chord (client/model/chord.go:75-77), a cram expression (cram.go:113-117) and a variable (variable.go:135-139) do not. -/
def lupdWith (deref : List LUpd → LState → LOut) : LUpd → LState → LOut
  | .simple _ u, st => keep st.vars (upd u.upd st.score)
  | .chord _ es, st =>
    (keep st.vars (applyGlobals st.score)).andThen fun st =>
      let r := lchordEvents deref es (chordStart st).1 (chordStart st).2
      r.1.andThen fun st => keep st.vars (forIds (chordAdvance r.2) st.score.current { st.score with chordMode := false })
  | .cram _ es d, st =>
    (keep st.vars (forIds (cramScalePart st.score.vars (erases es) d) st.score.current st.score)).andThen fun st1 =>
      (leach deref es st1).andThen fun st2 => keep st2.vars (forIds (cramRestorePart st.score.heap st.score.current d) st2.score.current st2.score)
  | .seq _ es, st => lupdListWith deref es st
  | .rep _ e n, st => lrepLoop (fun st => wrap e.place (lupdWith deref e st)) n.toNat 1 st
  | .onReps _ rs e, st => lonReps rs (fun st => wrap e.place (lupdWith deref e st)) (List.range st.score.current.length) st
  | .varDef _ n es, st => lvarDef n es st
  | .varRef _ n, st =>
    match st.vars n with
    | none => ⟨some (.user "undefined variable", []), st⟩
    | some es => deref es st
/-- `Score.Update`, client/model/score.go:128-136. -/
def lupdListWith (deref : List LUpd → LState → LOut) : List LUpd → LState → LOut
  | [], st => ⟨none, st⟩
  | e :: es, st => (wrap e.place (lupdWith deref e st)).andThen (lupdListWith deref es)
/-- The loops of client/model/variable.go:135-139 and cram.go:113-117. -/
def leach (deref : List LUpd → LState → LOut) : List LUpd → LState → LOut
  | [], st => ⟨none, st⟩
  | e :: es, st => (lupdWith deref e st).andThen (leach deref es)
/-- The event loop of `Chord.UpdateScore`, client/model/chord.go:52-78. -/
def lchordEvents (deref : List LUpd → LState → LOut) : List LUpd → Shortest → LState → LOut × Shortest
  | [], m, st => (⟨none, st⟩, m)
  | e :: es, m, st =>
    match shortestLoop st.score (specifiedDuration e.erase) st.score.current m with
    | none => (⟨some (.nonFinite, []), st⟩, m)
    | some m =>
      match lupdWith deref e st with
      | ⟨some err, st⟩ => (⟨some err, st⟩, m)
      | ⟨none, st⟩ => lchordEvents deref es m st
end

/-- Running the events stored in a variable; they contain no references. -/
def lderef : List LUpd → LState → LOut := leach (fun _ st => ⟨some (.unreachable, []), st⟩)

/-- `update.UpdateScore(score)` for any update. -/
def lupd : LUpd → LState → LOut := lupdWith lderef

/-- `Score.Update`, client/model/score.go:128-136. -/
def lupdate : List LUpd → LState → LOut := lupdListWith lderef

/-- `NewScore`, client/model/score.go:113-122. -/
def lnew : LState := ⟨newScore, fun _ => none⟩

/-- The place in the message of an error, client/model/source_context.go:50-97: the loop goes from the outermost context inwards and remembers the last one that has a line. -/
def reportFrom (best : Place) : List Place → Place
  | [] => best
  | p :: ps => reportFrom (if p.1 ≠ 0 then p else best) ps

/-- `AldaSourceError.Error`: the place that the user is told. -/
def report (contexts : List Place) : Place := reportFrom nowhere contexts

end Located
end Alda
