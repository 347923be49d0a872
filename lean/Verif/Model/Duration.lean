/-!
Model of `client/model/duration.go` and the duration part of `client/model/barline.go`.

`float64` is `Rat`. A computation that would divide by zero in Go (giving an infinity or NaN) yields `none`.
-/
namespace Alda

/-- `DurationComponent` and its implementations: `NoteLength` (client/model/duration.go:28-53),
`NoteLengthBeats` (86-88), `NoteLengthMs` (118-120), `NoteLengthSeconds` (155-157), a nested `Duration`
(185-187, used as a component by the lisp function `duration`), and `Barline` (client/model/barline.go:13-41).
`Dots` is an `int32` counting characters, hence `Nat`. -/
inductive DurComp where
  | length (denominator : Rat) (dots : Nat)
  | beats (quantity : Rat)
  | ms (quantity : Rat)
  | seconds (quantity : Rat)
  | nested (components : List DurComp)
  | barline
deriving Repr, Inhabited

/-- `Duration`, client/model/duration.go:185-187. `Components == nil` is the empty list (no code
builds a non-nil empty slice). -/
abbrev Dur := List DurComp

mutual
/-- `Validate` of each component, client/model/duration.go:55-63, 90-98, 122-130, 159-167, 189-197;
barline.go:39-41. `true` = no error. -/
def DurComp.valid : DurComp → Bool
  | .length d _ => decide (0 < d)
  | .beats q => decide (0 < q)
  | .ms q => decide (0 < q)
  | .seconds q => decide (0 < q)
  | .nested cs => Dur.validList cs
  | .barline => true
/-- `Duration.Validate`, client/model/duration.go:189-197. -/
def Dur.validList : List DurComp → Bool
  | [] => true
  | c :: cs => c.valid && Dur.validList cs
end

/-- `Duration.Validate`, client/model/duration.go:189-197. -/
def Dur.valid (d : Dur) : Bool := Dur.validList d

/-- `NoteLength.Beats`, client/model/duration.go:75-77. `none` if the denominator is zero. -/
def noteLengthBeats (denominator : Rat) (dots : Nat) : Option Rat :=
  if denominator = 0 then none
  else some ((4 / denominator) * (2 - (1 / 2) ^ dots))

/-- `NoteLengthBeats.Ms`, client/model/duration.go:113-115. `none` if the tempo is zero. -/
def beatsMs (quantity tempo : Rat) : Option Rat :=
  if tempo = 0 then none else some (quantity * (60000 / tempo))

mutual
/-- `Ms` of each component, client/model/duration.go:81-83, 113-115, 150-152, 180-182, 224-232; barline.go:33-35. -/
def DurComp.toMs (tempo : Rat) : DurComp → Option Rat
  | .length d k => match noteLengthBeats d k with
    | none => none
    | some q => beatsMs q tempo
  | .beats q => beatsMs q tempo
  | .ms q => some q
  | .seconds q => some (q * 1000)
  | .nested cs => Dur.toMsFrom tempo 0 cs
  | .barline => some 0
/-- The loop of `Duration.Ms`, client/model/duration.go:224-232, with the accumulator `ms`. -/
def Dur.toMsFrom (tempo : Rat) (acc : Rat) : List DurComp → Option Rat
  | [] => some acc
  | c :: cs => match c.toMs tempo with
    | none => none
    | some x => Dur.toMsFrom tempo (acc + x) cs
end

/-- `Duration.Ms`, client/model/duration.go:224-232. -/
def Dur.toMs (d : Dur) (tempo : Rat) : Option Rat := Dur.toMsFrom tempo 0 d

/-- The outcome of `Beats()`: a number, a panic (client/model/duration.go:145, 175) or a non-finite number. -/
inductive BeatsResult where
  | ok (q : Rat) | panic | nonFinite
deriving Repr, DecidableEq

mutual
/-- `Beats` of each component, client/model/duration.go:75-77, 107-109, 144-146, 174-176, 212-220; barline.go:27-29. -/
def DurComp.toBeats : DurComp → BeatsResult
  | .length d k => match noteLengthBeats d k with
    | none => .nonFinite
    | some q => .ok q
  | .beats q => .ok q
  | .ms _ => .panic
  | .seconds _ => .panic
  | .nested cs => Dur.toBeatsFrom 0 cs
  | .barline => .ok 0
/-- The loop of `Duration.Beats`, client/model/duration.go:212-220. -/
def Dur.toBeatsFrom (acc : Rat) : List DurComp → BeatsResult
  | [] => .ok acc
  | c :: cs => match c.toBeats with
    | .ok x => Dur.toBeatsFrom (acc + x) cs
    | r => r
end

/-- `Duration.Beats`, client/model/duration.go:212-220. -/
def Dur.toBeats (d : Dur) : BeatsResult := Dur.toBeatsFrom 0 d

end Alda
