import Verif.Model.Update
/-!
The derived values of a score: `client/model/score.go` after `Update`.
-/
namespace Alda

/-- `Tracks`, client/model/score.go:150-158, as a lookup: a later part with the same origin overwrites an earlier one. -/
def tracksFrom (s : Score) (origin : Nat) : Int → List Nat → Option Int → Option Int
  | _, [], acc => acc
  | i, p :: ps, acc => tracksFrom s origin (i + 1) ps (if (s.heap p).origin = origin then some i else acc)

/-- `Tracks`, client/model/score.go:150-158: the track number of an origin part. -/
def Score.track (s : Score) (origin : Nat) : Option Int := tracksFrom s origin 1 s.parts none

/-- `PartOffsets`, client/model/score.go:161-169, as a lookup. -/
def Score.partOffset (s : Score) (origin : Nat) : Option Rat :=
  if s.parts.any (fun p => (s.heap p).origin == origin) then some (s.heap origin).offset else none

/-- `strconv.Atoi` on digits, ignoring the error: saturates at the largest 64 bit integer (Go standard library). -/
def atoi64 (ds : List Char) : Int :=
  if (digitsVal ds : Int) > 9223372036854775807 then 9223372036854775807 else digitsVal ds

/-- Go's 64 bit `int` arithmetic wraps around. -/
def wrap64 (n : Int) : Int := (n + 9223372036854775808) % 18446744073709551616 - 9223372036854775808

/-- `regexp.MustCompile("^(\d+):(\d+)$").FindStringSubmatch`, client/model/score.go:183-184. -/
def timeMarking (cs : List Char) : Option (List Char × List Char) :=
  match spanDigits cs with
  | (c :: m, ':' :: rest) =>
    match spanDigits rest with
    | (d :: sec, []) => some (c :: m, d :: sec)
    | _ => none
  | _ => none

/-- `InterpretOffsetReference`, client/model/score.go:180-207. -/
def interpretOffsetReference (s : Score) (reference : String) : Except Err Rat :=
  match timeMarking reference.toList with
  | some (m, sec) => .ok ((wrap64 (wrap64 (atoi64 m * 60) * 1000) : Int) + (wrap64 (atoi64 sec * 1000) : Int))
  | none =>
    match s.markers reference with
    | some o => .ok o
    | none => .error (.user "not a valid offset reference")

/-- The assignments of one offset in the loop over global attributes, client/model/score.go:250-259. The itinerary is the list of assignments
to the Go map, latest first. -/
def globalTempos (offset : Rat) : List PartUpd → Rat → List (Rat × Rat) → Rat × List (Rat × Rat)
  | [], last, it => (last, it)
  | .tempo t :: us, _, it => globalTempos offset us t ((offset, t) :: it)
  | .metricModulation r :: us, last, it => globalTempos offset us last ((offset, last * r) :: it)
  | _ :: us, last, it => globalTempos offset us last it

/-- The loop over global attributes, client/model/score.go:249-260. -/
def globalTempoLoop (g : GlobalAttributes) : List Rat → Rat → List (Rat × Rat) → List (Rat × Rat)
  | [], _, it => it
  | o :: os, last, it =>
    let r := globalTempos o ((g.itinerary o).getD []) last it
    globalTempoLoop g os r.1 r.2

/-- `TempoItinerary`, client/model/score.go:221-263; the assignments to the map, latest first. -/
def tempoItinerary (s : Score) : List (Rat × Rat) :=
  let locals := s.parts.foldl (fun it p => if (s.heap p).tempoMaster then (s.heap p).tempoValues ++ it else it) [(0, 120)]
  globalTempoLoop s.globals s.globals.offsets 120 locals

end Alda
