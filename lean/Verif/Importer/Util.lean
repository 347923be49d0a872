import Verif.Model.Score
/-!
Model of `client/interop/musicxml/importer/util.go` and of the arithmetic of `translateDuration` in
`client/interop/musicxml/importer/handlers.go`. `float64` is `Rat`.
-/
namespace Alda
namespace Importer

/-! ### Barlines -/

/-- `reflect.TypeOf(component) == barlineType`, client/interop/musicxml/importer/util.go:167, 337. -/
def isBarlineComp : DurComp → Bool
  | .barline => true
  | _ => false

/-- `getNoteOrRestDuration`, util.go:302-310. -/
def noteOrRestDuration : Upd → Dur
  | .leaf (.note _ d _) => d
  | .leaf (.rest d) => d
  | _ => []

/-- `setNoteOrRestDuration`, util.go:313-325. -/
def setNoteOrRestDuration (d : Dur) : Upd → Upd
  | .leaf (.note p _ sl) => .leaf (.note p d sl)
  | .leaf (.rest _) => .leaf (.rest d)
  | e => e

/-- `isOrContainsBarline`, util.go:329-342. -/
def isOrContainsBarline (e : Upd) : Bool :=
  (match e with | .barline => true | _ => false) || (noteOrRestDuration e).any isBarlineComp

/-- `removeBarline`, util.go:163-175: the duration without its last component if that is a barline, and whether it was. (In the other case Go returns
nil, which the callers do not use.) -/
def removeBarline (d : Dur) : Dur × Bool :=
  match d.getLast? with
  | some .barline => (d.dropLast, true)
  | _ => (d, false)

mutual
/-- The loop body of `standardizeBarlines`, util.go:160-206, for one update: what stands in its place afterwards. The Go loop goes from the last
update to the first, so that an insertion does not move an update that is still to be visited; every update is treated on its own. A
`Repeat` or `OnRepetitions` whose event is not an `EventSequence` makes Go panic (util.go:76, 81); the importer builds none, and here it is left alone. -/
def stdUpd : Upd → List Upd
  | .leaf (.note p d sl) => .leaf (.note p (removeBarline d).1 sl) :: (if (removeBarline d).2 then [.barline] else [])
  | .leaf (.rest d) => .leaf (.rest (removeBarline d).1) :: (if (removeBarline d).2 then [.barline] else [])
  | .chord es => [.chord (standardizeBarlines es)]
  | .seq es => [.seq (standardizeBarlines es)]
  | .rep (.seq es) n => [.rep (.seq (standardizeBarlines es)) n]
  | .onReps rs (.seq es) => [.onReps rs (.seq (standardizeBarlines es))]
  | e => [e]
/-- `standardizeBarlines`, util.go:159-209. -/
def standardizeBarlines : List Upd → List Upd
  | [] => []
  | e :: es => stdUpd e ++ standardizeBarlines es
end

/-! ### Percussion -/

/-- The search for the letter, util.go:280-286. Go visits the letters in any order; the result is the same, because it is the letter with the largest
interval that is at most the remainder, or C. -/
def letterFor (remainder : Int) : Letter :=
  Letter.all.foldl (fun best l => if l.interval ≤ remainder ∧ l.interval > best.interval then l else best) .C

/-- The sharps, util.go:288-293; a nil slice is `none`. -/
def sharpsFor (remainder : Int) (l : Letter) : Option (List Accidental) :=
  if l.interval < remainder then some (List.replicate (remainder - l.interval).toNat .sharp) else none

/-- `toLetterAndAccidentalsAndOctave`, util.go:271-299. Go's `/` and `%` round towards zero. -/
def toLetterAndOctave (n : Int) : Letter × Option (List Accidental) × Int :=
  let quotient := (wrap32 (n - 24)).tdiv 12
  let remainder := (wrap32 (n - 24)).tmod 12
  let l := letterFor remainder
  (l, sharpsFor remainder l, wrap32 (quotient + 1))

/-! ### Durations -/

/-- `math.Round` for a positive number. -/
def roundHalfUp (x : Rat) : Int := (x + 1 / 2).floor

/-- `roundIfCloseEnough`, util.go:413-419, for a positive number. -/
def roundIfCloseEnough (x : Rat) : Rat :=
  if (x - roundHalfUp x).abs < 1 / 10000 then (roundHalfUp x : Rat) else x

/-- `normal`, util.go:351. -/
def normalLengths : List Rat := [1, 2, 4, 8, 16]

/-- The decomposing loop of `idiomaticDuration`, util.go:353-370. The list is `normal` from index `i` on. `picks` holds the keys counted in the map `decomp`, one entry per
count; since `i` only grows they are in the order of `normal`. `none`: the Go loop would not end (`remaining` zero or negative), or out
of fuel, which does not happen with the fuel given below (`Verif.Props.Importer`). -/
def decompose : Nat → List Rat → Rat → List Rat → Option (Rat × List Rat)
  | _, [], remaining, picks => some (remaining, picks)
  | 0, _ :: _, _, _ => none
  | k + 1, n :: ns, remaining, picks =>
    if (remaining - n).abs < 1 / 100 then some (0, picks ++ [n])
    else if remaining < n then
      if remaining ≤ 0 then none
      else decompose k (n :: ns) (1 / (1 / remaining - 1 / n)) (picks ++ [n])
    else decompose k ns remaining picks

/-- `decomp[d]`, util.go:354. -/
def decompCount (picks : List Rat) (d : Rat) : Nat := picks.count d

/-- The search for two neighbouring lengths, util.go:375-386: the first length of which there is one, if there is one of the next too. -/
def dottedOf (picks : List Rat) : List Rat → Option Rat
  | a :: b :: ns => if decompCount picks a = 1 ∧ decompCount picks b = 1 then some a else dottedOf picks (b :: ns)
  | _ => none

/-- `len(decomp)`: the number of different keys. -/
def decompSize (picks : List Rat) : Nat := (normalLengths.filter (fun d => decompCount picks d > 0)).length

/-- The representation of a decomposition, util.go:372-400. -/
def decomposed (picks : List Rat) : Dur :=
  match (if decompSize picks = 2 then dottedOf picks normalLengths else none) with
  | some d => [.length d 1]
  | none => normalLengths.flatMap (fun d => List.replicate (decompCount picks d) (.length d 0))

/-- `idiomaticDuration`, util.go:345-409. `none`: it does not return. -/
def idiomaticDuration (aldaDuration : Rat) (dots : Nat) : Option Dur :=
  let x := roundIfCloseEnough aldaDuration
  if dots = 0 then
    match decompose ((16 / x).ceil.toNat + 6) normalLengths x [] with
    | none => none
    | some (remaining, picks) => if remaining = 0 then some (decomposed picks) else some [.length x 0]
  else some [.length x dots]

/-- `translateDuration`, client/interop/musicxml/importer/handlers.go:537-557, as a function of the part's divisions, the number of `dot` elements and the
number in the `duration` element. `none`: it does not return. A duration of zero, which makes Go divide by zero, is not followed (`none`). -/
def translateDuration (divisions : Int) (dots : Nat) (duration : Rat) : Option Dur :=
  if duration = 0 then none
  else
    let duration := if dots > 0 then duration / ((1 - (1 / 2) ^ (dots + 1)) / (1 / 2)) else duration
    idiomaticDuration (4 * divisions / duration) dots

/-- `divisionsHandler`, handlers.go:516-521, for a text that is a decimal number: `strconv.ParseInt` with a bit size of 8 returns the nearest `int8`
(and an error, which is ignored). -/
def divisionsOf (n : Int) : Int := max (-128) (min 127 n)

end Importer
end Alda
