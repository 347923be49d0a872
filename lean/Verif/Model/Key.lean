import Verif.Model.Pitch
/-!
Model of `client/model/key.go`.
-/
namespace Alda

/-- `ScaleType`, client/model/key.go:11-34. -/
inductive Scale where
  | ionian | dorian | phrygian | lydian | mixolydian | aeolian | locrian
deriving DecidableEq, Repr, Inhabited

/-- Map assignment `m[l] = as` (Go language). -/
def KeySig.set (ks : KeySig) (l : Letter) (as : List Accidental) : KeySig :=
  fun l' => if l' = l then some as else ks l'

/-- The inner loop of `shiftKey`, client/model/key.go:112-124: copies accidentals, leaving out the first one
that is not `this`. Returns the copied list and `containsThat`. -/
def shiftLoop (this : Accidental) (containsThat : Bool) : List Accidental → List Accidental × Bool
  | [] => ([], containsThat)
  | a :: as =>
    if a = this ∨ containsThat = true then
      let r := shiftLoop this containsThat as
      (a :: r.1, r.2)
    else shiftLoop this true as

/-- The body of the loop over letters of `shiftKey`, client/model/key.go:93-131,
for one letter; `none` = not in the resulting map. -/
def shiftLetter (this that : Accidental) : Option (List Accidental) → Option (List Accidental)
  | none => some [this]
  | some as =>
    if as = [that] then none
    else
      let r := shiftLoop this false as
      some (if r.2 then r.1 else r.1 ++ [this])

/-- `shiftKey`, client/model/key.go:89-135. The loop over the seven letters treats
each letter on its own, so it is a pointwise function. -/
def shiftKey (k : KeySig) (this that : Accidental) : KeySig :=
  fun l => shiftLetter this that (k l)

/-- `Flatten`, client/model/key.go:138-140. -/
def KeySig.flatten (k : KeySig) : KeySig := shiftKey k .flat .sharp

/-- `Sharpen`, client/model/key.go:143-145. -/
def KeySig.sharpen (k : KeySig) : KeySig := shiftKey k .sharp .flat

/-- `orderOfFlats`, client/model/key.go:147-149. -/
def orderOfFlats : List Letter := [.B, .E, .A, .D, .G, .C, .F]

/-- `orderOfSharps`, client/model/key.go:151-153. -/
def orderOfSharps : List Letter := [.F, .C, .G, .D, .A, .E, .B]

/-- `start` in `partialCircleOfFifths`, client/model/key.go:159-175. -/
def Scale.start : Scale → Int
  | .ionian => -1 | .dorian => -3 | .phrygian => -5 | .lydian => 0
  | .mixolydian => -2 | .aeolian => -4 | .locrian => -6

/-- `partialCircleOfFifths`, client/model/key.go:158-184, as a function of the letter. -/
def partialCircleOfFifths (s : Scale) (l : Letter) : Int :=
  s.start + (orderOfSharps.idxOf l : Nat)

/-- The loop of `KeySignatureFromCircleOfFifths`, client/model/key.go:205-210, after `n` rounds. -/
def fifthsLoop (order : List Letter) (acc : Accidental) : Nat → KeySig
  | 0 => KeySig.empty
  | n + 1 =>
    let ks := fifthsLoop order acc n
    let l := order.getD (n % order.length) .A
    ks.set l (ks.read l ++ [acc])

/-- `KeySignatureFromCircleOfFifths`, client/model/key.go:189-213. -/
def keySigFromFifths (fifths : Int) : KeySig :=
  if fifths = 0 then KeySig.empty
  else if fifths > 0 then fifthsLoop orderOfSharps .sharp fifths.natAbs
  else fifthsLoop orderOfFlats .flat fifths.natAbs

/-- The loop over the tonic's accidentals, client/model/key.go:223-230. -/
def shiftByTonic (ks : KeySig) : List Accidental → KeySig
  | [] => ks
  | .flat :: as => shiftByTonic ks.flatten as
  | .sharp :: as => shiftByTonic ks.sharpen as
  | .natural :: as => shiftByTonic ks as

/-- `KeySignatureFromScale`, client/model/key.go:217-233. The tonic's `Accidentals` slice is a list (nil = []). -/
def keySigFromScale (tonic : Letter) (accidentals : List Accidental) (s : Scale) : KeySig :=
  shiftByTonic (keySigFromFifths (partialCircleOfFifths s tonic)) accidentals

end Alda
