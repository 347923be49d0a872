import Verif.Model.Lisp
/-!
What note length strings and decimal numbers mean.
-/
namespace Alda.Spec

/-- The ten digits. -/
def digits : List Char := ['0', '1', '2', '3', '4', '5', '6', '7', '8', '9']

/-- Value of a non-empty or empty string of digits, positional notation read from the right: the last digit counts once. -/
def decimal : List Char → Nat
  | [] => 0
  | c :: cs => digits.idxOf c * 10 ^ cs.length + decimal cs

/-- A string of digits only. -/
def AllDigits (cs : List Char) : Prop := ∀ c ∈ cs, c ∈ digits

/-- The grammar of note lengths: digits, optionally a decimal part, then dots; with the value of the number and the count of dots. -/
inductive NoteLengthText : List Char → Rat → Nat → Prop where
  | whole (w : List Char) (k : Nat) : w ≠ [] → AllDigits w →
      NoteLengthText (w ++ List.replicate k '.') (decimal w) k
  | decimal (w f : List Char) (k : Nat) : w ≠ [] → AllDigits w → f ≠ [] → AllDigits f →
      NoteLengthText (w ++ '.' :: f ++ List.replicate k '.') (decimal w + (decimal f : Rat) / 10 ^ f.length) k

/-- The type of a lisp value, where it has a name in signatures. -/
def typeName : LispForm → Option ArgType
  | .num _ => some .number
  | .str _ => some .string
  | .sym _ => some .symbol
  | .list _ => some .list
  | .pitch _ => some .pitch
  | .dur _ => some .duration
  | .update _ => some .update
  | _ => none

/-- An argument fits an expected type. -/
def Fits (t : ArgType) (a : LispForm) : Prop := t = .any ∨ typeName a = some t

/-- A list of arguments matches a signature: one fitting argument for each type, and any number of them for a variadic type at the end. -/
inductive SigMatch : List ArgType → List LispForm → Prop where
  | nil : SigMatch [] []
  | variadic (t : ArgType) (as : List LispForm) : (∀ a ∈ as, Fits t a) → SigMatch [.variadic t] as
  | cons (t : ArgType) (a : LispForm) (ts : List ArgType) (as : List LispForm) :
      Fits t a → SigMatch ts as → SigMatch (t :: ts) (a :: as)

end Alda.Spec
