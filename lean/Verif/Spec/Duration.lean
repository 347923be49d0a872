import Verif.Model.Duration
/-!
What a duration means.
-/
namespace Alda.Spec

/-- An indivisible length of time: a note length with dots, a number of beats, or a number of milliseconds. -/
inductive Atom where
  | note (denominator : Rat) (dots : Nat)
  | beats (q : Rat)
  | ms (q : Rat)

/-- 1 + 1/2 + ... + 1/2^k. -/
def dotted : Nat → Rat
  | 0 => 1
  | k + 1 => dotted k + 1 / 2 ^ (k + 1)

/-- Milliseconds of an atom: a whole note is four beats, a beat takes 60000/tempo ms. -/
def Atom.length (tempo : Rat) : Atom → Rat
  | .note d k => 4 / d * dotted k * 60000 / tempo
  | .beats q => q * 60000 / tempo
  | .ms q => q

/-- Total length. -/
def total (tempo : Rat) : List Atom → Rat
  | [] => 0
  | a :: as => a.length tempo + total tempo as

mutual
/-- The atoms of a component, ignoring grouping and barlines. -/
def atomsOf : DurComp → List Atom
  | .length d k => [.note d k]
  | .beats q => [.beats q]
  | .ms q => [.ms q]
  | .seconds q => [.ms (1000 * q)]
  | .nested cs => atoms cs
  | .barline => []
/-- The atoms of a duration, in order. -/
def atoms : List DurComp → List Atom
  | [] => []
  | c :: cs => atomsOf c ++ atoms cs
end

/-- Every quantity in an atom is positive. -/
def Atom.Positive : Atom → Prop
  | .note d _ => 0 < d
  | .beats q => 0 < q
  | .ms q => 0 < q

end Alda.Spec
