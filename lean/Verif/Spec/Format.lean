import Verif.Spec.Grammar
/-!
ASTs whose formatted text reads back as the same AST. Two things that the parser can produce are left out.
-/
namespace Alda.Spec
open Syn

/-- Whether the last node is a duration. -/
def lastIsDuration (cs : List Node) : Bool := cs.getLast?.any fun c => c.type == .duration

mutual
/-- Whether the text of the node ends with a note length, which would take a barline that follows it. -/
def endsInLength : Node → Bool
  | .mk t _ cs =>
    match t with
    | .note => lastIsDuration cs
    | .rest => lastIsDuration cs
    | .cram => lastIsDuration cs
    | .chord => lastEndsInLength cs
    | .variableDefinition =>
      match cs with
      | [_, .mk _ _ es] => lastEndsInLength es
      | _ => false
    | _ => false
/-- The same of the last of these nodes. -/
def lastEndsInLength : List Node → Bool
  | [] => false
  | [c] => endsInLength c
  | _ :: cs => lastEndsInLength cs
end

/-- Whether the text of the node begins with a barline. -/
def startsWithBarline : Node → Bool
  | .mk t _ cs =>
    match t with
    | .barline => true
    | .onRepetitions =>
      match cs with
      | c :: _ => startsWithBarline c
      | _ => false
    | _ => false

/-- No node that ends in a length is directly followed by one that starts with a barline. In an AST from the parser they can only do so after `*0`: the
two events of `c4*0 |` are written as `c4 |`, where the barline is part of the note's duration. -/
def Apart : List Node → Prop
  | a :: b :: cs => ¬ (endsInLength a = true ∧ startsWithBarline b = true) ∧ Apart (b :: cs)
  | _ => True

/-- Not a slurred note whose duration ends in a barline: `c4|~` is written as `c4~ |`. -/
def PlainSlur : Node → Prop
  | .mk .note _ cs => cs.getLast?.any (fun c => c.type == .tie) = true → ∀ d ∈ cs, d.type = .duration →
      d.children.getLast?.any (fun c => c.type == .barline) = false
  | _ => True

mutual
/-- Every node below, and this one, is of the kind that reads back as the same. -/
def Clean : Node → Prop
  | .mk t l cs => PlainSlur (.mk t l cs) ∧ Apart cs ∧ AllClean cs
def AllClean : List Node → Prop
  | [] => True
  | c :: cs => Clean c ∧ AllClean cs
end

end Alda.Spec
