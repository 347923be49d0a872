import Verif.Spec.Grammar
/-!
Which programs of the grammar the parser is to accept. The grammar says nothing about where a variable's definition ends; in
the language, it goes on to the end of the line.
-/
namespace Alda.Spec
open Syn

/-- `[` or `{`. -/
def Opens (t : Token) : Prop := t.tok = .eventSeqOpen ∨ t.tok = .cramOpen

/-- `]` or `}`. -/
def Closes (t : Token) : Prop := t.tok = .eventSeqClose ∨ t.tok = .cramClose

/-- Tokens between which every bracket has its counterpart. -/
inductive Balanced : List Token → Prop where
  | nil : Balanced []
  | other (t : Token) (ts : List Token) : ¬ Opens t → ¬ Closes t → Balanced ts → Balanced (t :: ts)
  | pair (o c : Token) (ts us : List Token) : Opens o → Closes c → Balanced ts → Balanced us → Balanced (o :: ts ++ c :: us)

/-- The declaration of a part begins here. -/
def Declares (t : Token) (more : List Token) : Prop :=
  t.tok = .name ∧ ∃ u rest, more = u :: rest ∧ (u.tok = .colon ∨ u.tok = .separator ∨ ∃ a, u.tok = .alias a)

/-- Repetitions, as in `'1,3`. -/
def Reps (t : Token) : Prop := ∃ rs, t.tok = .repetitions rs

/-- On the line on which a variable's definition begins, there is no bracket that closes one from before the definition,
there are no repetitions for the definition, and no declaration of a part follows; and in a sequence no repetitions come
after a voice marker, unless they belong to a sequence within it. -/
structure Tidy (toks : List Token) : Prop where
  defs : ∀ pre n eq mid c post, toks = pre ++ n :: eq :: mid ++ c :: post → n.tok = .name → eq.tok = .equals → Balanced mid →
    (Closes c ∨ Reps c ∨ Declares c post) → c.pos.line ≠ n.pos.line
  voices : ∀ pre v k mid c post, toks = pre ++ v :: mid ++ c :: post → v.tok = .voiceMarker k → Balanced mid → ¬ Reps c

end Alda.Spec
