import Verif.Model.Score
/-!
What is meant by attribute values in range, and by updates that can be written in Alda text.
-/
namespace Alda.Spec

/-- A fraction of the whole. -/
def Fraction (x : Rat) : Prop := 0 ≤ x ∧ x ≤ 1

/-- The attributes of a part are in range. -/
def InRange (p : Part) : Prop :=
  Fraction p.volume ∧ Fraction p.trackVolume ∧ Fraction p.panning ∧ 0 < p.tempo ∧ 0 ≤ p.quant

mutual
/-- Lisp forms that can be written: symbols, numbers, strings, lists, quoted forms. -/
def WrittenForm : LispForm → Prop
  | .sym _ => True
  | .num _ => True
  | .str _ => True
  | .quoted f => WrittenForm f
  | .list fs => WrittenForms fs
  | _ => False
/-- The same for lists. -/
def WrittenForms : List LispForm → Prop
  | [] => True
  | f :: fs => WrittenForm f ∧ WrittenForms fs
end

/-- Leaf updates that can be written: notes, rests and octave changes. All other attributes are changed by lisp code. -/
def WrittenLeaf : Leaf → Prop
  | .note _ _ _ => True
  | .rest _ => True
  | .attr (.octave _) => True
  | .attr .octaveUp => True
  | .attr .octaveDown => True
  | _ => False

mutual
/-- Updates that can be written. -/
def Written : Upd → Prop
  | .leaf l => WrittenLeaf l
  | .lisp fs => WrittenForms fs
  | .chord es => WrittenL es
  | .cram es _ => WrittenL es
  | .seq es => WrittenL es
  | .rep e _ => Written e
  | .onReps _ e => Written e
  | .varDef _ es => WrittenL es
  | _ => True
/-- The same for lists. -/
def WrittenL : List Upd → Prop
  | [] => True
  | e :: es => Written e ∧ WrittenL es
end

end Alda.Spec
