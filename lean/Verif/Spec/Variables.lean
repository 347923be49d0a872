import Verif.Model.Update
/-!
Variables: substitution of references by the events they stand for.
-/
namespace Alda.Spec

mutual
/-- Replace every reference to a variable by the sequence of events it stands for. -/
def expand (vars : String → Option (List Upd)) : Upd → Upd
  | .varRef n =>
    match vars n with
    | some es => .seq es
    | none => .varRef n
  | .chord es => .chord (expandL vars es)
  | .cram es d => .cram (expandL vars es) d
  | .seq es => .seq (expandL vars es)
  | .rep e n => .rep (expand vars e) n
  | .onReps rs e => .onReps rs (expand vars e)
  | .varDef n es => .varDef n (expandL vars es)
  | e => e
/-- The same for lists. -/
def expandL (vars : String → Option (List Upd)) : List Upd → List Upd
  | [] => []
  | e :: es => expand vars e :: expandL vars es
end

mutual
/-- The event mentions the variable. -/
def Mentions (v : String) : Upd → Prop
  | .varRef n => n = v
  | .chord es | .cram es _ | .seq es | .varDef _ es => MentionsL v es
  | .rep e _ | .onReps _ e => Mentions v e
  | _ => False
/-- The same for lists. -/
def MentionsL (v : String) : List Upd → Prop
  | [] => False
  | e :: es => Mentions v e ∨ MentionsL v es
end

mutual
/-- The event defines the variable, somewhere in it. -/
def Defines (v : String) : Upd → Prop
  | .varDef n es => n = v ∨ DefinesL v es
  | .chord es | .cram es _ | .seq es => DefinesL v es
  | .rep e _ | .onReps _ e => Defines v e
  | _ => False
/-- The same for lists. -/
def DefinesL (v : String) : List Upd → Prop
  | [] => False
  | e :: es => Defines v e ∨ DefinesL v es
end

/-- No stored value contains a definition of `v` (definitions inside a definition cannot be written in alda anyway). -/
def NoDef (v : String) (vars : String → Option (List Upd)) : Prop := ∀ n es, vars n = some es → ¬ DefinesL v es

/-- No lisp code directly in a chord. -/
def notLisp : Upd → Prop
  | .lisp _ => False
  | _ => True

mutual
/-- No chord in the event has lisp code as a member. -/
def ChordsPlain : Upd → Prop
  | .chord es => (∀ e ∈ es, notLisp e) ∧ ChordsPlainL es
  | .cram es _ | .seq es | .varDef _ es => ChordsPlainL es
  | .rep e _ | .onReps _ e => ChordsPlain e
  | _ => True
/-- The same for lists. -/
def ChordsPlainL : List Upd → Prop
  | [] => True
  | e :: es => ChordsPlain e ∧ ChordsPlainL es
end

/-- The score with other variables. -/
def withVars (s : Score) (vars : String → Option (List Upd)) : Score := { s with vars := vars }

end Alda.Spec
