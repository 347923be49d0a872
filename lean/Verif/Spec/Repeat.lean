import Verif.Model.Update
/-!
Repeats: events without numbered endings, and scores that differ only in the number of the repetition that is being played.
-/
namespace Alda.Spec

mutual
/-- There is no numbered ending in the event. -/
def NoEndings : Upd → Prop
  | .onReps _ _ => False
  | .chord es | .cram es _ | .seq es | .varDef _ es => NoEndingsL es
  | .rep e _ => NoEndings e
  | _ => True
/-- The same for lists. -/
def NoEndingsL : List Upd → Prop
  | [] => True
  | e :: es => NoEndings e ∧ NoEndingsL es
end

/-- No variable contains a numbered ending. -/
def VarsNoEndings (s : Score) : Prop := ∀ n es, s.vars n = some es → NoEndingsL es

/-- The score with other repetition numbers. (They are only used to choose numbered endings.) -/
def withRepetitions (s : Score) (f : Nat → Int) : Score := { s with heap := fun i => { s.heap i with repetition := f i } }

/-! ### Numbered endings -/

/-- The repetition number is in one of the ranges. -/
def InRanges (ranges : List (Int × Int)) (r : Int) : Prop := ∃ x ∈ ranges, x.1 ≤ r ∧ r ≤ x.2

instance (ranges : List (Int × Int)) (r : Int) : Decidable (InRanges ranges r) := by unfold InRanges; infer_instance

mutual
/-- What is written if the endings are resolved for the `r`-th repetition: those for other repetitions are left out. -/
def resolve (r : Int) : Upd → List Upd
  | .onReps ranges e => if InRanges ranges r then resolve r e else []
  | .seq es => [.seq (resolveL r es)]
  | .cram es d => [.cram (resolveL r es) d]
  | e => [e]
/-- The same for lists. -/
def resolveL (r : Int) : List Upd → List Upd
  | [] => []
  | e :: es => resolve r e ++ resolveL r es
end

/-- The repetitions from the `r`-th on, `k` of them, written out. -/
def unroll (e : Upd) : Nat → Int → List Upd
  | 0, _ => []
  | k + 1, r => resolve r e ++ unroll e k (r + 1)

mutual
/-- Numbered endings occur in sequences, crams and other numbered endings only. -/
def Endings : Upd → Prop
  | .onReps _ e => Endings e
  | .seq es | .cram es _ => EndingsL es
  | .chord es | .varDef _ es => NoEndingsL es
  | .rep e _ => NoEndings e
  | _ => True
/-- The same for lists. -/
def EndingsL : List Upd → Prop
  | [] => True
  | e :: es => Endings e ∧ EndingsL es
end

mutual
/-- There is no repeat, voice or part declaration in the event. -/
def Steady : Upd → Prop
  | .rep _ _ | .voice _ | .voiceEnd | .partDecl _ _ => False
  | .chord es | .cram es _ | .seq es | .varDef _ es => SteadyL es
  | .onReps _ e => Steady e
  | _ => True
/-- The same for lists. -/
def SteadyL : List Upd → Prop
  | [] => True
  | e :: es => Steady e ∧ SteadyL es
end

/-- No variable contains a repeat, voice or part declaration. -/
def VarsSteady (s : Score) : Prop := ∀ n es, s.vars n = some es → SteadyL es

end Alda.Spec
