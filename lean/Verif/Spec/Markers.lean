import Verif.Model.Update
/-!
Which events place a marker.
-/
namespace Alda.Spec

mutual
/-- The event places the marker, somewhere in it. -/
def Places (m : String) : Upd → Prop
  | .marker n => n = m
  | .chord es | .cram es _ | .seq es | .varDef _ es => PlacesL m es
  | .rep e _ | .onReps _ e => Places m e
  | _ => False
/-- The same for lists. -/
def PlacesL (m : String) : List Upd → Prop
  | [] => False
  | e :: es => Places m e ∨ PlacesL m es
end

/-- No variable contains events that place the marker. -/
def NoPlace (m : String) (vars : String → Option (List Upd)) : Prop := ∀ n es, vars n = some es → ¬ PlacesL m es

end Alda.Spec
