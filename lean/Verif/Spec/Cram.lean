import Verif.Spec.Music
/-!
For which events the length of a cram is predicted correctly.
-/
namespace Alda.Spec

/-- A written duration with some length. -/
def properDur (d : Dur) : Bool := d.valid && !(atoms d).isEmpty

/-- A change of the tempo or of the default duration. -/
def timeKind (k : AttrKind) : Bool := decide (k ∈ [AttrKind.duration, AttrKind.tempo, AttrKind.metricModulation])

/-- Whether the default duration is known after a note, rest or attribute change, if it was known (`b`) before; `none`: it is needed but not known, or time
itself changes. -/
def settledLeaf (b : Bool) : Leaf → Option Bool
  | .note _ [] _ | .rest [] => if b then some true else none
  | .note _ (c :: cs) _ | .rest (c :: cs) => if properDur (c :: cs) then some true else none
  | .attr u => if timeKind u.kind then none else some b
  | .globalAttr _ => none

/-- A note or a rest. -/
def soundingB : Upd → Bool
  | .leaf (.note _ _ _) | .leaf (.rest _) => true
  | _ => false

/-- What may occur in a chord after its first member. -/
def memberB : Upd → Bool
  | .leaf (.note _ _ _) | .leaf (.rest _) | .barline => true
  | .leaf (.attr u) => !timeKind u.kind
  | _ => false

mutual
/-- There is no repeat in the event. -/
def noRep : Upd → Bool
  | .rep _ _ => false
  | .seq es | .chord es | .cram es _ => noRepL es
  | .onReps _ e => noRep e
  | _ => true
/-- The same for lists. -/
def noRepL : List Upd → Bool
  | [] => true
  | e :: es => noRep e && noRepL es
end

mutual
/-- The same for events. A cram with a written duration sets the default duration, which the prediction overlooks, so it is not known after it; the
next note or rest must have a written duration; and it overlooks that a repeat inside of it counts anew for numbered endings. Not covered: variables, voices, jumps to markers, global changes, changes of the tempo or the default duration. -/
def settled (b : Bool) : Upd → Option Bool
  | .leaf l => settledLeaf b l
  | .lisp es =>
    match lispUpdate es with
    | .ok none => some b
    | .ok (some l) => settledLeaf b l
    | .error _ => none
  | .lispNil | .barline | .marker _ => some b
  | .chord [] => none
  | .chord (e :: es) => if soundingB e && es.all memberB then settledL b (e :: es) else none
  | .cram es d =>
    match settledL true es with
    | none => none
    | some _ =>
      if noRepL es then
        match d with
        | [] => if b then some true else none
        | c :: cs => if properDur (c :: cs) then some false else none
      else none
  | .seq es => settledL b es
  | .rep e n =>
    match settled false e with
    | some b' => some (if n ≤ 0 then b else b')
    | none => if b && settled true e == some true then some true else none
  | .onReps _ e =>
    match settled b e with
    | some b' => some (b && b')
    | none => none
  | _ => none
/-- The same for lists. -/
def settledL (b : Bool) : List Upd → Option Bool
  | [] => some b
  | e :: es =>
    match settled b e with
    | none => none
    | some b' => settledL b' es
end

/-- The length of a cram with these events is predicted correctly. -/
def Predictable (es : List Upd) : Prop := settledL true es ≠ none

end Alda.Spec
