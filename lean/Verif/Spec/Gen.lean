import Verif.Model.Score
/-!
The score updates that an AST can stand for, and that the importer builds. (For C31.)
-/
namespace Alda.Spec

/-- Durations are written with note lengths, milliseconds, seconds and barlines. -/
def ExpressibleDur (d : Dur) : Prop :=
  ∀ c ∈ d, match c with
    | .length _ _ | .ms _ | .seconds _ | .barline => True
    | .beats _ | .nested _ => False

/-- The dynamic markings of Alda. -/
def markings : List String :=
  ["pppppp", "ppppp", "pppp", "ppp", "pp", "p", "mp", "mf", "f", "ff", "fff", "ffff", "fffff", "ffffff"]

/-- A key signature that can be written as a string such as "f+ c+": the letters that it lists have one or more flats and sharps. -/
def ExpressibleKey (ks : KeySig) : Prop := ∀ l as, ks l = some as → as ≠ [] ∧ Accidental.natural ∉ as

/-- A leaf that can be written: a note with a letter, a rest, an octave, a dynamic marking or a key signature. -/
def ExpressibleLeaf : Leaf → Prop
  | .note (.letter _ acc) d _ => acc ≠ some [] ∧ ExpressibleDur d
  | .note (.midi _) _ _ => False
  | .rest d => ExpressibleDur d
  | .attr (.octave _) | .attr .octaveUp | .attr .octaveDown => True
  | .attr (.dynamic m) => m ∈ markings
  | .attr (.keySignature ks) => ExpressibleKey ks
  | .attr _ => False
  | .globalAttr _ => False

mutual
/-- A lisp form that can be written: made from lists, numbers, strings, symbols and quotes. -/
def ExpressibleForm : LispForm → Prop
  | .list fs => ExpressibleForms fs
  | .quoted f => ExpressibleForm f
  | .num _ | .str _ | .sym _ => True
  | _ => False
/-- The same for lists. -/
def ExpressibleForms : List LispForm → Prop
  | [] => True
  | f :: fs => ExpressibleForm f ∧ ExpressibleForms fs
end

mutual
/-- An event that can be written. -/
def Expressible : Upd → Prop
  | .leaf l => ExpressibleLeaf l
  | .lisp fs => ExpressibleForms fs
  | .barline | .marker _ | .atMarker _ | .varRef _ => True
  | .chord es => es ≠ [] ∧ ExpressibleL false es
  | .cram es d => ExpressibleL false es ∧ ExpressibleDur d
  | .seq es => ExpressibleL false es
  | .rep e _ => Expressible e
  | .onReps rs e => rs ≠ [] ∧ Expressible e
  | .varDef _ es => ExpressibleL false es
  | .lispNil | .voice _ | .voiceEnd | .partDecl _ _ => False
/-- A list of events with voices that can be written. The flag tells whether a voice has been started; the voices end only after that. -/
def ExpressibleL : Bool → List Upd → Prop
  | _, [] => True
  | _, .voice _ :: us => ExpressibleL true us
  | inVoice, .voiceEnd :: us => inVoice = true ∧ ExpressibleL false us
  | inVoice, u :: us => Expressible u ∧ ExpressibleL inVoice us
end

/-- A whole score that can be written: events, then parts, each with at least one name. -/
inductive ExpressibleScore : List Upd → Prop where
  | events (us : List Upd) : ExpressibleL false us → ExpressibleScore us
  | part (us : List Upd) (names : List String) (alias : String) (rest : List Upd) :
    ExpressibleL false us → names ≠ [] → ExpressibleScore rest → ExpressibleScore (us ++ .partDecl names alias :: rest)

mutual
/-- There are no dynamic markings and no key signatures (other than lisp expressions). -/
def NoLispAttributes : Upd → Prop
  | .leaf (.attr (.dynamic _)) | .leaf (.attr (.keySignature _)) => False
  | .chord es | .cram es _ | .seq es | .varDef _ es => NoLispAttributesL es
  | .rep e _ | .onReps _ e => NoLispAttributes e
  | _ => True
/-- The same for lists. -/
def NoLispAttributesL : List Upd → Prop
  | [] => True
  | u :: us => NoLispAttributes u ∧ NoLispAttributesL us
end

/-- Ranging over a Go map visits each of its keys exactly once, in any order. -/
def AnyOrder (order : KeySig → List Letter) : Prop := ∀ ks, (order ks).Nodup ∧ ∀ l, l ∈ order ks ↔ ks l ≠ none

end Alda.Spec
