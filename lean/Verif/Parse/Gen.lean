import Verif.Parse.Ast
/-!
Model of `client/parser/gen.go`: an AST for given score updates, and of `KeySignature.String`, client/model/key.go:49-73.
-/
namespace Alda
namespace Syn

/-- `fmt.Errorf("unexpected … during AST generation")`, gen.go:51, 123, 196, 243 and 318. -/
def genErr : Err := .user "unexpected update during AST generation"

/-- `rune(letter + 'a')`, gen.go:219 and key.go:54. -/
def letterChar : Letter → Char
  | .A => 'a' | .B => 'b' | .C => 'c' | .D => 'd' | .E => 'e' | .F => 'f' | .G => 'g'

/-- The character of an accidental, client/model/key.go:57-64. -/
def accidentalChar : Accidental → Char
  | .flat => '-' | .natural => '_' | .sharp => '+'

/-- The order in which Go ranges over the entries of a key signature. It is arbitrary, and may differ from call to call; in the
model it is a parameter, and may depend on the key signature. -/
abbrev MapOrder := KeySig → List Letter

/-- One letter with its accidentals, client/model/key.go:53-66. -/
def keyEntry (ks : KeySig) (l : Letter) : List Char := letterChar l :: (ks.read l).map accidentalChar

/-- `strings.Join` with a space (Go standard library). -/
def joinSpace : List (List Char) → List Char
  | [] => []
  | [w] => w
  | w :: ws => w ++ ' ' :: joinSpace ws

/-- `KeySignature.String`, client/model/key.go:49-73. -/
def keyString (order : MapOrder) (ks : KeySig) : String := String.ofList (joinSpace ((order ks).map (keyEntry ks)))

/-- One component of a duration, gen.go:17-54. -/
def genComponent : DurComp → Except Err Node
  | .barline => .ok (.mk .barline .none [])
  | .length d dots =>
    .ok (.mk .noteLength .none (.mk .denominator (.num d) [] :: (if dots > 0 then [.mk .dots (.int dots) []] else [])))
  | .ms q => .ok (.mk .noteLengthMs (.num q) [])
  | .seconds q => .ok (.mk .noteLengthSeconds (.num q) [])
  | .beats _ => .error genErr
  | .nested _ => .error genErr

/-- The loop of `withDuration`, gen.go:17-56. -/
def genComponents : Dur → Except Err (List Node)
  | [] => .ok []
  | c :: cs => do
    let n ← genComponent c
    return n :: (← genComponents cs)

/-- What `withDuration` appends, gen.go:10-60: nothing, or a duration. -/
def genDuration (d : Dur) : Except Err (List Node) :=
  if d.isEmpty then .ok []
  else do return [.mk .duration .none (← genComponents d)]

mutual
/-- `lispFormToNode`, gen.go:164-202. -/
def genForm : LispForm → Except Err Node
  | .list fs => do return .mk .lispList .none (← genForms fs)
  | .num q => .ok (.mk .lispNumber (.num q) [])
  | .quoted f => do return .mk .lispQuotedForm .none [← genForm f]
  | .str s => .ok (.mk .lispString (.str s) [])
  | .sym s => .ok (.mk .lispSymbol (.str s) [])
  | _ => .error genErr
/-- The loop over the elements of a list, gen.go:169-176. -/
def genForms : List LispForm → Except Err (List Node)
  | [] => .ok []
  | f :: fs => do
    let n ← genForm f
    return n :: (← genForms fs)
end

/-- The node of an accidental, gen.go:225-232. -/
def genAccidental : Accidental → Node
  | .flat => .mk .flat .none []
  | .natural => .mk .natural .none []
  | .sharp => .mk .sharp .none []

/-- The pitch of a note, gen.go:212-248. A nil slice of accidentals and an empty one look the same. -/
def genPitch : Pitch → Except Err Node
  | .letter l acc =>
    .ok (.mk .noteLetterAndAccidentals .none (.mk .noteLetter (.chr (letterChar l)) [] ::
      (if (acc.getD []).isEmpty then [] else [.mk .noteAccidentals .none ((acc.getD []).map genAccidental)])))
  | .midi _ => .error genErr

/-- The ranges of an `OnRepetitionsNode`, gen.go:269-278. -/
def genRanges (rs : List (Int × Int)) : Node :=
  .mk .repetitions .none (rs.map fun r =>
    .mk .repetitionRange .none [.mk .firstRepetition (.int r.1) [], .mk .lastRepetition (.int r.2) []])

/-- An attribute update, gen.go:73-128. The literal of `transpose` is an `int32`. -/
def genAttribute (order : MapOrder) : PartUpd → Except Err Node
  | .octave n => .ok (.mk .octaveSet (.int n) [])
  | .octaveUp => .ok (.mk .octaveUp .none [])
  | .octaveDown => .ok (.mk .octaveDown .none [])
  | .dynamic m => .ok (.mk .lispList .none [.mk .lispSymbol (.str m) []])
  | .keySignature ks =>
    .ok (.mk .lispList .none [.mk .lispSymbol (.str "key-signature") [], .mk .lispString (.str (keyString order ks)) []])
  | .transposition n => .ok (.mk .lispList .none [.mk .lispSymbol (.str "transpose") [], .mk .lispNumber (.int n) []])
  | _ => .error genErr

/-- The voice group under construction in `mapInnerEvents`, gen.go:332: its nodes before the last voice, and that voice's number and
events. -/
structure Group where
  before : List Node
  number : Int
  events : List Node

/-- The nodes of a group, gen.go:342-348. -/
def Group.nodes (g : Group) : List Node :=
  g.before ++ [.mk .voice .none [.mk .voiceNumber (.int g.number) [], .mk .eventSequence .none g.events]]

/-- A finished or unfinished group as nodes, gen.go:368-370. -/
def closeGroup : Option Group → List Node
  | none => []
  | some g => [.mk .voiceGroup .none g.nodes]

/-- The nodes of the group so far, gen.go:339-341: none before the first voice. -/
def groupNodes : Option Group → List Node
  | none => []
  | some g => g.nodes

/-- Where an event goes, gen.go:358-363: into the last voice of the group, or beside the group. -/
def addNode (node : Node) : List Node × Option Group → List Node × Option Group
  | (dummy, none) => (dummy ++ [node], none)
  | (dummy, some g) => (dummy, some { g with events := g.events ++ [node] })

mutual
/-- `mapIsolatedUpdate`, gen.go:67-323. -/
def genUpd (order : MapOrder) : Upd → Except Err Node
  | .atMarker n => .ok (.mk .atMarker (.str n) [])
  | .leaf (.attr u) => genAttribute order u
  | .leaf (.globalAttr _) => .error genErr
  | .barline => .ok (.mk .barline .none [])
  | .chord es => do return .mk .chord .none (← genInner order es [] none)
  | .cram es d => do
    let children ← genInner order es [] none
    return .mk .cram .none (.mk .eventSequence .none children :: (← genDuration d))
  | .seq es => do return .mk .eventSequence .none (← genInner order es [] none)
  | .lisp fs => do return .mk .lispList .none (← genForms fs)
  | .marker n => .ok (.mk .marker (.str n) [])
  | .leaf (.note p d slurred) => do
    let laa ← genPitch p
    let duration ← genDuration d
    return .mk .note .none (laa :: duration ++ (if slurred then [.mk .tie .none []] else []))
  | .onReps rs e => do
    let node ← genUpd order e
    return .mk .onRepetitions .none [node, genRanges rs]
  | .rep e n => do
    let node ← genUpd order e
    return .mk .repeat .none [node, .mk .times (.int n) []]
  | .leaf (.rest d) => do return .mk .rest .none (← genDuration d)
  | .varDef n es => do
    let children ← genInner order es [] none
    return .mk .variableDefinition .none [.mk .variableName (.str n) [], .mk .eventSequence .none children]
  | .varRef n => .ok (.mk .variableReference (.str n) [])
  | .partDecl _ _ | .voice _ | .voiceEnd | .lispNil => .error genErr
/-- `mapInnerEvents`, gen.go:329-373, with the children of `dummyNode` so far and `currentVoiceGroup`. The end of a voice group where there
is none dereferences a nil pointer (351). -/
def genInner (order : MapOrder) : List Upd → List Node → Option Group → Except Err (List Node)
  | [], dummy, group => .ok (dummy ++ closeGroup group)
  | .voice n :: us, dummy, group =>
    genInner order us dummy (some ⟨groupNodes group, n, []⟩)
  | .voiceEnd :: us, dummy, group =>
    match group with
    | none => .error (.panic "nil pointer dereference")
    | some g => genInner order us (dummy ++ [.mk .voiceGroup .none (g.nodes ++ [.mk .voiceGroupEndMarker .none []])]) none
  | u :: us, dummy, group => do
    let node ← genUpd order u
    let r := addNode node (dummy, group)
    genInner order us r.1 r.2
end

/-- The updates before the first part declaration, and each declaration with the updates up to the next one: how `mapTopLevel`, gen.go:381-427,
divides the updates. -/
def splitParts : List Upd → List Upd × List (List String × String × List Upd)
  | [] => ([], [])
  | .partDecl names alias :: us =>
    let r := splitParts us
    ([], (names, alias, r.1) :: r.2)
  | u :: us =>
    let r := splitParts us
    (u :: r.1, r.2)

/-- One part of `mapTopLevel`, gen.go:384-416. -/
def genPart (order : MapOrder) (p : List String × String × List Upd) : Except Err Node := do
  let events ← genInner order p.2.2 [] none
  return .mk .part .none [
    .mk .partDeclaration .none (.mk .partNames .none (p.1.map fun n => .mk .partName (.str n) []) ::
      (if p.2.1.isEmpty then [] else [.mk .partAlias (.str p.2.1) []])),
    .mk .eventSequence .none events]

/-- The loop of `mapTopLevel`, gen.go:381-419: from the last part to the first. -/
def genParts (order : MapOrder) : List (List String × String × List Upd) → Except Err (List Node)
  | [] => .ok []
  | p :: ps => do
    let nodes ← genParts order ps
    return (← genPart order p) :: nodes

/-- `mapTopLevel` and `GenerateASTFromScoreUpdates`, gen.go:377-447. -/
def generate (order : MapOrder) (us : List Upd) : Except Err Node := do
  let r := splitParts us
  let parts ← genParts order r.2
  if r.1.isEmpty then return .mk .root .none parts
  else do
    let nodes ← genInner order r.1 [] none
    return .mk .root .none (.mk .implicitPart .none [.mk .eventSequence .none nodes] :: parts)

end Syn
end Alda
