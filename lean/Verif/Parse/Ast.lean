import Verif.Model.Score
/-!
Model of `client/parser/ast.go`: AST nodes and the score updates that they stand for. Source contexts are left out, and so
are the JSON and the human readable forms (ast.go:184-274).
-/
namespace Alda
namespace Syn

/-- `ASTNodeType`, client/parser/ast.go:13-67. -/
inductive NodeType where
  | atMarker | barline | chord | cram | denominator | dots | duration | eventSequence | firstRepetition | flat
  | implicitPart | lastRepetition | lispList | lispNumber | lispQuotedForm | lispString | lispSymbol | marker | natural
  | noteAccidentals | noteLengthMs | noteLength | noteLengthSeconds | noteLetterAndAccidentals | noteLetter | note
  | octaveDown | octaveSet | octaveUp | onRepetitions | partAlias | partDeclaration | partName | partNames | part
  | repeat | repetitionRange | repetitions | rest | root | sharp | tie | times | variableDefinition | variableName
  | variableReference | voice | voiceGroupEndMarker | voiceGroup | voiceNumber
deriving DecidableEq, Repr

/-- The dynamic types of `ASTNode.Literal` that occur: nil, `string`, `float64`, `int32`, `rune`. -/
inductive Lit where
  | none
  | str (s : String)
  | num (q : Rat)
  | int (n : Int)
  | chr (c : Char)
deriving DecidableEq, Repr

/-- `ASTNode`, client/parser/ast.go:69-74, without the source context. -/
inductive Node where
  | mk (type : NodeType) (lit : Lit) (children : List Node)
deriving Repr

def Node.type : Node → NodeType
  | .mk t _ _ => t

def Node.lit : Node → Lit
  | .mk _ l _ => l

def Node.children : Node → List Node
  | .mk _ _ cs => cs

/-- A failed type assertion `node.Literal.(T)` panics (Go language). -/
def Lit.asStr : Lit → Except Err String
  | .str s => .ok s
  | _ => .error (.panic "type assertion")

def Lit.asNum : Lit → Except Err Rat
  | .num q => .ok q
  | _ => .error (.panic "type assertion")

def Lit.asInt : Lit → Except Err Int
  | .int n => .ok n
  | _ => .error (.panic "type assertion")

def Lit.asChr : Lit → Except Err Char
  | .chr c => .ok c
  | _ => .error (.panic "type assertion")

/-- `expectChildren`, `expectNChildren`, `expectNodeType` and `errUnexpectedNodeChild`, client/parser/ast.go:276-318, fail
with a plain error. -/
def badNode : Err := .user "unexpected node"

/-- `expectNodeType`, client/parser/ast.go:301-311. -/
def Node.expect (n : Node) (t : NodeType) : Except Err Node :=
  if n.type = t then .ok n else .error badNode

/-- An index beyond a slice panics (Go language). -/
def outOfRange : Err := .panic "index out of range"

/-- One component of a duration, client/parser/ast.go:323-364. The number of dots in the model's durations is a natural
number; the scanner yields no negative ones up to 2^31 dots. -/
def durationComponent (n : Node) : Except Err DurComp :=
  match n.type with
  | .barline => .ok .barline
  | .noteLength =>
    match n.children with
    | [] => .error badNode
    | d :: more => do
      let d ← d.expect .denominator
      let dots ← (match more with
        | [] => pure 0
        | m :: _ => do (← m.expect .dots).lit.asInt)
      return .length (← d.lit.asNum) dots.toNat
  | .noteLengthMs => do return .ms (← n.lit.asNum)
  | .noteLengthSeconds => do return .seconds (← n.lit.asNum)
  | _ => .error badNode

/-- `duration`, client/parser/ast.go:320-368: the loop over the components. -/
def durationOf : List Node → Except Err Dur
  | [] => .ok []
  | n :: ns => do
    let c ← durationComponent n
    return c :: (← durationOf ns)

mutual
/-- `lispForm`, client/parser/ast.go:479-533. -/
def lispFormOf : Node → Except Err LispForm
  | .mk t l cs =>
    match t with
    | .lispList => do return .list (← lispFormsOf cs)
    | .lispNumber => do return .num (← l.asNum)
    | .lispQuotedForm =>
      match cs with
      | [c] => do return .quoted (← lispFormOf c)
      | _ => .error badNode
    | .lispString => do return .str (← l.asStr)
    | .lispSymbol => do return .sym (← l.asStr)
    | _ => .error badNode
/-- The loop over the elements of a list, client/parser/ast.go:485-492. -/
def lispFormsOf : List Node → Except Err (List LispForm)
  | [] => .ok []
  | c :: cs => do
    let f ← lispFormOf c
    return f :: (← lispFormsOf cs)
end

/-- The accidentals of a note, client/parser/ast.go:570-591. -/
def accidentalsOf : List Node → Except Err (List Accidental)
  | [] => .ok []
  | c :: cs => do
    let a ← (match c.type with
      | .flat => pure Accidental.flat
      | .natural => pure Accidental.natural
      | .sharp => pure Accidental.sharp
      | _ => throw badNode)
    return a :: (← accidentalsOf cs)

/-- The pitch of a note, client/parser/ast.go:555-592. Without accidentals the slice stays nil. -/
def pitchOf (laa : Node) : Except Err Pitch :=
  match laa.children with
  | [] => .error outOfRange
  | l :: more => do
    let l ← l.expect .noteLetter
    let c ← l.lit.asChr
    let letter ← (match newNoteLetter c with
      | some l => pure l
      | none => throw (.user "invalid note letter"))
    let accs ← (match more with
      | [] => pure []
      | a :: _ => do accidentalsOf (← a.expect .noteAccidentals).children)
    return .letter letter (if accs.isEmpty then none else some accs)

/-- The duration and the slur of a note, client/parser/ast.go:599-613. -/
def noteRest : List Node → Dur → Bool → Except Err (Dur × Bool)
  | [], d, s => .ok (d, s)
  | c :: cs, d, s =>
    match c.type with
    | .duration => do
      let d ← durationOf c.children
      noteRest cs d s
    | .tie => noteRest cs d true
    | _ => .error badNode

/-- The note of a `NoteNode`, client/parser/ast.go:550-616. -/
def noteOf (cs : List Node) : Except Err Upd :=
  match cs with
  | [] => .error badNode
  | laa :: more => do
    let laa ← laa.expect .noteLetterAndAccidentals
    let p ← pitchOf laa
    let (d, s) ← noteRest more [] false
    return .leaf (.note p d s)

/-- The ranges of an `OnRepetitionsNode`, client/parser/ast.go:676-697. -/
def rangesOf : List Node → Except Err (List (Int × Int))
  | [] => .ok []
  | r :: rs =>
    match r.children with
    | [a, b] => do
      let a ← a.expect .firstRepetition
      let b ← b.expect .lastRepetition
      let first ← a.lit.asInt
      let last ← b.lit.asInt
      return (first, last) :: (← rangesOf rs)
    | _ => .error badNode

/-- The names of a part declaration, client/parser/ast.go:727-734. -/
def namesOf : List Node → Except Err (List String)
  | [] => .ok []
  | n :: ns => do
    let n ← n.expect .partName
    let s ← n.lit.asStr
    return s :: (← namesOf ns)

/-- The declaration of a `PartNode`, client/parser/ast.go:712-745. -/
def declarationOf (decl : Node) : Except Err Upd := do
  let decl ← decl.expect .partDeclaration
  match decl.children with
  | [] => throw outOfRange
  | names :: more =>
    let names ← names.expect .partNames
    if names.children.isEmpty then throw badNode
    let ns ← namesOf names.children
    let alias ← (match more with
      | [] => pure ""
      | a :: _ => do (← a.expect .partAlias).lit.asStr)
    return .partDecl ns alias

/-- The single update, or all of them as a sequence, client/parser/ast.go:655-666 and 774-785. -/
def oneOrSeq : List Upd → Upd
  | [u] => u
  | us => .seq us

/-- The duration of a cram or a rest, client/parser/ast.go:438-449 and 802-813. -/
def optDuration (n : Node) : Except Err Dur := do
  durationOf (← n.expect .duration).children

mutual
/-- `Updates`, client/parser/ast.go:370-904. -/
def updatesOf : Node → Except Err (List Upd)
  | .mk t l cs =>
    match t with
    | .atMarker => do return [.atMarker (← l.asStr)]
    | .barline => .ok [.barline]
    | .chord => if cs.isEmpty then .error badNode else do return [.chord (← concatUpdates cs)]
    | .cram =>
      match cs with
      | [e] => do
        let es ← innerUpdates e .eventSequence
        return [.cram es []]
      | [e, d] => do
        let es ← innerUpdates e .eventSequence
        return [.cram es (← optDuration d)]
      | _ => .error badNode
    | .eventSequence => do return [.seq (← concatUpdates cs)]
    | .implicitPart =>
      match cs with
      | [e] => innerUpdates e .eventSequence
      | _ => .error badNode
    | .lispList => do return [.lisp (← lispFormsOf cs)]
    | .marker => do return [.marker (← l.asStr)]
    | .note => do return [← noteOf cs]
    | .octaveDown => .ok [.leaf (.attr .octaveDown)]
    | .octaveSet => do return [.leaf (.attr (.octave (← l.asInt)))]
    | .octaveUp => .ok [.leaf (.attr .octaveUp)]
    | .onRepetitions =>
      match cs with
      | [e, r] => do
        let us ← updatesOf e
        let r ← r.expect .repetitions
        if r.children.isEmpty then throw badNode
        return [.onReps (← rangesOf r.children) (oneOrSeq us)]
      | _ => .error badNode
    | .part =>
      match cs with
      | [d, e] => do
        let d ← declarationOf d
        let es ← innerUpdates e .eventSequence
        return d :: es
      | _ => .error badNode
    | .repeat =>
      match cs with
      | [e, n] => do
        let n ← n.expect .times
        let us ← updatesOf e
        return [.rep (oneOrSeq us) (← n.lit.asInt)]
      | _ => .error badNode
    | .rest =>
      match cs with
      | [] => .ok [.leaf (.rest [])]
      | [d] => do return [.leaf (.rest (← optDuration d))]
      | _ => .error badNode
    | .root => concatUpdates cs
    | .variableDefinition =>
      match cs with
      | [n, e] => do
        let n ← n.expect .variableName
        let name ← n.lit.asStr
        let es ← innerUpdates e .eventSequence
        return [.varDef name es]
      | _ => .error badNode
    | .variableReference => do return [.varRef (← l.asStr)]
    | .voiceGroup => concatUpdates cs
    | .voiceGroupEndMarker => .ok [.voiceEnd]
    | .voice =>
      match cs with
      | [n, e] => do
        let n ← n.expect .voiceNumber
        let es ← innerUpdates e .eventSequence
        return .voice (← n.lit.asInt) :: es
      | _ => .error badNode
    | _ => .error (.user "Updates() not implemented")
/-- `expectNodeType` followed by `concatChildUpdates` of that node. -/
def innerUpdates : Node → NodeType → Except Err (List Upd)
  | .mk t _ cs, expected => if t = expected then concatUpdates cs else .error badNode
/-- `concatChildUpdates`, client/parser/ast.go:371-384. -/
def concatUpdates : List Node → Except Err (List Upd)
  | [] => .ok []
  | c :: cs => do
    let us ← updatesOf c
    return us ++ (← concatUpdates cs)
end

end Syn
end Alda
