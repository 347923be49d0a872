import Verif.Parse.Gen
/-!
Model of `client/parser/format.go`: the text of an AST. Texts are lists of characters. An error stops the formatter before anything is
written to its destination (format.go:743-755), so only the output of a successful run is kept.
-/
namespace Alda
namespace Syn

/-! ### Numbers (Go standard library) -/

/-- A digit as a character. -/
def digitChar (n : Nat) : Char := Char.ofNat ('0'.toNat + n)

/-- The decimal digits of a natural number, with enough fuel. -/
def natDigitsFrom : Nat → Nat → List Char
  | 0, n => [digitChar (n % 10)]
  | fuel + 1, n => if n < 10 then [digitChar n] else natDigitsFrom fuel (n / 10) ++ [digitChar (n % 10)]

/-- `fmt.Sprintf("%d", n)` for a natural number. -/
def natDigits (n : Nat) : List Char := natDigitsFrom n n

/-- `fmt.Sprintf("%d", n)`. -/
def intDigits (n : Int) : List Char := if n < 0 then '-' :: natDigits n.natAbs else natDigits n.natAbs

/-- The digits of a number below 1 after the decimal point: at most so many. -/
def fracDigits : Nat → Rat → List Char
  | 0, _ => []
  | k + 1, x => if x = 0 then [] else digitChar (10 * x).floor.toNat :: fracDigits k (10 * x - (10 * x).floor)

/-- `strconv.FormatFloat(x, 'f', -1, 64)` for a number that is not negative: the shortest text that reads as `x`. The model's numbers are exact; for
a number that has a decimal expansion, this is that expansion. (A number whose denominator is not a divisor of a power of ten is not the value of any source
text; for it the model gives as many digits as the denominator says.) -/
def formatUnsigned (x : Rat) : List Char :=
  let whole := natDigits x.floor.toNat
  let frac := fracDigits x.den (x - x.floor)
  if frac.isEmpty then whole else whole ++ '.' :: frac

/-- `strconv.FormatFloat(x, 'f', -1, 64)`. -/
def formatFloat (x : Rat) : List Char := if x < 0 then '-' :: formatUnsigned (-x) else formatUnsigned x

/-! ### The formatter's state -/

/-- `varDefState`, client/parser/format.go:11-17. -/
inductive VarDefState where
  | none
  | defining
  | lastNode
deriving DecidableEq, Repr

/-- `formatter`, client/parser/format.go:19-26. -/
structure Fmt where
  softWrapLen : Int
  indentText : List Char
  varDef : VarDefState
  indentLevel : Int
  texts : List (List Char)
  out : List Char

/-- `newFormatter`, client/parser/format.go:42-57, with both options given. -/
def newFormatter (softWrapLen : Int) (indentText : List Char) : Fmt :=
  { softWrapLen := softWrapLen, indentText := indentText, varDef := .none, indentLevel := 0, texts := [], out := [] }

/-- `strings.Repeat` (Go standard library): panics if the count is negative. -/
def repeatText (text : List Char) (count : Int) : Except Err (List Char) :=
  if count < 0 then .error (.panic "strings: negative Repeat count") else .ok (List.replicate count.toNat text).flatten

/-- `len(text)`: the number of bytes. -/
def byteLength (text : List Char) : Nat := (text.map Char.utf8Size).sum

/-- `line`, client/parser/format.go:60-68. -/
def Fmt.line (f : Fmt) : Except Err (List Char) :=
  let text := joinSpace f.texts
  if text.isEmpty then .ok text
  else do return (← repeatText f.indentText f.indentLevel) ++ text

/-- `flush`, client/parser/format.go:79-84. -/
def Fmt.flush (f : Fmt) : Except Err Fmt :=
  if f.texts ≠ [] ∧ f.varDef = .none then do
    return { f with out := f.out ++ ((← f.line) ++ ['\n']), texts := [] }
  else .ok f

/-- `emptyLine`, client/parser/format.go:71-76. -/
def Fmt.emptyLine (f : Fmt) : Except Err Fmt :=
  if f.varDef = .none then do
    let f ← f.flush
    return { f with out := f.out ++ ['\n'] }
  else .ok f

/-- `indent`, client/parser/format.go:87-98. -/
def Fmt.indent (f : Fmt) : Except Err Fmt :=
  match f.varDef with
  | .defining => .ok f
  | _ => do
    let f ← { f with varDef := .none }.flush
    return { f with indentLevel := f.indentLevel + 1 }

/-- `unindent`, client/parser/format.go:102-107. -/
def Fmt.unindent (f : Fmt) : Except Err Fmt :=
  if f.varDef = .none then do
    let f ← f.flush
    return { f with indentLevel := f.indentLevel - 1 }
  else .ok f

/-- `write`, client/parser/format.go:111-118. -/
def Fmt.write (text : List Char) (f : Fmt) : Except Err Fmt := do
  let longer := { f with texts := f.texts ++ [text] }
  let line ← longer.line
  if (byteLength line : Int) > f.softWrapLen ∧ f.varDef = .none then do
    let f ← f.flush
    return { f with texts := f.texts ++ [text] }
  else return longer

/-! ### Nodes -/

/-- The tie before every length but the first, client/parser/format.go:148-150, 181-183, 193-195. -/
def tieText (shouldTie : Bool) : List Char := if shouldTie then ['~'] else []

/-- The text of a length, client/parser/format.go:152-203. -/
def lengthText (n : Node) : Except Err (List Char) :=
  match n with
  | .mk .noteLength _ (d :: more) =>
    if more.length > 1 then .error badNode
    else do
      let d ← d.expect .denominator
      let dots ← (match more with
        | [] => pure 0
        | m :: _ => do (← m.expect .dots).lit.asInt)
      return formatFloat (← d.lit.asNum) ++ (← repeatText ['.'] dots)
  | .mk .noteLength _ [] => .error badNode
  | .mk .noteLengthMs l _ => do return formatFloat (← l.asNum) ++ ['m', 's']
  | .mk .noteLengthSeconds l _ => do return formatFloat (← l.asNum) ++ ['s']
  | _ => .error badNode

/-- The loop of `formatWithDuration`, client/parser/format.go:125-212, with the text so far. -/
def fmtDuration (post : List Char) : List Node → List Char → Bool → Fmt → Except Err Fmt
  | [], text, _, f => if text.isEmpty then .ok f else f.write (text ++ post)
  | n :: ns, text, shouldTie, f =>
    if n.type = .barline then do
      let text := if ns.isEmpty then text ++ post else text
      let f ← (if text.isEmpty then .ok f else f.write text)
      let f ← f.write ['|']
      fmtDuration post ns [] shouldTie f
    else do
      let length ← lengthText n
      fmtDuration post ns (text ++ tieText shouldTie ++ length) true f

mutual
/-- `lispString`, client/parser/format.go:319-371. The index of a quoted form's child is checked (a panic in Go). -/
def lispText : Node → Except Err (List Char)
  | .mk t l cs =>
    match t with
    | .lispList => do return '(' :: (joinSpace (← lispTexts cs) ++ [')'])
    | .lispNumber =>
      match l with
      | .num q => .ok (formatFloat q)
      | .int n => .ok (intDigits n)
      | _ => .error badNode
    | .lispQuotedForm =>
      match cs with
      | [] => .error outOfRange
      | c :: _ => do return '\'' :: (← lispText c)
    | .lispString => do return '"' :: ((← l.asStr).toList ++ ['"'])
    | .lispSymbol => do return (← l.asStr).toList
    | _ => .error badNode
/-- The loop over the elements of a list, client/parser/format.go:330-339. -/
def lispTexts : List Node → Except Err (List (List Char))
  | [] => .ok []
  | c :: cs => do
    let t ← lispText c
    return t :: (← lispTexts cs)
end

/-- The accidentals of a note, client/parser/format.go:415-431. -/
def accidentalTexts : List Node → Except Err (List Char)
  | [] => .ok []
  | n :: ns => do
    let c ← (match n.type with
      | .flat => pure '-'
      | .natural => pure '_'
      | .sharp => pure '+'
      | _ => throw badNode)
    return c :: (← accidentalTexts ns)

/-- The pitch of a note, client/parser/format.go:389-432. -/
def pitchText (laa : Node) : Except Err (List Char) := do
  let laa ← laa.expect .noteLetterAndAccidentals
  match laa.children with
  | [] => throw badNode
  | l :: more =>
    let c ← (← l.expect .noteLetter).lit.asChr
    match more with
    | [] => return [c]
    | a :: _ => return c :: (← accidentalTexts (← a.expect .noteAccidentals).children)

/-- A note, client/parser/format.go:384-450. -/
def fmtNote (cs : List Node) (f : Fmt) : Except Err Fmt :=
  match cs with
  | [] => .error badNode
  | laa :: more =>
    if more.length > 2 then .error badNode
    else do
      let pitch ← pitchText laa
      let slur : List Char := if more.any (fun c => c.type == .tie) then ['~'] else []
      match more with
      | d :: _ => if d.type = .duration then fmtDuration slur d.children pitch false f else f.write (pitch ++ slur)
      | [] => f.write (pitch ++ slur)

/-- `strings.Join` with a separator of one character (Go standard library). -/
def joinWith (sep : Char) : List (List Char) → List Char
  | [] => []
  | [w] => w
  | w :: ws => w ++ sep :: joinWith sep ws

/-- The ranges of repetitions, client/parser/format.go:485-518. -/
def rangeTexts : List Node → Except Err (List (List Char))
  | [] => .ok []
  | r :: rs => do
    let r ← r.expect .repetitionRange
    match r.children with
    | [a, b] =>
      let first ← (← a.expect .firstRepetition).lit.asInt
      let last ← (← b.expect .lastRepetition).lit.asInt
      let text := if first = last then intDigits first else intDigits first ++ '-' :: intDigits last
      return text :: (← rangeTexts rs)
    | _ => throw badNode

/-- A rest, client/parser/format.go:521-535. -/
def fmtRest (cs : List Node) (f : Fmt) : Except Err Fmt :=
  match cs with
  | [] => f.write ['r']
  | d :: _ => do fmtDuration [] (← d.expect .duration).children ['r'] false f

/-- The end of a cram, client/parser/format.go:288-300. -/
def fmtCramEnd (ds : List Node) (f : Fmt) : Except Err Fmt :=
  match ds with
  | [] => f.write ['}']
  | d :: _ => do fmtDuration [] (← d.expect .duration).children ['}'] false f

/-- `child.Type == NoteNode || child.Type == RestNode`, client/parser/format.go:253, 264. -/
def isNoteNode (n : Node) : Bool := n.type == .note || n.type == .rest

mutual
/-- The body of the loop of `formatInnerEvents`, client/parser/format.go:221-641. -/
def fmtEvent : Node → Fmt → Except Err Fmt
  | .mk t l cs, f =>
    match t with
    | .atMarker => do f.write ('@' :: (← l.asStr).toList)
    | .barline => f.write ['|']
    | .chord => if cs.isEmpty then .error badNode else fmtChord cs f
    | .cram =>
      match cs with
      | .mk t _ es :: ds =>
        if ds.length > 1 then .error badNode
        else if t ≠ .eventSequence then .error badNode
        else do
          let f ← f.write ['{']
          let f ← fmtEvents es f
          fmtCramEnd ds f
      | [] => .error badNode
    | .eventSequence => do
      let f ← f.flush
      let f ← f.write ['[']
      let f ← f.indent
      let f ← fmtEvents cs f
      let f ← f.unindent
      f.write [']']
    | .lispList => do f.write (← lispText (.mk t l cs))
    | .marker => do f.write ('%' :: (← l.asStr).toList)
    | .note => fmtNote cs f
    | .octaveDown => f.write ['<']
    | .octaveSet => do f.write ('o' :: intDigits (← l.asInt))
    | .octaveUp => f.write ['>']
    | .repeat =>
      match cs with
      | [e, n] => do
        let f ← fmtEvent e f
        let times ← (← n.expect .times).lit.asInt
        f.write ('*' :: intDigits times)
      | _ => .error badNode
    | .onRepetitions =>
      match cs with
      | [e, r] => do
        let f ← fmtEvent e f
        let ranges ← rangeTexts (← r.expect .repetitions).children
        f.write ('\'' :: joinWith ',' ranges)
      | _ => .error badNode
    | .rest => fmtRest cs f
    | .variableDefinition =>
      match cs with
      | [n, .mk t _ es] => do
        let f ← f.flush
        let name ← (← n.expect .variableName).lit.asStr
        let f ← { f with varDef := .defining }.write (name.toList ++ [' ', '='])
        if t ≠ .eventSequence then throw badNode
        else
          let f ← fmtDefinition es f
          { f with varDef := .none }.flush
      | _ => .error badNode
    | .variableReference => do f.write (← l.asStr).toList
    | .voiceGroupEndMarker => f.write ['V', '0', ':']
    | .voiceGroup => do fmtEvents cs (← f.flush)
    | .voice =>
      match cs with
      | [n, .mk t _ es] => do
        let number ← (← n.expect .voiceNumber).lit.asInt
        let f ← f.write ('V' :: (intDigits number ++ [':']))
        let f ← f.indent
        if t ≠ .eventSequence then throw badNode
        else
          let f ← fmtEvents es f
          f.unindent
      | _ => .error badNode
    | _ => .error badNode
/-- `formatInnerEvents`, client/parser/format.go:218-645. -/
def fmtEvents : List Node → Fmt → Except Err Fmt
  | [], f => .ok f
  | n :: ns, f => do
    let f ← fmtEvent n f
    fmtEvents ns f
/-- The notes of a chord and what is between them, client/parser/format.go:251-270: a separator after each note or rest that is not
the last one. -/
def fmtChord : List Node → Fmt → Except Err Fmt
  | [], f => .ok f
  | n :: ns, f => do
    let f ← fmtEvent n f
    let f ← (if isNoteNode n && ns.any isNoteNode then f.write ['/'] else .ok f)
    fmtChord ns f
/-- The events of a variable definition, client/parser/format.go:568-584. -/
def fmtDefinition : List Node → Fmt → Except Err Fmt
  | [], f => .ok f
  | [n], f => fmtEvent n { f with varDef := .lastNode }
  | n :: ns, f => do
    let f ← fmtEvent n f
    fmtDefinition ns f
end

/-- The names of a part, client/parser/format.go:688-698. -/
def partNameTexts : List Node → Except Err (List (List Char))
  | [] => .ok []
  | n :: ns => do
    let s ← (← n.expect .partName).lit.asStr
    return s.toList :: (← partNameTexts ns)

/-- The text of a part declaration, client/parser/format.go:671-720. -/
def declarationText (decl : Node) : Except Err (List Char) := do
  let decl ← decl.expect .partDeclaration
  match decl.children with
  | [] => throw badNode
  | names :: more =>
    if more.length > 1 then throw badNode
    else
      let names ← names.expect .partNames
      if names.children.isEmpty then throw badNode
      else
        let text := joinWith '/' (← partNameTexts names.children)
        match more with
        | [] => return text ++ [':']
        | a :: _ =>
          let alias ← (← a.expect .partAlias).lit.asStr
          return text ++ ' ' :: '"' :: (alias.toList ++ ['"', ':'])

/-- One part of `formatTopLevel`, client/parser/format.go:650-737. A child of another type is passed over. -/
def fmtPart (part : Node) (f : Fmt) : Except Err Fmt :=
  match part.type with
  | .implicitPart =>
    match part.children with
    | [e] => do fmtEvents (← e.expect .eventSequence).children f
    | _ => .error badNode
  | .part =>
    match part.children with
    | [d, e] => do
      let f ← f.write (← declarationText d)
      let f ← f.indent
      let f ← fmtEvents (← e.expect .eventSequence).children f
      f.unindent
    | _ => .error badNode
  | _ => .ok f

/-- `formatTopLevel`, client/parser/format.go:648-741. -/
def fmtParts : List Node → Fmt → Except Err Fmt
  | [], f => .ok f
  | n :: ns, f => do
    let f ← fmtPart n f
    let f ← f.flush
    let f ← (if ns.isEmpty then .ok f else f.emptyLine)
    fmtParts ns f

/-- `FormatASTToCode`, client/parser/format.go:746-755. -/
def format (softWrapLen : Int) (indentText : List Char) (root : Node) : Except Err (List Char) := do
  let f ← fmtParts root.children (newFormatter softWrapLen indentText)
  return f.out

end Syn
end Alda
