import Verif.Parse.Scanner
import Verif.Parse.Ast
/-!
Model of `client/parser/parser.go`. The parser's position is the list of tokens that are left; backtracking goes back to
an earlier list. The functions that "assume that the token was already consumed" are given that token where they need it.
Source contexts of nodes and logging are left out. Looking at a token beyond the end (an index out of range in Go) matches
nothing in the model, or is a panic in `unexpectedToken`; the scanner's tokens end with the end of the file, so it does
not happen (theorem `Syn.c30_partial`).
-/
namespace Alda
namespace Syn

/-- A parser's result: a value and the tokens left. -/
abbrev Parsed (α : Type) := Except SynErr (α × List Token)

/-- `unexpectedTokenError(p.peek(), context)`, client/parser/parser.go:99-123. The model's message is the context. -/
def unexpectedToken (context : String) : List Token → SynErr
  | [] => .panic "index out of range"
  | t :: _ => .at t.pos context

/-- A node without children. -/
def leafNode (t : NodeType) (l : Lit := .none) : Node := .mk t l []

/-- `p.match(SingleQuote)` in `lispList`, client/parser/parser.go:177. -/
def matchQuote : List Token → Bool × List Token
  | ⟨.singleQuote, _, _⟩ :: toks => (true, toks)
  | toks => (false, toks)

mutual
/-- `lispForm`, client/parser/parser.go:133-163. -/
def lispForm : Nat → List Token → Parsed Node
  | 0, _ => .error .unreachable
  | fuel + 1, toks =>
    match toks with
    | ⟨.symbol, text, _⟩ :: toks => .ok (leafNode .lispSymbol (.str (String.ofList text)), toks)
    | ⟨.number q, _, _⟩ :: toks => .ok (leafNode .lispNumber (.num q), toks)
    | ⟨.string s, _, _⟩ :: toks => .ok (leafNode .lispString (.str s), toks)
    | ⟨.leftParen, _, _⟩ :: toks =>
      match lispElements fuel toks with
      | .error e => .error e
      | .ok (forms, toks) => .ok (.mk .lispList .none forms, toks)
    | toks => .error (unexpectedToken "in S-expression" toks)
/-- The loop of `lispList`, client/parser/parser.go:165-200. -/
def lispElements : Nat → List Token → Parsed (List Node)
  | 0, _ => .error .unreachable
  | fuel + 1, toks =>
    match toks with
    | ⟨.rightParen, _, _⟩ :: toks => .ok ([], toks)
    | ⟨.eof, _, pos⟩ :: _ => .error (.at pos "unterminated S-expression")
    | toks =>
      let (quoted, toks) := matchQuote toks
      match lispForm fuel toks with
      | .error e => .error e
      | .ok (form, toks) =>
        match lispElements fuel toks with
        | .error e => .error e
        | .ok (forms, toks) =>
          .ok ((if quoted then .mk .lispQuotedForm .none [form] else form) :: forms, toks)
end

/-- `lispList`, client/parser/parser.go:165-200. Every step of the two functions reads a token or comes before one that
does. -/
def lispList (toks : List Token) : Parsed Node :=
  match lispElements (2 * toks.length + 1) toks with
  | .error e => .error e
  | .ok (forms, toks) => .ok (.mk .lispList .none forms, toks)

/-- `singleOrRepeated`, client/parser/parser.go:394-410. -/
def singleOrRepeated (node : Node) : List Token → Node × List Token
  | ⟨.repeat n, _, _⟩ :: toks => (.mk .repeat .none [node, leafNode .times (.int n)], toks)
  | toks => (node, toks)

/-- `sexp`, client/parser/parser.go:202-210. -/
def sexp (toks : List Token) : Parsed Node :=
  match lispList toks with
  | .error e => .error e
  | .ok (list, toks) => .ok (singleOrRepeated list toks)

/-- The loop over the names of `partDeclaration`, client/parser/parser.go:230-241. -/
def partNames : List Token → Parsed (List Node)
  | ⟨.separator, _, _⟩ :: ⟨.name, text, _⟩ :: toks =>
    match partNames toks with
    | .error e => .error e
    | .ok (names, toks) => .ok (leafNode .partName (.str (String.ofList text)) :: names, toks)
  | ⟨.separator, _, _⟩ :: toks => .error (unexpectedToken "in part declaration" toks)
  | toks => .ok ([], toks)

/-- The optional alias of `partDeclaration`, client/parser/parser.go:249-258. -/
def matchAlias : List Token → List Node × List Token
  | ⟨.alias a, _, _⟩ :: toks => ([leafNode .partAlias (.str a)], toks)
  | toks => ([], toks)

/-- `partDeclaration`, client/parser/parser.go:212-265. -/
def partDeclaration (name : Token) (toks : List Token) : Parsed Node :=
  match partNames toks with
  | .error e => .error e
  | .ok (names, toks) =>
    let names := .mk .partNames .none (leafNode .partName (.str (String.ofList name.text)) :: names)
    let (alias, toks) := matchAlias toks
    match toks with
    | ⟨.colon, _, _⟩ :: toks => .ok (.mk .partDeclaration .none (names :: alias), toks)
    | toks => .error (unexpectedToken "in part declaration" toks)

/-- `looksLikePartDeclaration`, client/parser/parser.go:267-278. -/
def looksLikePartDeclaration : List Token → Bool
  | ⟨.name, _, _⟩ :: t :: _ =>
    match t.tok with
    | .alias _ => true
    | .separator => true
    | .colon => true
    | _ => false
  | _ => false

/-- `matchDurationComponent` and `durationComponent`, client/parser/parser.go:445-492. -/
def matchDurationComponent : List Token → Option (Node × List Token)
  | ⟨.noteLength d dots, _, _⟩ :: toks =>
    some (.mk .noteLength .none (leafNode .denominator (.num d) ::
      (if dots > 0 then [leafNode .dots (.int dots)] else [])), toks)
  | ⟨.noteLengthMs q, _, _⟩ :: toks => some (leafNode .noteLengthMs (.num q), toks)
  | ⟨.noteLengthSeconds q, _, _⟩ :: toks => some (leafNode .noteLengthSeconds (.num q), toks)
  | _ => none

/-- The loops over barlines, client/parser/parser.go:516-522 and 540-546. -/
def matchBarlines : List Token → List Node × List Token
  | ⟨.barline, _, _⟩ :: toks =>
    let r := matchBarlines toks
    (leafNode .barline :: r.1, r.2)
  | toks => ([], toks)

/-- The loop over extra ties, client/parser/parser.go:551-555. -/
def matchTies : List Token → List Token
  | ⟨.tie, _, _⟩ :: toks => matchTies toks
  | toks => toks

/-- The loop of `duration`, client/parser/parser.go:514-563, after a component: the further components. Every round reads
a tie, so the number of tokens is enough fuel; with too little it would stop. -/
def durationLoop : Nat → List Token → List Node × List Token
  | 0, toks => ([], toks)
  | fuel + 1, toks =>
    let (barlines, beforeTies) := matchBarlines toks
    match beforeTies with
    | ⟨.tie, _, _⟩ :: toks =>
      let (more, toks) := matchBarlines toks
      match matchDurationComponent (matchTies toks) with
      | none => (barlines, beforeTies)
      | some (c, toks) =>
        let r := durationLoop fuel toks
        (barlines ++ more ++ c :: r.1, r.2)
    | _ => (barlines, beforeTies)

/-- An optional duration: `matchDurationComponent` and, if it matched, `duration`, client/parser/parser.go:494-564; used at
620-622, 643-645 and 914-916. -/
def optionalDuration (toks : List Token) : List Node × List Token :=
  match matchDurationComponent toks with
  | none => ([], toks)
  | some (c, toks) =>
    let r := durationLoop toks.length toks
    ([.mk .duration .none (c :: r.1)], r.2)

/-- The loop over accidentals of `note`, client/parser/parser.go:584-604. -/
def matchAccidentals : List Token → List Node × List Token
  | ⟨.flat, _, _⟩ :: toks => let r := matchAccidentals toks; (leafNode .flat :: r.1, r.2)
  | ⟨.natural, _, _⟩ :: toks => let r := matchAccidentals toks; (leafNode .natural :: r.1, r.2)
  | ⟨.sharp, _, _⟩ :: toks => let r := matchAccidentals toks; (leafNode .sharp :: r.1, r.2)
  | toks => ([], toks)

/-- The slur of `note`, client/parser/parser.go:624-629. -/
def matchSlur : List Token → List Node × List Token
  | ⟨.tie, _, _⟩ :: toks => ([leafNode .tie], toks)
  | toks => ([], toks)

/-- `note`, client/parser/parser.go:566-632. -/
def note (letter : Char) (toks : List Token) : Node × List Token :=
  let (accidentals, toks) := matchAccidentals toks
  let laa := .mk .noteLetterAndAccidentals .none (leafNode .noteLetter (.chr letter) ::
    (if accidentals.isEmpty then [] else [.mk .noteAccidentals .none accidentals]))
  let (duration, toks) := optionalDuration toks
  let (tie, toks) := matchSlur toks
  (.mk .note .none (laa :: duration ++ tie), toks)

/-- `rest`, client/parser/parser.go:634-648. -/
def rest (toks : List Token) : Node × List Token :=
  let (duration, toks) := optionalDuration toks
  (.mk .rest .none duration, toks)

/-- `match(NoteLetter, RestLetter)` followed by `noteOrRest`, client/parser/parser.go:650-660. -/
def noteOrRest : List Token → Option (Node × List Token)
  | ⟨.noteLetter c, _, _⟩ :: toks => some (note c toks)
  | ⟨.restLetter, _, _⟩ :: toks => some (rest toks)
  | _ => none

/-- `nodesBetweenNotesInChord`, client/parser/parser.go:662-692. Every round reads a token. -/
def nodesBetween : Nat → List Token → Parsed (List Node)
  | 0, _ => .error .unreachable
  | fuel + 1, toks =>
    let more (node : Node) (toks : List Token) : Parsed (List Node) :=
      match nodesBetween fuel toks with
      | .error e => .error e
      | .ok (nodes, toks) => .ok (node :: nodes, toks)
    match toks with
    | ⟨.octaveUp, _, _⟩ :: toks => more (leafNode .octaveUp) toks
    | ⟨.octaveDown, _, _⟩ :: toks => more (leafNode .octaveDown) toks
    | ⟨.octaveSet n, _, _⟩ :: toks => more (leafNode .octaveSet (.int n)) toks
    | ⟨.leftParen, _, _⟩ :: toks =>
      match lispList toks with
      | .error e => .error e
      | .ok (list, toks) => more list toks
    | toks => .ok ([], toks)

/-- The loop of `noteRestOrChord`, client/parser/parser.go:711-777, from a note or rest on: all nodes, and the times of a
repeat (0 if there is none, or if it says 0). -/
def chordLoop : Nat → List Token → Except SynErr (List Node × Int × List Token)
  | 0, _ => .error .unreachable
  | fuel + 1, toks =>
    match noteOrRest toks with
    | none => .error (unexpectedToken "in chord" toks)
    | some (node, toks) =>
      match toks with
      | ⟨.repeat n, _, _⟩ :: toks => .ok ([node], n, toks)
      | toks =>
        match nodesBetween (toks.length + 1) toks with
        | .error e => .error e
        | .ok (before, ⟨.separator, _, _⟩ :: toks) =>
          match nodesBetween (toks.length + 1) toks with
          | .error e => .error e
          | .ok (after, toks) =>
            match chordLoop fuel toks with
            | .error e => .error e
            | .ok (nodes, times, toks) => .ok (node :: before ++ after ++ nodes, times, toks)
        | .ok _ => .ok ([node], 0, toks)

/-- Whether a node counts as a note of a chord, client/parser/parser.go:779-785. -/
def isNoteOrRest (n : Node) : Bool := n.type == .note || n.type == .rest

/-- `noteRestOrChord`, client/parser/parser.go:694-816. -/
def noteRestOrChord (toks : List Token) : Parsed Node :=
  match chordLoop (toks.length + 1) toks with
  | .error e => .error e
  | .ok (nodes, times, toks) =>
    let nodes := if (nodes.filter isNoteOrRest).length > 1 then [.mk .chord .none nodes] else nodes
    if times > 0 then
      match nodes with
      | [node] => .ok (.mk .repeat .none [node, leafNode .times (.int times)], toks)
      | _ => .error (.panic "Expected a single node")
    else
      match nodes with
      | node :: _ => .ok (node, toks)
      | [] => .error (.panic "index out of range")

/-- The five loops over inner events. -/
inductive EventLoop where
  | part            -- partEvents, parser.go:280-298
  | varDef (line : Nat)  -- variableDefinition, parser.go:372-383
  | seq             -- eventSeq, parser.go:824-866
  | cram            -- cram, parser.go:887-897
  | voice           -- voice, parser.go:949-957
deriving DecidableEq

/-- Whether the loop is left, and with which tokens: client/parser/parser.go:288 (part), 372-375 (variable), 824-827 and 868
(sequence), 887-890 and 899 (cram), 949-950 (voice). -/
def EventLoop.stop : EventLoop → List Token → Except SynErr (Option (List Token))
  | .part, toks => .ok (match toks with
      | ⟨.eof, _, _⟩ :: _ => some toks
      | _ => if looksLikePartDeclaration toks then some toks else none)
  | .varDef line, toks => .ok (match toks with
      | ⟨.eof, _, _⟩ :: _ => some toks
      | t :: _ => if t.pos.line = line then none else some toks
      | [] => none)
  | .seq, toks =>
    match toks with
    | ⟨.eventSeqClose, _, _⟩ :: toks => .ok (some toks)
    | ⟨.eof, _, pos⟩ :: _ => .error (.at pos "unterminated event sequence")
    | _ => .ok none
  | .cram, toks =>
    match toks with
    | ⟨.cramClose, _, _⟩ :: toks => .ok (some toks)
    | ⟨.eof, _, pos⟩ :: _ => .error (.at pos "unterminated cram expression")
    | _ => .ok none
  | .voice, toks => .ok (match toks with
      | ⟨.eof, _, _⟩ :: _ => some toks
      | ⟨.voiceMarker _, _, _⟩ :: _ => some toks
      | ⟨.eventSeqClose, _, _⟩ :: _ => some toks
      | ⟨.cramClose, _, _⟩ :: _ => some toks
      | _ => if looksLikePartDeclaration toks then some toks else none)

/-- An event of a sequence may be followed by repetitions, client/parser/parser.go:834-863. -/
def withRepetitions (node : Node) : List Token → Node × List Token
  | ⟨.repetitions ranges, _, _⟩ :: toks =>
    (.mk .onRepetitions .none [node, .mk .repetitions .none (ranges.map fun r =>
      .mk .repetitionRange .none [leafNode .firstRepetition (.int r.1), leafNode .lastRepetition (.int r.2)])], toks)
  | toks => (node, toks)

/-- What a loop makes of an event that has just been read: only `eventSeq` looks for repetitions. -/
def EventLoop.decorate : EventLoop → Node → List Token → Node × List Token
  | .seq, node, toks => withRepetitions node toks
  | _, node, toks => (node, toks)

mutual
/-- `innerEvent`, client/parser/parser.go:1002-1069, with `variableDefinitionOrReference` (425-432), `variableReference`
(412-423), `variableDefinition` (340-392), `octaveSet` (434-443), `eventSeq` (818-879) and `cram` (881-920). -/
def innerEvent : Nat → List Token → Parsed Node
  | 0, _ => .error .unreachable
  | fuel + 1, toks =>
    match toks with
    | ⟨.leftParen, _, _⟩ :: toks => sexp toks
    | ⟨.name, text, pos⟩ :: ⟨.equals, _, _⟩ :: toks =>
      match toks with
      | [] => .error (.panic "index out of range")
      | t :: _ =>
        if t.tok = .eof ∨ t.pos.line > pos.line then
          .error (.at pos "there must be at least one event on the same line as the '='")
        else
          match events fuel (.varDef pos.line) toks with
          | .error e => .error e
          | .ok (nodes, toks) =>
            .ok (.mk .variableDefinition .none
              [leafNode .variableName (.str (String.ofList text)), .mk .eventSequence .none nodes], toks)
    | ⟨.name, text, _⟩ :: toks =>
      .ok (singleOrRepeated (leafNode .variableReference (.str (String.ofList text))) toks)
    | ⟨.octaveSet n, _, _⟩ :: toks => .ok (leafNode .octaveSet (.int n), toks)
    | ⟨.octaveUp, _, _⟩ :: toks => .ok (leafNode .octaveUp, toks)
    | ⟨.octaveDown, _, _⟩ :: toks => .ok (leafNode .octaveDown, toks)
    | ⟨.noteLetter _, _, _⟩ :: _ => noteRestOrChord toks
    | ⟨.restLetter, _, _⟩ :: _ => noteRestOrChord toks
    | ⟨.barline, _, _⟩ :: toks => .ok (leafNode .barline, toks)
    | ⟨.eventSeqOpen, _, _⟩ :: toks =>
      match events fuel .seq toks with
      | .error e => .error e
      | .ok (nodes, toks) => .ok (singleOrRepeated (.mk .eventSequence .none nodes) toks)
    | ⟨.cramOpen, _, _⟩ :: toks =>
      match events fuel .cram toks with
      | .error e => .error e
      | .ok ([], _) => .error (.panic "index out of range")
      | .ok (nodes, toks) =>
        let (duration, toks) := optionalDuration toks
        .ok (singleOrRepeated (.mk .cram .none (.mk .eventSequence .none nodes :: duration)) toks)
    | ⟨.voiceMarker n, _, _⟩ :: toks =>
      match voices fuel n toks with
      | .error e => .error e
      | .ok (nodes, toks) => .ok (.mk .voiceGroup .none nodes, toks)
    | ⟨.marker s, _, _⟩ :: toks => .ok (leafNode .marker (.str s), toks)
    | ⟨.atMarker s, _, _⟩ :: toks => .ok (leafNode .atMarker (.str s), toks)
    | toks => .error (unexpectedToken "in inner events" toks)
/-- The loops over inner events, see `EventLoop`. -/
def events : Nat → EventLoop → List Token → Parsed (List Node)
  | 0, _, _ => .error .unreachable
  | fuel + 1, loop, toks =>
    match loop.stop toks with
    | .error e => .error e
    | .ok (some toks) => .ok ([], toks)
    | .ok none =>
      match innerEvent fuel toks with
      | .error e => .error e
      | .ok (node, toks) =>
        let (node, toks) := loop.decorate node toks
        match events fuel loop toks with
        | .error e => .error e
        | .ok (nodes, toks) => .ok (node :: nodes, toks)
/-- The loop of `voiceGroup`, client/parser/parser.go:966-1000, with `voice`, 933-964, and `voiceNumber`, 922-931; `n` is the number of the voice marker
just read. -/
def voices : Nat → Int → List Token → Parsed (List Node)
  | 0, _, _ => .error .unreachable
  | fuel + 1, n, toks =>
    match events fuel .voice toks with
    | .error e => .error e
    | .ok (nodes, toks) =>
      let voice := .mk .voice .none [leafNode .voiceNumber (.int n), .mk .eventSequence .none nodes]
      match toks with
      | ⟨.voiceMarker m, _, _⟩ :: toks =>
        if m = 0 then .ok ([voice, leafNode .voiceGroupEndMarker], toks)
        else
          match voices fuel m toks with
          | .error e => .error e
          | .ok (more, toks) => .ok (voice :: more, toks)
      | toks => .ok ([voice], toks)
end

/-- Enough fuel for `events`. -/
def eventFuel (toks : List Token) : Nat := 3 * toks.length + 1

/-- `partEvents`, client/parser/parser.go:280-298. -/
def partEvents (toks : List Token) : Parsed Node :=
  match events (eventFuel toks) .part toks with
  | .error e => .error e
  | .ok (nodes, toks) => .ok (.mk .eventSequence .none nodes, toks)

/-- `topLevel`, client/parser/parser.go:1071-1078, with `part` (300-320) and `implicitPart` (327-338). -/
def topLevel (toks : List Token) : Parsed Node :=
  match toks with
  | t :: more =>
    if looksLikePartDeclaration toks then
      match partDeclaration t more with
      | .error e => .error e
      | .ok (decl, toks) =>
        match partEvents toks with
        | .error e => .error e
        | .ok (events, toks) => .ok (.mk .part .none [decl, events], toks)
    else
      match partEvents toks with
      | .error e => .error e
      | .ok (events, toks) => .ok (.mk .implicitPart .none [events], toks)
  | [] => .error (.panic "index out of range")

/-- The loop of `parseAST`, client/parser/parser.go:1080-1094. Every round reads a token. The tokens left at the end, which the
code does not look at again, are returned as well. -/
def topLevels : Nat → List Token → Parsed (List Node)
  | 0, _ => .error .unreachable
  | fuel + 1, toks =>
    match toks with
    | [] => .error (.panic "index out of range")
    | t :: _ =>
      if t.tok = .eof then .ok ([], toks)
      else
        match topLevel toks with
        | .error e => .error e
        | .ok (node, toks) =>
          match topLevels fuel toks with
          | .error e => .error e
          | .ok (nodes, toks) => .ok (node :: nodes, toks)

/-- `parseAST`, client/parser/parser.go:1080-1094. -/
def parseAST (toks : List Token) : Except SynErr Node :=
  match topLevels (toks.length + 1) toks with
  | .error e => .error e
  | .ok (nodes, _) => .ok (.mk .root .none nodes)

/-- `Parse`, client/parser/parser.go:1097-1120. (A panic is caught there only to panic again with another message.) -/
def parse (input : List Char) : Except SynErr Node :=
  match scan input with
  | .error e => .error e
  | .ok toks => parseAST toks

end Syn
end Alda
