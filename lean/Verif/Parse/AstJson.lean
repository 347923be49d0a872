import Verif.Parse.Ast
import Verif.Model.Json
/-!
Model of `ASTNode.JSON`, `client/parser/ast.go:76-220`. Source contexts are left out, so that the modelled JSON is a part of the real one.
-/
namespace Alda
namespace Syn

/-- `ASTNodeType.String`, client/parser/ast.go:76-181. -/
def NodeType.text : NodeType → String
  | .atMarker => "AtMarkerNode"
  | .barline => "BarlineNode"
  | .chord => "ChordNode"
  | .cram => "CramNode"
  | .denominator => "DenominatorNode"
  | .dots => "DotsNode"
  | .duration => "DurationNode"
  | .eventSequence => "EventSequenceNode"
  | .firstRepetition => "FirstRepetitionNode"
  | .flat => "FlatNode"
  | .implicitPart => "ImplicitPartNode"
  | .lastRepetition => "LastRepetitionNode"
  | .lispList => "LispListNode"
  | .lispNumber => "LispNumberNode"
  | .lispQuotedForm => "LispQuotedFormNode"
  | .lispString => "LispStringNode"
  | .lispSymbol => "LispSymbolNode"
  | .marker => "MarkerNode"
  | .natural => "NaturalNode"
  | .noteAccidentals => "NoteAccidentalsNode"
  | .noteLengthMs => "NoteLengthMsNode"
  | .noteLength => "NoteLengthNode"
  | .noteLengthSeconds => "NoteLengthSecondsNode"
  | .noteLetterAndAccidentals => "NoteLetterAndAccidentalsNode"
  | .noteLetter => "NoteLetterNode"
  | .note => "NoteNode"
  | .octaveDown => "OctaveDownNode"
  | .octaveSet => "OctaveSetNode"
  | .octaveUp => "OctaveUpNode"
  | .onRepetitions => "OnRepetitionsNode"
  | .partAlias => "PartAliasNode"
  | .partDeclaration => "PartDeclarationNode"
  | .partName => "PartNameNode"
  | .partNames => "PartNamesNode"
  | .part => "PartNode"
  | .repeat => "RepeatNode"
  | .repetitionRange => "RepetitionRangeNode"
  | .repetitions => "RepetitionsNode"
  | .rest => "RestNode"
  | .root => "RootNode"
  | .sharp => "SharpNode"
  | .tie => "TieNode"
  | .times => "TimesNode"
  | .variableDefinition => "VariableDefinitionNode"
  | .variableName => "VariableNameNode"
  | .variableReference => "VariableReferenceNode"
  | .voice => "VoiceNode"
  | .voiceGroupEndMarker => "VoiceGroupEndMarkerNode"
  | .voiceGroup => "VoiceGroupNode"
  | .voiceNumber => "VoiceNumberNode"

/-- The literal, client/parser/ast.go:200-209: the letter of a note as a text; any other `rune` is a number. (`%c` of a literal of another type is an error text;
the parser makes no such node.) -/
def Lit.json (t : NodeType) : Lit → Option Json
  | .none => Option.none
  | .str s => some (.str s)
  | .num q => some (.num q)
  | .int n => some (intJson n)
  | .chr c => some (if t = .noteLetter then .str (String.singleton c) else intJson c.toNat)

mutual
/-- `ASTNode.JSON`, client/parser/ast.go:184-220. -/
def Node.json : Node → Json
  | .mk t l cs =>
    let j := Json.object [("type", .str t.text)]
    let j := if cs.isEmpty then j else j.set "children" (.arr (Node.jsons cs))
    match l.json t with
    | none => j
    | some v => j.set "literal" v
/-- The loop over the children, client/parser/ast.go:192-194. -/
def Node.jsons : List Node → List Json
  | [] => []
  | c :: cs => c.json :: Node.jsons cs
end

end Syn
end Alda
