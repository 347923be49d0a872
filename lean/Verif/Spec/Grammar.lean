import Verif.Parse.Parser
/-!
The grammar of the language: which tokens, in their order, make up which AST. Nothing here refers to how the parser goes
about it.
-/
namespace Alda.Spec
open Syn

/-- A node with a literal and no children. -/
def atom (t : NodeType) (l : Lit) : Node := .mk t l []

/-- A node with children and no literal. -/
def branch (t : NodeType) (cs : List Node) : Node := .mk t .none cs

/-- All tokens are of this kind. -/
def All (k : Tok) (ts : List Token) : Prop := ∀ t ∈ ts, t.tok = k

mutual
/-- A lisp form. -/
inductive FormG : List Token → Node → Prop where
  | symbol (t : Token) : t.tok = .symbol → FormG [t] (atom .lispSymbol (.str (String.ofList t.text)))
  | number (t : Token) (q : Rat) : t.tok = .number q → FormG [t] (atom .lispNumber (.num q))
  | string (t : Token) (s : String) : t.tok = .string s → FormG [t] (atom .lispString (.str s))
  | list (l r : Token) (ts : List Token) (ns : List Node) : l.tok = .leftParen → r.tok = .rightParen → FormsG ts ns →
      FormG (l :: ts ++ [r]) (branch .lispList ns)
/-- The elements of a list. -/
inductive FormsG : List Token → List Node → Prop where
  | nil : FormsG [] []
  | cons (ts us : List Token) (n : Node) (ns : List Node) : FormG ts n → FormsG us ns → FormsG (ts ++ us) (n :: ns)
  | quoted (q : Token) (ts us : List Token) (n : Node) (ns : List Node) : q.tok = .singleQuote → FormG ts n →
      FormsG us ns → FormsG (q :: ts ++ us) (branch .lispQuotedForm [n] :: ns)
end

/-- A component of a duration. -/
inductive LengthG : Token → Node → Prop where
  | plain (t : Token) (d : Rat) (k : Int) : t.tok = .noteLength d k → k ≤ 0 →
      LengthG t (branch .noteLength [atom .denominator (.num d)])
  | dotted (t : Token) (d : Rat) (k : Int) : t.tok = .noteLength d k → 0 < k →
      LengthG t (branch .noteLength [atom .denominator (.num d), atom .dots (.int k)])
  | ms (t : Token) (q : Rat) : t.tok = .noteLengthMs q → LengthG t (atom .noteLengthMs (.num q))
  | seconds (t : Token) (q : Rat) : t.tok = .noteLengthSeconds q → LengthG t (atom .noteLengthSeconds (.num q))

/-- What follows the first component: further components, tied to it, possibly across barlines, and with superfluous ties;
barlines at the end. -/
inductive LengthsG : List Token → List Node → Prop where
  | done (bars : List Token) : All .barline bars → LengthsG bars (List.replicate bars.length (atom .barline .none))
  | tied (bars bars' ties : List Token) (tie t : Token) (n : Node) (ts : List Token) (ns : List Node) :
      All .barline bars → tie.tok = .tie → All .barline bars' → All .tie ties → LengthG t n → LengthsG ts ns →
      LengthsG (bars ++ tie :: bars' ++ ties ++ t :: ts)
        (List.replicate (bars.length + bars'.length) (atom .barline .none) ++ n :: ns)

/-- An optional duration: no node or one. -/
inductive DurationG : List Token → List Node → Prop where
  | none : DurationG [] []
  | some (t : Token) (n : Node) (ts : List Token) (ns : List Node) : LengthG t n → LengthsG ts ns →
      DurationG (t :: ts) [branch .duration (n :: ns)]

/-- Accidentals. -/
inductive AccidentalsG : List Token → List Node → Prop where
  | nil : AccidentalsG [] []
  | flat (t : Token) (ts : List Token) (ns : List Node) : t.tok = .flat → AccidentalsG ts ns →
      AccidentalsG (t :: ts) (atom .flat .none :: ns)
  | natural (t : Token) (ts : List Token) (ns : List Node) : t.tok = .natural → AccidentalsG ts ns →
      AccidentalsG (t :: ts) (atom .natural .none :: ns)
  | sharp (t : Token) (ts : List Token) (ns : List Node) : t.tok = .sharp → AccidentalsG ts ns →
      AccidentalsG (t :: ts) (atom .sharp .none :: ns)

/-- An optional slur. -/
inductive SlurG : List Token → List Node → Prop where
  | none : SlurG [] []
  | some (t : Token) : t.tok = .tie → SlurG [t] [atom .tie .none]

/-- A note or a rest. -/
inductive NoteG : List Token → Node → Prop where
  | note (l : Token) (c : Char) (as ds ss : List Token) (an dn sn : List Node) : l.tok = .noteLetter c →
      AccidentalsG as an → DurationG ds dn → SlurG ss sn →
      NoteG (l :: as ++ ds ++ ss) (branch .note (branch .noteLetterAndAccidentals (atom .noteLetter (.chr c) ::
        (if an = [] then [] else [branch .noteAccidentals an])) :: dn ++ sn))
  | rest (l : Token) (ds : List Token) (dn : List Node) : l.tok = .restLetter → DurationG ds dn →
      NoteG (l :: ds) (branch .rest dn)

/-- Octave changes. -/
inductive OctaveG : List Token → Node → Prop where
  | up (t : Token) : t.tok = .octaveUp → OctaveG [t] (atom .octaveUp .none)
  | down (t : Token) : t.tok = .octaveDown → OctaveG [t] (atom .octaveDown .none)
  | set (t : Token) (n : Int) : t.tok = .octaveSet n → OctaveG [t] (atom .octaveSet (.int n))

/-- A parenthesised list as an event. -/
def SexpG (ts : List Token) (n : Node) : Prop := FormG ts n ∧ n.type = .lispList

/-- Attribute changes between the notes of a chord. -/
inductive BetweenG : List Token → List Node → Prop where
  | nil : BetweenG [] []
  | octave (ts us : List Token) (n : Node) (ns : List Node) : OctaveG ts n → BetweenG us ns →
      BetweenG (ts ++ us) (n :: ns)
  | sexp (ts us : List Token) (n : Node) (ns : List Node) : SexpG ts n → BetweenG us ns → BetweenG (ts ++ us) (n :: ns)

/-- Notes separated by `/`, with attribute changes before or after the separators; at least two notes. -/
inductive ChordG : List Token → List Node → Prop where
  | two (ts bs cs us : List Token) (sep : Token) (n m : Node) (bn cn : List Node) : NoteG ts n → BetweenG bs bn →
      sep.tok = .separator → BetweenG cs cn → NoteG us m → ChordG (ts ++ bs ++ sep :: cs ++ us) (n :: bn ++ cn ++ [m])
  | more (ts bs cs us : List Token) (sep : Token) (n : Node) (bn cn ns : List Node) : NoteG ts n → BetweenG bs bn →
      sep.tok = .separator → BetweenG cs cn → ChordG us ns → ChordG (ts ++ bs ++ sep :: cs ++ us) (n :: bn ++ cn ++ ns)

/-- A note, a rest or a chord. -/
inductive NotesG : List Token → Node → Prop where
  | single (ts : List Token) (n : Node) : NoteG ts n → NotesG ts n
  | chord (ts : List Token) (ns : List Node) : ChordG ts ns → NotesG ts (branch .chord ns)

/-- A node, or the node repeated. -/
inductive RepeatedG (ts : List Token) (n : Node) : List Token → Node → Prop where
  | once : RepeatedG ts n ts n
  | times (t : Token) (k : Int) : t.tok = .repeat k →
      RepeatedG ts n (ts ++ [t]) (branch .repeat [n, atom .times (.int k)])

/-- The node for ranges of repetitions. -/
def rangesNode (ranges : List (Int × Int)) : Node :=
  branch .repetitions (ranges.map fun r =>
    branch .repetitionRange [atom .firstRepetition (.int r.1), atom .lastRepetition (.int r.2)])

mutual
/-- An event. -/
inductive EventG : List Token → Node → Prop where
  | sexp (ts us : List Token) (n m : Node) : SexpG ts n → RepeatedG ts n us m → EventG us m
  | octave (ts : List Token) (n : Node) : OctaveG ts n → EventG ts n
  | notes (ts : List Token) (n : Node) : NotesG ts n → EventG ts n
  | notesTimes (ts : List Token) (n : Node) (t : Token) (k : Int) : NotesG ts n → t.tok = .repeat k → 0 < k →
      EventG (ts ++ [t]) (branch .repeat [n, atom .times (.int k)])
  /-- A note repeated no times is a note. -/
  | notesZero (ts : List Token) (n : Node) (t : Token) (k : Int) : NotesG ts n → t.tok = .repeat k → k ≤ 0 →
      EventG (ts ++ [t]) n
  | barline (t : Token) : t.tok = .barline → EventG [t] (atom .barline .none)
  | marker (t : Token) (s : String) : t.tok = .marker s → EventG [t] (atom .marker (.str s))
  | atMarker (t : Token) (s : String) : t.tok = .atMarker s → EventG [t] (atom .atMarker (.str s))
  | varRef (t : Token) (us : List Token) (m : Node) : t.tok = .name →
      RepeatedG [t] (atom .variableReference (.str (String.ofList t.text))) us m → EventG us m
  /-- Every event of a variable's definition begins on the line of its name. -/
  | varDef (t eq : Token) (ts : List Token) (ns : List Node) : t.tok = .name → eq.tok = .equals → ns ≠ [] →
      LineG t.pos.line ts ns →
      EventG (t :: eq :: ts) (branch .variableDefinition
        [atom .variableName (.str (String.ofList t.text)), branch .eventSequence ns])
  | seq (o c : Token) (ts us : List Token) (ns : List Node) (m : Node) : o.tok = .eventSeqOpen → c.tok = .eventSeqClose →
      SeqG ts ns → RepeatedG (o :: ts ++ [c]) (branch .eventSequence ns) us m → EventG us m
  | cram (o c : Token) (ts ds us : List Token) (ns dn : List Node) (m : Node) : o.tok = .cramOpen → c.tok = .cramClose →
      ns ≠ [] → EventsG ts ns → DurationG ds dn →
      RepeatedG (o :: ts ++ c :: ds) (branch .cram (branch .eventSequence ns :: dn)) us m → EventG us m
  | voices (ts : List Token) (ns : List Node) : VoicesG ts ns → EventG ts (branch .voiceGroup ns)
/-- Events in a row. -/
inductive EventsG : List Token → List Node → Prop where
  | nil : EventsG [] []
  | cons (ts us : List Token) (n : Node) (ns : List Node) : EventG ts n → EventsG us ns → EventsG (ts ++ us) (n :: ns)
/-- Events in a row, each of which begins on this line. -/
inductive LineG : Nat → List Token → List Node → Prop where
  | nil (line : Nat) : LineG line [] []
  | cons (line : Nat) (ts us : List Token) (n : Node) (ns : List Node) : EventG ts n →
      (∀ t, ts.head? = some t → t.pos.line = line) → LineG line us ns → LineG line (ts ++ us) (n :: ns)
/-- Events in a row, some of which are for certain repetitions only. -/
inductive SeqG : List Token → List Node → Prop where
  | nil : SeqG [] []
  | cons (ts us : List Token) (n : Node) (ns : List Node) : EventG ts n → SeqG us ns → SeqG (ts ++ us) (n :: ns)
  | onReps (ts us : List Token) (n : Node) (ns : List Node) (t : Token) (rs : List (Int × Int)) : EventG ts n →
      t.tok = .repetitions rs → SeqG us ns → SeqG (ts ++ t :: us) (branch .onRepetitions [n, rangesNode rs] :: ns)
/-- Voices, possibly ended by `V0:`. -/
inductive VoicesG : List Token → List Node → Prop where
  | last (v : Token) (k : Int) (ts : List Token) (ns : List Node) : v.tok = .voiceMarker k → EventsG ts ns →
      VoicesG (v :: ts) [branch .voice [atom .voiceNumber (.int k), branch .eventSequence ns]]
  | ended (v z : Token) (k : Int) (ts : List Token) (ns : List Node) : v.tok = .voiceMarker k → EventsG ts ns →
      z.tok = .voiceMarker 0 →
      VoicesG (v :: ts ++ [z]) [branch .voice [atom .voiceNumber (.int k), branch .eventSequence ns],
        atom .voiceGroupEndMarker .none]
  | cons (v : Token) (k : Int) (ts us : List Token) (ns vs : List Node) : v.tok = .voiceMarker k → EventsG ts ns →
      VoicesG us vs → VoicesG (v :: ts ++ us)
        (branch .voice [atom .voiceNumber (.int k), branch .eventSequence ns] :: vs)
end

/-- More names of a part. -/
inductive NamesG : List Token → List Node → Prop where
  | nil : NamesG [] []
  | cons (s t : Token) (ts : List Token) (ns : List Node) : s.tok = .separator → t.tok = .name → NamesG ts ns →
      NamesG (s :: t :: ts) (atom .partName (.str (String.ofList t.text)) :: ns)

/-- An optional alias. -/
inductive AliasG : List Token → List Node → Prop where
  | none : AliasG [] []
  | some (t : Token) (a : String) : t.tok = .alias a → AliasG [t] [atom .partAlias (.str a)]

/-- A part, with or without a declaration. -/
inductive PartG : List Token → Node → Prop where
  | implicit (ts : List Token) (ns : List Node) : EventsG ts ns →
      PartG ts (branch .implicitPart [branch .eventSequence ns])
  | declared (t c : Token) (ts as us : List Token) (ns an es : List Node) : t.tok = .name → NamesG ts ns → AliasG as an →
      c.tok = .colon → EventsG us es →
      PartG (t :: ts ++ as ++ c :: us) (branch .part [branch .partDeclaration (branch .partNames
        (atom .partName (.str (String.ofList t.text)) :: ns) :: an), branch .eventSequence es])

/-- Parts in a row. -/
inductive PartsG : List Token → List Node → Prop where
  | nil : PartsG [] []
  | cons (ts us : List Token) (n : Node) (ns : List Node) : PartG ts n → PartsG us ns → PartsG (ts ++ us) (n :: ns)

/-- The tokens of a whole program. -/
def ProgramG (ts : List Token) (n : Node) : Prop := ∃ ns, PartsG ts ns ∧ n = branch .root ns

/-- Somewhere in the tokens, `{` is directly followed by `}`. -/
def EmptyCram (toks : List Token) : Prop :=
  ∃ before after o c, toks = before ++ o :: c :: after ∧ o.tok = .cramOpen ∧ c.tok = .cramClose

end Alda.Spec
