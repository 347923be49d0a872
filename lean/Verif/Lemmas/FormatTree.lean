import Verif.Parse.Format
import Verif.Parse.Parser
import Verif.Spec.Scan
import Verif.Spec.Grammar
/-!
Well-formed syntax as a tree of its own type, for the proofs about the formatter: the AST of a tree, the pieces of text that the formatter makes
of it, with the tokens that they stand for, and which trees come out of the parser.
-/
namespace Alda
namespace Syn
namespace Tree
open Spec

/-- A lisp form. -/
inductive Form where
  | sym (s : String)
  | num (q : Rat)
  | str (s : String)
  | list (fs : List Form)
  | quoted (f : Form)

/-- A component of a duration. -/
inductive Comp where
  | bar
  | len (d : Rat) (dots : Nat)
  | ms (q : Rat)
  | sec (q : Rat)
deriving DecidableEq

/-- An event. -/
inductive Ev where
  | note (c : Char) (accs : List Accidental) (d : List Comp) (slur : Bool)
  | rest (d : List Comp)
  | chord (es : List Ev)
  | up
  | down
  | oct (n : Nat)
  | bar
  | marker (s : String)
  | at (s : String)
  | ref (s : String)
  | defn (s : String) (es : List Ev)
  | sexp (fs : List Form)
  | seq (es : List Ev)
  | cram (es : List Ev) (d : List Comp)
  | voice (n : Nat) (es : List Ev)
  | voiceEnd
  | group (vs : List Ev)
  | rep (e : Ev) (n : Nat)
  | onReps (e : Ev) (rs : List (Nat × Nat))

/-! ### The AST -/

mutual
def Form.node : Form → Node
  | .sym s => atom .lispSymbol (.str s)
  | .num q => atom .lispNumber (.num q)
  | .str s => atom .lispString (.str s)
  | .list fs => branch .lispList (formNodes fs)
  | .quoted f => branch .lispQuotedForm [f.node]
def formNodes : List Form → List Node
  | [] => []
  | f :: fs => f.node :: formNodes fs
end

def Comp.node : Comp → Node
  | .bar => atom .barline .none
  | .len d dots => branch .noteLength (atom .denominator (.num d) :: if dots > 0 then [atom .dots (.int dots)] else [])
  | .ms q => atom .noteLengthMs (.num q)
  | .sec q => atom .noteLengthSeconds (.num q)

def durNodes (d : List Comp) : List Node := if d.isEmpty then [] else [branch .duration (d.map Comp.node)]

def accNode : Accidental → Node
  | .flat => atom .flat .none
  | .natural => atom .natural .none
  | .sharp => atom .sharp .none

def rangesNodes (rs : List (Nat × Nat)) : Node := rangesNode (rs.map fun r => ((r.1 : Int), (r.2 : Int)))

mutual
def Ev.node : Ev → Node
  | .note c accs d slur => branch .note (branch .noteLetterAndAccidentals (atom .noteLetter (.chr c) ::
      (if accs.isEmpty then [] else [branch .noteAccidentals (accs.map accNode)])) ::
      durNodes d ++ if slur then [atom .tie .none] else [])
  | .rest d => branch .rest (durNodes d)
  | .chord es => branch .chord (nodes es)
  | .up => atom .octaveUp .none
  | .down => atom .octaveDown .none
  | .oct n => atom .octaveSet (.int n)
  | .bar => atom .barline .none
  | .marker s => atom .marker (.str s)
  | .at s => atom .atMarker (.str s)
  | .ref s => atom .variableReference (.str s)
  | .defn s es => branch .variableDefinition [atom .variableName (.str s), branch .eventSequence (nodes es)]
  | .sexp fs => branch .lispList (formNodes fs)
  | .seq es => branch .eventSequence (nodes es)
  | .cram es d => branch .cram (branch .eventSequence (nodes es) :: durNodes d)
  | .voice n es => branch .voice [atom .voiceNumber (.int n), branch .eventSequence (nodes es)]
  | .voiceEnd => atom .voiceGroupEndMarker .none
  | .group vs => branch .voiceGroup (nodes vs)
  | .rep e n => branch .repeat [e.node, atom .times (.int n)]
  | .onReps e rs => branch .onRepetitions [e.node, rangesNodes rs]
def nodes : List Ev → List Node
  | [] => []
  | e :: es => e.node :: nodes es
end

/-! ### Texts -/

/-- The type and the text of a token. -/
abbrev Kind := Tok × List Char

/-- A piece of text that is written at once, or (`brk`) a place where a new line must begin. A piece that is glued stands on the same line as the piece
before it. -/
inductive Item where
  | t (glue : Bool) (text : List Char) (kinds : List Kind)
  | brk

def accChar : Accidental → Char
  | .flat => '-' | .natural => '_' | .sharp => '+'

def accTok : Accidental → Tok
  | .flat => .flat | .natural => .natural | .sharp => .sharp

mutual
def Form.text : Form → List Char
  | .sym s => s.toList
  | .num q => formatFloat q
  | .str s => '"' :: (s.toList ++ ['"'])
  | .list fs => '(' :: (formTexts fs ++ [')'])
  | .quoted f => '\'' :: f.text
/-- Forms with a space between them. -/
def formTexts : List Form → List Char
  | [] => []
  | f :: fs => f.text ++ (if fs.isEmpty then [] else ' ' :: formTexts fs)
end

mutual
def Form.kinds : Form → List Kind
  | .sym s => [(.symbol, s.toList)]
  | .num q => [(.number q, formatFloat q)]
  | .str s => [(.string s, '"' :: (s.toList ++ ['"']))]
  | .list fs => (.leftParen, ['(']) :: (formKinds fs ++ [(.rightParen, [')'])])
  | .quoted f => (.singleQuote, ['\'']) :: f.kinds
def formKinds : List Form → List Kind
  | [] => []
  | f :: fs => f.kinds ++ formKinds fs
end

/-- A length (not a barline). -/
def Comp.text : Comp → List Char
  | .bar => []
  | .len d dots => formatFloat d ++ List.replicate dots '.'
  | .ms q => formatFloat q ++ ['m', 's']
  | .sec q => formatFloat q ++ ['s']

def Comp.tok : Comp → Tok
  | .bar => .barline
  | .len d dots => .noteLength d dots
  | .ms q => .noteLengthMs q
  | .sec q => .noteLengthSeconds q

def tieKind : Kind := (.tie, ['~'])
def barKind : Kind := (.barline, ['|'])

/-- A single piece. -/
def one (text : List Char) (tok : Tok) : Item := .t false text [(tok, text)]

/-- A piece, if it is not empty. -/
def piece (text : List Char) (ks : List Kind) : List Item := if text.isEmpty then [] else [.t false text ks]

def tieKinds (shouldTie : Bool) : List Kind := if shouldTie then [tieKind] else []
def slurKinds (slur : Bool) : List Kind := if slur then [tieKind] else []

/-- The pieces of something with a duration: as in `fmtDuration`. -/
def durItems (slur : Bool) : List Comp → List Char → List Kind → Bool → List Item
  | [], text, ks, _ => if text.isEmpty then [] else [.t false (text ++ tieText slur) (ks ++ slurKinds slur)]
  | c :: cs, text, ks, shouldTie =>
    if c = .bar then
      (if cs.isEmpty then piece (text ++ tieText slur) (ks ++ slurKinds slur) else piece text ks) ++
        .t false ['|'] [barKind] :: durItems slur cs [] [] shouldTie
    else durItems slur cs (text ++ tieText shouldTie ++ c.text) (ks ++ tieKinds shouldTie ++ [(c.tok, c.text)]) true

def rangeText (r : Nat × Nat) : List Char :=
  if r.1 = r.2 then natDigits r.1 else natDigits r.1 ++ '-' :: natDigits r.2

def rangesText (rs : List (Nat × Nat)) : List Char := '\'' :: joinWith ',' (rs.map rangeText)

def rangesTok (rs : List (Nat × Nat)) : Tok := .repetitions (rs.map fun r => ((r.1 : Int), (r.2 : Int)))

/-- Everything glued. -/
def glueAll : List Item → List Item
  | [] => []
  | .t _ text ks :: is => .t true text ks :: glueAll is
  | .brk :: is => .brk :: glueAll is

/-- The first piece glued. -/
def glueFirst : List Item → List Item
  | .t _ text ks :: is => .t true text ks :: is
  | is => is

def Ev.isNR : Ev → Bool
  | .note .. => true
  | .rest _ => true
  | _ => false

mutual
def Ev.items : Ev → List Item
  | .note c accs d slur => durItems slur d (c :: accs.map accChar) ((.noteLetter c, [c]) :: accs.map fun a => (accTok a, [accChar a])) false
  | .rest d => durItems false d ['r'] [(.restLetter, ['r'])] false
  | .chord es => chordItems es
  | .up => [one ['>'] .octaveUp]
  | .down => [one ['<'] .octaveDown]
  | .oct n => [one ('o' :: natDigits n) (.octaveSet n)]
  | .bar => [one ['|'] .barline]
  | .marker s => [one ('%' :: s.toList) (.marker s)]
  | .at s => [one ('@' :: s.toList) (.atMarker s)]
  | .ref s => [one s.toList .name]
  | .defn s es => .t false (s.toList ++ [' ', '=']) [(.name, s.toList), (.equals, ['='])] :: defItems es ++ [.brk]
  | .sexp fs => [.t false ('(' :: (formTexts fs ++ [')'])) ((.leftParen, ['(']) :: (formKinds fs ++ [(.rightParen, [')'])]))]
  | .seq es => one ['['] .eventSeqOpen :: items es ++ [one [']'] .eventSeqClose]
  | .cram es d => one ['{'] .cramOpen :: items es ++ durItems false d ['}'] [(.cramClose, ['}'])] false
  | .voice n es => one ('V' :: (natDigits n ++ [':'])) (.voiceMarker n) :: items es
  | .voiceEnd => [one ['V', '0', ':'] (.voiceMarker 0)]
  | .group vs => items vs
  | .rep e n => e.items ++ [one ('*' :: natDigits n) (.repeat n)]
  | .onReps e rs => e.items ++ [one (rangesText rs) (rangesTok rs)]
def items : List Ev → List Item
  | [] => []
  | e :: es => e.items ++ items es
/-- The members of a chord. -/
def chordItems : List Ev → List Item
  | [] => []
  | e :: es => e.items ++ ((if e.isNR && es.any Ev.isNR then [one ['/'] .separator] else []) ++ chordItems es)
/-- The events of a definition. -/
def defItems : List Ev → List Item
  | [] => []
  | [e] => glueFirst e.items
  | e :: es => glueAll e.items ++ defItems es
end

/-! ### Well-formed trees -/

/-- A number with a decimal expansion. -/
def IsDecimal (q : Rat) : Prop := ∃ k : Nat, ∃ z : Int, 10 ^ k * q = z

def maxInt : Nat := 2147483647

def isName (s : String) : Prop := ∃ a b cs, s.toList = a :: b :: cs ∧ a ∈ letters ∧ b ∈ letters ∧ ∀ c ∈ cs, NameChar c

/-- The name of a marker. -/
def isLabel (s : String) : Prop := s ≠ "" ∧ ∀ c ∈ s.toList, NameChar c

def isSymbol (s : String) : Prop := ∃ c cs, s.toList = c :: cs ∧ c ∉ "'-#".toList ∧ c ∉ digits ∧
  ∀ d ∈ c :: cs, d ∉ " \t\r\n()[]{}\"".toList

def Form.isQuoted : Form → Bool
  | .quoted _ => true
  | _ => false

mutual
def Form.ok : Form → Prop
  | .sym s => isSymbol s
  | .num q => IsDecimal q
  | .str s => '"' ∉ s.toList
  | .list fs => formsOk fs
  | .quoted f => f.ok ∧ f.isQuoted = false
def formsOk : List Form → Prop
  | [] => True
  | f :: fs => f.ok ∧ formsOk fs
end

def Comp.ok : Comp → Prop
  | .bar => True
  | .len d dots => IsDecimal d ∧ 0 ≤ d ∧ dots ≤ maxInt
  | .ms q => IsDecimal q ∧ 0 ≤ q
  | .sec q => IsDecimal q ∧ 0 ≤ q

def durOk (d : List Comp) : Prop := (∀ c ∈ d, c.ok) ∧ d.head? ≠ some .bar

mutual
/-- Ends with voices that are not ended by `V0:`. -/
def Ev.open : Ev → Bool
  | .voice _ _ => true
  | .group vs => lastOpen vs
  | .defn _ es => lastOpen es
  | _ => false
def lastOpen : List Ev → Bool
  | [] => false
  | [e] => e.open
  | _ :: es => lastOpen es
end

mutual
/-- Ends with a duration, which would take a barline that follows it. -/
def Ev.tailDur : Ev → Bool
  | .note _ _ d slur => !d.isEmpty && !slur
  | .rest d => !d.isEmpty
  | .chord es => lastTail es
  | .cram _ d => !d.isEmpty
  | .defn _ es => lastTail es
  | _ => false
def lastTail : List Ev → Bool
  | [] => false
  | [e] => e.tailDur
  | _ :: es => lastTail es
end

/-- Begins with a barline. -/
def Ev.headBar : Ev → Bool
  | .bar => true
  | .onReps e _ => e.headBar
  | _ => false

mutual
def Form.oneLine : Form → Bool
  | .str s => !s.toList.contains '\n'
  | .list fs => formsOneLine fs
  | .quoted f => f.oneLine
  | _ => true
def formsOneLine : List Form → Bool
  | [] => true
  | f :: fs => f.oneLine && formsOneLine fs
end

mutual
/-- Has no place where a new line must begin. -/
def Ev.oneLine : Ev → Bool
  | .chord es => allOneLine es
  | .defn _ _ => false
  | .sexp fs => formsOneLine fs
  | .seq es => allOneLine es
  | .cram es _ => allOneLine es
  | .voice _ es => allOneLine es
  | .group vs => allOneLine vs
  | .rep e _ => e.oneLine
  | .onReps e _ => e.oneLine
  | _ => true
def allOneLine : List Ev → Bool
  | [] => true
  | e :: es => e.oneLine && allOneLine es
end

/-- Where a list of events stands. -/
inductive Ctx where
  | part | defn | seq | cram | voice
deriving DecidableEq

/-- What may stand there. -/
def Ev.allowed (x : Ctx) : Ev → Bool
  | .voice _ _ => false
  | .voiceEnd => false
  | .group _ => x ≠ .voice
  | .onReps _ _ => x = .seq
  | _ => true

/-- How the events of a list may follow each other. -/
def shape (x : Ctx) : List Ev → Prop
  | [] => True
  | e :: es => e.allowed x = true ∧ (es ≠ [] → e.open = false) ∧
      (∀ e' ∈ es.head?, ¬ (e.tailDur = true ∧ e'.headBar = true)) ∧
      (x = .defn → es ≠ [] → e.oneLine = true) ∧ shape x es

/-- How the voices of a group may follow each other. -/
def groupShape : Bool → List Ev → Prop
  | _, [] => True
  | first, e :: es => (match e with
      | .voice n vs => (first = false → n ≠ 0) ∧ (es ≠ [] → lastOpen vs = false)
      | .voiceEnd => first = false ∧ es = []
      | _ => False) ∧ groupShape false es

/-- What a chord may consist of. -/
def Ev.inChord : Ev → Bool
  | .note .. => true
  | .rest _ => true
  | .up => true
  | .down => true
  | .oct _ => true
  | .sexp _ => true
  | _ => false

def chordShape (es : List Ev) : Prop :=
  2 ≤ es.length ∧ (∀ e ∈ es, e.inChord = true) ∧ (∀ e ∈ es.head?, e.isNR = true) ∧ (∀ e ∈ es.getLast?, e.isNR = true)

/-- What may be repeated how often. -/
def Ev.mayRepeat (n : Nat) : Ev → Bool
  | .sexp _ => true
  | .ref _ => true
  | .seq _ => true
  | .cram _ _ => true
  | .note .. => n > 0
  | .rest _ => n > 0
  | .chord _ => n > 0
  | _ => false

mutual
def Ev.ok : Ev → Prop
  | .note c _ d slur => c ∈ ['a', 'b', 'c', 'd', 'e', 'f', 'g'] ∧ durOk d ∧ (slur = true → d.getLast? ≠ some .bar)
  | .rest d => durOk d
  | .chord es => allOk es ∧ chordShape es
  | .oct n => n ≤ maxInt
  | .marker s => isLabel s
  | .at s => isLabel s
  | .ref s => isName s
  | .defn s es => isName s ∧ es ≠ [] ∧ allOk es ∧ shape .defn es
  | .sexp fs => formsOk fs
  | .seq es => allOk es ∧ shape .seq es
  | .cram es d => es ≠ [] ∧ allOk es ∧ shape .cram es ∧ durOk d
  | .voice n es => n ≤ maxInt ∧ allOk es ∧ shape .voice es
  | .group vs => vs ≠ [] ∧ allOk vs ∧ groupShape true vs
  | .rep e n => e.ok ∧ n ≤ maxInt ∧ e.mayRepeat n = true
  | .onReps e rs => e.ok ∧ rs ≠ [] ∧ (∀ r ∈ rs, r.1 ≤ maxInt ∧ r.2 ≤ maxInt) ∧ e.open = false ∧ e.allowed .part = true
  | _ => True
def allOk : List Ev → Prop
  | [] => True
  | e :: es => e.ok ∧ allOk es
end

/-- Every event but the last one is on one line. -/
def inLine : List Ev → Prop
  | [] => True
  | e :: es => (es ≠ [] → e.oneLine = true) ∧ inLine es

mutual
/-- What is enough for the formatter to succeed. -/
def Ev.fit : Ev → Prop
  | .chord es => es ≠ [] ∧ allFit es
  | .defn _ es => allFit es ∧ inLine es
  | .seq es => allFit es
  | .cram es _ => allFit es
  | .voice _ es => allFit es
  | .group vs => allFit vs
  | .rep e _ => e.fit
  | .onReps e _ => e.fit
  | _ => True
def allFit : List Ev → Prop
  | [] => True
  | e :: es => e.fit ∧ allFit es
end

theorem inChord_fit {e : Ev} (h : e.inChord = true) : e.fit := by
  cases e <;> first | trivial | simp [Ev.inChord] at h

theorem allFit_inChord : ∀ {es : List Ev}, (∀ e ∈ es, e.inChord = true) → allFit es
  | [], _ => trivial
  | e :: es, h => ⟨inChord_fit (h e (List.mem_cons_self ..)), allFit_inChord (fun e' he => h e' (List.mem_cons_of_mem _ he))⟩

theorem chordShape_fit {es : List Ev} (h : chordShape es) : (Ev.chord es).fit :=
  ⟨fun h0 => by have := h.1; simp [h0] at this, allFit_inChord h.2.1⟩

/-- A part of a program. -/
inductive Part where
  | implicit (es : List Ev)
  | declared (name : String) (names : List String) (alias : Option String) (es : List Ev)

def nameNode (s : String) : Node := atom .partName (.str s)

def Part.node : Part → Node
  | .implicit es => branch .implicitPart [branch .eventSequence (nodes es)]
  | .declared n ns alias es => branch .part [branch .partDeclaration (branch .partNames (nameNode n :: ns.map nameNode) ::
      (match alias with | none => [] | some a => [atom .partAlias (.str a)])), branch .eventSequence (nodes es)]

def declText (n : String) (ns : List String) (alias : Option String) : List Char :=
  joinWith '/' (n.toList :: ns.map String.toList) ++
    (match alias with | none => [':'] | some a => ' ' :: '"' :: (a.toList ++ ['"', ':']))

def declKinds (n : String) (ns : List String) (alias : Option String) : List Kind :=
  (.name, n.toList) :: (ns.flatMap fun s => [(.separator, ['/']), (.name, s.toList)]) ++
    (match alias with | none => [] | some a => [(.alias a, '"' :: (a.toList ++ ['"']))]) ++ [(.colon, [':'])]

def Part.items : Part → List Item
  | .implicit es => Tree.items es
  | .declared n ns alias es => .t false (declText n ns alias) (declKinds n ns alias) :: Tree.items es

def Part.ok : Part → Prop
  | .implicit es => es ≠ [] ∧ allOk es ∧ shape .part es
  | .declared n ns alias es => isName n ∧ (∀ s ∈ ns, isName s) ∧ (∀ a ∈ alias, ∀ c ∈ a.toList, NameChar c) ∧ allOk es ∧ shape .part es

def Part.fit : Part → Prop
  | .implicit es => allFit es
  | .declared _ _ _ es => allFit es

def Part.isDeclared : Part → Bool
  | .implicit _ => false
  | .declared .. => true

def partsOk (ps : List Part) : Prop := (∀ p ∈ ps, p.ok) ∧ ∀ p ∈ ps.tail, p.isDeclared = true

def partsItems (ps : List Part) : List Item := ps.flatMap Part.items

/-- The AST of a program. -/
def root (ps : List Part) : Node := branch .root (ps.map Part.node)

end Tree
end Syn
end Alda
