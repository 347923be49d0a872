import Verif.Model.Score
/-!
Model of `client/parser/scanner.go`. The file name and the debug logging are left out. The input is a list of characters
(Go: `[]rune(input)`, scanner.go:211).
-/
namespace Alda
namespace Syn

/-- Line and column of a source context, client/model/source_context.go; both count from 1. -/
structure Pos where
  line : Nat
  column : Nat
deriving DecidableEq, Repr

/-- The position after the character `c`, client/parser/scanner.go:249-254 (in `advance`). -/
def Pos.after (p : Pos) (c : Char) : Pos :=
  if c = '\n' then ⟨p.line + 1, 1⟩ else ⟨p.line, p.column + 1⟩

/-- The position after several characters. -/
def Pos.through (p : Pos) (cs : List Char) : Pos := cs.foldl Pos.after p

/-- What scanning and parsing may fail with: an `AldaSourceError` with its position, a Go panic, or (model only) too little
fuel; theorems `c29` and `c30_parse` show that the last never occurs. -/
inductive SynErr where
  | at (pos : Pos) (msg : String)
  | panic (msg : String)
  | unreachable
deriving DecidableEq, Repr

/-- `TokenType` together with the literal that each type carries, client/parser/scanner.go:58-97 (types; `Integer` is never produced) and the calls
of `addToken` (literals). -/
inductive Tok where
  | alias (name : String)
  | atMarker (name : String)
  | barline
  | colon
  | cramClose
  | cramOpen
  | eof
  | equals
  | eventSeqClose
  | eventSeqOpen
  | flat
  | leftParen
  | marker (name : String)
  | name
  | natural
  | noteLength (denominator : Rat) (dots : Int)
  | noteLengthMs (quantity : Rat)
  | noteLengthSeconds (quantity : Rat)
  | noteLetter (letter : Char)
  | number (value : Rat)
  | octaveDown
  | octaveSet (number : Int)
  | octaveUp
  | repeat (times : Int)
  | repetitions (ranges : List (Int × Int))
  | restLetter
  | rightParen
  | separator
  | sharp
  | singleQuote
  | string (value : String)
  | symbol
  | tie
  | voiceMarker (number : Int)
deriving DecidableEq, Repr

/-- `Token`, client/parser/scanner.go:100-105. -/
structure Token where
  tok : Tok
  text : List Char
  pos : Pos
deriving DecidableEq, Repr

/-- The scanner while it reads one lexeme (client/parser/scanner.go:195-206): `text` is `input[start:current]`, `rest` is
`input[current:]`, `pos` is `line` and `column`. -/
structure Lexer where
  text : List Char
  rest : List Char
  pos : Pos
deriving DecidableEq, Repr

/-- `isLetter`, client/parser/scanner.go:17-19. (`isDigit`, 13-15, is `Alda.isDigit`.) -/
def isLetter (c : Char) : Bool := ('a' ≤ c && c ≤ 'z') || ('A' ≤ c && c ≤ 'Z')

/-- `peek`, client/parser/scanner.go:229-235: the zero character at the end. -/
def Lexer.peek (l : Lexer) : Char :=
  match l.rest with
  | [] => '\x00'
  | c :: _ => c

/-- `peekNext`, client/parser/scanner.go:237-243. -/
def Lexer.peekNext (l : Lexer) : Char :=
  match l.rest with
  | _ :: c :: _ => c
  | _ => '\x00'

/-- `reachedEOF`, client/parser/scanner.go:221-223. -/
def Lexer.reachedEOF (l : Lexer) : Bool := l.rest.isEmpty

/-- `eofIsNext`, client/parser/scanner.go:225-227. -/
def Lexer.eofIsNext (l : Lexer) : Bool := l.rest.length ≤ 1

/-- `advance`, client/parser/scanner.go:245-257. In Go it panics at the end of the input; the model then stays where it is
(`Lexer.advance` is only called where the next character has been seen). -/
def Lexer.advance (l : Lexer) : Lexer :=
  match l.rest with
  | [] => l
  | c :: cs => ⟨l.text ++ [c], cs, l.pos.after c⟩

/-- `consumeWhile`, client/parser/scanner.go:318-322. -/
def Lexer.consumeWhile (p : Char → Bool) (l : Lexer) : Lexer :=
  ⟨l.text ++ l.rest.takeWhile p, l.rest.dropWhile p, l.pos.through (l.rest.takeWhile p)⟩

/-- `consumeDigits`, client/parser/scanner.go:324-326. -/
def Lexer.consumeDigits (l : Lexer) : Lexer := l.consumeWhile isDigit

/-- `match`, client/parser/scanner.go:259-271. -/
def Lexer.match? (c : Char) (l : Lexer) : Option Lexer :=
  match l.rest with
  | [] => none
  | d :: _ => if d = c then some l.advance else none

/-- `int32(strconv.ParseInt(digits, 10, 32))`, error ignored, client/parser/scanner.go:335-338, 489, 506, 526: too big a
number gives the largest `int32`, no digits give 0. -/
def parseInt32 (digits : List Char) : Int := min (digitsVal digits : Int) 2147483647

/-- `strconv.ParseFloat(text, 64)`, error ignored, client/parser/scanner.go:343-346, on the texts that occur: an optional
minus sign, digits, and optionally a period and digits. The value is exact (Go rounds to a `float64`); a lone minus sign
is an error and gives 0. -/
def parseFloat (text : List Char) : Rat :=
  let unsigned (cs : List Char) : Rat := decimalVal (cs.takeWhile isDigit) ((cs.dropWhile isDigit).drop 1)
  match text with
  | '-' :: cs => - unsigned cs
  | _ => unsigned text

/-- What reading a lexeme yields: a token type with its literal and where the scanner stands, or an error. -/
abbrev Lexed := Except SynErr (Tok × Lexer)

/-- `unexpectedCharError`, client/parser/scanner.go:34-56, and `errorAtPosition`, 21-31. The model's message is the
context only. -/
def unexpectedChar (l : Lexer) (context : String) : SynErr := .at l.pos context

/-- `skipComment`, client/parser/scanner.go:291-295. -/
def skipComment (l : Lexer) : Lexer := l.consumeWhile (· ≠ '\n')

/-- `parseString`, client/parser/scanner.go:297-316; the first quote is already in `text`. -/
def parseString (l : Lexer) : Lexed :=
  let l := l.consumeWhile (· ≠ '"')
  if l.reachedEOF then .error (.at l.pos "Unterminated string")
  else .ok (.string (String.ofList (l.text.drop 1)), l.advance)

/-- `terminatesNoteLength`, client/parser/scanner.go:353-360. -/
def terminatesNoteLength (c : Char) : Bool :=
  [' ', '\r', '\n', '/', '~', ']', '}'].contains c

/-- The optional fractional part, client/parser/scanner.go:368-374 and 411-417. -/
def Lexer.consumeFraction (l : Lexer) : Lexer :=
  if l.peek = '.' ∧ isDigit l.peekNext then l.advance.consumeDigits else l

/-- `parseNoteLength`, client/parser/scanner.go:362-403. The number of dots is an `int` turned into an `int32`
(`wrap32`). -/
def parseNoteLength (l : Lexer) : Lexed :=
  let l := l.consumeDigits.consumeFraction
  let number := parseFloat l.text
  if l.peek = 's' ∧ (terminatesNoteLength l.peekNext ∨ l.eofIsNext) then .ok (.noteLengthSeconds number, l.advance)
  else if l.peek = 'm' ∧ l.peekNext = 's' then .ok (.noteLengthMs number, l.advance.advance)
  else
    let dots := l.rest.takeWhile (· = '.')
    .ok (.noteLength number (wrap32 dots.length), l.consumeWhile (· = '.'))

/-- `parseNumber`, client/parser/scanner.go:407-420. Without a fractional part the second `consumeDigits` finds none. -/
def parseNumber (l : Lexer) : Lexed :=
  let l := l.consumeDigits.consumeFraction
  .ok (.number (parseFloat l.text), l)

/-- The loop of `parseRepetitions`, client/parser/scanner.go:422-465, with the ranges read so far. Every round reads a
character, so the length of the rest is enough fuel. -/
def parseRepetitions : Nat → List (Int × Int) → Lexer → Lexed
  | 0, _, _ => .error .unreachable
  | fuel + 1, ranges, l =>
    if ¬ isDigit l.peek then .error (unexpectedChar l "in repetitions")
    else
      let first := parseInt32 (l.rest.takeWhile isDigit)
      let l := l.consumeDigits
      let continue' (last : Int) (l : Lexer) : Lexed :=
        match l.match? ',' with
        | some l => parseRepetitions fuel (ranges ++ [(first, last)]) l
        | none => .ok (.repetitions (ranges ++ [(first, last)]), l)
      match l.match? '-' with
      | some l =>
        if ¬ isDigit l.peek then .error (unexpectedChar l "in repetitions")
        else continue' (parseInt32 (l.rest.takeWhile isDigit)) l.consumeDigits
      | none => continue' first l

/-- `parseRepeat`, client/parser/scanner.go:467-493. -/
def parseRepeat (l : Lexer) : Lexed :=
  let l := l.consumeWhile (· = ' ')
  if ¬ isDigit l.peek then .error (unexpectedChar l "in repeat")
  else
    let digits := l.rest.takeWhile isDigit
    let l := l.consumeDigits
    if ¬ [' ', '\r', '\n', ']', '}'].contains l.peek ∧ ¬ l.reachedEOF then .error (unexpectedChar l "in repeat")
    else .ok (.repeat (parseInt32 digits), l)

/-- `parseOctaveSet`, client/parser/scanner.go:495-510. -/
def parseOctaveSet (l : Lexer) : Lexed :=
  let l := l.consumeDigits
  if ¬ [' ', '\r', '\n'].contains l.peek ∧ ¬ l.reachedEOF then .error (unexpectedChar l "in octave set")
  else .ok (.octaveSet (parseInt32 (l.text.drop 1)), l)

/-- `parseVoiceMarker`, client/parser/scanner.go:512-530. -/
def parseVoiceMarker (l : Lexer) : Lexed :=
  let l := l.consumeDigits
  if l.peek ≠ ':' then .error (unexpectedChar l "in voice marker")
  else .ok (.voiceMarker (parseInt32 (l.text.drop 1)), l.advance)

/-- `isValidSymbolChar`, client/parser/scanner.go:532-539. -/
def isValidSymbolChar (c : Char) : Bool :=
  ¬ [' ', '\t', '\r', '\n', '(', ')', '[', ']', '{', '}', '"'].contains c

/-- `parseSymbol`, client/parser/scanner.go:541-544. -/
def parseSymbol (l : Lexer) : Lexed := .ok (.symbol, l.consumeWhile isValidSymbolChar)

/-- `isValidNameChar`, client/parser/scanner.go:546-557. -/
def isValidNameChar (c : Char) : Bool :=
  isLetter c || isDigit c || ['_', '-', '+', '\'', '(', ')', '.'].contains c

/-- `parseName`, client/parser/scanner.go:559-562. -/
def parseName (l : Lexer) : Lexed := .ok (.name, l.consumeWhile isValidNameChar)

/-- `parseAlias`, client/parser/scanner.go:564-585. The error made at 574 is dropped, as in the code: whatever character
ends the name is taken for the closing quote. -/
def parseAlias (l : Lexer) : Lexed :=
  let l := l.consumeWhile isValidNameChar
  if l.reachedEOF then .error (.at l.pos "Unterminated alias")
  else .ok (.alias (String.ofList (l.text.drop 1)), l.advance)

/-- `parsePrefixedName`, client/parser/scanner.go:587-601; `parseMarker` and `parseAtMarker`, 603-609. -/
def parsePrefixedName (tok : String → Tok) (l : Lexer) : Lexed :=
  if ¬ isValidNameChar l.peek then .error (unexpectedChar l "in marker name")
  else
    let l := l.consumeWhile isValidNameChar
    .ok (tok (String.ofList (l.text.drop 1)), l)

/-- `isNoteLetter`, client/parser/scanner.go:611-613. -/
def isNoteLetter (c : Char) : Bool := 'a' ≤ c && c ≤ 'g'

/-- `followsNoteLetter`, client/parser/scanner.go:627-639. -/
def followsNoteLetter (c : Char) : Bool :=
  isDigit c || ['#', ' ', '\r', '\n', '+', '-', '_', '/', '~', '*', '\'', '}', ']', '<', '>'].contains c

/-- `followsRestLetter`, client/parser/scanner.go:641-652. -/
def followsRestLetter (c : Char) : Bool :=
  isDigit c || ['#', ' ', '\r', '\n', '/', '~', '*', '\'', '}', ']', '<', '>'].contains c

/-- The letters, client/parser/scanner.go:745-759 (in `scanToken`); `c` is already in `l.text`. -/
def scanLetter (c : Char) (l : Lexer) : Lexed :=
  let n := l.peek
  if isLetter n then parseName l
  else if isNoteLetter c ∧ (followsNoteLetter n ∨ l.reachedEOF) then .ok (.noteLetter c, l)
  else if c = 'r' ∧ (followsRestLetter n ∨ l.reachedEOF) then .ok (.restLetter, l)
  else if c = 'o' ∧ (isDigit n ∨ l.reachedEOF) then parseOctaveSet l
  else if c = 'V' ∧ isDigit n then parseVoiceMarker l
  else .error (unexpectedChar l "in note/rest/name")

/-- Lisp mode, client/parser/scanner.go:677-697; `before` is the scanner before it read `c`. -/
def scanLisp (before : Lexer) (c : Char) (l : Lexer) : Lexed :=
  if c = '\'' then .ok (.singleQuote, l)
  else if c = '"' then parseString l
  else if c = '-' ∨ isDigit c then parseNumber l
  else if isValidSymbolChar c then parseSymbol l
  else .error (unexpectedChar before "in S-expression")

/-- The single-character tokens, client/parser/scanner.go:701-729. -/
def punctuation : Char → Option Tok
  | '{' => some .cramOpen
  | '}' => some .cramClose
  | '[' => some .eventSeqOpen
  | ']' => some .eventSeqClose
  | '-' => some .flat
  | '+' => some .sharp
  | '_' => some .natural
  | '/' => some .separator
  | '<' => some .octaveDown
  | '>' => some .octaveUp
  | ':' => some .colon
  | '~' => some .tie
  | '|' => some .barline
  | '=' => some .equals
  | _ => none

/-- Outside of parentheses, client/parser/scanner.go:699-766. -/
def scanPlain (before : Lexer) (c : Char) (l : Lexer) : Lexed :=
  match punctuation c with
  | some t => .ok (t, l)
  | none =>
    if c = '\'' then parseRepetitions (l.rest.length + 1) [] l
    else if c = '*' then parseRepeat l
    else if c = '"' then parseAlias l
    else if c = '%' then parsePrefixedName .marker l
    else if c = '@' then parsePrefixedName .atMarker l
    else if isDigit c then parseNoteLength l
    else if isLetter c then scanLetter c l
    else .error (unexpectedChar before "at the top level")

/-- White space, client/parser/scanner.go:661. -/
def isBlank (c : Char) : Bool := [' ', '\r', '\n', '\t'].contains c

/-- `scanToken`, client/parser/scanner.go:654-767: the token, if the lexeme makes one, the scanner after it, and the new
`sexpLevel`. The caller guarantees that the end is not reached. -/
def scanToken (level : Int) (before : Lexer) : Except SynErr (Option Tok × Lexer × Int) :=
  let c := before.peek
  let l := before.advance
  if isBlank c then .ok (none, l, level)
  else if c = '#' then .ok (none, skipComment l, level)
  else if c = '(' then .ok (some .leftParen, l, level + 1)
  else if c = ')' then .ok (some .rightParen, l, level - 1)
  else
    let lexed := if level > 0 then scanLisp before c l else scanPlain before c l
    match lexed with
    | .error e => .error e
    | .ok (t, l) => .ok (some t, l, level)

/-- The loop of `Scan`, client/parser/scanner.go:773-805, on the remaining input. Every round reads a character, so the
length of the input is enough fuel. -/
def scanFrom : Nat → Int → Pos → List Char → Except SynErr (List Token)
  | _, _, pos, [] => .ok [⟨.eof, [], pos⟩]
  | 0, _, _, _ :: _ => .error .unreachable
  | fuel + 1, level, pos, rest =>
    match scanToken level ⟨[], rest, pos⟩ with
    | .error e => .error e
    | .ok (t, l, level) =>
      match scanFrom fuel level l.pos l.rest with
      | .error e => .error e
      | .ok tokens =>
        match t with
        | none => .ok tokens
        | some t => .ok (⟨t, l.text, pos⟩ :: tokens)

/-- `Scan`, client/parser/scanner.go:773-805. -/
def scan (input : List Char) : Except SynErr (List Token) := scanFrom input.length 0 ⟨1, 1⟩ input

end Syn
end Alda
