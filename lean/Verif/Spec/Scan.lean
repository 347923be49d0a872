import Verif.Parse.Scanner
import Verif.Spec.Text
/-!
What the tokens of a text are: where they stand in it, and what each of them may look like. Nothing here refers to how the
scanner goes about it.
-/
namespace Alda.Spec
open Syn

/-- The line of the character that follows the text `before`: one more than the newlines in it. -/
def lineAfter (before : List Char) : Nat := before.count '\n' + 1

/-- Its column: one more than the characters since the last newline. -/
def columnAfter (before : List Char) : Nat := (before.reverse.takeWhile (· ≠ '\n')).length + 1

/-- The position of the character that follows the text `before`. -/
def position (before : List Char) : Pos := ⟨lineAfter before, columnAfter before⟩

/-- What may stand between tokens, given the text that follows: white space, and comments from `#` up to (not including)
the end of the line or of the text. -/
inductive Gap (follows : List Char) : List Char → Prop where
  | nil : Gap follows []
  | blank (c : Char) (g : List Char) : c ∈ [' ', '\t', '\r', '\n'] → Gap follows g → Gap follows (c :: g)
  | comment (cs g : List Char) : '\n' ∉ cs → (g ++ follows).head?.all (· = '\n') → Gap follows g →
      Gap follows ('#' :: (cs ++ g))

/-- A letter of the alphabet, small or capital. -/
def letters : List Char := "abcdefghijklmnopqrstuvwxyzABCDEFGHIJKLMNOPQRSTUVWXYZ".toList

/-- A character that may occur in a name. -/
def NameChar (c : Char) : Prop := c ∈ letters ∨ c ∈ digits ∨ c ∈ "_-+'().".toList

/-- The value of an `int32` literal: numbers that are too big become the greatest one. -/
def clamp (n : Nat) : Int := if n ≤ 2147483647 then n else 2147483647

/-- A number with an optional decimal part, and its value. A part may be empty only in lisp (`-`, `-.5`). -/
def decimalValue (w f : List Char) : Rat := (decimal w : Rat) + (decimal f : Rat) / 10 ^ f.length

/-- One range of repetitions, `3` or `3-4`. -/
inductive RangeText : List Char → Int × Int → Prop where
  | one (ds : List Char) : ds ≠ [] → AllDigits ds → RangeText ds (clamp (decimal ds), clamp (decimal ds))
  | two (ds es : List Char) : ds ≠ [] → AllDigits ds → es ≠ [] → AllDigits es →
      RangeText (ds ++ '-' :: es) (clamp (decimal ds), clamp (decimal es))

/-- Ranges separated by commas. -/
inductive RangesText : List Char → List (Int × Int) → Prop where
  | last (cs : List Char) (r : Int × Int) : RangeText cs r → RangesText cs [r]
  | cons (cs : List Char) (r : Int × Int) (more : List Char) (rs : List (Int × Int)) : RangeText cs r →
      RangesText more rs → RangesText (cs ++ ',' :: more) (r :: rs)

/-- The text that a token stands for, and its literal. -/
inductive Denotes : Tok → List Char → Prop where
  | alias (name : String) (q : Char) : (∀ c ∈ name.toList, NameChar c) → ¬ NameChar q →
      Denotes (.alias name) ('"' :: (name.toList ++ [q]))
  | atMarker (name : String) : name ≠ "" → (∀ c ∈ name.toList, NameChar c) → Denotes (.atMarker name) ('@' :: name.toList)
  | marker (name : String) : name ≠ "" → (∀ c ∈ name.toList, NameChar c) → Denotes (.marker name) ('%' :: name.toList)
  | barline : Denotes .barline ['|']
  | colon : Denotes .colon [':']
  | cramClose : Denotes .cramClose ['}']
  | cramOpen : Denotes .cramOpen ['{']
  | equals : Denotes .equals ['=']
  | eventSeqClose : Denotes .eventSeqClose [']']
  | eventSeqOpen : Denotes .eventSeqOpen ['[']
  | flat : Denotes .flat ['-']
  | sharp : Denotes .sharp ['+']
  | natural : Denotes .natural ['_']
  | leftParen : Denotes .leftParen ['(']
  | rightParen : Denotes .rightParen [')']
  | octaveDown : Denotes .octaveDown ['<']
  | octaveUp : Denotes .octaveUp ['>']
  | separator : Denotes .separator ['/']
  | singleQuote : Denotes .singleQuote ['\'']
  | tie : Denotes .tie ['~']
  | name (a b : Char) (cs : List Char) : a ∈ letters → b ∈ letters → (∀ c ∈ cs, NameChar c) → Denotes .name (a :: b :: cs)
  | noteLetter (c : Char) : c ∈ ['a', 'b', 'c', 'd', 'e', 'f', 'g'] → Denotes (.noteLetter c) [c]
  | restLetter : Denotes .restLetter ['r']
  | noteLength (text : List Char) (d : Rat) (k : Nat) (dots : Int) : NoteLengthText text d k →
      (k < 2147483648 → dots = k) → dots ≤ 2147483647 → Denotes (.noteLength d dots) text
  | noteLengthMs (text : List Char) (d : Rat) : NoteLengthText text d 0 → Denotes (.noteLengthMs d) (text ++ ['m', 's'])
  | noteLengthSeconds (text : List Char) (d : Rat) : NoteLengthText text d 0 →
      Denotes (.noteLengthSeconds d) (text ++ ['s'])
  | number (text : List Char) (d : Rat) : NoteLengthText text d 0 → Denotes (.number d) text
  | minus (w : List Char) : AllDigits w → Denotes (.number (- decimalValue w [])) ('-' :: w)
  | minusFraction (w f : List Char) : AllDigits w → f ≠ [] → AllDigits f →
      Denotes (.number (- decimalValue w f)) ('-' :: (w ++ '.' :: f))
  | octaveSet (ds : List Char) : AllDigits ds → Denotes (.octaveSet (clamp (decimal ds))) ('o' :: ds)
  | voiceMarker (ds : List Char) : ds ≠ [] → AllDigits ds →
      Denotes (.voiceMarker (clamp (decimal ds))) ('V' :: (ds ++ [':']))
  | repeat (k : Nat) (ds : List Char) : ds ≠ [] → AllDigits ds →
      Denotes (.repeat (clamp (decimal ds))) ('*' :: (List.replicate k ' ' ++ ds))
  | repetitions (cs : List Char) (ranges : List (Int × Int)) : RangesText cs ranges →
      Denotes (.repetitions ranges) ('\'' :: cs)
  | string (value : String) : '"' ∉ value.toList → Denotes (.string value) ('"' :: (value.toList ++ ['"']))
  | symbol (c : Char) (cs : List Char) : c ∉ "'-#".toList → c ∉ digits → (∀ d ∈ c :: cs, d ∉ " \t\r\n()[]{}\"".toList) →
      Denotes .symbol (c :: cs)

/-- The tokens are those of the text `input`, which follows the text `before`: in this order, without overlap, with only
gaps between them, each with its text and its position, and the end of the file last. -/
inductive TokensOf : List Char → List Char → List Token → Prop where
  | eof (before g : List Char) : Gap [] g → TokensOf before g [⟨.eof, [], position (before ++ g)⟩]
  | token (before g text rest : List Char) (t : Tok) (ts : List Token) : Gap (text ++ rest) g → Denotes t text →
      TokensOf (before ++ g ++ text) rest ts →
      TokensOf before (g ++ text ++ rest) (⟨t, text, position (before ++ g)⟩ :: ts)

end Alda.Spec
