import Verif.Model.Score
import Verif.Spec.Gen
import Verif.Spec.Scan
/-!
The score updates that can be written as text: the numbers have finite decimal expansions, names are names, and events follow each other as the
grammar of Alda wants it. (For C48.)
-/
namespace Alda.Spec

/-- A number that can be written with finitely many decimals. -/
def FiniteDecimal (q : Rat) : Prop := ∃ k : Nat, ∃ z : Int, 10 ^ k * q = z

/-- A number that fits into an `int32` and is not negative. -/
def Counting (n : Int) : Prop := 0 ≤ n ∧ n ≤ 2147483647

/-- A name of a variable or an instrument: two letters, then letters, digits and a few other characters. -/
def NameText (s : String) : Prop := ∃ a b cs, s.toList = a :: b :: cs ∧ a ∈ letters ∧ b ∈ letters ∧ ∀ c ∈ cs, NameChar c

/-- A component of a duration that can be written. -/
def PrintableComp : DurComp → Prop
  | .barline => True
  | .length d dots => FiniteDecimal d ∧ 0 ≤ d ∧ Counting dots
  | .ms q => FiniteDecimal q ∧ 0 ≤ q
  | .seconds q => FiniteDecimal q ∧ 0 ≤ q
  | .beats _ | .nested _ => False

/-- A duration that can be written: it does not begin with a barline. -/
def PrintableDur (d : Dur) : Prop := (∀ c ∈ d, PrintableComp c) ∧ d.head? ≠ some .barline

/-- A note, rest or attribute that can be written. A slur comes directly after a length. -/
def PrintableLeaf : Leaf → Prop
  | .note (.letter _ acc) d slurred => acc ≠ some [] ∧ PrintableDur d ∧ (slurred = true → d.getLast? ≠ some .barline)
  | .note (.midi _) _ _ => False
  | .rest d => PrintableDur d
  | .attr (.octave n) => Counting n
  | .attr .octaveUp | .attr .octaveDown => True
  | .attr (.transposition n) => -2147483648 ≤ n ∧ n ≤ 2147483647
  | .attr (.dynamic m) => m ∈ markings
  | .attr (.keySignature ks) => ExpressibleKey ks
  | .attr _ => False
  | .globalAttr _ => False

/-- A symbol of lisp. -/
def SymbolText (s : String) : Prop := ∃ c cs, s.toList = c :: cs ∧ c ∉ "'-#".toList ∧ c ∉ digits ∧
  ∀ d ∈ c :: cs, d ∉ " \t\r\n()[]{}\"".toList

/-- A form with a quote in front. -/
def IsQuoted : LispForm → Prop
  | .quoted _ => True
  | _ => False

mutual
/-- A lisp form that can be written. -/
def PrintableForm : LispForm → Prop
  | .list fs => PrintableForms fs
  | .quoted f => PrintableForm f ∧ ¬ IsQuoted f
  | .num q => FiniteDecimal q
  | .str s => '"' ∉ s.toList
  | .sym s => SymbolText s
  | _ => False
def PrintableForms : List LispForm → Prop
  | [] => True
  | f :: fs => PrintableForm f ∧ PrintableForms fs
end

/-- A note or a rest. -/
def PrintedSounding : Upd → Prop
  | .leaf (.note _ _ _) | .leaf (.rest _) => True
  | _ => False

/-- What can be between the notes of a chord. -/
def PrintedInChord : Upd → Prop
  | .leaf _ | .lisp _ => True
  | _ => False

/-- What can be repeated: nothing with a note length zero times, since `*0` would be lost. -/
def Repeatable (n : Int) : Upd → Prop
  | .seq _ | .cram _ _ | .varRef _ | .lisp _ => True
  | .chord _ | .leaf (.note _ _ _) | .leaf (.rest _) => 0 < n
  | .leaf (.attr (.dynamic _)) | .leaf (.attr (.keySignature _)) | .leaf (.attr (.transposition _)) => True
  | _ => False

mutual
/-- Ends in a note length, which would take a barline that follows. -/
def LengthLast : Upd → Prop
  | .leaf (.note _ d slurred) => d ≠ [] ∧ slurred = false
  | .leaf (.rest d) => d ≠ []
  | .cram _ d => d ≠ []
  | .chord es => LengthLastL es
  | _ => False
def LengthLastL : List Upd → Prop
  | [] => False
  | [u] => LengthLast u
  | _ :: us => LengthLastL us
end

/-- Begins with a barline. -/
def BarlineFirst : Upd → Prop
  | .barline => True
  | .onReps _ e => BarlineFirst e
  | _ => False

/-- Only for some repetitions. -/
def ForRepetitions : Upd → Prop
  | .onReps _ _ => True
  | _ => False

mutual
/-- An event that can be written. -/
def Printable : Upd → Prop
  | .leaf l => PrintableLeaf l
  | .lisp fs => PrintableForms fs
  | .barline => True
  | .marker n | .atMarker n => n ≠ "" ∧ ∀ c ∈ n.toList, NameChar c
  | .varRef n => NameText n
  | .chord es => 2 ≤ es.length ∧ (∀ u ∈ es, PrintedInChord u) ∧ (∀ u ∈ es.head?, PrintedSounding u) ∧ (∀ u ∈ es.getLast?, PrintedSounding u) ∧ PrintableAll es
  | .cram es d => es ≠ [] ∧ PrintableL false false es ∧ PrintableDur d
  | .seq es => PrintableL true false es
  | .rep e n => Printable e ∧ Counting n ∧ Repeatable n e
  | .onReps rs e => Printable e ∧ rs ≠ [] ∧ (∀ r ∈ rs, Counting r.1 ∧ Counting r.2) ∧ ¬ ForRepetitions e
  | .varDef _ _ | .lispNil | .voice _ | .voiceEnd | .partDecl _ _ => False
/-- All of them can be written. -/
def PrintableAll : List Upd → Prop
  | [] => True
  | u :: us => Printable u ∧ PrintableAll us
/-- Events and voices that can be written one after the other. The first flag tells whether the events are in square brackets, the second one whether
a voice has been started. -/
def PrintableL : Bool → Bool → List Upd → Prop
  | _, _, [] => True
  | b, _, .voice n :: us => 1 ≤ n ∧ Counting n ∧ PrintableL b true us
  | b, v, .voiceEnd :: us => v = true ∧ PrintableL b false us
  | b, v, u :: us => Printable u ∧ (ForRepetitions u → b = true ∧ v = false) ∧ (∀ u' ∈ us.head?, ¬ (LengthLast u ∧ BarlineFirst u')) ∧
      PrintableL b v us
end

/-- A whole score that can be written: events, then parts. -/
inductive PrintableScore : List Upd → Prop where
  | events (us : List Upd) : PrintableL false false us → PrintableScore us
  | part (us : List Upd) (names : List String) (alias : String) (rest : List Upd) :
    PrintableL false false us → names ≠ [] → (∀ n ∈ names, NameText n) → (∀ c ∈ alias.toList, NameChar c) → PrintableScore rest →
    PrintableScore (us ++ .partDecl names alias :: rest)

/-- The note lengths of a note or rest have finite decimal expansions. -/
def FiniteLeaf : Leaf → Prop
  | .note _ d _ | .rest d => ∀ (q : Rat) (k : Nat), DurComp.length q k ∈ d → FiniteDecimal q
  | _ => True

/-- The same for a chord. (For events without further nesting.) -/
def FiniteLengths : Upd → Prop
  | .leaf l => FiniteLeaf l
  | .chord es => ∀ l, .leaf l ∈ es → FiniteLeaf l
  | _ => True

end Alda.Spec
