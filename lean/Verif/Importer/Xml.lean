import Verif.Importer.Optimizer
/-!
What the MusicXML importer sees of a file: a tree of elements, as `github.com/beevik/etree` gives it. Reading the tree from bytes is not modelled.
-/
namespace Alda
namespace Importer

/-- `etree.Element` as far as the importer looks at it: tag, attributes, the text right after the opening tag (`Text()`), and the child
elements (`ChildElements()`). -/
inductive Elem where
  | mk (tag : String) (attrs : List (String × String)) (text : String) (children : List Elem)

/-- `element.Tag`. -/
def Elem.tag : Elem → String
  | .mk t _ _ _ => t

/-- The attributes. -/
def Elem.attrs : Elem → List (String × String)
  | .mk _ a _ _ => a

/-- `element.Text()`. -/
def Elem.text : Elem → String
  | .mk _ _ t _ => t

/-- `element.ChildElements()`. -/
def Elem.children : Elem → List Elem
  | .mk _ _ _ c => c

/-- `element.FindElements(tag)` for a path that is a single tag: the children with that tag. -/
def Elem.findAll (e : Elem) (tag : String) : List Elem := e.children.filter (fun c => c.tag = tag)

/-- `element.FindElement(tag)`: the first such child; nil is `none`. -/
def Elem.find (e : Elem) (tag : String) : Option Elem := (e.findAll tag).head?

/-- `element.FindElements("tag/tag2")`. -/
def Elem.findAll2 (e : Elem) (tag tag2 : String) : List Elem := (e.findAll tag).flatMap (fun c => c.findAll tag2)

/-- `element.SelectAttr(key)`; nil is `none`. -/
def Elem.attr (e : Elem) (key : String) : Option String := e.attrs.lookup key

/-- `element.SelectAttrValue(key, default)`. -/
def Elem.attrOr (e : Elem) (key default : String) : String := (e.attr key).getD default

/-! ### Numbers -/

/-- The value of a digit. -/
def digitVal (c : Char) : Option Nat := if '0' ≤ c ∧ c ≤ '9' then some (c.toNat - 48) else none

/-- A number in decimal digits; `none` if another character occurs. -/
def digitsValue : Nat → List Char → Option Nat
  | acc, [] => some acc
  | acc, c :: cs => match digitVal c with
    | none => none
    | some d => digitsValue (10 * acc + d) cs

/-- One or more decimal digits. -/
def naturalOf : List Char → Option Nat
  | [] => none
  | cs => digitsValue 0 cs

/-- A sign and digits. -/
def integerOf : List Char → Option Int
  | '-' :: cs => (naturalOf cs).map (fun n => -(n : Int))
  | '+' :: cs => (naturalOf cs).map (fun n => (n : Int))
  | cs => (naturalOf cs).map (fun n => (n : Int))

/-- `n, _ := strconv.ParseInt(text, 10, bits)` (Go library): 0 for a text that is no number, the nearest number of that size for a number that is out of
range. -/
def parseInt (bits : Nat) (text : String) : Int :=
  match integerOf text.toList with
  | none => 0
  | some n => max (-(2 ^ (bits - 1))) (min (2 ^ (bits - 1) - 1) n)

/-- Digits, or digits with a point among them. -/
def decimalOf (cs : List Char) : Option Rat :=
  match cs.span (· ≠ '.') with
  | (a, []) => (naturalOf a).map (fun n => (n : Rat))
  | (a, _ :: b) =>
    if a.isEmpty && b.isEmpty then none
    else match digitsValue 0 a, digitsValue 0 b with
      | some n, some m => some (n + m / 10 ^ b.length)
      | _, _ => none

/-- `x, _ := strconv.ParseFloat(text, 64)` (Go library) for a decimal number with an optional sign. Exponents, hexadecimal numbers, infinities and texts that
are no numbers are not followed: `none`. -/
def parseFloat (text : String) : Option Rat :=
  match text.toList with
  | '-' :: cs => (decimalOf cs).map (fun x => -x)
  | '+' :: cs => decimalOf cs
  | cs => decimalOf cs

end Importer
end Alda
