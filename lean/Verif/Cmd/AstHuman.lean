import Verif.Cmd.Terminal

/-!
The tree that `alda parse -o ast-human` and `:score ast` print, client/parser/ast.go.
-/
namespace Alda
namespace AstHuman

/-- What the JSON of a node has, client/parser/ast.go:184-220: the type, the line and column if the line is known, the literal as `%#v` writes it, and the children. Lines and columns
arrive as floating point numbers and are written as integers, which is exact for all that a file can have. -/
inductive Node where
  | mk (type : List Char) (position : Option (Nat × Nat)) (literal : Option (List Char)) (children : List Node)

/-- `maybeSourceContext`, client/parser/ast.go:240-248. -/
def positionText : Option (Nat × Nat) → List Char
  | none => []
  | some (line, column) => " [".toList ++ Nat.toDigits 10 line ++ [':'] ++ Nat.toDigits 10 column ++ [']']

/-- `maybeLiteral`, client/parser/ast.go:250-253. -/
def literalText : Option (List Char) → List Char
  | none => []
  | some l => ": ".toList ++ l

/-- `nodeString`, client/parser/ast.go:255-260. -/
def label (type : List Char) (position : Option (Nat × Nat)) (literal : Option (List Char)) : List Char := type ++ positionText position ++ literalText literal

mutual
/-- `recursivelyWriteNodes`, client/parser/ast.go:236-269. -/
def write (amount : Nat) : Node → List Char
  | .mk type position literal children => Terminal.indent amount (label type position literal) ++ ['\n'] ++ writeAll (amount + 1) children
/-- Its loop, client/parser/ast.go:266-268. -/
def writeAll (amount : Nat) : List Node → List Char
  | [] => []
  | n :: ns => write amount n ++ writeAll amount ns
end

/-- `HumanReadableAST`, client/parser/ast.go:233-274. -/
def humanReadable (n : Node) : List Char := Terminal.trimNewlines (write 0 n)

end AstHuman
end Alda
