import Verif.Repl.Server
import Verif.Model.Lisp
/-!
Questions and boxes on the terminal: `client/text/interaction.go`, `client/text/formatting.go`.

That the reader of a question may take more from the standard input than the lines it looks at is modelled in `Cmd/Confirm.lean`. Not modelled: colours (`strip` stands for any function that removes them, as the library stripansi does).
-/
namespace Alda
namespace Terminal

/-! ### Questions -/

/-- The answer that a line is, if it is one, client/text/interaction.go:26-33. `strings.ToLower` concerns ASCII letters only here: no other character becomes a letter of these words. -/
def answerOf (defaultToYes : Bool) (line : List Char) : Option Bool :=
  let word := ((line.dropWhile Repl.isSpace).reverse.dropWhile Repl.isSpace).reverse.map Char.toLower
  if word = [] then some defaultToYes
  else if word = "y".toList ∨ word = "yes".toList then some true
  else if word = "n".toList ∨ word = "no".toList then some false
  else none

/-- The loop of `PromptForConfirmation`, client/text/interaction.go:18-34, on the rest of the input; `acc` is the line so far, backwards. `none` is the panic at the end of the input. -/
def ask (defaultToYes : Bool) : List Char → List Char → Option Bool
  | _, [] => none
  | acc, c :: cs =>
    if c = '\n' then
      match answerOf defaultToYes acc.reverse with
      | some b => some b
      | none => ask defaultToYes [] cs
    else ask defaultToYes (c :: acc) cs

/-- `PromptForConfirmation`, client/text/interaction.go:10-35. -/
def confirm (defaultToYes : Bool) (input : List Char) : Option Bool := ask defaultToYes [] input

/-! ### Boxes and indentation -/

/-- Lines, each followed by a newline. -/
def unlines (ls : List (List Char)) : List Char := ls.flatMap (· ++ ['\n'])

/-- `strings.TrimRight(s, "\n")`. -/
def trimNewlines (s : List Char) : List Char := (s.reverse.dropWhile (· = '\n')).reverse

/-- `Indent`, client/text/formatting.go:15-23. -/
def indent (amount : Nat) (s : List Char) : List Char :=
  trimNewlines (unlines ((splitChar '\n' s).map (List.replicate (2 * amount) ' ' ++ ·)))

/-- The longest line, client/text/formatting.go:37-44. -/
def widest (strip : List Char → List Char) (ls : List (List Char)) : Nat :=
  ls.foldl (fun m l => if (strip l).length > m then (strip l).length else m) 0

/-- A line in a box, client/text/formatting.go:51-60. -/
def boxedLine (strip : List Char → List Char) (w : Nat) (line : List Char) : List Char :=
  ['│', ' '] ++ line ++ List.replicate (w - (strip line).length) ' ' ++ [' ', '│']

/-- `Boxed`, client/text/formatting.go:33-67. -/
def boxed (strip : List Char → List Char) (s : List Char) : List Char :=
  let lines := splitChar '\n' s
  let w := widest strip lines
  unlines [['┌'] ++ List.replicate (w + 2) '─' ++ ['┐'], ['│'] ++ List.replicate (w + 2) ' ' ++ ['│']] ++
    unlines (lines.map (boxedLine strip w)) ++ unlines [['│'] ++ List.replicate (w + 2) ' ' ++ ['│']] ++
    (['└'] ++ List.replicate (w + 2) '─' ++ ['┘'])

end Terminal
end Alda
