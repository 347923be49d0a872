import Verif.Cmd.Terminal

/-!
Questions to the user, client/text/interaction.go, with the buffer of the reader, which `Cmd/Terminal.lean` leaves out.
-/
namespace Alda
namespace Confirm

/-- The part of the loop, client/text/interaction.go:18-34, that happens within what one read of the standard input has returned: `line` is what was read of the line before, in
reverse, and `asked` how often the question was printed. Either what there is then of the next line, or the answer. -/
def within (dflt : Bool) (asked : Nat) (line : List Char) : List Char → (Nat × List Char) ⊕ (Nat × Bool)
  | [] => .inl (asked, line)
  | c :: cs =>
    if c = '\n' then
      match Terminal.answerOf dflt line.reverse with
      | some b => .inr (asked, b)
      | none => within dflt (asked + 1) [] cs
    else within dflt asked (c :: line) cs

/-- The loop, client/text/interaction.go:18-34, over what the reads of the standard input return one after the other: how often the question was printed, the answer (`none`: the input
ended, and the function panics), and what can still be read afterwards. The `bufio.Reader` is dropped at the end (16), and with it what was read together with the answer. A read that
returns more than the 4096 bytes of the buffer counts as several. -/
def loop (dflt : Bool) (asked : Nat) (line : List Char) : List (List Char) → Nat × Option Bool × List (List Char)
  | [] => (asked, none, [])
  | r :: rs =>
    match within dflt asked line r with
    | .inl (n, line) => loop dflt n line rs
    | .inr (n, b) => (n, some b, rs)

/-- `PromptForConfirmation`, client/text/interaction.go:10-35. -/
def prompt (dflt : Bool) (input : List (List Char)) : Nat × Option Bool × List (List Char) := loop dflt 1 [] input

end Confirm
end Alda
