import Verif.Repl.Client
import Verif.Spec.Join
/-!
Specification for C57 and C58: what someone at the prompt of the REPL relies on.
-/
namespace Alda
namespace Repl

/-- The request gets to the server, its response comes in time, and files can be written. -/
structure Fine (e : Env) : Prop where
  sent : e.unsent = none
  intime : e.late = false
  written : e.write = none

/-- The line is a command with these arguments. -/
def Command (t : Tools) (line name : String) (args : List String) : Prop :=
  ∃ a, (trimSpace line = ":" ++ name ++ " " ++ a ∨ trimSpace line = ":" ++ name ∧ a = "") ∧ t.split a = .ok args

/-- The file that `:load` and `:save` with these arguments are about: the one named, or else the one named last. -/
def About (m : Session) (args : List String) (f : String) : Prop :=
  args = [f] ∨ args = [] ∧ f = m.client.inputFilepath ∧ f ≠ ""

/-- The line is code. -/
structure IsCode (line : String) : Prop where
  nonempty : line ≠ ""
  command : ∀ c l, trimSpace line ≠ String.ofList (':' :: c :: l)
  quit : trimSpace line ≠ "quit" ∧ trimSpace line ≠ "exit" ∧ trimSpace line ≠ "bye"

/-- Something is wrong. -/
inductive IsError : Shown → Prop where
  | error (e : String) : IsError (.error e)
  | problems (l : List String) : IsError (.problems l)

/-- An error has been shown. -/
def Complains (m m' : Session) : Prop := ∃ l, m'.shown = m.shown ++ l ∧ ∃ x ∈ l, IsError x

/-- No error has been shown. -/
def Quiet (m m' : Session) : Prop := ∃ l, m'.shown = m.shown ++ l ∧ ∀ x ∈ l, ¬ IsError x

/-- Nothing is left to be read. -/
def InSync (m : Session) : Prop := m.inbox = []

/-- Lines of code were typed, and none of them was complained about. -/
inductive Coded (t : Tools) : List String → Session → Session → Prop where
  | start (m : Session) : Coded t [] m m
  | line {codes m m'} (e : Env) (line : String) : Coded t codes m m' → Fine e → IsCode line → Quiet m' (typeLine t e line m') →
      Coded t (codes ++ [trimSpace line]) m (typeLine t e line m')

end Repl
end Alda
