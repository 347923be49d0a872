import Verif.Cmd.Commands
/-!
# Specification of what the commands are given and whom they may talk to (C60, C61)
-/
namespace Alda
namespace Cmd
open Pool

/-- The text that is given to a command: the contents of the file, the code on the command line, or what is piped in; in this order, if there are several. -/
inductive Given (w : World) (f : Flags) : String → Prop where
  | file {text : String} : f.file ≠ "" → w.read f.file = .ok text → Given w f text
  | code : f.file = "" → f.code ≠ "" → Given w f f.code
  | piped {text : String} : f.file = "" → f.code = "" → w.stdin = .piped text → Given w f text

/-- No text is given. -/
def NothingGiven (w : World) (f : Flags) : Prop := f.file = "" ∧ f.code = "" ∧ w.stdin = .terminal

/-- A state file in the directory says that there is a player with this id and state at this port. -/
def Known (dir : Directory) (id state : String) (port : Int) : Prop := ∃ name p, (name, Contents.player state p) ∈ dir ∧ playerId name = id ∧ port = p

/-- The directory is one that may be seen in the `i`-th search. -/
def Seen (w : World) (i : Nat) (dir : Directory) : Prop := dir = w.dir i ∨ ∃ k d, dir = (w.look i).later k d

/-- A player to whom a command may send music: the one at the port that was asked for, the one with the id that was asked for, or one that was ready, and answered, while the
command looked for one. -/
inductive Chosen (w : World) (f : Flags) : Int → Prop where
  | port : f.port ≠ -1 → Chosen w f f.port
  | id {state : String} {port : Int} : f.port = -1 → f.playerId ≠ "" → Known (w.dir 0) f.playerId state port → Chosen w f port
  | free {i : Nat} {dir : Directory} {id : String} {port : Nat} : f.port = -1 → f.playerId = "" → Seen w i dir → Known dir id "ready" port → (w.look i).answers port = true → Chosen w f port

/-- The music of a text. -/
def Means (text : String) (program : List Upd) (s : Score) : Prop := Repl.parseCode text = .ok program ∧ (update program newScore).err = none ∧ s = (update program newScore).s

end Cmd
end Alda
