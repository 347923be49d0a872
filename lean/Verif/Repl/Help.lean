/-!
The texts that `:help` shows, client/repl/client.go.
-/
namespace Alda
namespace Repl

/-- The name and the documentation of a command; the rest of `replCommand`, client/repl/client.go:65-69, is `handleCommand`. -/
structure HelpEntry where
  name : String
  summary : String
  details : String
deriving DecidableEq, Repr

/-- The texts of `replCommands`, client/repl/client.go:80-509. -/
def replHelp : List HelpEntry :=
  [⟨"export", "Exports the current score as a MIDI file.", "Example usage:\n\n  :export my-score.mid"⟩,
   ⟨"help", "Displays this help text.", "Usage:\n\n  :help help\n  :help new"⟩,
   ⟨"instruments", "Displays the list of available instruments.", ""⟩,
   ⟨"load", "Loads a score file (*.alda) into the current REPL session.", "Usage:\n\n  :load test/examples/bach_cello_suite_no_1.alda\n  :load /Users/rick/Scores/love_is_alright_tonite.alda\n\nAfter using :load <filename> to load a file, or after using :save to save the\nworking score to a file, running :load without arguments will reload the score\nfile into the REPL server."⟩,
   ⟨"new", "Resets the REPL server state and initializes a new score.", ""⟩,
   ⟨"parts", "Displays information about the parts in the current score.", ""⟩,
   ⟨"play", "Plays the current score.", "Can take optional `from` and `to` arguments, in the form of markers or mm:ss\ntimes.\n\nWithout arguments, will play the entire score from beginning to end.\n\nExample usage:\n\n  :play\n  :play from 0:05\n  :play to 0:10\n  :play from 0:05 to 0:10\n  :play from guitarIn\n  :play to verse\n  :play from verse to bridge"⟩,
   ⟨"quit", "Exits the Alda REPL session.", ""⟩,
   ⟨"save", "Saves the current score into a file (*.alda).", "Usage:\n\n  :save test/examples/bach_cello_suite_no_1.alda\n  :save /Users/rick/Scores/love_is_alright_tonite.alda\n\nAfter using :save <filename> to save a file, running :save again without\narguments will save the updated score to the same file."⟩,
   ⟨"score", "Prints information about the current score.", "Example usage:\n\n  Print the text (Alda code) of the score (both commands are equivalent):\n    :score\n    :score text\n\n  Print a summary of the score, including information about instruments and\n  markers:\n    :score info\n\n  Print a data representation of the score (This is the output that you get\n  when you run `alda parse -o data ...` at the command line.):\n    :score data\n\n  Print the parsed events output of the score (This is the output that you get\n  when you run `alda parse -o events ...` at the command line.):\n    :score events\n\n  Print the parsed AST output of the score (This is the output that you get\n  when you run `alda parse -o ast-human ...` at the command line.):\n    :score ast"⟩,
   ⟨"stop", "Stops playback.", ""⟩,
   ⟨"version", "Displays the version numbers of the Alda server and client.", ""⟩]

/-- `sort.Strings`, client/repl/client.go:519, one element at a time, with the entries instead of their keys. -/
def insertEntry (x : HelpEntry) : List HelpEntry → List HelpEntry
  | [] => [x]
  | y :: ys => if x.name ≤ y.name then x :: y :: ys else y :: insertEntry x ys

/-- `sortedKeys`, client/repl/client.go:511-519. -/
def sortEntries : List HelpEntry → List HelpEntry
  | [] => []
  | x :: xs => insertEntry x (sortEntries xs)

/-- `maxKeyLength`, client/repl/client.go:512-518. Counted in characters instead of bytes, which is the same for the names of commands. -/
def maxNameLength : List HelpEntry → Nat
  | [] => 0
  | x :: xs => max x.name.length (maxNameLength xs)

/-- `strings.Repeat(" ", n)`. -/
def spaces (n : Nat) : String := String.ofList (List.replicate n ' ')

/-- One line, client/repl/client.go:525-538. -/
def summaryLine (width : Nat) (x : HelpEntry) : String :=
  "    :" ++ x.name ++ spaces (width - x.name.length + 2) ++ x.summary ++ (if x.details ≠ "" then " (*)" else "") ++ "\n"

/-- `commandsSummmary`, client/repl/client.go:511-541. -/
def commandsSummary (table : List HelpEntry) : String :=
  String.join ((sortEntries table).map (summaryLine (maxNameLength table)))

/-- What precedes the list, client/repl/client.go:135-142. -/
def helpIntro : String :=
  "For commands marked with (*), more detailed information about the command is\navailable via the :help command.\n\ne.g. :help play\n\nAvailable commands:\n\n"

/-- `:help` after the arguments were split, client/repl/client.go:133-166, for any table of commands: what is printed, without the last line break, or the error. -/
def helpText (table : List HelpEntry) (args : List String) : Except String String :=
  if args = [] then .ok (helpIntro ++ commandsSummary table)
  else
    let subject := " ".intercalate args
    match table.find? (fun x => x.name == subject) with
    | none => .error ("no documentation available for '" ++ subject ++ "'")
    | some x => .ok (x.summary ++ "\n" ++ (if x.details ≠ "" then "\n" ++ x.details ++ "\n" else ""))

end Repl
end Alda
