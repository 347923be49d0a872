import Verif.Repl.Server
import Verif.Parse.Parser
/-!
What the REPL server does with code before it updates the score.
-/
namespace Alda
namespace Repl

/-- What an error of the scanner or the parser is to the server. The position and the message are kept in the model's own words. -/
def codeError : Syn.SynErr → Err
  | .at p m => .user (m ++ " at line " ++ toString p.line ++ ", column " ++ toString p.column)
  | .panic m => .panic m
  | .unreachable => .unreachable

/-- `parser.ParseString` followed by `Updates`, client/repl/server.go:577-585; `ParseString`, client/parser/parser.go:1122-1124. -/
def parseCode (text : String) : Except Err (List Upd) :=
  match Syn.parse text.toList with
  | .error e => .error (codeError e)
  | .ok ast => Syn.updatesOf ast

end Repl
end Alda
