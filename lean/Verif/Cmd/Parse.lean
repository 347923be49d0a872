import Verif.Cmd.Commands
import Verif.Parse.AstJson
/-!
Model of the command `alda parse`: `client/cmd/parse.go`. The REPL server answers `:score ast`, `:score events` and `:score data` with the same JSON
(client/repl/server.go:478-513). The output `ast-human`, another way to write the JSON of the AST (client/parser/ast.go:222-274), is in `Cmd/AstHuman.lean`.
-/
namespace Alda
namespace Cmd

/-- The source code, client/cmd/parse.go:108-117: `none` if there is none. -/
def source (w : World) (f : Flags) : Option (Except Err String) :=
  if f.file ≠ "" then
    match w.read f.file with
    | .error e => some (.error (.user e))
    | .ok text => some (.ok text)
  else if f.code ≠ "" then some (.ok f.code)
  else
    match w.stdin with
    | .terminal => none
    | .piped text => some (.ok text)
    | .broken e => some (.error (.user e))

/-- The names that a score may know as markers or variables: those in its updates. They stand for the keys of the maps. -/
abbrev Names := List String

/-- How addresses and offsets are written: `%p` and `%f` of Go's `fmt`. -/
structure Fmt where
  addr : Nat → String
  fixed : Rat → String
  names : Names

/-- The events, client/cmd/parse.go:186-194. -/
def eventsJson (us : List Upd) : Json := .arr (Upd.jsons us)

/-- What is printed for a source text, client/cmd/parse.go:143-221. -/
def shown (m : Fmt) (outputType text : String) : Except Err Json :=
  match Syn.parse text.toList with
  | .error e => .error (Repl.codeError e)
  | .ok ast =>
    if outputType = "ast" then .ok ast.json
    else
      match Syn.updatesOf ast with
      | .error e => .error e
      | .ok us =>
        if outputType = "events" then .ok (eventsJson us)
        else
          match update us newScore with
          | ⟨some e, _⟩ => .error e
          | ⟨none, s⟩ => .ok (s.json m.addr m.fixed m.names)

/-- `alda parse`, client/cmd/parse.go:67-221. -/
def parse (w : World) (f : Flags) (m : Fmt) (outputType : String) : Except Err Json :=
  if outputType ∉ ["ast", "events", "data"] then .error (.user "not a supported output type")
  else
    match source w f with
    | none => .error noInput
    | some (.error e) => .error e
    | some (.ok text) => shown m outputType text

end Cmd
end Alda
