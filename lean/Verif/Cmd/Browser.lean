import Verif.Repl.Code
import Verif.Transmit.Osc
/-!
Model of the function that Alda offers to web pages, `client/wasm/main.go`.

Not modelled: JavaScript's promises, what becomes of a panic in one (here it is an error like others), and how messages are written as bytes.
-/
namespace Alda
namespace Browser

/-- `toOSCBytes`, client/wasm/main.go:95-127: the messages with which the promise is resolved, or the error with which it is rejected. -/
def toOSC (sort : List NoteEvent → List NoteEvent) (code : String) : Except Err (List Msg) :=
  match Repl.parseCode code with
  | .error e => .error e
  | .ok updates =>
    match update updates newScore with
    | ⟨some e, _⟩ => .error e
    | ⟨none, score⟩ => scoreToBundle sort score { loadOnly := true }

end Browser
end Alda
