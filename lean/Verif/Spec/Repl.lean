import Verif.Repl.Server
import Verif.Spec.Playback
/-!
# Specification of a REPL session (C38 - C40)
-/
namespace Alda
namespace Repl

/-- The last thing the server sent is `resp`, to whoever made the request, and it is all that was sent since `s`. -/
def Answered (req : Request) (s s' : Server) (resp : Response) : Prop := s'.out = s.out ++ [(req.conn, resp)]

/-- The status of a response contains a word. -/
def HasStatus (resp : Response) (word : String) : Prop := ∃ l, resp "status" = some (.strings l) ∧ word ∈ l

/-- The response carries the id and the session of the request. -/
def Echoes (req : Request) (resp : Response) : Prop :=
  ∀ k, k = "id" ∨ k = "session" → ∀ v, req.msg k = some v → resp k = some (.field v)

/-- A correct answer. -/
structure Answer (req : Request) (resp : Response) : Prop where
  done : HasStatus resp "done"
  echoes : Echoes req resp

/-- What a client can ask for. -/
def operations : List String :=
  ["clone", "describe", "eval", "eval-and-play", "export", "instruments", "load", "new-score", "replay", "score-data", "score-events", "score-ast",
    "score-text", "stop"]

/-- The operation is missing, not a string or unknown, or the code to be evaluated is missing or not a string. -/
def Invalid (req : Request) : Prop :=
  (∀ op, req.msg "op" = some (.str op) → op ∉ operations) ∨
  ((req.msg "op" = some (.str "eval-and-play") ∨ req.msg "op" = some (.str "load")) ∧ ∀ code, req.msg "code" ≠ some (.str code))

/-- The request was answered without reporting an error. -/
def Succeeded (req : Request) (s s' : Server) : Prop :=
  s'.panicked = false ∧ ∃ resp, Answered req s s' resp ∧ ¬ HasStatus resp "error"

/-- The request was answered, and an error was reported. -/
def Failed (req : Request) (s s' : Server) : Prop :=
  s'.panicked = false ∧ ∃ resp, Answered req s s' resp ∧ HasStatus resp "error"

/-- A request to evaluate code. -/
def Evaluates (req : Request) (code : String) : Prop :=
  req.msg "op" = some (.str "eval-and-play") ∧ req.msg "code" = some (.str code)

/-- The servers that exist during a session: what any requests make of a new server in any circumstances. -/
inductive InSession (parse : String → Except Err (List Upd)) (sort : List NoteEvent → List NoteEvent) : Server → Prop where
  | start : InSession parse sort newServer
  | step {s} (w : World) (req : Request) : InSession parse sort s → InSession parse sort (handle parse sort w req s)

/-- A session of evaluations, all of which succeed; with the scores after each of them, latest first. -/
inductive Evaluations (parse : String → Except Err (List Upd)) (sort : List NoteEvent → List NoteEvent) : List Score → Server → Prop where
  | start : Evaluations parse sort [] newServer
  | step {scores s} (w : World) (req : Request) (code : String) : Evaluations parse sort scores s → Evaluates req code →
      Succeeded req s (handle parse sort w req s) → Evaluations parse sort ((handle parse sort w req s).score :: scores) (handle parse sort w req s)

end Repl
end Alda
