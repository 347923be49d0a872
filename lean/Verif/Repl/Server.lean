import Verif.Transmit.Osc
/-!
Model of `client/repl/server.go` and `client/repl/validation.go`: what the REPL server does with one request.

Not modelled: the listening socket, decoding of bencode (`listen`, server.go:276-341), state files, and the loop that looks for players
(`managePlayers`, player_management.go:122-194). What these contribute to the handling of a request is in `World`.
-/
namespace Alda
namespace Repl

/-- A decoded value of a request; byte strings have become strings (client/repl/server.go:318-327). The contents of lists and dictionaries are never looked at. -/
inductive Field where
  | str (s : String)
  | int (n : Int)
  | list (n : Nat)
  | dict (n : Nat)
deriving DecidableEq, Repr

/-- `reflect.TypeOf(value) == typeString`, client/repl/validation.go:8, 47-48. -/
def Field.isString : Field → Bool
  | .str _ => true
  | _ => false

/-- `nREPLRequest`, client/repl/server.go:31-34. The connection is a number. -/
structure Request where
  conn : Nat
  msg : String → Option Field

/-- A value in a response. `data` stands for the values whose contents do not depend on the state of the server, or are computed by functions that are not modelled. -/
inductive Item where
  | strings (l : List String)
  | field (f : Field)
  | text (s : String)
  | data (what : String)
deriving DecidableEq, Repr

/-- `map[string]interface{}`: the data of a response. -/
abbrev Response := String → Option Item

/-- `m[k] = v`. -/
def put {α : Type} (m : String → Option α) (k : String) (v : α) : String → Option α := fun x => if x = k then some v else m x

/-- What the world outside the server does while one request is handled: whether the server has a player when it resets its state; the errors, if any, of shutting
down that player, of waiting for a player (`withTransmitter`, client/repl/player_management.go:54-76), of sending a message to it, of sending the
message with the new offset, and of the rest of an export (server.go:738-772). -/
structure World where
  hasPlayer : Bool := true
  shutdown : Option String := none
  player : Option String := none
  send : Option String := none
  offset : Option String := none
  export_ : Option String := none
deriving DecidableEq, Repr

/-- `Server`, client/repl/server.go:37-58, with the package variable `describeResponse` (343-349), all responses sent so far with their connections, all bundles sent to
players so far, and whether the process has panicked. (Points where the model does not follow the Go program count as a panic.) -/
structure Server where
  input : String
  score : Score
  eventIndex : Nat
  describe : Response
  out : List (Nat × Response)
  sent : List (List Msg)
  panicked : Bool

/-- `describeResponse` after `init`, client/repl/server.go:343-362. -/
def describeResponse : Response := put (put (fun _ => none) "versions" (.data "versions")) "ops" (.data "ops")

/-- `NewServer`, client/repl/server.go:139-147. There is no player yet. -/
def newServer : Server :=
  { input := "", score := newScore, eventIndex := 0, describe := describeResponse, out := [], sent := [], panicked := false }

/-! ### Responding -/

/-- The changes that `respond` makes to `data`, client/repl/server.go:71-79. -/
def respondData (req : Request) (status : List String) (data : Response) : Response :=
  let data := put data "status" (.strings status)
  let data := match req.msg "session" with
    | some v => put data "session" (.field v)
    | none => data
  match req.msg "id" with
  | some v => put data "id" (.field v)
  | none => data

/-- `respond`, client/repl/server.go:64-86. -/
def respond (req : Request) (status : List String) (data : Response) (s : Server) : Server :=
  { s with out := s.out ++ [(req.conn, respondData req status data)] }

/-- A nil map, and the empty map that replaces it, client/repl/server.go:67-69. -/
def noData : Response := fun _ => none

/-- `respondDone`, client/repl/server.go:88-92. -/
def respondDone (req : Request) (data : Response) (s : Server) : Server := respond req ["done"] data s

/-- `respondErrors`, client/repl/server.go:94-103. -/
def respondErrors (req : Request) (problems : List String) (s : Server) : Server :=
  respond req ["done", "error"] (put noData "problems" (.strings problems)) s

/-- What happens after an error: a response, unless it was a panic. -/
def respondError (req : Request) (e : Err) (s : Server) : Server :=
  match e with
  | .user m => respondErrors req [m] s
  | _ => { s with panicked := true }

/-! ### Validation (client/repl/validation.go) -/

/-- `validate` for a required field that must be a string, client/repl/validation.go:40-60. -/
def validateString (name : String) (req : Request) : List String :=
  match req.msg name with
  | none => ["Request field missing: " ++ name]
  | some f => if f.isString then [] else ["Expected \"" ++ name ++ "\" to be of type `string`"]

/-- `req.msg[name].(string)` after validation. -/
def stringField (name : String) (req : Request) : String :=
  match req.msg name with
  | some (.str s) => s
  | _ => ""

/-! ### The state -/

/-- `unicode.IsSpace`, Go standard library. -/
def isSpace (c : Char) : Bool :=
  [0x09, 0x0A, 0x0B, 0x0C, 0x0D, 0x20, 0x85, 0xA0, 0x1680, 0x2028, 0x2029, 0x202F, 0x205F, 0x3000].contains c.toNat || (0x2000 ≤ c.toNat && c.toNat ≤ 0x200A)

/-- `strings.TrimSpace`, Go standard library. -/
def trimSpace (s : String) : String :=
  String.ofList ((s.toList.dropWhile isSpace).reverse.dropWhile isSpace).reverse

/-- The result of a method that can fail. -/
structure Done where
  err : Option Err
  s : Server

/-- Go on after success. -/
def Done.andThen (d : Done) (k : Server → Done) : Done :=
  match d.err with
  | none => k d.s
  | some _ => d

/-- An error of the world outside. -/
def fromWorld (e : Option String) (s : Server) : Done := ⟨e.map .user, s⟩

/-- `resetState`, client/repl/server.go:111-123. -/
def resetState (w : World) (s : Server) : Done :=
  (if w.hasPlayer then fromWorld w.shutdown s else ⟨none, s⟩).andThen fun s =>
    ⟨none, { s with input := "", score := newScore, eventIndex := 0 }⟩

/-- The options of `updateScoreWithInput`, client/repl/server.go:567-576, 597-615: computed from the server before the update. -/
def incremental (s : Server) : Transmission :=
  { fromIndex := s.eventIndex, syncOffset := fun o => (s.score.partOffset o).getD 0, hasSync := !s.score.parts.isEmpty }

/-- `updateScoreWithInput`, client/repl/server.go:564-616, apart from the options. `parse` stands for `parser.ParseString` followed by `Updates`. -/
def updateScoreWithInput (parse : String → Except Err (List Upd)) (input : String) (s : Server) : Done :=
  match parse input with
  | .error e => ⟨some e, s⟩
  | .ok updates =>
    match update updates s.score with
    | ⟨some e, score⟩ => ⟨some e, { s with score := score }⟩
    | ⟨none, score⟩ => ⟨none, { s with score := score, input := s.input ++ (trimSpace input ++ "\n"), eventIndex := score.events.length }⟩

/-- `TransmitScore`, client/transmitter/osc.go:435-449. The bundle counts as sent if sending it was no error. -/
def transmitScore (sort : List NoteEvent → List NoteEvent) (w : World) (x : Transmission) (s : Server) : Done :=
  match scoreToBundle sort s.score x with
  | .error e => ⟨some e, { s with score := transmitted sort s.score x }⟩
  | .ok ms =>
    match w.send with
    | some e => ⟨some (.user e), { s with score := transmitted sort s.score x }⟩
    | none => ⟨none, { s with score := transmitted sort s.score x, sent := s.sent ++ [ms] }⟩

/-- `evalAndPlay`, client/repl/server.go:618-638, with the options `from` and `to`. -/
def evalAndPlay (parse : String → Except Err (List Upd)) (sort : List NoteEvent → List NoteEvent) (w : World) (input from_ to_ : String) (s : Server) : Done :=
  (fromWorld w.player s).andThen fun s =>
    (updateScoreWithInput parse input s).andThen fun s' =>
      transmitScore sort w { incremental s with from_ := from_, to_ := to_ } s'

/-- `load`, client/repl/server.go:640-679. -/
def load (parse : String → Except Err (List Upd)) (sort : List NoteEvent → List NoteEvent) (w : World) (input : String) (s : Server) : Done :=
  (resetState w s).andThen fun s =>
    (fromWorld w.player s).andThen fun s =>
      (updateScoreWithInput parse input s).andThen fun s' =>
        (transmitScore sort w { incremental s with loadOnly := true } s').andThen fun s =>
          fromWorld w.offset s

/-- `replay`, client/repl/server.go:685-713. -/
def replay (parse : String → Except Err (List Upd)) (sort : List NoteEvent → List NoteEvent) (w : World) (from_ to_ : String) (s : Server) : Done :=
  (resetState w s).andThen fun s' => evalAndPlay parse sort w s.input from_ to_ s'

/-- `export`, client/repl/server.go:720-773: `reload`, and then what only concerns the world outside. -/
def exportScore (parse : String → Except Err (List Upd)) (sort : List NoteEvent → List NoteEvent) (w : World) (s : Server) : Done :=
  (load parse sort w s.input s).andThen fun s => fromWorld w.export_ s

/-! ### Operations -/

/-- The end of most handlers: respond with the error, or with the data. -/
def finish (req : Request) (data : Server → Response) (d : Done) : Server :=
  match d.err with
  | some e => respondError req e d.s
  | none => respondDone req (data d.s) d.s

/-- A handler whose request must have a string `code`, client/repl/server.go:387-405, 428-446. -/
def withCode (req : Request) (s : Server) (k : String → Done) : Server :=
  let errors := validateString "code" req
  if errors.length > 0 then respondErrors req errors s
  else finish req (fun _ => noData) (k (stringField "code" req))

/-- The table `ops`, client/repl/server.go:364-534. -/
def ops (parse : String → Except Err (List Upd)) (sort : List NoteEvent → List NoteEvent) (w : World) (req : Request) (s : Server) : String → Option Server
  | "clone" => some (respondDone req (put noData "new-session" (.data "uuid")) s)
  | "describe" =>
    -- The map is shared by all requests, and `respond` changes it.
    some (respondDone req s.describe { s with describe := respondData req ["done"] s.describe })
  | "eval" => some (respondDone req (put noData "value" (.data "shrug")) s)
  | "eval-and-play" => some (withCode req s fun input => evalAndPlay parse sort w input "" "" s)
  | "export" => some (finish req (fun _ => put noData "binary-data" (.data "midi")) (exportScore parse sort w s))
  | "instruments" => some (respondDone req (put noData "instruments" (.data "instruments")) s)
  | "load" => some (withCode req s fun input => load parse sort w input s)
  | "new-score" => some (finish req (fun _ => noData) (resetState w s))
  | "replay" => some (finish req (fun _ => noData) (replay parse sort w (stringField "from" req) (stringField "to" req) s))
  | "score-data" => some (respondDone req (put noData "data" (.data "score")) s)
  | "score-events" =>
    some (finish req (fun _ => put noData "events" (.data "events")) (match parse s.input with | .error e => ⟨some e, s⟩ | .ok _ => ⟨none, s⟩))
  | "score-ast" =>
    some (finish req (fun _ => put noData "ast" (.data "ast")) (match parse s.input with | .error e => ⟨some e, s⟩ | .ok _ => ⟨none, s⟩))
  | "score-text" => some (respondDone req (put noData "text" (.text s.input)) s)
  | "stop" => some (finish req (fun _ => noData) ((fromWorld w.player s).andThen fun s => fromWorld w.send s))
  | _ => none

/-- The loop body of `handleRequests`, client/repl/server.go:538-559. A server that has panicked does nothing more. -/
def handle (parse : String → Except Err (List Upd)) (sort : List NoteEvent → List NoteEvent) (w : World) (req : Request) (s : Server) : Server :=
  if s.panicked then s
  else
    let errors := validateString "op" req
    if errors.length > 0 then respondErrors req errors s
    else
      match ops parse sort w req s (stringField "op" req) with
      | none => respond req ["done", "error", "unknown-op"] noData s
      | some s => s

/-- `handleRequests`, client/repl/server.go:538-559: the requests from the queue, one after the other. -/
def handleAll (parse : String → Except Err (List Upd)) (sort : List NoteEvent → List NoteEvent) : List (World × Request) → Server → Server
  | [], s => s
  | (w, req) :: rs, s => handleAll parse sort rs (handle parse sort w req s)

end Repl
end Alda
