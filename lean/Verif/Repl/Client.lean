import Verif.Repl.Help
import Verif.Repl.Server
/-!
Model of `client/repl/client.go`: what the REPL client does with a line that is typed, together with the server it is connected to and the files.

Not modelled: bencode, the prompt with its history (the library `readline`), colours and help texts, and what is printed of a response other than its errors and the text
of the score. `shlex.Split` (the library `github.com/google/shlex`) is a parameter.
-/
namespace Alda
namespace Repl

/-- `Client`, client/repl/client.go:46-64. The connection is a number, as in `Request`. -/
structure Client where
  running : Bool
  conn : Nat
  sessionID : String
  inputFilepath : String
deriving DecidableEq, Repr

/-- What appears on the screen: an error of the client, the errors of a response, or something that was asked for. -/
inductive Shown where
  | error (e : String)
  | problems (l : List String)
  | text (s : String)
  | other (what : String)
deriving DecidableEq, Repr

/-- A client, its server, the files (with the contents of those that can be read; two names of one file count as two files), the responses on the connection that have not
been read yet, and what was shown so far. -/
structure Session where
  client : Client
  server : Server
  files : String → Option String
  inbox : List Response
  shown : List Shown

/-- What the world outside does while one line is handled: what it does to the server, the new message id, the error, if any, of sending the request, whether the
response takes longer than 30 seconds, how many responses the decoder reads beyond the one that it returns (the library `bencode-go` reads from a connection through a
buffer of its own, which does not outlive the call), the error of writing a file, and the MIDI data of an export. -/
structure Env where
  world : World := {}
  id : String
  unsent : Option String := none
  late : Bool := false
  ahead : Nat := 0
  write : Option String := none
  midi : String := ""

/-- The code that the client shares with the server, and `shlex.Split`. -/
structure Tools where
  parse : String → Except Err (List Upd)
  sort : List NoteEvent → List NoteEvent
  split : String → Except String (List String)

/-- Printing. -/
def Session.print (x : Shown) (m : Session) : Session := { m with shown := m.shown ++ [x] }

/-! ### Requests -/

/-- `ResponseErrors`, client/repl/client.go:698-735. A whole response is called `response`. -/
def responseErrors (res : Response) : List String :=
  match res "status" with
  | some (.strings l) =>
    if "error" ∈ l then
      match res "problems" with
      | some (.strings []) => ["response"]
      | some (.strings ps) => ps
      | _ => ["response"]
    else []
  | _ => ["response"]

/-- `printResponseErrors`, client/repl/client.go:737-751. -/
def printResponseErrors (res : Response) (m : Session) : Session :=
  match responseErrors res with
  | [] => m
  | l => m.print (.problems l)

/-- What the client puts into every request, client/repl/client.go:640-645. -/
def requestOf (e : Env) (c : Client) (msg : String → Option Field) : Request :=
  ⟨c.conn, put (if c.sessionID ≠ "" then put msg "session" (.str c.sessionID) else msg) "id" (.str e.id)⟩

/-- The server handles the request, and its responses travel to the client. -/
def Session.handled (t : Tools) (e : Env) (req : Request) (m : Session) : Session :=
  let s := handle t.parse t.sort e.world req m.server
  { m with server := s, inbox := m.inbox ++ ((s.out.drop m.server.out.length).filter (fun r => r.1 = req.conn)).map (·.2) }

/-- `sendRequest`, client/repl/client.go:632-696, without options. A response that takes too long (654) stays on the connection, and if there is none the client waits in vain. -/
def sendRequest (t : Tools) (e : Env) (msg : String → Option Field) (m : Session) : Except String Response × Session :=
  match e.unsent with
  | some err => (.error err, m)
  | none =>
    let m := m.handled t e (requestOf e m.client msg)
    if e.late then (.error "i/o timeout", m)
    else
      match m.inbox with
      | [] => (.error "i/o timeout", m)
      | res :: rest =>
        let m := { m with inbox := rest.drop e.ahead }
        if res "id" ≠ some (.field (.str e.id)) then (.error "unexpected \"id\" in response", m)
        else (.ok res, printResponseErrors res m)

/-- The message with these fields. -/
def message (fields : List (String × String)) : String → Option Field := fun k => (fields.lookup k).map .str

/-- A command that only sends a request, as in client/repl/client.go:247-256. -/
def request1 (t : Tools) (e : Env) (msg : String → Option Field) (m : Session) : Option String × Session :=
  match sendRequest t e msg m with
  | (.error err, m) => (some err, m)
  | (.ok _, m) => (none, m)

/-- A request for one value of the score, with the missing value as an error; client/repl/client.go:797-871. -/
def requestValue (t : Tools) (e : Env) (op key : String) (m : Session) : Except String Item × Session :=
  match sendRequest t e (message [("op", op)]) m with
  | (.error err, m) => (.error err, m)
  | (.ok res, m) =>
    match res key with
    | some v => (.ok v, m)
    | none => (.error "the response from the REPL server did not contain the value", m)

/-- Requesting and printing something, as in client/repl/client.go:171-197, 261-276 and 424-465. -/
def showValue (t : Tools) (e : Env) (op key : String) (m : Session) : Option String × Session :=
  match requestValue t e op key m with
  | (.error err, m) => (some err, m)
  | (.ok (.text s), m) => (none, m.print (.text s))
  | (.ok _, m) => (none, m.print (.other key))

/-- `os.WriteFile`. -/
def writeFile (e : Env) (name contents : String) (m : Session) : Option String × Session :=
  match e.write with
  | some err => (some err, m)
  | none => (none, { m with files := put m.files name contents })

/-! ### Commands -/

/-- The loop over the arguments of `:play`, client/repl/client.go:304-331; `none` if they are invalid. -/
def playArgs (req : List (String × String)) : List String → Option (List (String × String))
  | [] => some req
  | [_] => none
  | "from" :: v :: args => if (req.lookup "from").isSome then none else playArgs (("from", v) :: req) args
  | "to" :: v :: args => if (req.lookup "to").isSome then none else playArgs (("to", v) :: req) args
  | _ => none

/-- An error about the arguments, client/repl/client.go:75-77. -/
def invalidArgs : String := "invalid arguments"

/-- The argument of `:load` and `:save`, client/repl/client.go:216-225, 364-373: without one, the file used last. -/
def fileArg (args : List String) (m : Session) : Except String Session :=
  match args with
  | [] => if m.client.inputFilepath = "" then .error "please specify the path to a file" else .ok m
  | [f] => .ok { m with client := { m.client with inputFilepath := f } }
  | _ => .error invalidArgs

/-- `:load`, client/repl/client.go:210-242. -/
def loadCommand (t : Tools) (e : Env) (args : List String) (m : Session) : Option String × Session :=
  match fileArg args m with
  | .error err => (some err, m)
  | .ok m =>
    match m.files m.client.inputFilepath with
    | none => (some "no such file or directory", m)
    | some contents => request1 t e (message [("op", "load"), ("code", contents)]) m

/-- `:save`, client/repl/client.go:358-381. -/
def saveCommand (t : Tools) (e : Env) (args : List String) (m : Session) : Option String × Session :=
  match fileArg args m with
  | .error err => (some err, m)
  | .ok m =>
    match requestValue t e "score-text" "text" m with
    | (.error err, m) => (some err, m)
    | (.ok (.text s), m) => writeFile e m.client.inputFilepath s m
    | (.ok _, m) => (some "the response from the REPL server did not contain the score text", m)

/-- `:export`, client/repl/client.go:86-117. -/
def exportCommand (t : Tools) (e : Env) (args : List String) (m : Session) : Option String × Session :=
  match args with
  | [f] =>
    match requestValue t e "export" "binary-data" m with
    | (.error err, m) => (some err, m)
    | (.ok _, m) => writeFile e f e.midi m
  | _ => (some invalidArgs, m)

/-- `:score`, client/repl/client.go:407-468. -/
def scoreCommand (t : Tools) (e : Env) (args : List String) (m : Session) : Option String × Session :=
  match args with
  | [] => showValue t e "score-text" "text" m
  | ["text"] => showValue t e "score-text" "text" m
  | ["data"] => showValue t e "score-data" "data" m
  | ["events"] => showValue t e "score-events" "events" m
  | ["ast"] => showValue t e "score-ast" "ast" m
  | ["info"] => showValue t e "score-data" "data" m
  | _ => (some invalidArgs, m)

/-- A command that splits its arguments. -/
def withArgs (t : Tools) (args : String) (m : Session) (k : List String → Option String × Session) : Option String × Session :=
  match t.split args with
  | .error err => (some err, m)
  | .ok l => k l

/-- The table `replCommands`, client/repl/client.go:80-509, and `handleCommand`, 544-551. -/
def handleCommand (t : Tools) (e : Env) (name args : String) (m : Session) : Option String × Session :=
  match name with
  | "export" => withArgs t args m fun l => exportCommand t e l m
  | "help" => withArgs t args m fun l =>
    match helpText replHelp l with
    | .error err => (some err, m)
    | .ok s => (none, m.print (.text s))
  | "instruments" => showValue t e "instruments" "instruments" m
  | "load" => withArgs t args m fun l => loadCommand t e l m
  | "new" => request1 t e (message [("op", "new-score")]) m
  | "parts" => showValue t e "score-data" "data" m
  | "play" => withArgs t args m fun l =>
    match playArgs [] l with
    | none => (some invalidArgs, m)
    | some fields => request1 t e (message (("op", "replay") :: fields)) m
  | "quit" => (none, { m with client := { m.client with running := false } })
  | "save" => withArgs t args m fun l => saveCommand t e l m
  | "score" => withArgs t args m fun l => scoreCommand t e l m
  | "stop" => request1 t e (message [("op", "stop")]) m
  | "version" => showValue t e "describe" "versions" m
  | _ => (some ("unrecognized command: " ++ name), m)

/-! ### Lines -/

/-- The regular expression `^:([^ ]+) ?(.*)$`, client/repl/client.go:1116-1127, on a line (without line breaks) that starts with a colon: the name and the arguments. -/
def parseCommand (input : String) : Option (String × String) :=
  let rest := input.toList.drop 1
  let name := rest.takeWhile (· ≠ ' ')
  if name = [] then none
  else some (String.ofList name, String.ofList ((rest.dropWhile (· ≠ ' ')).drop 1))

/-- Showing the error of a command, client/repl/client.go:1128-1130. -/
def reportError : Option String × Session → Session
  | (some err, m) => m.print (.error err)
  | (none, m) => m

/-- One round of the loop of `RunClient`, client/repl/client.go:1094-1146, for a line that was read. -/
def typeLine (t : Tools) (e : Env) (line : String) (m : Session) : Session :=
  if line = "" then m
  else
    let input := trimSpace line
    if input.toList.head? = some ':' ∧ input.length > 1 then
      match parseCommand input with
      | none => m.print (.error "failed to parse command.")
      | some (name, args) => reportError (handleCommand t e name args m)
    else if input = "quit" ∨ input = "exit" ∨ input = "bye" then { m with client := { m.client with running := false } }
    else reportError (request1 t e (message [("op", "eval-and-play"), ("code", input)]) m)

/-- The loop of `RunClient`, client/repl/client.go:1094-1146: the lines that are read, until the client is to stop. -/
def typeLines (t : Tools) : List (Env × String) → Session → Session
  | [], m => m
  | (e, line) :: ls, m => if m.client.running then typeLines t ls (typeLine t e line m) else m

end Repl
end Alda
