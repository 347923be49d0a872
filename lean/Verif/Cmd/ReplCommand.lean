import Verif.Repl.Client
import Verif.Model.Json
/-!
Model of the command `alda repl`, `client/cmd/repl.go`, and of the file `.alda-nrepl-port` that servers write (`client/repl/server.go`).

Not modelled: parsing of the command line (cobra), the presentation of errors, and a signal while a client runs in the same process (the server's files are then removed early).
-/
namespace Alda
namespace ReplCommand

/-- The options, client/cmd/repl.go:17-46. -/
structure Flags where
  host : String := "127.0.0.1"
  port : Int := -1
  client : Bool := false
  server : Bool := false
  message : String := ""

/-- What the command does: it serves on a port, sends a message, prints a response, runs a client, waits for a signal, removes the files of the server. -/
inductive Act where
  | serve (port : Int)
  | send (host : String) (port : Int) (message : List (String × Json))
  | print (response : Repl.Response)
  | session (host : String) (port : Int)
  | wait
  | close

/-- The world outside: how a text is read as JSON (gabs), a port that is free (`FindOpenPort`, client/system/tcp.go:12-27), the error of listening on a port, the answer to a message
(`SendMessage`, client/repl/client.go:1153-1168) and how a session ends (`RunClient`, client/repl/client.go:1038-1149). -/
structure World where
  json : String → Option Json
  free : Except String Int
  listens : Int → Option String
  answers : String → Int → List (String × Json) → Except String Repl.Response
  ends : String → Int → Option String

/-- `errInvalidNREPLMessage`, client/cmd/repl.go:48-60. -/
def invalidMessage : String := "Invalid nREPL message"

/-- `errREPLServerPortUnspecified`, client/cmd/repl.go:101-113. -/
def noPort : String := "You must specify the port of the Alda REPL server that you wish to connect to."

/-- `sendREPLMessage`, client/cmd/repl.go:62-99: the error, and what is done. -/
def sendMessage (w : World) (host : String) (port : Int) (message : String) : Option String × List Act :=
  match w.json message with
  | none => (some invalidMessage, [])
  | some (.obj fields) =>
    if fields.lookup "op" = none then (some invalidMessage, [])
    else
      match w.answers host port fields with
      | .error e => (some e, [.send host port fields])
      | .ok res => (if (Repl.responseErrors res).length > 0 then some "The Alda REPL server indicated that your request was unsuccessful." else none, [.send host port fields, .print res])
  | some _ => (some invalidMessage, [])

/-- The end of the command, client/cmd/repl.go:195-204. -/
def runClient (w : World) (f : Flags) (port : Int) : Option String × List Act :=
  if f.client then
    if port = -1 then (some noPort, []) else (w.ends f.host port, [.session f.host port])
  else (none, [])

/-- The server, client/cmd/repl.go:158-193: with `defer`, its files are removed in the end, in the case without client for a second time. -/
def runServer (w : World) (f : Flags) (port : Int) : Option String × List Act :=
  match w.listens port with
  | some e => (some e, [])
  | none =>
    let r := runClient w f port
    (r.1, .serve port :: (if f.client then [] else [.wait, .close]) ++ r.2 ++ [.close])

/-- The server, if there is to be one, and the client, client/cmd/repl.go:158-206. -/
def serveAndRun (w : World) (f : Flags) : Option String × List Act :=
  if f.server then
    if f.port = -1 then
      match w.free with
      | .error e => (some e, [])
      | .ok port => runServer w f port
    else runServer w f f.port
  else runClient w f f.port

/-- `alda repl`, client/cmd/repl.go:143-206. -/
def replCommand (w : World) (f : Flags) : Option String × List Act :=
  if f.message ≠ "" then
    if f.port = -1 then (some noPort, []) else sendMessage w f.host f.port f.message
  else serveAndRun w (if f.client = false ∧ f.server = false then { f with client := true, server := true } else f)

/-! ### The port file -/

/-- What happens to the servers that are started in one directory; ports stand for servers. -/
inductive Event where
  | start (port : Int)
  | close (port : Int)
  | crash (port : Int)

/-- The file `.alda-nrepl-port` of a directory, and the servers that run there. -/
structure Directory where
  file : Option Int := none
  running : List Int := []

/-- `writePortFile`, client/repl/server.go:152-154 and 246, and `removePortFile`, 213-215: any server removes the file, whichever has written it. A port in use cannot be used again
(`net.Listen`, :239). -/
def happen (d : Directory) : Event → Directory
  | .start p => if p ∈ d.running then d else ⟨some p, p :: d.running⟩
  | .close p => if p ∈ d.running then ⟨none, d.running.erase p⟩ else d
  | .crash p => ⟨d.file, d.running.erase p⟩

end ReplCommand
end Alda
