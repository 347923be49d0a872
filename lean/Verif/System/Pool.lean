import Verif.Model.Score
/-!
Model of the decisions in `client/system/process_management.go`: which players there are, which one is taken, and how many are started.

Not modelled: the clock (stale files are removed by the world outside), processes, sockets, and the path of the `alda-player` executable.
-/
namespace Alda
namespace Pool

/-- What is in a player state file, after `json.Unmarshal` (client/system/process_management.go:188-218). -/
inductive Contents where
  | empty
  | unreadable
  | player (state : String) (port : Nat)
deriving DecidableEq, Repr

/-- The directory of player state files: names and contents. -/
abbrev Directory := List (String × Contents)

/-- `PlayerState`, client/system/process_management.go:122-129; expiry and process id are not used by the functions below. -/
structure PlayerState where
  state : String
  port : Nat
  id : String
deriving DecidableEq, Repr

/-- The first occurrence of `pat` removed, if there is one. -/
def removeFirst (pat : List Char) : List Char → List Char
  | [] => []
  | c :: cs => if pat.isPrefixOf (c :: cs) then (c :: cs).drop pat.length else c :: removeFirst pat cs

/-- `strings.Replace(filename, ".json", "", 1)`, client/system/process_management.go:220. -/
def playerId (filename : String) : String := String.ofList (removeFirst ".json".toList filename.toList)

/-- `ReadPlayerStates`, client/system/process_management.go:181-229: files that are empty or cannot be read are skipped. -/
def readPlayerStates : Directory → List PlayerState
  | [] => []
  | (name, .player st port) :: files => { state := st, port := port, id := playerId name } :: readPlayerStates files
  | (_, .empty) :: files => readPlayerStates files
  | (_, .unreadable) :: files => readPlayerStates files

/-- `DeletePlayerStateFile`, client/system/process_management.go:25-39: it is no error if there is no such file. -/
def deletePlayerStateFile (id : String) (dir : Directory) : Directory := dir.filter (fun f => f.1 ≠ id ++ ".json")

/-- The world outside: the errors, if any, of finding `alda-player`, of reading the directory, of deleting a file and of starting a process; whether starting processes is
disabled; which ports answer a ping within the time allowed; and what becomes of the directory until it is read again, given how many players were started. -/
structure World where
  disabled : Bool := false
  path : Option String := none
  read : Option String := none
  delete : Option String := none
  spawn : Nat → Option String := fun _ => none
  answers : Nat → Bool
  later : Nat → Directory → Directory := fun _ d => d

/-- The first error of those that were started, client/system/process_management.go:568-573. -/
def firstError (spawn : Nat → Option String) : Nat → Option String
  | 0 => none
  | n + 1 => (firstError spawn n).or (spawn n)

/-- `FillPlayerPool`, client/system/process_management.go:522-576: how many players were started, and the error. Go's `for i := 0; i < playersToStart` runs zero times if
`playersToStart` is negative. -/
def fillPlayerPool (w : World) (dir : Directory) : Nat × Option String :=
  if w.disabled then (0, none)
  else
    match w.path with
    | some e => (0, some e)
    | none =>
      match w.read with
      | some e => (0, some e)
      | none =>
        let availablePlayers := ((readPlayerStates dir).filter (fun p => p.state == "ready" || p.state == "starting")).length
        let playersToStart := (3 : Int) - availablePlayers
        (playersToStart.toNat, firstError w.spawn playersToStart.toNat)

/-- How `FindAvailablePlayer` ends. -/
inductive Found where
  | player (p : PlayerState)
  | noPlayersAvailable
  | error (e : String)
deriving DecidableEq, Repr

/-- `FindAvailablePlayer`, client/system/process_management.go:381-413. The function calls itself; `none` if it has not ended after `fuel` calls. -/
def findAvailablePlayer (w : World) : Nat → Directory → Option Found
  | 0, _ => none
  | fuel + 1, dir =>
    match w.read with
    | some e => some (.error e)
    | none =>
      match (readPlayerStates dir).find? (fun p => p.state == "ready") with
      | none => some .noPlayersAvailable
      | some player =>
        if w.answers player.port then some (.player player)
        else
          match w.delete with
          | some e => some (.error e)
          | none =>
            let dir := deletePlayerStateFile player.id dir
            match fillPlayerPool w dir with
            | (_, some e) => some (.error e)
            | (started, none) => findAvailablePlayer w fuel (w.later started dir)

/-- `FindPlayerByID`, client/system/process_management.go:420-450. -/
def findPlayerByID (id : String) (dir : Directory) : Option PlayerState := (readPlayerStates dir).find? (fun p => p.id == id)

end Pool
end Alda
