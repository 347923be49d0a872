import Verif.Player.Player
/-!
The messages between client and player as they are written and read: addresses and arguments (`client/transmitter/osc.go`; `player/src/main/kotlin/io/alda/player/Parser.kt`, `Receiver.kt`).

Not modelled: how addresses and arguments are written as bytes (the libraries go-osc and JavaOSC).
-/
namespace Alda
namespace Player

/-- An argument: `int32`, `float32` or a string. -/
inductive Arg where
  | int (i : Int)
  | float (q : Rat)
  | str (s : String)
deriving DecidableEq, Repr

/-- A message. -/
structure Osc where
  address : List Char
  args : List Arg
deriving DecidableEq, Repr

/-- A message or a bundle; bundles may contain bundles. -/
inductive OscPacket where
  | message (m : Osc)
  | bundle (ps : List OscPacket)

/-! ### Writing -/

/-- `int32(…)`: 32 bits of the number. -/
def int32 (i : Int) : Int := i.bmod 4294967296

/-- `%d`. -/
def showInt : Int → List Char
  | .ofNat n => Nat.toDigits 10 n
  | .negSucc n => '-' :: Nat.toDigits 10 (n + 1)

/-- The address of a message for a track, client/transmitter/osc.go:57, 68, 79, 87. -/
def trackAddress (track : Int) (rest : String) : List Char := "/track/".toList ++ (showInt (int32 track) ++ rest.toList)

/-- The messages, client/transmitter/osc.go:19-92. `f32` is the conversion to `float32`. -/
def write (f32 : Rat → Rat) : Instr → Osc
  | .ping => ⟨"/ping".toList, []⟩
  | .exportTo f => ⟨"/system/midi/export".toList, [.str f]⟩
  | .score .play => ⟨"/system/play".toList, []⟩
  | .stop => ⟨"/system/stop".toList, []⟩
  | .score (.shutdown o) => ⟨"/system/shutdown".toList, [.int (int32 o)]⟩
  | .offset o => ⟨"/system/offset".toList, [.int (int32 o)]⟩
  | .score (.tempo o v) => ⟨"/system/tempo".toList, [.int (int32 o), .float (f32 v)]⟩
  | .score (.patch t c o v) => ⟨trackAddress t "/midi/patch", [.int (int32 c), .int (int32 o), .int (int32 v)]⟩
  | .score (.note t c o n d a v) =>
    ⟨trackAddress t "/midi/note", [.int (int32 c), .int (int32 o), .int (int32 n), .int (int32 d), .int (int32 a), .int (int32 v)]⟩
  | .score (.volume t c o v) => ⟨trackAddress t "/midi/volume", [.int (int32 c), .int (int32 o), .int (int32 v)]⟩
  | .score (.panning t c o v) => ⟨trackAddress t "/midi/panning", [.int (int32 c), .int (int32 o), .int (int32 v)]⟩

/-! ### Reading -/

/-- What a player understands: what the client sends, and what only other programs do (Parser.kt:128-130, 147-149, 217-309). -/
inductive Understood where
  | instr (i : Instr)
  | clear
  | trackClear (track : Int)
  | trackPattern (track channel offset : Int) (pattern : String) (times : Int)
  | trackLoop (track channel offset : Int) (pattern : String)
  | finishLoop (track offset : Int)
  | patternClear (pattern : List Char)
  | patternNote (pattern : List Char) (offset note duration audible velocity : Int)
  | patternVolume (pattern : List Char) (offset volume : Int)
  | patternPanning (pattern : List Char) (offset panning : Int)
  | patternPattern (pattern : List Char) (offset : Int) (other : String) (times : Int)
deriving DecidableEq, Repr

/-- `args.get(k) as Int`; `none` is an exception. -/
def Osc.int (m : Osc) (k : Nat) : Option Int :=
  match m.args[k]? with
  | some (.int i) => some i
  | _ => none

/-- `args.get(k) as Float`. -/
def Osc.float (m : Osc) (k : Nat) : Option Rat :=
  match m.args[k]? with
  | some (.float q) => some q
  | _ => none

/-- `args.get(k) as String`. -/
def Osc.str (m : Osc) (k : Nat) : Option String :=
  match m.args[k]? with
  | some (.str s) => some s
  | _ => none

/-- What comes after the start `prefix_`, if the text has it. -/
def after (prefix_ : String) (a : List Char) : Option (List Char) :=
  if a.take prefix_.toList.length = prefix_.toList then some (a.drop prefix_.toList.length) else none

/-- `Regex("/track/\\d+…").matches(address)`, where the rest begins with a slash. -/
def isTrack (rest : String) (a : List Char) : Bool :=
  match after "/track/" a with
  | none => false
  | some r => r.takeWhile Char.isDigit ≠ [] && r.dropWhile Char.isDigit = rest.toList

/-- `Regex("/pattern/[^/]+…").matches(address)`, where the rest begins with a slash. -/
def isPattern (rest : String) (a : List Char) : Bool :=
  match after "/pattern/" a with
  | none => false
  | some r => r.takeWhile (· ≠ '/') ≠ [] && r.dropWhile (· ≠ '/') = rest.toList

/-- `trackNumber`, Parser.kt:59-64: an exception if the number is too large for an `Int`. -/
def trackNumber (a : List Char) : Option Int :=
  let n := Nat.ofDigitChars 10 ((a.drop 7).takeWhile Char.isDigit) 0
  if n ≤ 2147483647 then some n else none

/-- `patternName`, Parser.kt:66-71. -/
def patternName (a : List Char) : List Char := (a.drop 9).takeWhile (· ≠ '/')

/-- `parse`, Parser.kt:73-340: the first address that matches counts; an unknown one, and any exception, means that the message is ignored (`none`). -/
def read (m : Osc) : Option Understood :=
  let a := m.address
  if a = "/ping".toList then some (.instr .ping)
  else if a = "/system/shutdown".toList then do return .instr (.score (.shutdown (← m.int 0)))
  else if a = "/system/play".toList then some (.instr (.score .play))
  else if a = "/system/stop".toList then some (.instr .stop)
  else if a = "/system/offset".toList then do return .instr (.offset (← m.int 0))
  else if a = "/system/clear".toList then some .clear
  else if a = "/system/tempo".toList then do return .instr (.score (.tempo (← m.int 0) (← m.float 1)))
  else if a = "/system/midi/export".toList then do return .instr (.exportTo (← m.str 0))
  else if isTrack "/clear" a then do return .trackClear (← trackNumber a)
  else if isTrack "/midi/patch" a then do return .instr (.score (.patch (← trackNumber a) (← m.int 0) (← m.int 1) (← m.int 2)))
  else if isTrack "/midi/note" a then do
    return .instr (.score (.note (← trackNumber a) (← m.int 0) (← m.int 1) (← m.int 2) (← m.int 3) (← m.int 4) (← m.int 5)))
  else if isTrack "/midi/volume" a then do return .instr (.score (.volume (← trackNumber a) (← m.int 0) (← m.int 1) (← m.int 2)))
  else if isTrack "/midi/panning" a then do return .instr (.score (.panning (← trackNumber a) (← m.int 0) (← m.int 1) (← m.int 2)))
  else if isTrack "/pattern" a then do return .trackPattern (← trackNumber a) (← m.int 0) (← m.int 1) (← m.str 2) (← m.int 3)
  else if isTrack "/pattern-loop" a then do return .trackLoop (← trackNumber a) (← m.int 0) (← m.int 1) (← m.str 2)
  else if isTrack "/finish-loop" a then do return .finishLoop (← trackNumber a) (← m.int 0)
  else if isPattern "/clear" a then some (.patternClear (patternName a))
  else if isPattern "/midi/note" a then do return .patternNote (patternName a) (← m.int 0) (← m.int 1) (← m.int 2) (← m.int 3) (← m.int 4)
  else if isPattern "/midi/volume" a then do return .patternVolume (patternName a) (← m.int 0) (← m.int 1)
  else if isPattern "/midi/panning" a then do return .patternPanning (patternName a) (← m.int 0) (← m.int 1)
  else if isPattern "/pattern" a then do return .patternPattern (patternName a) (← m.int 0) (← m.str 1) (← m.int 2)
  else none

mutual
/-- `instructions`, Receiver.kt:16-22. -/
def instructions : OscPacket → List Osc
  | .message m => [m]
  | .bundle ps => instructionsAll ps

/-- `flatMap` of `instructions`. -/
def instructionsAll : List OscPacket → List Osc
  | [] => []
  | p :: ps => instructions p ++ instructionsAll ps
end

/-- `parse` applied to `Updates`, Parser.kt:73-340; what only other programs send changes nothing that `Updates` keeps here. -/
def Updates.readMessage (u : Updates) (m : Osc) : Updates :=
  match read m with
  | some (.instr i) => u.parse i
  | _ => u

/-- `parseUpdates(instructions(packet))`, Receiver.kt:29-32, Parser.kt:343-347. -/
def readPacket (p : OscPacket) : Updates := (instructions p).foldl Updates.readMessage {}

/-- A bundle of messages, client/transmitter/osc.go:241 and :422-428, or a single message, :99-135. -/
def writeBundle (f32 : Rat → Rat) (is : List Instr) : OscPacket := .bundle (is.map (fun i => .message (write f32 i)))

end Player
end Alda
