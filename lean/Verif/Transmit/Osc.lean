import Verif.Model.Offsets
/-!
Transmitting a score to a player: `client/transmitter/transmitter.go` and `client/transmitter/osc.go`.
-/
namespace Alda

/-- `math.Round`: to the nearest integer, halves away from zero (Go standard library). The code converts the result to `int32`; it is an `Int`
here, so the model is exact for times below 2^31 ms. -/
def goRound (r : Rat) : Int := if 0 ≤ r then (r + 1 / 2).floor else -((-r + 1 / 2).floor)

/-- `TransmissionContext`, client/transmitter/transmitter.go:12-37. The map of sync offsets is a function (0 for parts that are not in it,
as reading a Go map gives) and the flag whether it has any entry. -/
structure Transmission where
  from_ : String := ""
  to_ : String := ""
  fromIndex : Nat := 0
  toIndex : Option Nat := none
  syncOffset : Nat → Rat := fun _ => 0
  hasSync : Bool := false
  oneOff : Bool := false
  loadOnly : Bool := false

/-- The OSC messages of a bundle, client/transmitter/osc.go:20-92. -/
inductive Msg where
  | tempo (offset : Int) (tempo : Rat)
  | patch (track channel offset patch : Int)
  | volume (track channel offset volume : Int)
  | panning (track channel offset panning : Int)
  | note (track channel offset note duration audible velocity : Int)
  | play
  | shutdown (offset : Int)
deriving DecidableEq, Repr

/-- Insertion into a sorted list without duplicates; builds the sorted list of keys of a map. -/
def insertKey (k : Rat) : List Rat → List Rat
  | [] => [k]
  | x :: xs => if k < x then k :: x :: xs else if k = x then x :: xs else x :: insertKey k xs

/-- `for offset := range tempoItinerary` and `sort.Float64s`, client/transmitter/osc.go:133-137: the keys of the map in order. -/
def sortedKeys (it : List (Rat × Rat)) : List Rat := it.foldr (fun a ks => insertKey a.1 ks) []

/-- The loop finding the first tempo offset, client/transmitter/osc.go:143-153. -/
def firstTempoOffset (start : Rat) : List Rat → Rat → Rat
  | [], first => first
  | o :: os, first => if o > start then first else firstTempoOffset start os o

/-- The loop making the messages, client/transmitter/osc.go:159-194. `float32(tempo)` is taken to be exact. -/
def tempoLoop (it : List (Rat × Rat)) (start stop first : Rat) : List Rat → List Msg
  | [] => []
  | o :: os =>
    if o < first then tempoLoop it start stop first os
    else if o ≥ stop then []
    else
      let offset := if o - start < 0 then 0 else o - start
      .tempo (goRound offset) ((it.lookup o).getD 0) :: tempoLoop it start stop first os

/-- `tempoMessages`, client/transmitter/osc.go:128-197. -/
def tempoMessages (it : List (Rat × Rat)) (start stop : Rat) : List Msg :=
  let keys := sortedKeys it
  tempoLoop it start stop (firstTempoOffset start keys 0) keys

/-- The maps `channelPatch`, `channelVolume`, `channelPanning`, client/transmitter/osc.go:288-290. -/
structure Channels where
  patch : Int → Option Int
  volume : Int → Option Rat
  panning : Int → Option Rat

/-- Assignment to a map. -/
def putChannel {α : Type} (m : Int → Option α) (c : Int) (a : α) : Int → Option α := fun x => if x = c then some a else m x

/-- The patch message, client/transmitter/osc.go:345-362. -/
def patchMsgs (track off : Int) (patch : Int) (e : NoteEvent) (ch : Channels) : List Msg × Channels :=
  if e.channel ≠ 9 then
    if ch.patch e.channel ≠ some patch then
      ([.patch track e.channel off patch], { ch with patch := putChannel ch.patch e.channel patch })
    else ([], ch)
  else ([], ch)

/-- The volume message, client/transmitter/osc.go:368-381. -/
def volumeMsgs (track off : Int) (e : NoteEvent) (ch : Channels) : List Msg × Channels :=
  if ch.volume e.channel ≠ some e.trackVolume then
    ([.volume track e.channel off (goRound (e.trackVolume * 127))], { ch with volume := putChannel ch.volume e.channel e.trackVolume })
  else ([], ch)

/-- The panning message, client/transmitter/osc.go:387-400. -/
def panningMsgs (track off : Int) (e : NoteEvent) (ch : Channels) : List Msg × Channels :=
  if ch.panning e.channel ≠ some e.panning then
    ([.panning track e.channel off (goRound (e.panning * 127))], { ch with panning := putChannel ch.panning e.channel e.panning })
  else ([], ch)

/-- The note message, client/transmitter/osc.go:406-414. -/
def noteMsg (track off : Int) (e : NoteEvent) : Msg :=
  .note track e.channel off e.note (goRound e.duration) (goRound e.audible) (goRound (e.volume * 127))

/-- The loop over the events, client/transmitter/osc.go:294-420; also gives the final `scoreLength`. -/
def eventLoop (s : Score) (x : Transmission) (start stop : Rat) : List NoteEvent → Channels → Rat → List Msg × Rat
  | [], _, len => ([], len)
  | e :: es, ch, len =>
    if e.offset < start then eventLoop s x start stop es ch len
    else if e.offset ≥ stop then ([], len)
    else
      let track := (s.track e.part).getD 0
      let offset := e.offset - start - x.syncOffset e.part
      let off := goRound offset
      let r1 := patchMsgs track off (s.heap e.part).instr.patch e ch
      let r2 := volumeMsgs track off e r1.2
      let r3 := panningMsgs track off e r2.2
      let r := eventLoop s x start stop es r3.2 (max len (offset + e.audible))
      (r1.1 ++ r2.1 ++ r3.1 ++ [noteMsg track off e] ++ r.1, r.2)

/-- `InterpretOffsetReference` if there is a reference, else a default, client/transmitter/osc.go:220-239. -/
def offsetOr (s : Score) (reference : String) (default : Rat) : Except Err Rat :=
  if reference ≠ "" then interpretOffsetReference s reference else .ok default

/-- `score.Events[ctx.fromIndex:ctx.toIndex]`, client/transmitter/osc.go:209-217: panics if the indices are not in order and in range. -/
def eventSlice (s : Score) (x : Transmission) : Except Err (List NoteEvent) :=
  let to_ := x.toIndex.getD s.events.length
  if x.fromIndex ≤ to_ ∧ to_ ≤ s.events.length then .ok ((s.events.take to_).drop x.fromIndex)
  else .error (.panic "slice bounds out of range")

/-- `ScoreToOSCBundle`, client/transmitter/osc.go:201-431. `sort` stands for `sort.Slice` with the order by offset: it is not stable, so any
function that gives a sorted permutation is allowed. Sorting in place changes the order of the events in the score as well, see `transmitted`. -/
def scoreToBundle (sort : List NoteEvent → List NoteEvent) (s : Score) (x : Transmission) : Except Err (List Msg) :=
  match eventSlice s x with
  | .error e => .error e
  | .ok events =>
    match offsetOr s x.from_ 0, offsetOr s x.to_ maxFloat with
    | .error e, _ => .error e
    | _, .error e => .error e
    | .ok start, .ok stop =>
      let tempos := if x.hasSync then [] else tempoMessages (tempoItinerary s) start stop
      let r := eventLoop s x start stop (sort events) ⟨fun _ => none, fun _ => none, fun _ => none⟩ 0
      .ok (tempos ++ r.1 ++ (if x.loadOnly then [] else [.play]) ++
        (if x.oneOff then [.shutdown (goRound (r.2 + 10000))] else []))

/-- The score after `ScoreToOSCBundle`: the slice of events was sorted in place, client/transmitter/osc.go:253-255. -/
def transmitted (sort : List NoteEvent → List NoteEvent) (s : Score) (x : Transmission) : Score :=
  match eventSlice s x, offsetOr s x.from_ 0, offsetOr s x.to_ maxFloat with
  | .ok events, .ok _, .ok _ =>
    { s with events := s.events.take x.fromIndex ++ sort events ++ s.events.drop (x.toIndex.getD s.events.length) }
  | _, _, _ => s

end Alda
