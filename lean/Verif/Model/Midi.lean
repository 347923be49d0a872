import Verif.Model.Score
/-!
Model of `client/model/midi.go`.
-/
namespace Alda

/-- `s.midiChannelUsage[channel]`: the array has 16 entries, any other index panics (`none`). -/
def Score.usageAt (s : Score) (ch : Int) : Option (List Nat) :=
  if 0 ≤ ch ∧ ch < 16 then some (s.usage ch.toNat) else none

/-- `channelIsUnused`, client/model/midi.go:12-16 (index in range). -/
def channelIsUnused (s : Score) (ch : Nat) : Bool := (s.usage ch).isEmpty

/-- `partHasExclusiveAccess`, client/model/midi.go:18-22 (index in range). -/
def partHasExclusiveAccess (s : Score) (part : Part) (ch : Nat) : Bool := s.usage ch == [part.origin]

/-- The loop of `simpleCheck`, client/model/midi.go:24-38, over the channels given. -/
def simpleCheckFrom (s : Score) (part : Part) : List Nat → Option Nat
  | [] => none
  | ch :: chs =>
    if ch = 9 then simpleCheckFrom s part chs
    else if channelIsUnused s ch || partHasExclusiveAccess s part ch then some ch
    else simpleCheckFrom s part chs

/-- `simpleCheck`, client/model/midi.go:24-38. -/
def simpleCheck (s : Score) (part : Part) : Option Nat := simpleCheckFrom s part (List.range 16)

/-- `overlaps`, client/model/midi.go:40-48. -/
def overlaps (start1 dur1 start2 dur2 : Rat) : Bool :=
  decide (start2 < start1 + dur1) && decide (start2 + dur2 > start1)

/-- The set `unavailableChannels`, client/model/midi.go:51-76: channel `ch` is in it iff some note of a part with another origin
on `ch` overlaps the proposed note. -/
def channelUnavailable (s : Score) (part : Part) (noteDur : Rat) (ch : Int) : Bool :=
  s.events.any (fun e =>
    (s.heap e.part).origin != part.origin && e.channel == ch && overlaps e.offset e.audible part.offset noteDur)

/-- The last loop of `complexCheck`, client/model/midi.go:85-95. -/
def complexCheckFrom (s : Score) (part : Part) (noteDur : Rat) : List Nat → Option Int
  | [] => none
  | ch :: chs =>
    if ch = 9 then complexCheckFrom s part noteDur chs
    else if channelUnavailable s part noteDur ch then complexCheckFrom s part noteDur chs
    else some ch

/-- `complexCheck`, client/model/midi.go:50-98; `none` is `(false, -1)`. -/
def complexCheck (s : Score) (part : Part) (noteDur : Rat) : Option Int :=
  if part.midiChannel ≠ -1 ∧ channelUnavailable s part noteDur part.midiChannel = false then some part.midiChannel
  else complexCheckFrom s part noteDur (List.range 16)

/-- `availableMidiChannel`, client/model/midi.go:100-120. -/
def availableMidiChannel (s : Score) (part : Part) (noteDur : Rat) : Except Err Int :=
  match simpleCheck s part with
  | some ch => .ok ch
  | none =>
    match complexCheck s part noteDur with
    | some ch => .ok ch
    | none => .error (.user "No MIDI channel available")

/-- `determineMidiChannel`, client/model/midi.go:122-163. -/
def determineMidiChannel (s : Score) (part : Part) (noteDur : Rat) : Except Err Int :=
  if part.instr.percussion then .ok 9
  else if part.explicitChannel then
    match s.usageAt part.midiChannel with
    | none => .error (.panic "index out of range")
    | some u =>
      if u.isEmpty || u == [part.origin] then .ok part.midiChannel
      else if (complexCheck s part noteDur).getD (-1) ≠ part.midiChannel then
        .error (.user "The specified MIDI channel is not available")
      else .ok part.midiChannel
  else if part.midiChannel = -1 then availableMidiChannel s part noteDur
  else
    match s.usageAt part.midiChannel with
    | none => .error (.panic "index out of range")
    | some u =>
      if u == [part.origin] then .ok part.midiChannel else availableMidiChannel s part noteDur

/-- Recording the user of a channel, client/model/midi.go:173-184. -/
def recordUsage (s : Score) (ch : Nat) (origin : Nat) : Score :=
  if (s.usage ch).contains origin then s
  else { s with usage := fun c => if c = ch then s.usage ch ++ [origin] else s.usage c }

/-- `assignMidiChannel`, client/model/midi.go:165-187. -/
def assignMidiChannel (s : Score) (part : Part) (noteDur : Rat) : Except Err (Int × Score) :=
  match determineMidiChannel s part noteDur with
  | .error e => .error e
  | .ok ch =>
    if 0 ≤ ch ∧ ch < 16 then .ok (ch, recordUsage s ch.toNat part.origin)
    else .error (.panic "index out of range")

end Alda
