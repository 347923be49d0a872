import Verif.Player.Player
import Verif.Spec.Playback
/-!
# Specification of what is heard from a MIDI sequence (C52 - C55)

A sequence is a list of MIDI events in the order in which a sequencer goes through them.
-/
namespace Alda
namespace Spec
open Player

/-- The time, in microseconds, at which a sequencer with 128 ticks per quarter note comes to a tick: it has been at the tick `at_` at time 0, where the quarter note was `uspq` microseconds. -/
def clockFrom : List MidiEvent → Int → Rat → Int → Rat
  | [], at_, uspq, tick => ((tick : Rat) - at_) * uspq / 128
  | e :: es, at_, uspq, tick => match e.msg with
    | .setTempo u => if e.tick ≤ tick then ((e.tick : Rat) - at_) * uspq / 128 + clockFrom es e.tick u tick else ((tick : Rat) - at_) * uspq / 128
    | _ => clockFrom es at_ uspq tick

/-- The time, in microseconds, at which the sequencer comes to a tick. A sequence starts with 120 quarter notes per minute. -/
def clock (track : List MidiEvent) (tick : Int) : Rat := clockFrom track 0 500000 tick

/-- A note that is heard: the tick where it starts, the tick where it ends, and the state of its channel when it starts. -/
structure Tone where
  start : Int
  stop : Option Int
  channel : Int
  note : Int
  velocity : Int
  patch : Option Int
  volume : Option Int
  panning : Option Int
deriving DecidableEq, Repr

/-- When the note on a channel is turned off. -/
def turnedOff (channel note : Int) : List MidiEvent → Option Int
  | [] => none
  | e :: es => match e.msg with
    | .noteOff c n _ => if c = channel ∧ n = note then some e.tick else turnedOff channel note es
    | _ => turnedOff channel note es

/-- The state of the channels after a message. Controller 11 is the volume of a channel, controller 10 its panning. -/
def after (k : Controls) : MidiMsg → Controls
  | .program c v => { k with patch := fun x => if x = c then some v else k.patch x }
  | .control c n v =>
    if n = 11 then { k with volume := fun x => if x = c then some v else k.volume x }
    else if n = 10 then { k with panning := fun x => if x = c then some v else k.panning x }
    else k
  | _ => k

/-- What is heard of a sequence: each note that is turned on, until the next time that the note is turned off. -/
def tones : List MidiEvent → Controls → List Tone
  | [], _ => []
  | e :: es, k =>
    (match e.msg with
      | .noteOn c n v => [⟨e.tick, turnedOff c n es, c, n, v, k.patch c, k.volume c, k.panning c⟩]
      | _ => []) ++ tones es (after k e.msg)

/-- The times of the tempo messages. -/
def tempoTimes : List Msg → List Int
  | [] => []
  | .tempo o _ :: ms => o :: tempoTimes ms
  | _ :: ms => tempoTimes ms

/-- One of two notes is over, and some time passes, before the other one begins. -/
def Pause (g : Rat) (a b : NoteEvent) : Prop := a.offset + a.audible + g ≤ b.offset ∨ b.offset + b.audible + g ≤ a.offset

instance (g : Rat) (a b : NoteEvent) : Decidable (Pause g a b) := by unfold Pause; infer_instance

/-- A note of a score, played from `start`, is heard as it should be. `tick` says at which tick the sequencer is after a number of milliseconds. -/
def SoundsAs (s : Score) (start : Rat) (tick : Int → Int) (e : NoteEvent) (h : Tone) : Prop :=
  h.channel = e.channel ∧ h.note = e.note ∧ Nearest (e.volume * 127) h.velocity ∧ (e.channel ≠ 9 → h.patch = some ((s.heap e.part).instr.patch : Int)) ∧
  ∃ on length volume panning, Nearest (e.offset - start) on ∧ Nearest e.audible length ∧ h.start = tick on ∧ h.stop = some (tick (on + length)) ∧
    h.volume = some volume ∧ Nearest (e.trackVolume * 127) volume ∧ h.panning = some panning ∧ Nearest (e.panning * 127) panning

/-- The ticks of a sequence are at the right times, up to an error in microseconds. -/
def KeepsTime (track : List MidiEvent) (tick : Int → Int) (error : Int → Rat) : Prop :=
  (∀ a b, 0 ≤ a → a ≤ b → tick a ≤ tick b) ∧
  ∀ t, 0 ≤ t → clock track (tick t) - 1000 * t ≤ error t ∧ 1000 * t - clock track (tick t) ≤ error t

/-- A message for a key. -/
def Keyed : MidiMsg → Prop
  | .noteOn .. | .noteOff .. => True
  | _ => False

/-- The messages that count for the beginning of a file. -/
def Heard : MidiMsg → Prop
  | .noteOn .. | .control .. => True
  | _ => False

end Spec
end Alda
