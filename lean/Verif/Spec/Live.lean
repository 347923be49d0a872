import Verif.Spec.Player
/-!
# Specification of playing live: one bundle of messages after the other (C55)
-/
namespace Alda
namespace Spec
open Player

/-- A message that a client sends in a session: everything is in the ranges of MIDI. -/
def Valid : Msg → Prop
  | .patch _ c o v | .volume _ c o v | .panning _ c o v => 0 ≤ o ∧ 0 ≤ c ∧ c ≤ 15 ∧ 0 ≤ v ∧ v ≤ 127
  | .note _ c o n d a v => 0 ≤ o ∧ 0 ≤ d ∧ 0 ≤ a ∧ 0 ≤ c ∧ c ≤ 15 ∧ 0 ≤ n ∧ n ≤ 127 ∧ 0 ≤ v ∧ v ≤ 127
  | .tempo o _ => 0 ≤ o
  | .play => True
  | .shutdown _ => False

/-- The track that a message is for. -/
def ForTrack (t : Int) : Msg → Prop
  | .patch t' _ _ _ | .volume t' _ _ _ | .panning t' _ _ _ | .note t' _ _ _ _ _ _ => t' = t
  | _ => False

/-- What a message should give: its track, and the events of the sequencer, if the bundle starts at `base` milliseconds on the track. -/
def eventsOf (tick : Int → Int) (base : Int → Int) : Msg → List (Int × MidiEvent)
  | .patch t c o v => [(t, ⟨tick (o + base t), .program c v⟩)]
  | .volume t c o v => [(t, ⟨tick (o + base t), .control c 11 v⟩)]
  | .panning t c o v => [(t, ⟨tick (o + base t), .control c 10 v⟩)]
  | .note t c o n _ a v => [(t, ⟨tick (o + base t), .noteOn c n v⟩), (t, ⟨tick (o + base t + a), .noteOff c n v⟩)]
  | _ => []

/-- The same for bundles. -/
def eventsOfAll (tick : Int → Int) (bundles : List (List Msg × (Int → Int))) : List (Int × MidiEvent) := bundles.flatMap (fun b => b.1.flatMap (eventsOf tick b.2))

/-- The track is occupied until `fin` milliseconds by the notes sent to it. -/
def BusyUntil (t : Int) (bundles : List (List Msg × (Int → Int))) (fin : Int) : Prop :=
  (0 ≤ fin ∧ ∀ b ∈ bundles, ∀ c o n d a v, Msg.note t c o n d a v ∈ b.1 → o + d + b.2 t ≤ fin) ∧
  (fin = 0 ∨ ∃ b ∈ bundles, ∃ c o n d a v, Msg.note t c o n d a v ∈ b.1 ∧ o + d + b.2 t = fin)

/-- When a bundle starts on a track. If the player does not play yet: as soon as the track is free. If it plays: not before the track is free nor within half a second from now, but at most half a second
after the track is free or now, whichever is later, and at the moment the track is free if that is more than half a second from now. `position`: the tick where the sequencer is. -/
def StartsAt (tick : Int → Int) (playing : Bool) (position fin base : Int) : Prop :=
  ∃ now, 0 ≤ now ∧ tick (now - 1) ≤ position ∧ position ≤ tick (now + 1) ∧
    (playing = false → base = max fin now) ∧ (playing = true → fin ≤ base ∧ now + 500 ≤ base ∧ base ≤ max fin now + 500 ∧ (now + 500 ≤ fin → base = fin))

/-- Not a change of tempo. -/
def notTempo (e : MidiEvent) : Bool := match e.msg with
  | .setTempo _ => false
  | .go => false
  | _ => true

/-- A message to a channel. -/
def toChannel (c : Int) (e : MidiEvent) : Bool := match e.msg with
  | .noteOn c' _ _ | .noteOff c' _ _ | .program c' _ | .control c' _ _ => decide (c' = c)
  | _ => false

end Spec
end Alda
