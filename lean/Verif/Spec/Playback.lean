import Verif.Transmit.Osc
import Verif.Spec.Parts
/-!
# Specification of what a player does with a bundle (C33 - C37)
-/
namespace Alda

/-- `n` is the whole number nearest to `r`; halves are rounded away from zero. -/
def Nearest (r : Rat) (n : Int) : Prop :=
  (0 ≤ r → (n : Rat) - 1 / 2 ≤ r ∧ r < (n : Rat) + 1 / 2) ∧ (r < 0 → (n : Rat) - 1 / 2 < r ∧ r ≤ (n : Rat) + 1 / 2)

/-- What `sort.Slice` promises. -/
def SortsByOffset (sort : List NoteEvent → List NoteEvent) : Prop :=
  ∀ l, (sort l).Perm l ∧ (sort l).Pairwise (fun a b => a.offset ≤ b.offset)

/-- Two lists of the same length, related element by element. -/
inductive Matches {α β : Type} (R : α → β → Prop) : List α → List β → Prop where
  | nil : Matches R [] []
  | cons {a b as bs} : R a b → Matches R as bs → Matches R (a :: as) (b :: bs)

/-- The score time a reference given as an option stands for. -/
def Stands (s : Score) (reference : String) (default offset : Rat) : Prop :=
  (reference = "" ∧ offset = default) ∨ (reference ≠ "" ∧ interpretOffsetReference s reference = .ok offset)

/-- The note messages of a bundle. -/
def noteMsgs (ms : List Msg) : List Msg :=
  ms.filter fun m => match m with
    | .note .. => true
    | _ => false

/-- The message that is to be sent for a note. -/
def SentAs (s : Score) (shift : NoteEvent → Rat) (e : NoteEvent) (m : Msg) : Prop :=
  ∃ (track : Nat) (offset duration audible velocity : Int),
    m = .note track e.channel offset e.note duration audible velocity ∧
    1 ≤ track ∧ (instances s)[track - 1]? = some e.part ∧
    Nearest (e.offset - shift e) offset ∧ Nearest e.duration duration ∧ Nearest e.audible audible ∧ Nearest (e.volume * 127) velocity

/-- The controls of the channels. -/
structure Controls where
  patch : Int → Option Int := fun _ => none
  volume : Int → Option Int := fun _ => none
  panning : Int → Option Int := fun _ => none

/-- What is heard when messages are processed one after the other: the notes, each with patch, volume and panning of its channel at that moment. -/
def listen : List Msg → Controls → List (Msg × Option Int × Option Int × Option Int)
  | [], _ => []
  | .patch _ c _ v :: ms, k => listen ms { k with patch := fun x => if x = c then some v else k.patch x }
  | .volume _ c _ v :: ms, k => listen ms { k with volume := fun x => if x = c then some v else k.volume x }
  | .panning _ c _ v :: ms, k => listen ms { k with panning := fun x => if x = c then some v else k.panning x }
  | .note t c o n d a v :: ms, k => (.note t c o n d a v, k.patch c, k.volume c, k.panning c) :: listen ms k
  | _ :: ms, k => listen ms k

/-- When a message to a channel is due. -/
def Msg.channelTime : Msg → Option Int
  | .patch _ _ o _ | .volume _ _ o _ | .panning _ _ o _ | .note _ _ o _ _ _ _ => some o
  | _ => none

/-- Messages to channels, in the order in which they are due; those that are due at the same time in the order in which they were sent. -/
def inTimeOrder (ms : List Msg) : List Msg :=
  (ms.filter (fun m => m.channelTime.isSome)).mergeSort (fun a b => decide (a.channelTime.getD 0 ≤ b.channelTime.getD 0))

/-- A note heard as it should. -/
def HeardAs (s : Score) (shift : NoteEvent → Rat) (e : NoteEvent) (h : Msg × Option Int × Option Int × Option Int) : Prop :=
  SentAs s shift e h.1 ∧ (e.channel ≠ 9 → h.2.1 = some ((s.heap e.part).instr.patch : Int)) ∧
  ∃ volume panning, h.2.2 = (some volume, some panning) ∧ Nearest (e.trackVolume * 127) volume ∧ Nearest (e.panning * 127) panning

/-- The tempo in force at a time according to the tempo messages, these being processed in order: the last one that is due. -/
def tempoAt : List Msg → Int → Option Rat → Option Rat
  | [], _, t => t
  | .tempo o v :: ms, now, t => tempoAt ms now (if o ≤ now then some v else t)
  | _ :: ms, now, t => tempoAt ms now t

/-- The last tempo set by global changes given in order, if any. -/
def lastTempo : List (Rat × PartUpd) → Rat → Rat
  | [], t => t
  | (_, .tempo v) :: cs, _ => lastTempo cs v
  | _ :: cs, t => lastTempo cs t

/-- The tempos that global changes given in order establish: a tempo change the tempo given, a metric modulation the last tempo set, multiplied. -/
def tempoChanges : List (Rat × PartUpd) → Rat → List (Rat × Rat)
  | [], _ => []
  | (o, .tempo v) :: cs, _ => (o, v) :: tempoChanges cs v
  | (o, .metricModulation r) :: cs, t => (o, t * r) :: tempoChanges cs t
  | _ :: cs, t => tempoChanges cs t

/-- The changes of the master tempo; of two for the same time, the later in the list counts: 120 at the beginning, the values recorded for the first part of the score,
global changes. -/
def masterChanges (s : Score) : List (Rat × Rat) :=
  ([(0, 120)] ++ (match s.parts with
    | [] => []
    | p :: _ => (s.heap p).tempoValues.reverse)) ++
  tempoChanges (s.globals.offsets.flatMap fun o => ((s.globals.itinerary o).getD []).map fun u => (o, u)) 120

/-- The last change for a time. -/
def LastAt (l : List (Rat × Rat)) (o v : Rat) : Prop := ∃ pre post, l = pre ++ (o, v) :: post ∧ ∀ c ∈ post, c.1 ≠ o

/-- The tempo in force at a time: of the changes up to then, the one for the latest time. -/
def InForce (l : List (Rat × Rat)) (now v : Rat) : Prop := ∃ o ≤ now, LastAt l o v ∧ ∀ o' v', (o', v') ∈ l → o' ≤ now → o' ≤ o

end Alda
