import Verif.Player.Expiry
/-!
Specification for C59: when a player may exit for inactivity.
-/
namespace Alda
namespace Player

/-- By how much the music is put off: the time for which it is paused, and how far the sequencer is set back. -/
def Proc.putOff (p : Proc) : List Act → Rat
  | [] => 0
  | a :: as =>
    (match a with
      | .pass ms => if p.playing then 0 else (ms : Rat)
      | .jump offset => max 0 (p.offset - offset)
      | _ => 0) + (p.step a).putOff as

/-- Something that was scheduled is still to come. -/
def Proc.Pending (p : Proc) : Prop := ∃ o ∈ p.scheduled, p.offset ≤ o

/-- Time that passes. -/
def passes (as : List Act) : Nat := (as.map (fun | .pass n => n | _ => 0)).sum

/-- Something that keeps the process alive. -/
def Speaks : Act → Prop
  | .packet => True
  | .ping => True
  | .short _ => True
  | _ => False

end Player
end Alda
