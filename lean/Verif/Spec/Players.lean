import Verif.Repl.Players
import Verif.Spec.Commands
/-!
Specification for C67: the player of a REPL server.
-/
namespace Alda
namespace Keeper
open Pool Cmd

/-- The player is one that was ready, and answered, while the server looked for one. -/
def Ready (w : Cmd.World) (p : PlayerState) : Prop :=
  ∃ i dir, Seen w i dir ∧ Known dir p.id "ready" p.port ∧ (w.look i).answers p.port = true

/-- The player is known from what happened: from a state file that was read, or because it was found by a search. -/
def Offered (steps : List Step) (p : PlayerState) : Prop :=
  (∃ e dir, Step.look e dir ∈ steps ∧ Known dir p.id p.state p.port) ∨ ∃ w, Step.find w ∈ steps ∧ Ready w p

/-- In this round, the player is there: exactly one port is known for its id, and pings reach it. -/
structure Present (id : String) (port : Nat) (r : Round) : Prop where
  readable : r.error = none
  known : ∃ st, Known r.dir id st port
  only : ∀ st q, Known r.dir id st q → q = port
  reached : r.reached = true

/-- The rounds begin at most two minutes after each other, and their pings are sent at most two minutes after that; the last round was at most two minutes ago. -/
def Brisk : Int → List Round → Int → Prop
  | start, [], stop => stop ≤ start + 120000
  | start, r :: rs, stop => start ≤ r.now ∧ r.now ≤ start + 120000 ∧ r.now ≤ r.time ∧ r.time ≤ r.now + 120000 ∧ Brisk r.now rs stop

/-- The times at which pings were sent to the port. -/
def pingTimes (port : Nat) (sent : List (Int × PlayerState × Sent)) : List Int :=
  (sent.filter fun x => x.2.1.port == port && x.2.2 == .ping).map (·.1)

/-- The times at which a player process receives pings. -/
def heard : Player.Proc → List Player.Act → List Int
  | _, [] => []
  | p, a :: as => (if a = .ping then [p.clock] else []) ++ heard (p.step a) as

/-- The loop is not between finding out about a player and making use of that. -/
def Settled : Phase → Prop
  | .looked (.updated _) => False
  | .searched (some _) => False
  | .aimed _ => False
  | _ => True

end Keeper
end Alda
