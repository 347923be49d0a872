/-!
The threads of a track in the player, as a transition system: bundles of events wait in a queue, a thread takes them from it and starts a thread for each, and these schedule the events one after the
other (`player/src/main/kotlin/io/alda/player/Player.kt`, class `Track` and `applyUpdates`).

Simplifications: what a bundle is does not matter (any type `β`); loops (`activePatterns`, `finish-loop`) are left out; `scheduleEvents` counts as done when the lock is obtained, though it may take until
`finish`.
-/
namespace Alda
namespace TrackThreads

/-- An `AtomicInteger`: which object it is, and its number. -/
structure Counter where
  object : Nat
  value : Nat
deriving DecidableEq, Repr

/-- `==` of two values of this type: `AtomicInteger` has the `equals` of `Object`, so the numbers do not matter. -/
def Counter.same (a b : Counter) : Bool := a.object == b.object

/-- A track, Player.kt:25-49, and the threads, :258-318. -/
structure State (β : Type) where
  /-- `eventBufferQueue` -/
  queue : List β
  /-- threads that have been started and have not read the era -/
  started : List β
  /-- threads that have read the era and wait for the lock, the one that waits longest first -/
  waiting : List (β × Counter)
  /-- the thread that has the lock, and whether it found the era unchanged -/
  running : Option (β × Bool)
  /-- bundles whose events are scheduled, in this order -/
  scheduled : List β
  era : Counter
  startOffset : Int
  activeTasks : Nat
deriving DecidableEq, Repr

/-- A new track. -/
def newTrack (β : Type) : State β := ⟨[], [], [], none, [], ⟨0, 0⟩, 0, 0⟩

/-- What can happen. -/
inductive Act (β : Type) where
  | send (b : β)
  | take
  | arrive (i : Nat)
  | lock
  | finish (end_ : Int)
  | clear
deriving DecidableEq, Repr

/-- One step; `none` if it is not possible in this state. -/
def step {β : Type} (s : State β) : Act β → Option (State β)
  /- `applyUpdates`, Player.kt:402-406 -/
  | .send b => some { s with activeTasks := s.activeTasks + 1, queue := s.queue ++ [b] }
  /- `eventBufferQueue.take()` and `thread`, Player.kt:270, :285 -/
  | .take => match s.queue with
    | [] => none
    | b :: q => some { s with queue := q, started := s.started ++ [b] }
  /- `val eraBefore = …; scheduling.lock()`, Player.kt:292-293: the threads do this in any order; the lock is fair -/
  | .arrive i => match s.started[i]? with
    | none => none
    | some b => some { s with started := s.started.eraseIdx i, waiting := s.waiting ++ [(b, s.era)] }
  /- the lock is free, Player.kt:293-304 -/
  | .lock => match s.running, s.waiting with
    | none, (b, eraBefore) :: ws =>
      some { s with waiting := ws, running := some (b, eraBefore.same s.era), scheduled := if eraBefore.same s.era then s.scheduled ++ [b] else s.scheduled }
    | _, _ => none
  /- `startOffset = …`, and the `finally`, Player.kt:304-309 -/
  | .finish e => match s.running with
    | none => none
    | some (_, same) => some { s with running := none, startOffset := if same then e else s.startOffset, activeTasks := if s.activeTasks = 0 then 0 else s.activeTasks - 1 }
  /- `clear`, Player.kt:52-60 -/
  | .clear => some { s with era := { s.era with value := s.era.value + 1 }, startOffset := 0, queue := [], activeTasks := 0 }

/-- Many steps. -/
def exec {β : Type} : List (Act β) → State β → Option (State β)
  | [], s => some s
  | a :: as, s => (step s a).bind (exec as)

end TrackThreads
end Alda
