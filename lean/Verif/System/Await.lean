/-!
`util.Await` (client/util/await.go), with which the client waits for players and servers to answer.

Times are milliseconds since the call.  A test returns at some time; one that never returns is not modelled.
-/
namespace Alda
namespace Waiting

/-- What happens while we wait: how long the tests take, what they return (`none` is success), and how much longer than asked for the process sleeps after each of them. -/
structure Env where
  took : Nat → Nat
  result : Nat → Option String
  late : Nat → Nat

/-- The loop of `Await`, client/util/await.go:13-26: attempt `k` begins at time `t`, and the channel of `time.After` is ready from `fires` on. What is returned, when, and after how many
attempts. `select` takes its `default` only if the channel is not ready. -/
def await (env : Env) (fires k t : Nat) : Option String × Nat × Nat :=
  match env.result k with
  | none => (none, t + env.took k, k + 1)
  | some e => if fires ≤ t + env.took k then (some e, t + env.took k, k + 1) else await env fires (k + 1) (t + env.took k + (100 + env.late k))
termination_by fires - t

end Waiting
end Alda
