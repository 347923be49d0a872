import Verif.Cmd.Telemetry
/-!
Specification for C68: telemetry.
-/
namespace Alda
namespace Telemetry

/-- The invocation is `alda telemetry --enable` or `alda telemetry --disable`. -/
def Invocation.Chooses (v : Invocation) : Prop := ∃ f, v.flags = some f ∧ (f.enable = true ∨ f.disable = true)

/-- The invocation is `alda telemetry --enable`. -/
def Invocation.Enables (v : Invocation) : Prop := ∃ f, v.flags = some f ∧ f.enable = true

/-- Nothing goes wrong when files are read. -/
def Readable (ss : List Step) : Prop := ∀ s ∈ ss, s.readFails = false

/-- Nothing goes wrong. -/
def Fine (ss : List Step) : Prop := ∀ s ∈ ss, s.readFails = false ∧ s.createFails = false ∧ s.fillFails = none

/-- One invocation alone, until it is done, gives this file and these events. -/
def Alone (file : Option Content) (v : Invocation) (ss : List Step) (file' : Option Content) (events : List Event) : Prop :=
  let w := (start file [v]).run ss
  w.procs = [.done] ∧ w.file = file' ∧ w.log.map (·.2) = events

end Telemetry
end Alda
