import Verif.Lemmas.Steps
/-!
# Specification of part declarations (C20)

Instrument instances are identified by the first part object made for them (`origin`); voices and the parts that replace an instance after a
group of voices have the same origin.
-/
namespace Alda

/-- The instrument instances that are active. -/
def playing (s : Score) : List Nat := s.current.map (fun i => (s.heap i).origin)

/-- The instrument instances in the score. -/
def instances (s : Score) : List Nat := s.parts.map (fun i => (s.heap i).origin)

/-- The instrument instances an alias refers to; none if there is no such alias. -/
def aliased (s : Score) (alias : String) : List Nat :=
  match s.aliases.lookup alias with
  | none => []
  | some ids => ids.map (fun i => (s.heap i).origin)

/-- An alias that is not used yet, neither itself nor as the part before a dot. -/
def NewAlias (s : Score) (alias : String) : Prop :=
  ∀ a ∈ s.aliases, a.1 ≠ alias ∧ ∀ member, a.1 ≠ alias ++ "." ++ member

/-- Any sequence of declarations and other events, successful or not, in which no alias is defined a second time. -/
inductive History : Score → Score → Prop where
  | start (s) : History s s
  | event {s t} (e : Upd) : History s t → NoDecl e → History s (update [e] t).s
  | declare {s t} (names : List String) (alias : String) : History s t → (alias ≠ "" → NewAlias t alias) →
      History s (update [.partDecl names alias] t).s

end Alda
