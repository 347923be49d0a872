import Verif.Cmd.Update
import Verif.Spec.Text
/-!
Names of executables and of their old versions.
-/
namespace Alda.Update
open Spec

/-- The executables of a release. -/
def executables : List Name := ["alda".toList, "alda-player".toList, "alda.exe".toList, "alda-player.exe".toList]

/-- The name of an old version of an executable: two numbers and `.old` are added. -/
def OldVersionOf (base name : Name) : Prop :=
  ∃ t r : List Char, t ≠ [] ∧ AllDigits t ∧ r ≠ [] ∧ AllDigits r ∧ name = base ++ '.' :: (t ++ '.' :: (r ++ ".old".toList))

/-- The name of an old version of some executable. -/
def OldVersion (name : Name) : Prop := ∃ base ∈ executables, OldVersionOf base name

/-- The assets of a release: executables, each of them once. -/
def Release (assets : List (Asset × Faults)) : Prop :=
  (∀ a ∈ assets, a.1.name ∈ executables ∧ a.1.executable = true) ∧ (assets.map (·.1.name)).Nodup

end Alda.Update
