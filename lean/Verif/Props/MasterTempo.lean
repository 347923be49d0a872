import Verif.Props.Transmit
import Verif.Props.Line
/-!
C37: which changes of the tempo count for the master tempo.
-/
namespace Alda
open Spec

/-- Changes other than those of the tempo of single instruments. -/
def GlobalTempo : Leaf → Prop
  | .attr (.tempo _) | .attr (.metricModulation _) => False
  | _ => True

theorem unrecorded_cell : CellInv GlobalTempo (fun p => p.tempoValues = []) where
  upd := by
    intro u g p q hL h hu
    cases u with
    | midiChannel n =>
      simp only [updatePart] at hu
      split at hu
      · simp at hu
      · simp only [Except.ok.injEq] at hu; subst hu; exact h
    | tempo t =>
      rcases hL with ⟨_, hL⟩ | ⟨rfl, _⟩
      · exact hL.elim
      · simp only [updatePart, if_true, Except.ok.injEq] at hu; subst hu; exact h
    | metricModulation t =>
      rcases hL with ⟨_, hL⟩ | ⟨rfl, _⟩
      · exact hL.elim
      · simp only [updatePart, if_true, Except.ok.injEq] at hu; subst hu; exact h
    | _ => simp only [updatePart, Except.ok.injEq] at hu; subst hu; exact h
  override := fun p o h => h
  timing := fun p _ _ _ _ _ h => h
  chan := fun s p q a ch _ _ h _ => h
  struct := fun p _ _ _ h => h
  new := by
    intro p _ _ _ _ _ _ _ _ _ _ _ _ h2
    exact h2

/-- C37: as long as no instrument changes its own tempo, the master tempo is 120 and then what the global changes say, in whichever way the
instruments come to the places of these changes. -/
theorem c37_only_global (program : List Upd) (hL : AllLeavesL GlobalTempo program) (s : Score) (hs : s = (update program newScore).s) :
    masterChanges s =
      (0, 120) :: tempoChanges (s.globals.offsets.flatMap fun o => ((s.globals.itinerary o).getD []).map fun u => (o, u)) 120 := by
  subst hs
  have h := update_steps (D := True) program newScore hL (Or.inl trivial) (newScore_good _ _)
  have r := h.invariant (I := fun s => Good GlobalTempo True s ∧ GlobalsOk GlobalTempo s ∧ ∀ i < s.next, (s.heap i).tempoValues = [])
    (fun _ _ h r => ⟨h.good r.1, h.globalsOk r.2.1, unrecorded_cell.step h r.1.wf r.2.1 r.2.2⟩)
    ⟨newScore_good _ _, fun o us h => by simp [newScore] at h, by simp [newScore]⟩
  unfold masterChanges
  cases hp : (update program newScore).s.parts with
  | nil => rfl
  | cons p ps => simp only [r.2.2 p (r.1.wf.parts_lt p (by rw [hp]; exact List.mem_cons_self ..)), List.reverse_nil, List.append_nil, List.singleton_append]

/-- C37: when an instrument changes its own tempo, this is recorded for it, with the new tempo, at the position where the instrument is. -/
theorem c37_change {s : Score} (hr : Reachable s) (x : Rat) {i : Nat} (hi : i ∈ s.current) :
    ((update [.leaf (.attr (.tempo x))] s).err = none →
      ((update [.leaf (.attr (.tempo x))] s).s.heap i).tempoValues = ((s.heap i).offset, x) :: (s.heap i).tempoValues) ∧
    ((update [.leaf (.attr (.metricModulation x))] s).err = none →
      ((update [.leaf (.attr (.metricModulation x))] s).s.heap i).tempoValues = ((s.heap i).offset, (s.heap i).tempo * x) :: (s.heap i).tempoValues) := by
  constructor <;> intro h
  · have t := (track_of_line hr _ (by simp [Melodic]) h hi).2
    simp only [Track.list, Track.listWith, Track.updWith, Track.leaf, Track.attr, updatePart, Bool.false_eq_true, if_false, Option.bind_some, Option.some.injEq] at t
    have := congrArg (fun t => t.cell.tempoValues) t
    exact this.symm
  · have t := (track_of_line hr _ (by simp [Melodic]) h hi).2
    simp only [Track.list, Track.listWith, Track.updWith, Track.leaf, Track.attr, updatePart, Bool.false_eq_true, if_false, Option.bind_some, Option.some.injEq] at t
    have := congrArg (fun t => t.cell.tempoValues) t
    exact this.symm

-- two instruments pass a global change of the tempo after a second; the second one also doubles the tempo globally
def demoGlobalTempo : List Upd :=
  [.partDecl ["piano"] "", .leaf (.rest [.length 2 0]), .leaf (.globalAttr (.tempo 60)), .leaf (.note (.letter .C none) [.length 4 0] false),
   .partDecl ["violin"] "", .leaf (.rest [.length 1 0]), .leaf (.note (.letter .C none) [.length 4 0] false), .leaf (.globalAttr (.metricModulation 2))]

example : AllLeavesL GlobalTempo demoGlobalTempo ∧ (update demoGlobalTempo newScore).err = none ∧
    masterChanges (update demoGlobalTempo newScore).s = [(0, 120), (1000, 60), (3000, 120)] :=
  ⟨⟨trivial, trivial, trivial, trivial, trivial, trivial, trivial, trivial, trivial⟩, by decide +kernel, by decide +kernel⟩

example : (update [.leaf (.attr (.tempo 90))] (update demo newScore).s).err = none ∧ (update demo newScore).s.current = [1] ∧
    ((update [.leaf (.attr (.tempo 90))] (update demo newScore).s).s.heap 1).tempoValues ≠ [] := by decide +kernel

end Alda
