import Verif.Spec.Globals
import Verif.Lemmas.TrackLine
/-!
Recording and looking up global changes.
-/
namespace Alda
open Spec

/-- The internal meaning of the two fields. -/
structure Holds (g : GlobalAttributes) (cs : List (Rat × PartUpd)) : Prop where
  sorted : g.offsets.Pairwise (· < ·)
  mem : ∀ o, o ∈ g.offsets ↔ g.itinerary o ≠ none
  some : ∀ o us, g.itinerary o = some us → us = (cs.filter (fun x => x.1 == o)).map (·.2)
  none : ∀ o, g.itinerary o = none → cs.filter (fun x => x.1 == o) = []

theorem insertSorted_mem (x y : Rat) (l : List Rat) : y ∈ insertSorted x l ↔ y = x ∨ y ∈ l := by
  induction l with
  | nil => simp [insertSorted]
  | cons z l ih =>
    simp only [insertSorted]
    split
    · simp
    · simp only [List.mem_cons, ih]; grind

theorem insertSorted_sorted (x : Rat) (l : List Rat) (h : l.Pairwise (· < ·)) (hx : x ∉ l) : (insertSorted x l).Pairwise (· < ·) := by
  induction l with
  | nil => simp [insertSorted]
  | cons z l ih =>
    obtain ⟨h1, h2⟩ := List.pairwise_cons.1 h
    simp only [insertSorted]
    split
    · rename_i hz
      have hlt : x < z := by
        have : x ≠ z := fun e => hx (e ▸ List.mem_cons_self ..)
        grind
      refine List.pairwise_cons.2 ⟨?_, h⟩
      intro y hy
      rcases List.mem_cons.1 hy with rfl | hy
      · exact hlt
      · have := h1 y hy; grind
    · rename_i hz
      refine List.pairwise_cons.2 ⟨?_, ih h2 (fun hm => hx (List.mem_cons_of_mem _ hm))⟩
      intro y hy
      rcases (insertSorted_mem x y l).1 hy with rfl | hy
      · grind
      · exact h1 y hy

theorem Holds.record {g : GlobalAttributes} {cs : List (Rat × PartUpd)} (h : Holds g cs) (o : Rat) (u : PartUpd) : Holds (g.record o u) (cs ++ [(o, u)]) := by
  have fl : ∀ x, (cs ++ [(o, u)]).filter (fun y => y.1 == x) = cs.filter (fun y => y.1 == x) ++ if x = o then [(o, u)] else [] := by
    intro x
    rw [List.filter_append]
    by_cases hx : x = o
    · subst hx; simp
    · have : (o == x) = false := by simp [Ne.symm hx]
      simp [List.filter, this, hx]
  unfold GlobalAttributes.record
  cases hi : g.itinerary o with
  | some us =>
    refine ⟨h.sorted, ?_, ?_, ?_⟩
    · intro x
      simp only
      by_cases hx : x = o
      · subst hx; simp [h.mem x, hi]
      · simp [hx, h.mem x]
    · intro x vs hv
      simp only at hv
      rw [fl x]
      by_cases hx : x = o
      · subst hx
        simp only [if_true, Option.some.injEq] at hv ⊢
        rw [← hv, List.map_append, ← h.some x us hi]; rfl
      · rw [if_neg hx] at hv
        rw [if_neg hx, List.append_nil]
        exact h.some x vs hv
    · intro x hv
      simp only at hv
      by_cases hx : x = o
      · subst hx; simp at hv
      · rw [if_neg hx] at hv
        rw [fl x, if_neg hx, List.append_nil]
        exact h.none x hv
  | none =>
    have hno : o ∉ g.offsets := fun hm => (h.mem o).1 hm hi
    refine ⟨insertSorted_sorted o _ h.sorted hno, ?_, ?_, ?_⟩
    · intro x
      simp only
      rw [insertSorted_mem, h.mem x]
      by_cases hx : x = o
      · subst hx; simp
      · simp [hx]
    · intro x vs hv
      simp only at hv
      rw [fl x]
      by_cases hx : x = o
      · subst hx
        simp only [if_true, Option.some.injEq] at hv ⊢
        rw [← hv, List.map_append, h.none x hi]; rfl
      · rw [if_neg hx] at hv
        rw [if_neg hx, List.append_nil]
        exact h.some x vs hv
    · intro x hv
      simp only at hv
      by_cases hx : x = o
      · subst hx; simp at hv
      · rw [if_neg hx] at hv
        rw [fl x, if_neg hx, List.append_nil]
        exact h.none x hv

theorem recorded_snoc (cs : List (Rat × PartUpd)) (o : Rat) (u : PartUpd) : recorded (cs ++ [(o, u)]) = (recorded cs).record o u := by
  unfold recorded; rw [List.foldl_append]; rfl

theorem recorded_holds (cs : List (Rat × PartUpd)) : Holds (recorded cs) cs := by
  have : ∀ (cs acc : List (Rat × PartUpd)) (g : GlobalAttributes), Holds g acc → Holds (cs.foldl (fun g x => g.record x.1 x.2) g) (acc ++ cs) := by
    intro cs
    induction cs with
    | nil => intro acc g h; rw [List.append_nil]; exact h
    | cons c cs ih =>
      intro acc g h
      have := ih (acc ++ [c]) _ (h.record c.1 c.2)
      rw [List.append_assoc] at this
      exact this
  have h := this cs [] { itinerary := fun _ => none, offsets := [] } ⟨List.Pairwise.nil, by simp, by simp, by simp⟩
  rw [List.nil_append] at h
  exact h

/-- What the loop of `InWindow` collects, with the offsets. -/
def dueFrom (cs : List (Rat × PartUpd)) (a b : Rat) (os : List Rat) : List (Rat × PartUpd) :=
  os.flatMap (fun o => if a < o ∧ o ≤ b then cs.filter (fun x => x.1 == o) else [])

theorem inWindowFrom_due {g : GlobalAttributes} {cs : List (Rat × PartUpd)} (h : Holds g cs) (a b : Rat) : ∀ (os : List Rat), os.Pairwise (· < ·) →
    inWindowFrom g a b os = (dueFrom cs a b os).map (·.2) := by
  intro os
  induction os with
  | nil => intro _; rfl
  | cons o os ih =>
    intro hp
    obtain ⟨h1, h2⟩ := List.pairwise_cons.1 hp
    simp only [inWindowFrom]
    by_cases hb : o > b
    · rw [if_pos hb]
      have : dueFrom cs a b (o :: os) = [] := by
        unfold dueFrom
        rw [List.flatMap_eq_nil_iff]
        intro x hx
        have : ¬ (a < x ∧ x ≤ b) := by
          rcases List.mem_cons.1 hx with rfl | hx
          · grind
          · have := h1 x hx; grind
        rw [if_neg this]
      rw [this]; rfl
    · rw [if_neg hb]
      have hd : dueFrom cs a b (o :: os) = (if a < o ∧ o ≤ b then cs.filter (fun x => x.1 == o) else []) ++ dueFrom cs a b os := rfl
      rw [hd]
      by_cases ha : o > a
      · rw [if_pos ha, if_pos ⟨ha, by grind⟩, List.map_append, ih h2]
        congr 1
        cases hi : g.itinerary o with
        | none => rw [h.none o hi]; rfl
        | some us => exact h.some o us hi
      · rw [if_neg ha, if_neg (by grind), List.nil_append, ih h2]

theorem filter_flatMap_sorted (cs : List (Rat × PartUpd)) (a b o : Rat) : ∀ (os : List Rat), os.Pairwise (· < ·) →
    (dueFrom cs a b os).filter (fun x => x.1 == o) = if o ∈ os ∧ a < o ∧ o ≤ b then cs.filter (fun x => x.1 == o) else [] := by
  intro os
  induction os with
  | nil => intro _; simp [dueFrom]
  | cons x os ih =>
    intro hp
    obtain ⟨h1, h2⟩ := List.pairwise_cons.1 hp
    have hd : dueFrom cs a b (x :: os) = (if a < x ∧ x ≤ b then cs.filter (fun y => y.1 == x) else []) ++ dueFrom cs a b os := rfl
    rw [hd, List.filter_append, ih h2]
    by_cases hx : o = x
    · subst hx
      have hno : o ∉ os := fun hm => by have := h1 o hm; grind
      rw [if_neg (show ¬ (o ∈ os ∧ a < o ∧ o ≤ b) from fun h => hno h.1), List.append_nil]
      by_cases hw : a < o ∧ o ≤ b
      · rw [if_pos hw, if_pos ⟨List.mem_cons_self .., hw⟩, List.filter_filter]; simp
      · rw [if_neg hw, if_neg (fun h => hw h.2)]; rfl
    · have : (if a < x ∧ x ≤ b then cs.filter (fun y => y.1 == x) else []).filter (fun y => y.1 == o) = [] := by
        split
        · rw [List.filter_filter, List.filter_eq_nil_iff]
          intro y _
          simp only [Bool.and_eq_true, beq_iff_eq, not_and]
          intro h1 h2; exact hx (h1 ▸ h2)
        · rfl
      rw [this, List.nil_append]
      simp [hx]

theorem dueFrom_sorted (cs : List (Rat × PartUpd)) (a b : Rat) : ∀ (os : List Rat), os.Pairwise (· < ·) →
    (dueFrom cs a b os).Pairwise (fun x y => x.1 ≤ y.1) := by
  intro os
  induction os with
  | nil => intro _; exact List.Pairwise.nil
  | cons o os ih =>
    intro hp
    obtain ⟨h1, h2⟩ := List.pairwise_cons.1 hp
    have hd : dueFrom cs a b (o :: os) = (if a < o ∧ o ≤ b then cs.filter (fun y => y.1 == o) else []) ++ dueFrom cs a b os := rfl
    have hmem : ∀ (os : List Rat) x, x ∈ dueFrom cs a b os → x.1 ∈ os := by
      intro os x hx
      unfold dueFrom at hx
      obtain ⟨y, hy, hxy⟩ := List.mem_flatMap.1 hx
      split at hxy
      · have := (List.mem_filter.1 hxy).2
        simp only [beq_iff_eq] at this
        rw [this]; exact hy
      · cases hxy
    have hx1 : ∀ x ∈ (if a < o ∧ o ≤ b then cs.filter (fun y => y.1 == o) else []), x.1 = o := by
      intro x hx
      split at hx
      · have := (List.mem_filter.1 hx).2; simpa using this
      · cases hx
    rw [hd, List.pairwise_append]
    refine ⟨?_, ih h2, ?_⟩
    · refine List.pairwise_of_forall_mem_list ?_
      intro x hx y hy
      rw [hx1 x hx, hx1 y hy]; exact Rat.le_refl
    · intro x hx y hy
      rw [hx1 x hx]
      have := h1 _ (hmem os y hy)
      grind

theorem inWindow_due {g : GlobalAttributes} {cs : List (Rat × PartUpd)} (h : Holds g cs) (a b : Rat) :
    ∃ due, g.inWindow a b = due.map (·.2) ∧ DueBetween cs a b due := by
  refine ⟨dueFrom cs a b g.offsets, inWindowFrom_due h a b _ h.sorted, dueFrom_sorted cs a b _ h.sorted, ?_⟩
  intro o
  rw [filter_flatMap_sorted cs a b o _ h.sorted]
  by_cases hm : o ∈ g.offsets
  · simp [hm]
  · have : g.itinerary o = none := by
      cases hi : g.itinerary o with
      | none => rfl
      | some us => exact (hm ((h.mem o).2 (by simp [hi]))).elim
    rw [h.none o this]
    simp

theorem dueFrom_append (cs : List (Rat × PartUpd)) (a b c : Rat) (hab : a ≤ b) (hbc : b ≤ c) : ∀ (os : List Rat), os.Pairwise (· < ·) →
    dueFrom cs a c os = dueFrom cs a b os ++ dueFrom cs b c os := by
  intro os
  induction os with
  | nil => intro _; rfl
  | cons o os ih =>
    intro hp
    obtain ⟨h1, h2⟩ := List.pairwise_cons.1 hp
    have hd : ∀ a b, dueFrom cs a b (o :: os) = (if a < o ∧ o ≤ b then cs.filter (fun y => y.1 == o) else []) ++ dueFrom cs a b os := fun _ _ => rfl
    rw [hd, hd, hd, ih h2]
    by_cases hb : o ≤ b
    · rw [if_neg (show ¬ (b < o ∧ o ≤ c) by grind), List.nil_append]
      by_cases ha : a < o
      · rw [if_pos ⟨ha, by grind⟩, if_pos ⟨ha, hb⟩, List.append_assoc]
      · rw [if_neg (fun h => ha h.1), if_neg (fun h => ha h.1)]; simp
    · have hnil : dueFrom cs a b os = [] := by
        unfold dueFrom
        rw [List.flatMap_eq_nil_iff]
        intro x hx
        have := h1 x hx
        rw [if_neg (by grind)]
      rw [hnil]
      simp only [List.append_nil]
      rw [if_neg (show ¬ (a < o ∧ o ≤ b) by grind), List.nil_append]
      by_cases hc : o ≤ c
      · rw [if_pos (by grind), if_pos (by grind)]; rfl
      · rw [if_neg (by grind), if_neg (by grind)]; rfl

theorem inWindow_append {g : GlobalAttributes} {cs : List (Rat × PartUpd)} (h : Holds g cs) {a b c : Rat} (hab : a ≤ b) (hbc : b ≤ c) :
    g.inWindow a c = g.inWindow a b ++ g.inWindow b c := by
  unfold GlobalAttributes.inWindow
  rw [inWindowFrom_due h a c _ h.sorted, inWindowFrom_due h a b _ h.sorted, inWindowFrom_due h b c _ h.sorted, ← List.map_append,
    ← dueFrom_append cs a b c hab hbc _ h.sorted]

theorem inWindow_self {g : GlobalAttributes} {cs : List (Rat × PartUpd)} (h : Holds g cs) (a : Rat) : g.inWindow a a = [] := by
  have h1 := inWindow_append h (a := a) (b := a) (c := a) Rat.le_refl Rat.le_refl
  have := congrArg List.length h1
  rw [List.length_append] at this
  exact List.eq_nil_of_length_eq_zero (by omega)

/-- The global attributes of a score that some program leads to come from recording. -/
theorem reachable_recorded {s : Score} (hr : Reachable s) : ∃ cs, s.globals = recorded cs := by
  refine Steps.invariant (I := fun t => ∃ cs, t.globals = recorded cs) ?_ hr.steps ⟨[], rfl⟩
  intro t u htu ⟨cs, h⟩
  rcases htu.globals_eq with e | ⟨o, x, _, e⟩
  · exact ⟨cs, e.trans h⟩
  · exact ⟨cs ++ [(o, x)], by rw [e, h, recorded_snoc]⟩

/-! ### Applying changes -/

theorem wrap32_int32 (n : Int) : wrap32 n = int32 n := by
  unfold wrap32 int32
  rw [Int.bmod_def]
  split <;> omega

theorem updatePart_change {u : PartUpd} {g : Bool} {p q : Part} (h : updatePart u g p = .ok q) : attributes q = change u (attributes p) ∧ q.override = p.override := by
  cases u with
  | tempo t => cases g <;> (simp only [updatePart, Except.ok.injEq] at h; subst h; exact ⟨rfl, rfl⟩)
  | metricModulation t => cases g <;> (simp only [updatePart, Except.ok.injEq] at h; subst h; exact ⟨rfl, rfl⟩)
  | octaveUp => simp only [updatePart, Except.ok.injEq, wrap32_int32] at h; subst h; exact ⟨rfl, rfl⟩
  | octaveDown => simp only [updatePart, Except.ok.injEq, wrap32_int32] at h; subst h; exact ⟨rfl, rfl⟩
  | midiChannel n =>
    simp only [updatePart] at h
    split at h
    · cases h
    · simp only [Except.ok.injEq] at h; subst h; exact ⟨rfl, rfl⟩
  | _ => simp only [updatePart, Except.ok.injEq] at h; subst h; exact ⟨rfl, rfl⟩

/-- Changes that are not overridden. -/
def notOverridden (o : Option PartUpd) (us : List PartUpd) : List PartUpd := us.filter (fun u => decide (o.map PartUpd.kind ≠ some u.kind))

theorem applyUpdates_changes : ∀ (us : List PartUpd) (p q : Part), applyUpdates us p = (none, q) →
    attributes q = changes (notOverridden p.override us) (attributes p) ∧ q.override = p.override := by
  intro us
  induction us with
  | nil => intro p q h; simp only [applyUpdates, Prod.mk.injEq, true_and] at h; subst h; exact ⟨rfl, rfl⟩
  | cons u us ih =>
    intro p q h
    simp only [applyUpdates] at h
    by_cases hk : p.override.map PartUpd.kind = some u.kind
    · rw [if_pos hk] at h
      have : notOverridden p.override (u :: us) = notOverridden p.override us := by
        unfold notOverridden
        rw [List.filter_cons_of_neg]
        simp [hk]
      rw [this]
      exact ih p q h
    · rw [if_neg hk] at h
      cases hu : updatePart u true p with
      | error e => rw [hu] at h; cases h
      | ok p' =>
        rw [hu] at h
        obtain ⟨h1, h2⟩ := updatePart_change hu
        obtain ⟨h3, h4⟩ := ih p' q h
        have : notOverridden p.override (u :: us) = u :: notOverridden p.override us := by
          unfold notOverridden
          rw [List.filter_cons_of_pos]
          simpa using hk
        rw [this, h3, h2, h1]
        exact ⟨rfl, h4.trans h2⟩

theorem applyGlobals_changes {t : Track} {c : Part} (h : Track.applyGlobals t = some { t with cell := c }) :
    attributes c = changes (notOverridden t.cell.override (t.globals.inWindow t.cell.lastOffset t.cell.offset)) (attributes t.cell) := by
  unfold Track.applyGlobals at h
  split at h
  · cases h
  · rename_i p hp
    simp only [Option.some.injEq] at h
    have hc : c = ({ p with override := none } : Part).bare := (congrArg Track.cell h).symm
    rw [hc, ← (applyUpdates_changes _ _ _ hp).1]
    rfl

theorem notOverridden_none (us : List PartUpd) : notOverridden none us = us := by
  unfold notOverridden
  rw [List.filter_eq_self]
  intro u _
  simp

theorem changes_append (us vs : List PartUpd) (a : Attributes) : changes (us ++ vs) a = changes vs (changes us a) := by
  unfold changes; rw [List.foldl_append]

theorem change_same (u : PartUpd) {a b : Attributes} (h : SameSettings a b) : SameSettings (change u a) (change u b) := by
  obtain ⟨a1, a2, a3, a4, a5, a6, a7, a8, a9, a10, a11, a12⟩ := a
  obtain ⟨b1, b2, b3, b4, b5, b6, b7, b8, b9, b10, b11, b12⟩ := b
  unfold SameSettings at h ⊢
  simp only [Attributes.mk.injEq] at h
  obtain ⟨rfl, rfl, rfl, rfl, rfl, rfl, _, rfl, rfl, rfl, _, rfl⟩ := h
  cases u <;> rfl

theorem changes_same (us : List PartUpd) : ∀ {a b : Attributes}, SameSettings a b → SameSettings (changes us a) (changes us b) := by
  induction us with
  | nil => intro a b h; exact h
  | cons u us ih => intro a b h; exact ih (change_same u h)

end Alda
