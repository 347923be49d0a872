import Verif.Model.Instruments
import Verif.Spec.Instruments
/-!
C44: the instrument table.
-/
namespace Alda
open Spec

/-- An injective numbering of strings is not needed: equal strings have equal codes. -/
def nameCode (s : String) : Nat := s.toList.foldl (fun n c => n * 2097152 + c.toNat) 0

def distinctCodes : List Nat → Bool
  | [] => true
  | n :: ns => ns.all (fun m => !(Nat.beq n m)) && distinctCodes ns

theorem distinctCodes_nodup (l : List Nat) (h : distinctCodes l = true) : l.Nodup := by
  induction l with
  | nil => simp
  | cons n ns ih =>
    simp only [distinctCodes, Bool.and_eq_true, List.all_eq_true, Bool.not_eq_true'] at h
    refine List.nodup_cons.2 ⟨fun hm => ?_, ih h.2⟩
    have := h.1 n hm
    rw [Nat.beq_refl] at this
    exact absurd this (by decide)

theorem stock_codes : distinctCodes (stockAssignments.map (fun a => nameCode a.1)) = true := by decide +kernel

/-- C44: no name or alias occurs twice in the table. -/
theorem c44_names_distinct : (stockAssignments.map (·.1)).Nodup := by
  have h := distinctCodes_nodup _ stock_codes
  have e : stockAssignments.map (fun a => nameCode a.1) = (stockAssignments.map (·.1)).map nameCode := by
    rw [List.map_map]; rfl
  rw [e] at h
  exact (List.pairwise_map.1 h).imp (fun hne heq => hne (by rw [heq]))

theorem lookup_of_nodup {β : Type} (l : List (String × β)) (hn : (l.map (·.1)).Nodup) (k : String) (v : β)
    (h : (k, v) ∈ l) : l.lookup k = some v := by
  induction l with
  | nil => simp at h
  | cons a l ih =>
    obtain ⟨k', v'⟩ := a
    simp only [List.map_cons, List.nodup_cons] at hn
    rcases List.mem_cons.1 h with h | h
    · simp only [Prod.mk.injEq] at h
      obtain ⟨rfl, rfl⟩ := h
      simp [List.lookup]
    · have hne : (k == k') = false := by
        apply beq_false_of_ne
        intro he
        exact hn.1 (he ▸ List.mem_map.2 ⟨(k, v), h, rfl⟩)
      simp only [List.lookup, hne]
      exact ih hn.2 h

/-- C44: every name in the table denotes exactly the instrument it is listed with; no other string denotes anything. -/
theorem c44_denotes (name : String) (i : Instrument) :
    stockInstrument name = some i ↔ (name, i) ∈ stockAssignments := by
  unfold stockInstrument
  constructor
  · intro h
    have : ∀ l : List (String × Instrument), l.lookup name = some i → (name, i) ∈ l := by
      intro l
      induction l with
      | nil => simp [List.lookup]
      | cons a l ih =>
        obtain ⟨k, v⟩ := a
        by_cases hk : name == k
        · have : name = k := by simpa using hk
          subst this
          simp only [List.lookup, beq_self_eq_true, Option.some.injEq]
          rintro rfl; exact List.mem_cons_self ..
        · simp only [List.lookup, hk]
          intro h; exact List.mem_cons_of_mem _ (ih h)
    simpa using this _ h
  · intro h
    apply lookup_of_nodup
    · rw [List.map_reverse]; exact List.pairwise_reverse.2 (c44_names_distinct.imp Ne.symm)
    · simpa using h

/-- Length of the two tables. -/
theorem c44_sizes : nonPercussionNames.length = 128 ∧ percussionNames.length = 1 := by decide +kernel

theorem gm_entries : ∀ i < 128, ∃ n, gmName i = some n ∧
    (n, ({ name := n, patch := i, percussion := false } : Instrument)) ∈ stockAssignments := by
  have h : (List.range 128).all (fun i => match gmName i with
      | none => false
      | some n => stockAssignments.any (fun a => a.2.patch == i && a.1 == n && a.2.name == n && !a.2.percussion)) = true := by
    decide +kernel
  intro i hi
  have := List.all_eq_true.1 h i (List.mem_range.2 hi)
  cases hg : gmName i with
  | none => simp [hg] at this
  | some n =>
    simp only [hg, List.any_eq_true, Bool.and_eq_true, beq_iff_eq, Bool.not_eq_true'] at this
    obtain ⟨⟨k, v⟩, hm, ⟨⟨h1, h2⟩, h3⟩, h4⟩ := this
    refine ⟨n, rfl, ?_⟩
    simp only at h1 h2 h3 h4
    obtain ⟨vn, vp, vc⟩ := v
    simp only at h1 h3 h4
    subst h1 h2 h3 h4
    exact hm

/-- C44: General MIDI program `i` (0 to 127) is the instrument of that name with patch number `i`, and is not percussion. -/
theorem c44_general_midi (i : Nat) (hi : i < 128) :
    ∃ n, gmName i = some n ∧ stockInstrument n = some { name := n, patch := i, percussion := false } := by
  obtain ⟨n, h1, h2⟩ := gm_entries i hi
  exact ⟨n, h1, (c44_denotes _ _).2 h2⟩

theorem percussion_entries : stockAssignments.all (fun a =>
    (a.2.percussion == (Nat.beq (nameCode a.1) (nameCode "percussion") || Nat.beq (nameCode a.1) (nameCode "midi-percussion")))
    && (!a.2.percussion || (a.1 == "percussion" || a.1 == "midi-percussion")) && decide (a.2.patch < 128)) = true := by
  decide +kernel

/-- C44: exactly the names "percussion" and "midi-percussion" denote a percussion instrument. -/
theorem c44_percussion (name : String) (i : Instrument) (h : stockInstrument name = some i) :
    i.percussion = true ↔ (name = "percussion" ∨ name = "midi-percussion") := by
  have hm := List.all_eq_true.1 percussion_entries _ ((c44_denotes _ _).1 h)
  simp only [Bool.and_eq_true, beq_iff_eq, Bool.or_eq_true, Bool.not_eq_true'] at hm
  constructor
  · intro hp
    rcases hm.1.2 with h | h
    · rw [hp] at h; exact absurd h (by decide)
    · exact h
  · intro hn
    rw [hm.1.1]
    rcases hn with rfl | rfl <;> simp [Nat.beq_refl]

/-- C44: every instrument has a patch number between 0 and 127. -/
theorem c44_patch_range (name : String) (i : Instrument) (h : stockInstrument name = some i) : i.patch ≤ 127 := by
  have hm := List.all_eq_true.1 percussion_entries _ ((c44_denotes _ _).1 h)
  simp only [Bool.and_eq_true, decide_eq_true_eq] at hm
  omega

/-- The names of the instruments that are listed are those under which the instruments are known, and each one denotes itself. -/
theorem c44_listed (n : String) (h : n ∈ instrumentsList) : ∃ i, stockInstrument n = some i ∧ i.name = n := by
  have e : ∀ m ∈ instrumentsList, ∃ a ∈ stockAssignments, a.1 = m ∧ a.2.name = m := by
    have hh : ∀ (es : List (String × List String)) (k : Nat), ∀ m ∈ es.map (·.1),
        ∃ a ∈ nonPercussionAssignments k es, a.1 = m ∧ a.2.name = m := by
      intro es
      induction es with
      | nil => intro k m hm; simp at hm
      | cons e es ih =>
        intro k m hm
        simp only [List.map_cons, List.mem_cons] at hm
        rcases hm with rfl | hm
        · exact ⟨(e.1, { name := e.1, patch := k, percussion := false }),
            by simp [nonPercussionAssignments, entryAssignments], rfl, rfl⟩
        · obtain ⟨a, ha, h⟩ := ih (k + 1) m hm
          exact ⟨a, by simp only [nonPercussionAssignments, List.mem_append]; exact Or.inr ha, h⟩
    have hp : ∀ (es : List (String × List String)), ∀ m ∈ es.map (·.1),
        ∃ a ∈ percussionAssignments es, a.1 = m ∧ a.2.name = m := by
      intro es
      induction es with
      | nil => intro m hm; simp at hm
      | cons e es ih =>
        intro m hm
        simp only [List.map_cons, List.mem_cons] at hm
        rcases hm with rfl | hm
        · exact ⟨(e.1, { name := e.1, patch := 0, percussion := true }),
            by simp [percussionAssignments, entryAssignments], rfl, rfl⟩
        · obtain ⟨a, ha, h⟩ := ih m hm
          exact ⟨a, by simp only [percussionAssignments, List.mem_append]; exact Or.inr ha, h⟩
    intro m hm
    simp only [instrumentsList, List.mem_append] at hm
    rcases hm with hm | hm
    · obtain ⟨a, ha, h⟩ := hh _ 0 m hm
      exact ⟨a, by simp only [stockAssignments, List.mem_append]; exact Or.inl ha, h⟩
    · obtain ⟨a, ha, h⟩ := hp _ m hm
      exact ⟨a, by simp only [stockAssignments, List.mem_append]; exact Or.inr ha, h⟩
  obtain ⟨⟨k, v⟩, ha, h1, h2⟩ := e n h
  simp only at h1 h2
  subst h1
  exact ⟨v, (c44_denotes _ _).2 ha, h2⟩

-- the piano by its alias, the drum kit, and an unknown name
example : stockInstrument "piano" = some ⟨"midi-acoustic-grand-piano", 0, false⟩ := by decide +kernel
example : stockInstrument "percussion" = some ⟨"midi-percussion", 0, true⟩ := by decide +kernel
example : stockInstrument "kazoo" = none := by decide +kernel
example : "midi-bassoon" ∈ instrumentsList ∧ gmName 70 = some "midi-bassoon" := by decide +kernel

end Alda
