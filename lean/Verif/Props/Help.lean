import Verif.Props.Client

/-!
C81: the help of the prompt lists and documents exactly the commands that it carries out.
-/
namespace Alda
namespace Repl

/-- The prompt does not know the command, whatever it is given and whatever has been typed. -/
def Unrecognized (name : String) : Prop := ∀ t e args m, handleCommand t e name args m = (some ("unrecognized command: " ++ name), m)

/-- A line of the list: the name after four spaces and a colon, the summary from the given column on, at least two spaces away, and a mark if there is more to read. -/
def LineOf (column : Nat) (x : HelpEntry) (line : String) : Prop :=
  ∃ gap : List Char, (∀ c ∈ gap, c = ' ') ∧ 2 ≤ gap.length ∧ 5 + x.name.length + gap.length = column ∧
    (x.details = "" → line.toList = "    :".toList ++ x.name.toList ++ gap ++ x.summary.toList ++ ['\n']) ∧
    (x.details ≠ "" → line.toList = "    :".toList ++ x.name.toList ++ gap ++ x.summary.toList ++ " (*)".toList ++ ['\n'])

theorem insertEntry_perm (x : HelpEntry) (l : List HelpEntry) : (insertEntry x l).Perm (x :: l) := by
  induction l with
  | nil => exact .refl _
  | cons y ys ih =>
    unfold insertEntry
    split
    · exact .refl _
    · exact (ih.cons y).trans (.swap ..)

theorem sortEntries_perm (l : List HelpEntry) : (sortEntries l).Perm l := by
  induction l with
  | nil => exact .refl _
  | cons x xs ih => exact (insertEntry_perm x _).trans (ih.cons x)

theorem insertEntry_sorted (x : HelpEntry) (l : List HelpEntry) (h : l.Pairwise (fun a b => a.name ≤ b.name)) :
    (insertEntry x l).Pairwise (fun a b => a.name ≤ b.name) := by
  induction l with
  | nil => simp [insertEntry]
  | cons y ys ih =>
    obtain ⟨h1, h2⟩ := List.pairwise_cons.1 h
    unfold insertEntry
    split
    next hxy =>
      refine List.pairwise_cons.2 ⟨fun z hz => ?_, h⟩
      rcases List.mem_cons.1 hz with rfl | hz
      · exact hxy
      · exact String.le_trans hxy (h1 z hz)
    next hxy =>
      refine List.pairwise_cons.2 ⟨fun z hz => ?_, ih h2⟩
      rcases List.mem_cons.1 ((insertEntry_perm x ys).mem_iff.1 hz) with rfl | hz
      · exact (String.le_total z.name y.name).resolve_left hxy
      · exact h1 z hz

theorem sortEntries_sorted (l : List HelpEntry) : (sortEntries l).Pairwise (fun a b => a.name ≤ b.name) := by
  induction l with
  | nil => exact .nil
  | cons x xs ih => exact insertEntry_sorted x _ ih

theorem maxNameLength_le {x : HelpEntry} {l : List HelpEntry} (h : x ∈ l) : x.name.length ≤ maxNameLength l := by
  induction l with
  | nil => cases h
  | cons y ys ih =>
    unfold maxNameLength
    rcases List.mem_cons.1 h with rfl | h
    · omega
    · have := ih h; omega

theorem maxNameLength_mem {l : List HelpEntry} (h : l ≠ []) : ∃ x ∈ l, x.name.length = maxNameLength l := by
  induction l with
  | nil => exact absurd rfl h
  | cons y ys ih =>
    unfold maxNameLength
    by_cases hy : maxNameLength ys ≤ y.name.length
    · exact ⟨y, List.mem_cons_self .., by omega⟩
    · have : ys ≠ [] := by rintro rfl; simp [maxNameLength] at hy
      obtain ⟨x, h1, h2⟩ := ih this
      exact ⟨x, List.mem_cons_of_mem _ h1, by omega⟩

theorem summaryLine_lineOf {width : Nat} {x : HelpEntry} (h : x.name.length ≤ width) : LineOf (width + 7) x (summaryLine width x) := by
  refine ⟨List.replicate (width - x.name.length + 2) ' ', fun c hc => List.eq_of_mem_replicate hc, by simp, by simp; omega, fun hd => ?_, fun hd => ?_⟩
  · simp [summaryLine, spaces, hd]
  · simp [summaryLine, spaces, hd]

/-- C81: whatever commands there are, the list has exactly one line for each of them, in alphabetical order, and all summaries begin in the same column, which is as far to the left as the
longest name permits. -/
theorem c81_listed (table : List HelpEntry) : ∃ (column : Nat) (lines : List (HelpEntry × String)), (commandsSummary table).toList = (lines.map (·.2.toList)).flatten ∧
    (lines.map (·.1)).Perm table ∧ (lines.map (·.1)).Pairwise (fun a b => a.name ≤ b.name) ∧ (∀ p ∈ lines, LineOf column p.1 p.2) ∧
    (table ≠ [] → ∃ x ∈ table, column = x.name.length + 7) := by
  refine ⟨maxNameLength table + 7, (sortEntries table).map (fun x => (x, summaryLine (maxNameLength table) x)), ?_, ?_, ?_, ?_, ?_⟩
  · unfold commandsSummary
    simp [Function.comp_def, List.flatMap]
  · simpa [Function.comp_def] using sortEntries_perm table
  · simpa [Function.comp_def] using sortEntries_sorted table
  · intro p hp
    obtain ⟨x, hx, rfl⟩ := List.mem_map.1 hp
    exact summaryLine_lineOf (maxNameLength_le ((sortEntries_perm table).mem_iff.1 hx))
  · intro h
    obtain ⟨x, h1, h2⟩ := maxNameLength_mem h
    exact ⟨x, h1, by omega⟩

/-- A prompt at which nothing can be split or sent. -/
def deafTools : Tools := ⟨fun s => parseCode s, insertionSort, fun _ => .error "no closing quotation"⟩

/-- C81: the commands that have documentation are the ones that are carried out, each once, and each has a summary. -/
theorem c81_same : (∀ name, ¬ Unrecognized name ↔ ∃ x ∈ replHelp, x.name = name) ∧ (replHelp.map (·.name)).Nodup ∧ ∀ x ∈ replHelp, x.summary ≠ "" := by
  refine ⟨fun name => ⟨fun h => ?_, ?_⟩, by decide +kernel, by decide +kernel⟩
  · apply Classical.byContradiction
    intro hx
    apply h
    intro t e args m
    have key : ∀ x ∈ replHelp, name ≠ x.name := fun x hm he => hx ⟨x, hm, he.symm⟩
    simp only [replHelp, List.mem_cons, List.not_mem_nil, or_false, forall_eq_or_imp, forall_eq] at key
    unfold handleCommand
    split <;> simp_all
  · rintro ⟨x, hx, rfl⟩ h
    have h1 := h deafTools { id := "m", unsent := some "closed" } "" { client := ⟨true, 1, "", ""⟩, server := newServer, files := fun _ => none, inbox := [], shown := [] }
    have h2 := congrArg Prod.fst h1
    revert h2
    clear h1 h
    revert x
    decide +kernel

/-- C81: `:help` shows the list; `:help` with the name of a command shows its summary, and its details if it has any; for everything else it says that there is no documentation. Nothing
is asked of the server. -/
theorem c81_help {t : Tools} {e : Env} {line : String} {args : List String} {m : Session} (hc : Command t line "help" args) :
    (args = [] → ∃ intro, typeLine t e line m = m.print (.text (intro ++ commandsSummary replHelp))) ∧
    (args ≠ [] → Unrecognized (" ".intercalate args) →
      typeLine t e line m = m.print (.error ("no documentation available for '" ++ " ".intercalate args ++ "'"))) ∧
    (args ≠ [] → ¬ Unrecognized (" ".intercalate args) → ∃ x ∈ replHelp, x.name = " ".intercalate args ∧
      (x.details = "" → typeLine t e line m = m.print (.text (x.summary ++ "\n"))) ∧
      (x.details ≠ "" → typeLine t e line m = m.print (.text (x.summary ++ "\n\n" ++ x.details ++ "\n")))) := by
  obtain ⟨s, h1, h2⟩ := typeLine_command (e := e) hc (by decide) (by decide)
  rw [h2]
  simp only [handleCommand, withArgs, h1]
  refine ⟨fun ha => ⟨helpIntro, by rw [ha]; rfl⟩, fun ha hu => ?_, fun ha hu => ?_⟩
  · have hn : replHelp.find? (fun x => x.name == " ".intercalate args) = none := by
      rw [List.find?_eq_none]
      intro x hx hxn
      exact (c81_same.1 _).2 ⟨x, hx, by simpa using hxn⟩ hu
    simp only [helpText, ha, hn]
    rfl
  · obtain ⟨y, hy, hyn⟩ := (c81_same.1 _).1 hu
    cases hf : replHelp.find? (fun x => x.name == " ".intercalate args) with
    | none => rw [List.find?_eq_none] at hf; exact absurd (by simpa using hyn) (hf y hy)
    | some x =>
      refine ⟨x, List.mem_of_find?_eq_some hf, by simpa using List.find?_some hf, fun hd => ?_, fun hd => ?_⟩
      · simp only [helpText, ha, hf, hd]
        simp [reportError]
      · simp only [helpText, ha, hf]
        have hn : "\n" ++ ("\n" ++ (x.details ++ "\n")) = "\n\n" ++ (x.details ++ "\n") := by rw [← String.append_assoc]; rfl
        simp [reportError, hd, String.append_assoc, hn]

/-- `:help play`, and a name that is not one. -/
example : Command demoTools ":help play" "help" ["play"] ∧ ¬ Unrecognized "play" ∧ Unrecognized "tempo" ∧
    (typeLine demoTools { id := "m0" } ":help tempo" (demoSession "b" "x")).shown = [.error "no documentation available for 'tempo'"] :=
  ⟨⟨"play", Or.inl (by decide +kernel), rfl⟩, (c81_same.1 _).2 (by decide +kernel), fun _ _ _ _ => rfl, by decide +kernel⟩

end Repl
end Alda
