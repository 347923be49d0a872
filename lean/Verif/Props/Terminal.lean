import Verif.Cmd.Terminal
import Verif.Lemmas.Attributes
/-!
C77: questions and boxes on the terminal.
-/
namespace Alda
namespace Terminal

/-- What a line says: yes or no, in any case and with any space around it, or nothing, which is the answer that is offered. -/
def Says (offered : Bool) (line : List Char) (answer : Bool) : Prop :=
  ∃ left word right, line = left ++ word ++ right ∧ (∀ c ∈ left, Repl.isSpace c = true) ∧ (∀ c ∈ right, Repl.isSpace c = true) ∧
    ((word = [] ∧ answer = offered) ∨ (answer = true ∧ word.map Char.toLower ∈ ["y".toList, "yes".toList]) ∨
      (answer = false ∧ word.map Char.toLower ∈ ["n".toList, "no".toList]))

theorem space_lower {c : Char} (h : Repl.isSpace c = true) : c.toLower = c := by
  have hu : ¬ (65 ≤ c.toNat ∧ c.toNat ≤ 90) := by
    intro hc
    unfold Repl.isSpace at h
    simp [List.contains_eq_mem] at h
    omega
  unfold Char.toLower
  split
  · rename_i hh
    exfalso; apply hu
    simp only [ge_iff_le, UInt32.le_iff_toNat_le] at hh
    exact hh
  · rfl

theorem dropWhile_blank (l r : List Char) (hl : ∀ c ∈ l, Repl.isSpace c = true) : (l ++ r).dropWhile Repl.isSpace = r.dropWhile Repl.isSpace := by
  induction l with
  | nil => rfl
  | cons c l ih => simp [hl c (by simp), ih (fun c hc => hl c (by simp [hc]))]

theorem trim_word (left word right : List Char) (hl : ∀ c ∈ left, Repl.isSpace c = true) (hr : ∀ c ∈ right, Repl.isSpace c = true) (hw : ∀ c ∈ word, Repl.isSpace c = false) :
    (((left ++ word ++ right).dropWhile Repl.isSpace).reverse.dropWhile Repl.isSpace).reverse = word := by
  rw [List.append_assoc, dropWhile_blank _ _ hl]
  have key : ∀ (w r : List Char), (∀ c ∈ w, Repl.isSpace c = false) → w ≠ [] → (w ++ r).dropWhile Repl.isSpace = w ++ r := by
    intro w r hw hne
    cases w with
    | nil => exact absurd rfl hne
    | cons c w => simp [hw c (by simp)]
  by_cases hne : word = []
  · subst hne
    have : (([] : List Char) ++ right).dropWhile Repl.isSpace = [] := by
      have := dropWhile_blank right [] hr
      simpa using this
    rw [this]; rfl
  · rw [key word right hw hne, List.reverse_append, dropWhile_blank _ _ (by simpa using hr)]
    have := key word.reverse [] (by simpa using hw) (by simpa using hne)
    simp only [List.append_nil] at this
    rw [this, List.reverse_reverse]

theorem mem_takeWhile_true (p : Char → Bool) (l : List Char) {c : Char} (h : c ∈ l.takeWhile p) : p c = true := by
  induction l with
  | nil => cases h
  | cons d l ih =>
    by_cases hd : p d = true
    · rw [List.takeWhile_cons_of_pos hd] at h
      rcases List.mem_cons.1 h with rfl | h
      · exact hd
      · exact ih h
    · rw [List.takeWhile_cons_of_neg hd] at h; cases h

theorem trim_split (line : List Char) : ∃ left right, line = left ++ ((line.dropWhile Repl.isSpace).reverse.dropWhile Repl.isSpace).reverse ++ right ∧
    (∀ c ∈ left, Repl.isSpace c = true) ∧ ∀ c ∈ right, Repl.isSpace c = true := by
  refine ⟨line.takeWhile Repl.isSpace, ((line.dropWhile Repl.isSpace).reverse.takeWhile Repl.isSpace).reverse, ?_, ?_, ?_⟩
  · rw [List.append_assoc, ← List.reverse_append, List.takeWhile_append_dropWhile, List.reverse_reverse, List.takeWhile_append_dropWhile]
  · intro c hc; exact mem_takeWhile_true _ _ hc
  · intro c hc; exact mem_takeWhile_true _ _ (List.mem_reverse.1 hc)

theorem answerOf_says (offered : Bool) (line : List Char) (b : Bool) : answerOf offered line = some b ↔ Says offered line b := by
  constructor
  · intro h
    obtain ⟨left, right, h1, h2, h3⟩ := trim_split line
    refine ⟨left, _, right, h1, h2, h3, ?_⟩
    unfold answerOf at h
    simp only [] at h
    generalize ((line.dropWhile Repl.isSpace).reverse.dropWhile Repl.isSpace).reverse = w at h
    split at h
    · rename_i hw
      cases h
      exact .inl ⟨by simpa using hw, rfl⟩
    · split at h
      · rename_i hw
        cases h
        exact .inr (.inl ⟨rfl, by simpa using hw⟩)
      · split at h
        · rename_i hw
          cases h
          exact .inr (.inr ⟨rfl, by simpa using hw⟩)
        · cases h
  · rintro ⟨left, word, right, rfl, hl, hr, h⟩
    have hword : (word.map Char.toLower = [] ∨ word.map Char.toLower ∈ ["y".toList, "yes".toList, "n".toList, "no".toList]) → ∀ c ∈ word, Repl.isSpace c = false := by
      intro hm c hc
      have hc' : c.toLower ∈ word.map Char.toLower := List.mem_map.2 ⟨c, hc, rfl⟩
      have hcs : c.toLower ∈ ['y', 'e', 's', 'n', 'o'] := by
        rcases hm with hm | hm
        · rw [hm] at hc'; cases hc'
        · have : ∀ l ∈ ["y".toList, "yes".toList, "n".toList, "no".toList], ∀ d ∈ l, d ∈ ['y', 'e', 's', 'n', 'o'] := by decide
          exact this _ hm _ hc'
      by_cases hsp : Repl.isSpace c = true
      · rw [space_lower hsp] at hcs
        have : ∀ d ∈ ['y', 'e', 's', 'n', 'o'], Repl.isSpace d = false := by decide
        exact this c hcs
      · simpa using hsp
    have htrim := fun hm => trim_word left word right hl hr (hword hm)
    unfold answerOf
    simp only []
    rcases h with ⟨rfl, rfl⟩ | ⟨rfl, hm⟩ | ⟨rfl, hm⟩
    · rw [htrim (.inl rfl)]; rfl
    · have hm' : word.map Char.toLower ∈ ["y".toList, "yes".toList, "n".toList, "no".toList] := by
        revert hm; generalize word.map Char.toLower = w; clear hword htrim; grind
      rw [htrim (.inr hm')]
      revert hm; generalize word.map Char.toLower = w; intro hm
      simp only [List.mem_cons, List.not_mem_nil, or_false] at hm
      clear hword htrim hm'
      rcases hm with rfl | rfl <;> cases offered <;> decide
    · have hm' : word.map Char.toLower ∈ ["y".toList, "yes".toList, "n".toList, "no".toList] := by
        revert hm; generalize word.map Char.toLower = w; clear hword htrim; grind
      rw [htrim (.inr hm')]
      revert hm; generalize word.map Char.toLower = w; intro hm
      simp only [List.mem_cons, List.not_mem_nil, or_false] at hm
      clear hword htrim hm'
      rcases hm with rfl | rfl <;> cases offered <;> decide

theorem ask_last (d : Bool) (l : List Char) : ∀ acc, '\n' ∉ l → ask d acc l = none := by
  induction l with
  | nil => intro acc _; rfl
  | cons c l ih =>
    intro acc h
    simp only [List.mem_cons, not_or] at h
    rw [ask, if_neg (fun e => h.1 e.symm)]
    exact ih _ h.2

theorem ask_line (d : Bool) (rest : List Char) (l : List Char) : ∀ acc, '\n' ∉ l →
    ask d acc (l ++ '\n' :: rest) = match answerOf d (acc.reverse ++ l) with | some b => some b | none => ask d [] rest := by
  induction l with
  | nil => intro acc _; simp only [List.nil_append, ask, if_true, List.append_nil]; cases answerOf d acc.reverse <;> rfl
  | cons c l ih =>
    intro acc h
    simp only [List.mem_cons, not_or] at h
    rw [List.cons_append, ask, if_neg (fun e => h.1 e.symm), ih _ h.2]
    simp

theorem ask_unlines (d : Bool) (last : List Char) (hl : '\n' ∉ last) (ls : List (List Char)) : (∀ l ∈ ls, '\n' ∉ l) →
    ask d [] (unlines ls ++ last) = ls.findSome? (answerOf d) := by
  induction ls with
  | nil => intro _; exact ask_last d last [] hl
  | cons l ls ih =>
    intro h
    have e : unlines (l :: ls) ++ last = l ++ '\n' :: (unlines ls ++ last) := by simp [unlines]
    rw [e, ask_line d _ l [] (h l (by simp)), ih (fun l hl => h l (by simp [hl])), List.findSome?_cons]
    simp only [List.reverse_nil, List.nil_append]
    cases answerOf d l <;> rfl

/-- Every text consists of lines and what comes after the last of them. -/
theorem in_lines (s : List Char) : ∃ ls last, s = unlines ls ++ last ∧ (∀ l ∈ ls, '\n' ∉ l) ∧ '\n' ∉ last := by
  induction s with
  | nil => exact ⟨[], [], rfl, by simp, by simp⟩
  | cons c s ih =>
    obtain ⟨ls, last, rfl, h1, h2⟩ := ih
    by_cases hc : c = '\n'
    · subst hc
      exact ⟨[] :: ls, last, by simp [unlines], by simpa using h1, h2⟩
    · cases ls with
      | nil => exact ⟨[], c :: last, by simp [unlines], by simp, by simp only [List.mem_cons, not_or]; exact ⟨fun e => hc e.symm, h2⟩⟩
      | cons l ls =>
        refine ⟨(c :: l) :: ls, last, by simp [unlines], ?_, h2⟩
        intro k hk
        rcases List.mem_cons.1 hk with rfl | hk
        · simp only [List.mem_cons, not_or]; exact ⟨fun e => hc e.symm, h1 l (by simp)⟩
        · exact h1 k (by simp [hk])

/-- A question is answered by the first line that is an answer; lines before it are asked again. -/
theorem c77_answered (offered : Bool) (input : List Char) (b : Bool) :
    confirm offered input = some b ↔ ∃ before line after_, input = unlines before ++ line ++ '\n' :: after_ ∧ (∀ l ∈ before, '\n' ∉ l ∧ ∀ b, ¬ Says offered l b) ∧
      '\n' ∉ line ∧ Says offered line b := by
  unfold confirm
  constructor
  · intro h
    obtain ⟨ls, last, rfl, h1, h2⟩ := in_lines input
    rw [ask_unlines offered last h2 ls h1, List.findSome?_eq_some_iff] at h
    obtain ⟨xs, line, ys, rfl, h3, h4⟩ := h
    refine ⟨xs, line, unlines ys ++ last, by simp [unlines], ?_, h1 line (by simp), (answerOf_says ..).1 h3⟩
    intro l hl
    refine ⟨h1 l (by simp [hl]), fun b hb => ?_⟩
    have := h4 l hl
    rw [(answerOf_says ..).2 hb] at this
    cases this
  · rintro ⟨before, line, after_, rfl, h1, h2, h3⟩
    obtain ⟨ls, last, rfl, h4, h5⟩ := in_lines after_
    have e : unlines before ++ line ++ '\n' :: (unlines ls ++ last) = unlines (before ++ line :: ls) ++ last := by simp [unlines]
    rw [e, ask_unlines offered last h5]
    · rw [List.findSome?_eq_some_iff]
      refine ⟨before, line, ls, rfl, (answerOf_says ..).2 h3, ?_⟩
      intro l hl
      cases h : answerOf offered l with
      | none => rfl
      | some b => exact absurd ((answerOf_says ..).1 h) ((h1 l hl).2 b)
    · intro l hl
      rcases List.mem_append.1 hl with hl | hl
      · exact (h1 l hl).1
      · rcases List.mem_cons.1 hl with rfl | hl
        · exact h2
        · exact h4 l hl

/-- The program fails only if the input ends without an answer; an answer on a line that is not finished is none. -/
theorem c77_unanswered (offered : Bool) (input : List Char) :
    confirm offered input = none ↔ ∃ lines last, input = unlines lines ++ last ∧ (∀ l ∈ lines, '\n' ∉ l ∧ ∀ b, ¬ Says offered l b) ∧ '\n' ∉ last := by
  unfold confirm
  constructor
  · intro h
    obtain ⟨ls, last, rfl, h1, h2⟩ := in_lines input
    rw [ask_unlines offered last h2 ls h1, List.findSome?_eq_none_iff] at h
    refine ⟨ls, last, rfl, fun l hl => ⟨h1 l hl, fun b hb => ?_⟩, h2⟩
    have := h l hl
    rw [(answerOf_says ..).2 hb] at this
    cases this
  · rintro ⟨ls, last, rfl, h1, h2⟩
    rw [ask_unlines offered last h2 ls (fun l hl => (h1 l hl).1), List.findSome?_eq_none_iff]
    intro l hl
    cases h : answerOf offered l with
    | none => rfl
    | some b => exact absurd ((answerOf_says ..).1 h) ((h1 l hl).2 b)

example : confirm true "maybe\n  YES \nno\n".toList = some true ∧ confirm true "\n".toList = some true ∧ confirm false "\n".toList = some false ∧
    confirm true "what\nno\n".toList = some false ∧ confirm true "yes".toList = none := by decide +kernel

/-! ### Boxes and indentation -/

theorem splitChar_some (sep : Char) (cs : List Char) : splitChar sep cs ≠ [] := by
  cases cs with
  | nil => simp [splitChar]
  | cons c s =>
    simp only [splitChar]
    split
    · simp
    · split <;> simp

theorem splitChar_no_sep (sep : Char) (cs : List Char) : ∀ w ∈ splitChar sep cs, sep ∉ w := by
  induction cs with
  | nil => intro w hw; simp only [splitChar, List.mem_singleton] at hw; subst hw; simp
  | cons c cs ih =>
    intro w hw
    simp only [splitChar] at hw
    split at hw
    · rename_i h
      exact absurd h (splitChar_some sep cs)
    · rename_i v vs h
      rw [h] at ih
      split at hw
      · rcases List.mem_cons.1 hw with rfl | hw
        · simp
        · exact ih w hw
      · rename_i hc
        rcases List.mem_cons.1 hw with rfl | hw
        · simp only [List.mem_cons, not_or]; exact ⟨fun e => hc e.symm, ih v (by simp)⟩
        · exact ih w (by simp [hw])

theorem split_unlines (ls : List (List Char)) (last : List Char) (h : ∀ l ∈ ls, '\n' ∉ l) (hl : '\n' ∉ last) : splitChar '\n' (unlines ls ++ last) = ls ++ [last] := by
  induction ls with
  | nil => exact splitChar_plain '\n' last hl
  | cons l ls ih =>
    have e : unlines (l :: ls) ++ last = l ++ '\n' :: (unlines ls ++ last) := by simp [unlines]
    rw [e, splitChar_append '\n' l _ (h l (by simp)), ih (fun l hl => h l (by simp [hl]))]
    rfl

/-- Every line is indented by twice the amount of spaces, and nothing else changes, if the last line is not empty or the amount not 0. -/
theorem c77_indent (amount : Nat) (s : List Char) (h : 0 < amount ∨ (splitChar '\n' s).getLast? ≠ some []) :
    splitChar '\n' (indent amount s) = (splitChar '\n' s).map (List.replicate (2 * amount) ' ' ++ ·) := by
  have hno := splitChar_no_sep '\n' s
  have hne := splitChar_some '\n' s
  unfold indent
  generalize splitChar '\n' s = ls at *
  obtain ⟨init, last, rfl⟩ : ∃ init last, ls = init ++ [last] := ⟨ls.dropLast, ls.getLast hne, (List.dropLast_concat_getLast hne).symm⟩
  have hplain : ∀ l ∈ init ++ [last], '\n' ∉ List.replicate (2 * amount) ' ' ++ l := by
    intro l hl hm
    rcases List.mem_append.1 hm with hm | hm
    · have := List.eq_of_mem_replicate hm; revert this; decide
    · exact hno l hl hm
  have hlast : List.replicate (2 * amount) ' ' ++ last ≠ [] := by
    intro e
    rcases h with h | h
    · have := congrArg List.length e; simp at this; omega
    · simp only [List.append_eq_nil_iff] at e
      apply h; rw [e.2]; simp
  have htrim : trimNewlines (unlines ((init ++ [last]).map (List.replicate (2 * amount) ' ' ++ ·))) =
      unlines (init.map (List.replicate (2 * amount) ' ' ++ ·)) ++ (List.replicate (2 * amount) ' ' ++ last) := by
    have hl := hplain last (by simp)
    rw [List.map_append]
    generalize init.map (List.replicate (2 * amount) ' ' ++ ·) = I
    simp only [List.map_cons, List.map_nil]
    generalize List.replicate (2 * amount) ' ' ++ last = L at hl hlast
    have e : unlines (I ++ [L]) = (unlines I ++ L) ++ ['\n'] := by simp [unlines]
    rw [e, trimNewlines, List.reverse_append, List.reverse_append]
    cases hL : L.reverse with
    | nil => exact absurd (List.reverse_eq_nil_iff.1 hL) hlast
    | cons c cs =>
      have hc : c ≠ '\n' := by
        intro hc
        subst hc
        exact hl (List.mem_reverse.1 (by rw [hL]; simp))
      have hLL : L = (c :: cs).reverse := by rw [← hL, List.reverse_reverse]
      subst hLL
      simp [hc]
  rw [htrim, split_unlines _ _ (by
    intro l hl
    obtain ⟨k, hk, rfl⟩ := List.mem_map.1 hl
    exact hplain k (by simp [hk])) (hplain last (by simp))]
  simp

example : indent 1 "a\nbc\n\nd".toList = "  a\n  bc\n  \n  d".toList ∧ (splitChar '\n' "a\nbc\n\nd".toList).getLast? ≠ some [] := by decide +kernel

/-- What is asked of `strip`: it removes from a text only what is in the text itself, if spaces and lines are put around it. -/
def Strips (strip : List Char → List Char) : Prop :=
  ∀ left text right : List Char, (∀ c ∈ left ++ right, c ∈ [' ', '│', '─', '┌', '┐', '└', '┘']) → strip (left ++ text ++ right) = left ++ strip text ++ right

theorem widest_from (strip : List Char → List Char) (ls : List (List Char)) : ∀ m,
    m ≤ ls.foldl (fun m l => if (strip l).length > m then (strip l).length else m) m ∧
    (∀ l ∈ ls, (strip l).length ≤ ls.foldl (fun m l => if (strip l).length > m then (strip l).length else m) m) ∧
    (ls.foldl (fun m l => if (strip l).length > m then (strip l).length else m) m = m ∨
      ∃ l ∈ ls, (strip l).length = ls.foldl (fun m l => if (strip l).length > m then (strip l).length else m) m) := by
  induction ls with
  | nil => intro m; simp
  | cons l ls ih =>
    intro m
    simp only [List.foldl_cons]
    obtain ⟨h1, h2, h3⟩ := ih (if (strip l).length > m then (strip l).length else m)
    have hm : m ≤ (if (strip l).length > m then (strip l).length else m) ∧ (strip l).length ≤ (if (strip l).length > m then (strip l).length else m) := by
      split <;> omega
    refine ⟨by omega, ?_, ?_⟩
    · intro k hk
      rcases List.mem_cons.1 hk with rfl | hk
      · omega
      · exact h2 k hk
    · rcases h3 with h3 | ⟨k, hk, h3⟩
      · rw [h3]
        by_cases hc : (strip l).length > m
        · exact .inr ⟨l, by simp, by rw [if_pos hc]⟩
        · exact .inl (if_neg hc)
      · exact .inr ⟨k, by simp [hk], h3⟩

/-- A text in a box: four lines more, all lines of the same visible width, each line of the text in its own line, and the box is as narrow as the longest line lets it be. -/
theorem c77_box (strip : List Char → List Char) (hs : Strips strip) (h0 : strip [] = []) (s : List Char) :
    ∃ w, (∀ row ∈ splitChar '\n' (boxed strip s), (strip row).length = w + 4) ∧
      (w = 0 ∨ ∃ l ∈ splitChar '\n' s, (strip l).length = w) ∧
      (splitChar '\n' (boxed strip s)).length = (splitChar '\n' s).length + 4 ∧
      ∀ (i : Nat) (l : List Char), (splitChar '\n' s)[i]? = some l → ∃ k, (splitChar '\n' (boxed strip s))[i + 2]? = some (['│', ' '] ++ l ++ List.replicate k ' ' ++ [' ', '│']) := by
  have hno := splitChar_no_sep '\n' s
  obtain ⟨-, hw, hn⟩ := widest_from strip (splitChar '\n' s) 0
  have hrep : ∀ (a b c : Char) (k : Nat), '\n' ≠ a → '\n' ≠ b → '\n' ≠ c → '\n' ∉ [a] ++ List.replicate k b ++ [c] := by
    intro a b c k h1 h2 h3 hm
    simp only [List.mem_append, List.mem_singleton, List.mem_replicate] at hm
    rcases hm with (hm | hm) | hm
    · exact h1 hm
    · exact h2 hm.2
    · exact h3 hm
  have hrows : splitChar '\n' (boxed strip s) =
      [['┌'] ++ List.replicate (widest strip (splitChar '\n' s) + 2) '─' ++ ['┐'], ['│'] ++ List.replicate (widest strip (splitChar '\n' s) + 2) ' ' ++ ['│']] ++
      (splitChar '\n' s).map (boxedLine strip (widest strip (splitChar '\n' s))) ++
      [['│'] ++ List.replicate (widest strip (splitChar '\n' s) + 2) ' ' ++ ['│'], ['└'] ++ List.replicate (widest strip (splitChar '\n' s) + 2) '─' ++ ['┘']] := by
    unfold boxed
    simp only []
    generalize widest strip (splitChar '\n' s) = w
    generalize splitChar '\n' s = ls at *
    have e : ∀ xs ys zs : List (List Char), unlines xs ++ unlines ys ++ unlines zs = unlines (xs ++ ys ++ zs) := by intro xs ys zs; simp [unlines]
    rw [e, split_unlines]
    · simp
    · intro l hl
      simp only [List.mem_append, List.mem_cons, List.not_mem_nil, or_false, List.mem_map] at hl
      rcases hl with ((rfl | rfl) | ⟨k, hk, rfl⟩) | rfl
      · exact hrep _ _ _ _ (by decide) (by decide) (by decide)
      · exact hrep _ _ _ _ (by decide) (by decide) (by decide)
      · intro hm
        simp only [boxedLine, List.mem_append, List.mem_cons, List.not_mem_nil, or_false, List.mem_replicate] at hm
        rcases hm with (((hm | hm) | hm) | hm) | (hm | hm)
        · revert hm; decide
        · revert hm; decide
        · exact hno k hk hm
        · exact absurd hm.2 (by decide)
        · revert hm; decide
        · revert hm; decide
      · exact hrep _ _ _ _ (by decide) (by decide) (by decide)
    · exact hrep _ _ _ _ (by decide) (by decide) (by decide)
  change ∀ l ∈ splitChar '\n' s, (strip l).length ≤ widest strip (splitChar '\n' s) at hw
  change widest strip (splitChar '\n' s) = 0 ∨ ∃ l ∈ splitChar '\n' s, (strip l).length = widest strip (splitChar '\n' s) at hn
  have hframe : ∀ (a b c : Char) (k : Nat), (∀ x ∈ [a, b, c], x ∈ [' ', '│', '─', '┌', '┐', '└', '┘']) → (strip ([a] ++ List.replicate k b ++ [c])).length = k + 2 := by
    intro a b c k h
    have := hs ([a] ++ List.replicate k b) [] [c] (by
      intro x hx
      simp only [List.mem_append, List.mem_singleton, List.mem_replicate] at hx
      apply h
      simp only [List.mem_cons, List.not_mem_nil, or_false]
      grind)
    rw [List.append_nil, h0, List.append_nil] at this
    rw [this]; simp
  rw [hrows]
  refine ⟨widest strip (splitChar '\n' s), ?_, hn, by simp, ?_⟩
  · intro row hr
    simp only [List.mem_append, List.mem_cons, List.not_mem_nil, or_false, List.mem_map] at hr
    rcases hr with ((rfl | rfl) | ⟨k, hk, rfl⟩) | (rfl | rfl)
    · exact hframe _ _ _ _ (by decide)
    · exact hframe _ _ _ _ (by decide)
    · have := hs ['│', ' '] k (List.replicate (widest strip (splitChar '\n' s) - (strip k).length) ' ' ++ [' ', '│']) (by
        intro x hx
        simp only [List.mem_append, List.mem_cons, List.not_mem_nil, or_false, List.mem_replicate] at hx
        simp only [List.mem_cons, List.not_mem_nil, or_false]
        grind)
      unfold boxedLine
      rw [List.append_assoc _ (List.replicate _ ' '), this]
      have := hw k hk
      simp; omega
    · exact hframe _ _ _ _ (by decide)
    · exact hframe _ _ _ _ (by decide)
  · intro i l hl
    refine ⟨widest strip (splitChar '\n' s) - (strip l).length, ?_⟩
    have hi : i < (splitChar '\n' s).length := (List.getElem?_eq_some_iff.1 hl).1
    simp only [List.append_assoc, List.cons_append, List.nil_append, List.getElem?_cons_succ]
    rw [List.getElem?_append_left (by simpa using hi), List.getElem?_map, hl]
    simp [boxedLine]

example : boxed id "new\nAlda".toList = "┌──────┐\n│      │\n│ new  │\n│ Alda │\n│      │\n└──────┘".toList ∧ Strips id ∧
    Strips (List.filter (· ≠ Char.ofNat 27)) := by
  refine ⟨by decide +kernel, fun l t r _ => rfl, fun l t r h => ?_⟩
  have : ∀ k : List Char, (∀ c ∈ k, c ∈ [' ', '│', '─', '┌', '┐', '└', '┘']) → k.filter (· ≠ Char.ofNat 27) = k := by
    intro k hk
    rw [List.filter_eq_self]
    intro c hc
    have : ∀ d ∈ [' ', '│', '─', '┌', '┐', '└', '┘'], decide (d ≠ Char.ofNat 27) = true := by decide
    exact this c (hk c hc)
  rw [List.filter_append, List.filter_append, this l (fun c hc => h c (by simp [hc])), this r (fun c hc => h c (by simp [hc]))]

end Terminal
end Alda
