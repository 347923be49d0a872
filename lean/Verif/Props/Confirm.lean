import Verif.Cmd.Confirm
import Verif.Props.Terminal

/-!
C82: how answers that arrive in pieces, or together, reach the questions. What an answer is, is described for C77.
-/
namespace Alda
namespace Confirm
open Terminal (Says answerOf answerOf_says)

/-- A text that consists of these lines, and something after the last line break. -/
def Text (lines : List (List Char)) (rest : List Char) (text : List Char) : Prop :=
  text = (lines.map (· ++ ['\n'])).flatten ++ rest ∧ (∀ l ∈ lines, '\n' ∉ l) ∧ '\n' ∉ rest

theorem within_append (d : Bool) (n : Nat) (acc a b : List Char) :
    within d n acc (a ++ b) = match within d n acc a with
      | .inl (n', acc') => within d n' acc' b
      | .inr x => .inr x := by
  induction a generalizing n acc with
  | nil => rfl
  | cons c a ih =>
    simp only [List.cons_append, within]
    split
    · split
      · rfl
      · exact ih ..
    · exact ih ..

/-- The answer does not depend on how the text is cut into reads. -/
theorem loop_text (d : Bool) (n : Nat) (acc : List Char) (rs : List (List Char)) :
    ((loop d n acc rs).1, (loop d n acc rs).2.1) = match within d n acc rs.flatten with
      | .inl (n', _) => (n', none)
      | .inr (n', b) => (n', some b) := by
  induction rs generalizing n acc with
  | nil => rfl
  | cons r rs ih =>
    rw [List.flatten_cons, within_append]
    unfold loop
    split
    next h => rw [h]; exact ih ..
    next h => rw [h]

theorem within_line (d : Bool) (n : Nat) (acc l : List Char) (h : '\n' ∉ l) : within d n acc l = .inl (n, l.reverse ++ acc) := by
  induction l generalizing acc with
  | nil => rfl
  | cons c l ih =>
    simp only [List.mem_cons, not_or] at h
    simp only [within, if_neg (Ne.symm h.1), ih _ h.2]
    simp

theorem within_break (d : Bool) (n : Nat) (l cs : List Char) (h : '\n' ∉ l) : within d n [] (l ++ ['\n'] ++ cs) = match answerOf d l with
    | some b => .inr (n, b)
    | none => within d (n + 1) [] cs := by
  rw [List.append_assoc, within_append, within_line _ _ _ _ h]
  simp only [List.append_nil, List.singleton_append, within, if_true, List.reverse_reverse]
  cases answerOf d l <;> rfl

theorem within_skip (d : Bool) (n : Nat) (ls : List (List Char)) (cs : List Char) (h : ∀ l ∈ ls, '\n' ∉ l) (ha : ∀ l ∈ ls, ∀ b, ¬ Says d l b) :
    within d n [] ((ls.map (· ++ ['\n'])).flatten ++ cs) = within d (n + ls.length) [] cs := by
  induction ls generalizing n with
  | nil => rfl
  | cons l ls ih =>
    have h0 : answerOf d l = none := by
      cases hx : answerOf d l with
      | none => rfl
      | some b => exact absurd ((answerOf_says ..).1 hx) (ha l (List.mem_cons_self ..) b)
    rw [List.map_cons, List.flatten_cons, List.append_assoc, within_break _ _ _ _ (h l (List.mem_cons_self ..)), h0]
    dsimp only
    rw [ih _ (fun l hl => h l (List.mem_cons_of_mem _ hl)) (fun l hl => ha l (List.mem_cons_of_mem _ hl))]
    rw [List.length_cons, show n + 1 + ls.length = n + (ls.length + 1) by omega]

/-- C82: however the input arrives, the first line that is an answer is the one that counts, and the question is printed once for it and once for each line before. -/
theorem c82_answer {d b : Bool} {input : List (List Char)} {others more : List (List Char)} {line rest : List Char} (ht : Text (others ++ line :: more) rest input.flatten)
    (ho : ∀ l ∈ others, ∀ b, ¬ Says d l b) (hl : Says d line b) : (prompt d input).1 = others.length + 1 ∧ (prompt d input).2.1 = some b := by
  obtain ⟨h1, h2, -⟩ := ht
  have k := loop_text d 1 [] input
  rw [h1, List.map_append, List.map_cons, List.flatten_append, List.flatten_cons, List.append_assoc, within_skip _ _ _ _ (fun l hl => h2 l (List.mem_append_left _ hl)) ho,
    List.append_assoc, within_break _ _ _ _ (h2 line (by simp)), (answerOf_says ..).2 hl] at k
  simp only [Prod.mk.injEq] at k
  exact ⟨by unfold prompt; omega, k.2⟩

/-- C82: a question is answered as if all input were there at once. -/
theorem c82_same (d : Bool) (input : List (List Char)) : (prompt d input).2.1 = Terminal.confirm d input.flatten := by
  have key : ∀ (cs : List Char) n acc, ((within d n acc cs).elim (fun _ => none) (fun x => some x.2)) = Terminal.ask d acc cs := by
    intro cs
    induction cs with
    | nil => intro n acc; rfl
    | cons c cs ih =>
      intro n acc
      unfold within Terminal.ask
      by_cases hc : c = '\n'
      · rw [if_pos hc, if_pos hc]
        cases answerOf d acc.reverse with
        | none => exact ih _ _
        | some b => rfl
      · rw [if_neg hc, if_neg hc]; exact ih _ _
  have k := congrArg Prod.snd (loop_text d 1 [] input)
  unfold prompt Terminal.confirm
  rw [← key _ 1]
  dsimp only at k
  rw [k]
  cases within d 1 [] input.flatten <;> rfl

/-- C82 is false if the input ends: then, and only then, the program panics, even if what comes after the last line break would be an answer. -/
theorem c82_ends {d : Bool} {input : List (List Char)} {lines : List (List Char)} {rest : List Char} (ht : Text lines rest input.flatten) :
    (prompt d input).2.1 = none ↔ ∀ l ∈ lines, ∀ b, ¬ Says d l b := by
  constructor
  · intro hn
    apply Classical.byContradiction
    intro hx
    have : ∃ others line more b, lines = others ++ line :: more ∧ (∀ l ∈ others, ∀ b, ¬ Says d l b) ∧ Says d line b := by
      clear hn ht
      induction lines with
      | nil => exact absurd (by simp) hx
      | cons l ls ih =>
        by_cases hl : ∃ b, Says d l b
        · obtain ⟨b, hb⟩ := hl
          exact ⟨[], l, ls, b, rfl, by simp, hb⟩
        · have hl' : ∀ b, ¬ Says d l b := fun b hb => hl ⟨b, hb⟩
          obtain ⟨o, l', m, b, rfl, h1, h2⟩ := ih (fun h => hx (fun x hm => by
            rcases List.mem_cons.1 hm with rfl | hm
            · exact hl'
            · exact h x hm))
          refine ⟨l :: o, l', m, b, rfl, fun x hm => ?_, h2⟩
          rcases List.mem_cons.1 hm with rfl | hm
          · exact hl'
          · exact h1 x hm
    obtain ⟨o, l, m, b, rfl, h1, h2⟩ := this
    have := (c82_answer ht h1 h2).2
    rw [hn] at this
    cases this
  · intro h
    obtain ⟨h1, h2, h3⟩ := ht
    have k := loop_text d 1 [] input
    rw [h1, within_skip _ _ _ _ h2 h, within_line _ _ _ _ h3] at k
    exact (Prod.mk.injEq .. ▸ k).2

/-- C82: at a terminal, where every read returns a line, the next question gets what is typed after the answer. -/
theorem c82_next_partial {d b : Bool} {others more : List (List Char)} {line : List Char} (h : ∀ l ∈ others ++ [line], '\n' ∉ l)
    (ho : ∀ l ∈ others, ∀ b, ¬ Says d l b) (hl : Says d line b) :
    prompt d ((others ++ [line]).map (· ++ ['\n']) ++ more) = (others.length + 1, some b, more) := by
  unfold prompt
  have gen : ∀ n, loop d n [] ((others ++ [line]).map (· ++ ['\n']) ++ more) = (others.length + n, some b, more) := by
    induction others with
    | nil =>
      intro n
      have k := within_break d n line [] (h line (by simp))
      rw [List.append_nil, (answerOf_says ..).2 hl] at k
      simp [loop, k]
    | cons l ls ih =>
      intro n
      have h0 : answerOf d l = none := by
        cases hx : answerOf d l with
        | none => rfl
        | some b => exact absurd ((answerOf_says ..).1 hx) (ho l (List.mem_cons_self ..) b)
      have k := within_break d n l [] (h l (by simp))
      rw [List.append_nil, h0] at k
      have k' : within d n [] (l ++ ['\n']) = .inl (n + 1, []) := k
      simp only [List.cons_append, List.map_cons, loop, k']
      rw [ih (fun l hl => h l (List.mem_cons_of_mem _ hl)) (fun l hl => ho l (List.mem_cons_of_mem _ hl))]
      rw [List.length_cons, show ls.length + (n + 1) = ls.length + 1 + n by omega]
  exact gen 1

/-- C82 is false for answers from a pipe: with "y" and "n" on two lines, the first question is answered, and the second one ends the program. -/
theorem c82_piped_witness : ∃ input : List (List Char), input.flatten = "y\nn\n".toList ∧ (prompt false input).2.1 = some true ∧
    (prompt true (prompt false input).2.2).2.1 = none :=
  ⟨["y\nn\n".toList], by decide +kernel, by decide +kernel, by decide +kernel⟩

/-- C82 is false if the answer is not followed by a line break. -/
theorem c82_unfinished_witness : Says false "yes".toList true ∧ (prompt false ["yes".toList]).2.1 = none :=
  ⟨(answerOf_says ..).1 (by decide +kernel), by decide +kernel⟩

/-- The hypotheses of `c82_answer`, cut in the middle of a line. -/
example : Text (["maybe".toList] ++ " Yes".toList :: ["no".toList]) [] ["may".toList, "be\n Ye".toList, "s\nno\n".toList].flatten ∧
    (∀ l ∈ ["maybe".toList], ∀ b, ¬ Says false l b) ∧ Says false " Yes".toList true := by
  refine ⟨⟨by decide +kernel, by decide +kernel, by simp⟩, fun l hl b => ?_, (answerOf_says ..).1 (by decide +kernel)⟩
  rw [List.mem_singleton.1 hl, ← answerOf_says]
  revert b
  decide +kernel

end Confirm
end Alda
