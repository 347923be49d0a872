import Verif.Lemmas.FormatParts
import Verif.Lemmas.FormatFits
/-!
C32: formatting an AST and parsing the formatted text.
-/
namespace Alda
namespace Syn
open Spec Tree

/-- Whatever text parses can be formatted: the formatter fails on no AST of the parser, clean or not, for no width of lines and no indentation. In
particular, the level of indentation never becomes negative, in whatever way sequences, voices and definitions of variables are nested. -/
theorem c32_succeeds (input : List Char) (ast : Node) (h : parse input = .ok ast) (width : Int) (indent : List Char) :
    ∃ out, format width indent ast = .ok out := by
  obtain ⟨ps, rfl, hf, _⟩ := parse_tree h
  exact format_fine hf width indent

/-- The text that the formatter makes of the AST of a text, with the default indentation, or the empty text if something fails. -/
def reformat (width : Int) (input : String) : String :=
  match parse input.toList with
  | .ok ast => match format width [' ', ' '] ast with
    | .ok out => String.ofList out
    | .error _ => ""
  | .error _ => ""

/-- The message of a panic. -/
def panicOf {α : Type} : Except Err α → Option String
  | .error (.panic m) => some m
  | _ => none

/-- That the AST comes from the parser is needed: on an AST of the right types that no text has, the level of indentation does become negative. -/
theorem c32_panic_witness : panicOf (format 80 [' ', ' '] (branch .root [branch .implicitPart [branch .eventSequence
      [branch .variableDefinition [atom .variableName (.str "aa"), branch .eventSequence [
        branch .eventSequence [branch .variableDefinition [atom .variableName (.str "bb"), branch .eventSequence [atom .barline .none]]],
        atom .barline .none]]]]])) = some "strings: negative Repeat count" := by decide +kernel

/-- Texts that parse, one of them to an AST that is not clean, the other with a definition in a sequence in a definition. -/
example : reformat 80 "c4|~/e" = "c4~ | / e\n" ∧ reformat 80 "aa = c [bb = d\n]\ne" ≠ "" := by decide +kernel

/-- C32, for clean ASTs. Whatever text an AST was parsed from, for every width of lines and every indentation made of blanks, formatting the AST
succeeds, and parsing the formatted text gives the very same AST. Missing from the full statement: slurred notes whose duration ends in a barline, for
which it is false (`c32_slur_witness`, `c32_repeat_witness`); and a barline after something with a length that is repeated `*0` times, where the AST
is another one (`c32_zero_witness`: the barline becomes part of the note's duration). -/
theorem c32_partial (input : List Char) (ast : Node) (h : parse input = .ok ast) (hc : Clean ast) (width : Int) (indent : List Char)
    (hi : ∀ c ∈ indent, c ∈ [' ', '\t', '\r', '\n']) : ∃ out, format width indent ast = .ok out ∧ parse out = .ok ast := by
  obtain ⟨ps, rfl, _, hp⟩ := parse_tree h
  exact format_parse (hp hc) width (fun c hc => by
    have := hi c hc
    simp only [List.mem_cons, List.not_mem_nil, or_false] at this
    rcases this with rfl | rfl | rfl | rfl <;> decide)

/-- Formatting what was formatted changes nothing, and so it does with another width in between. -/
theorem c32_stable_partial (input : List Char) (ast : Node) (h : parse input = .ok ast) (hc : Clean ast) (w w' : Int) (indent indent' out : List Char)
    (hi : ∀ c ∈ indent', c ∈ [' ', '\t', '\r', '\n']) (ho : format w indent ast = .ok out) :
    ∃ mid ast', format w' indent' ast = .ok mid ∧ parse mid = .ok ast' ∧ format w indent ast' = .ok out := by
  obtain ⟨mid, h1, h2⟩ := c32_partial input ast h hc w' indent' hi
  exact ⟨mid, ast, h1, h2, ho⟩

/-- The full statement is false: a slurred note whose length is followed by a barline is written with the slur before the barline, and in a chord the
text does not parse any more. -/
theorem c32_slur_witness : reformat 80 "c4|~/e" = "c4~ | / e\n" ∧
    errorOf (parse "c4~ | / e\n".toList) = some (.at ⟨1, 7⟩ "in inner events") := by decide +kernel

/-- The same with a repeat. -/
theorem c32_repeat_witness : reformat 80 "c4|~*2 d" = "c4~ | *2 d\n" ∧
    errorOf (parse "c4~ | *2 d\n".toList) = some (.at ⟨1, 7⟩ "in inner events") := by decide +kernel

/-- How many events a program without part declarations has. -/
def eventCount (input : String) : Nat :=
  match parse input.toList with
  | .ok (.mk _ _ [.mk _ _ [.mk _ _ es]]) => es.length
  | _ => 0

/-- After `*0`, the AST is another one: three events become two. -/
theorem c32_zero_witness : reformat 80 "c4*0 | d" = "c4 | d\n" ∧ eventCount "c4*0 | d" = 3 ∧ eventCount "c4 | d\n" = 2 := by decide +kernel

/-- How many events there are in the repeated sequence that is the whole program, and which of them are for some repetitions only. -/
def repeatedEvents (input : String) : List Bool :=
  match parse input.toList with
  | .ok (.mk _ _ [.mk _ _ [.mk _ _ [.mk .repeat _ [.mk _ _ es, _]]]]) => es.map fun e => e.type == .onRepetitions
  | _ => []

/-- The meaning changes: of a slurred note whose length is followed by a barline, and which is for the first repetition only, just the barline is for the
first repetition only afterwards. -/
theorem c32_repetitions_witness : reformat 80 "[c4|~ '1 d]*2" = "[\n  c4~ | '1 d\n] *2\n" ∧
    repeatedEvents "[c4|~ '1 d]*2" = [true, false] ∧ repeatedEvents "[\n  c4~ | '1 d\n] *2\n" = [false, true, false] := by decide +kernel

/-! ### A concrete case -/

def plainSlurB : Node → Bool
  | .mk .note _ cs => !cs.getLast?.any (fun c => c.type == .tie) ||
      cs.all fun d => !(d.type == .duration) || !d.children.getLast?.any (fun c => c.type == .barline)
  | _ => true

def apartB : List Node → Bool
  | a :: b :: cs => !(endsInLength a && startsWithBarline b) && apartB (b :: cs)
  | _ => true

mutual
def cleanB : Node → Bool
  | .mk t l cs => plainSlurB (.mk t l cs) && apartB cs && allCleanB cs
def allCleanB : List Node → Bool
  | [] => true
  | c :: cs => cleanB c && allCleanB cs
end

theorem plainSlurB_sound {n : Node} (h : plainSlurB n = true) : PlainSlur n := by
  obtain ⟨t, l, cs⟩ := n
  cases t with
  | note =>
    simp only [plainSlurB, Bool.or_eq_true, Bool.not_eq_true', List.all_eq_true] at h
    intro h1 d hd hd'
    rcases h with h | h
    · rw [h1] at h; cases h
    · rcases h d hd with h | h
      · rw [hd'] at h; simp at h
      · exact h
  | _ => trivial

theorem apartB_sound : ∀ {ns : List Node}, apartB ns = true → Apart ns
  | [], _ => trivial
  | [_], _ => trivial
  | a :: b :: cs, h => by
    simp only [apartB, Bool.and_eq_true, Bool.not_eq_true', Bool.and_eq_false_iff] at h
    refine ⟨fun hx => ?_, apartB_sound h.2⟩
    rcases h.1 with h | h
    · rw [hx.1] at h; cases h
    · rw [hx.2] at h; cases h

mutual
theorem cleanB_sound : ∀ {n : Node}, cleanB n = true → Clean n
  | .mk t l cs, h => by
    simp only [cleanB, Bool.and_eq_true] at h
    exact ⟨plainSlurB_sound h.1.1, apartB_sound h.1.2, allCleanB_sound h.2⟩
theorem allCleanB_sound : ∀ {ns : List Node}, allCleanB ns = true → AllClean ns
  | [], _ => trivial
  | c :: cs, h => by
    simp only [allCleanB, Bool.and_eq_true] at h
    exact ⟨cleanB_sound h.1, allCleanB_sound h.2⟩
end

def sample : String := "piano/violin \"duo\": c4~|8~ d/>e [d4 | e '1]*2 {f g}2~4 V1: a V2: r V0: b (tempo! '(1 \"x\"))\nfoo = c d*3\nfoo"

/-- A program with a bit of everything: with the widths 80 and 20, the formatted texts differ. -/
example : (∃ ast, parse sample.toList = .ok ast ∧ Clean ast) ∧ reformat 80 sample ≠ reformat 20 sample ∧ reformat 20 sample ≠ "" := by
  refine ⟨?_, by decide +kernel⟩
  have hx : ((parse sample.toList).toOption.map cleanB) = some true := by decide +kernel
  cases h : parse sample.toList with
  | error e => rw [h] at hx; cases hx
  | ok ast =>
    rw [h] at hx
    simp [Except.toOption] at hx
    exact ⟨ast, rfl, cleanB_sound hx⟩

end Syn
end Alda
