import Verif.Lemmas.PrintTree
import Verif.Props.Gen
/-!
C48: score updates written as text, as `alda import` does, and the text parsed again.
-/
namespace Alda
namespace Syn
open Spec

/-- C48. For every score that can be written: the AST exists, formatting it succeeds for every width and every indentation made of blanks, the text parses,
the AST can be converted to updates, and these have the same effect as the original ones, errors included, on every score. Transpositions are
included: in the AST they have a literal of the wrong type (`c31_transposition_witness`), in the text they have not. -/
theorem c48 (order : MapOrder) (ho : AnyOrder order) (us : List Upd) (h : PrintableScore us) (width : Int) (indent : List Char)
    (hi : ∀ c ∈ indent, c ∈ [' ', '\t', '\r', '\n']) :
    ∃ ast out ast' back, generate order us = .ok ast ∧ format width indent ast = .ok out ∧ parse out = .ok ast' ∧ updatesOf ast' = .ok back ∧
      ∀ s, update back s = update us s := by
  obtain ⟨ps, h1, h2⟩ := generate_tree order h
  obtain ⟨ast, h3, h4⟩ := generate_fmtEq order us h1
  obtain ⟨out, h5, h6⟩ := format_parse h2 width (indent := indent) (fun c hc => by
    have := hi c hc
    simp only [List.mem_cons, List.not_mem_nil, or_false] at this
    rcases this with rfl | rfl | rfl | rfl <;> decide)
  obtain ⟨ast', back, h7, h8, h9⟩ := c31_partial order ho (plainL us) (expressibleScore_of h)
  rw [h1] at h7
  cases h7
  exact ⟨ast, out, _, back, h3, by rw [h4]; exact h5, h6, h8, fun s => by rw [h9, update_plain]⟩

/-- The text does not depend on whether the updates were read back in between: writing what was read gives the same text. -/
theorem c48_stable (order : MapOrder) (us : List Upd) (h : PrintableScore us) (width : Int) (indent : List Char)
    (hi : ∀ c ∈ indent, c ∈ [' ', '\t', '\r', '\n']) :
    ∃ ast out ast', generate order us = .ok ast ∧ format width indent ast = .ok out ∧ parse out = .ok ast' ∧ format width indent ast' = .ok out := by
  obtain ⟨ps, h1, h2⟩ := generate_tree order h
  obtain ⟨ast, h3, h4⟩ := generate_fmtEq order us h1
  obtain ⟨out, h5, h6⟩ := format_parse h2 width (indent := indent) (fun c hc => by
    have := hi c hc
    simp only [List.mem_cons, List.not_mem_nil, or_false] at this
    rcases this with rfl | rfl | rfl | rfl <;> decide)
  exact ⟨ast, out, _, h3, by rw [h4]; exact h5, h6, h5⟩

/-! ### A concrete case -/

/-- A score for two clarinets with a key signature, a transposition, dynamics, voices, a tie over a barline, a chord and a repeat with endings. -/
def printedExample : List Upd :=
  [.partDecl ["clarinet", "violin"] "duo",
   .leaf (.attr (.keySignature (keySigFromFifths (-3)))), .leaf (.attr (.transposition (-2))),
   .voice 1, .leaf (.attr (.dynamic "mf")), .leaf (.attr (.octave 5)),
   .leaf (.note (.letter .C (some [.sharp])) [.length 4 1, .barline, .length (5/2) 0] true),
   .chord [.leaf (.note (.letter .C none) [] false), .leaf (.attr .octaveUp), .leaf (.note (.letter .E (some [.natural])) [] false)],
   .barline,
   .voice 2, .rep (.seq [.leaf (.rest [.ms 500]), .onReps [(1, 1), (3, 4)] (.seq [.leaf (.rest [])])]) 4, .voiceEnd,
   .lisp [.sym "tempo!", .num 120],
   .partDecl ["flute"] "",
   .cram [.leaf (.rest [])] [.seconds 2]]

theorem finiteDecimal_int (n : Int) : FiniteDecimal n := ⟨0, n, by simp⟩

theorem nameText_of {s : String} {a b : Char} {cs : List Char} (h : s.toList = a :: b :: cs) (ha : a ∈ letters) (hb : b ∈ letters)
    (hc : ∀ c ∈ cs, c ∈ letters) : NameText s := ⟨a, b, cs, h, ha, hb, fun c hm => .inl (hc c hm)⟩

theorem printedExample_printable : PrintableScore printedExample := by
  have h25 : FiniteDecimal (5/2) := ⟨1, 25, by decide +kernel⟩
  have h4 : FiniteDecimal 4 := finiteDecimal_int 4
  have h500 : FiniteDecimal 500 := finiteDecimal_int 500
  have h120 : FiniteDecimal 120 := finiteDecimal_int 120
  have h2 : FiniteDecimal 2 := finiteDecimal_int 2
  have hs : SymbolText "tempo!" := ⟨_, _, rfl, by decide, by decide, by decide⟩
  refine .part [] _ _ _ trivial (by decide) ?_ ?_ (.part (_ :: _ :: _ :: _ :: _ :: _ :: _ :: _ :: _ :: _ :: _ :: [_]) _ _ _ ?_ (by decide) ?_ ?_ (.events _ ?_))
  · intro n hn
    simp only [List.mem_cons, List.not_mem_nil, or_false] at hn
    rcases hn with rfl | rfl <;> exact nameText_of rfl (by decide) (by decide) (by decide)
  · intro c hc
    left
    revert c
    decide
  · simp [PrintableL, Printable, PrintableAll, PrintableLeaf, PrintableDur, PrintableComp, PrintableForms, PrintableForm, c31_fifths, markings, Counting, ForRepetitions,
      LengthLast, LengthLastL, BarlineFirst, PrintedInChord, PrintedSounding, Repeatable, h25, h4, h500, h120, hs]
    decide +kernel
  · intro n hn
    simp only [List.mem_cons, List.not_mem_nil, or_false] at hn
    rcases hn with rfl
    exact nameText_of rfl (by decide) (by decide) (by decide)
  · simp
  · simp [PrintableL, Printable, PrintableLeaf, PrintableDur, PrintableComp, h2, ForRepetitions, LengthLast]
    decide +kernel

/-- The text of updates, with the default width and indentation. -/
def printed (us : List Upd) : String :=
  match generate alphabetical us with
  | .ok ast => match format 80 [' ', ' '] ast with
    | .ok out => String.ofList out
    | .error _ => ""
  | .error _ => ""

example : printed printedExample =
    "clarinet/violin \"duo\":\n  (key-signature \"a- b- e-\") (transpose -2)\n  V1:\n    (mf) o5 c+4. | ~2.5~ c / > e_ |\n  V2:\n    [\n      r500ms\n      [\n        r\n      ] '1,3-4\n    ] *4\n  V0: (tempo! 120)\n\nflute:\n  { r }2s\n" := by
  decide +kernel

example : ∃ ast out ast' back, generate alphabetical printedExample = .ok ast ∧ format 80 [' ', ' '] ast = .ok out ∧ parse out = .ok ast' ∧
    updatesOf ast' = .ok back ∧ ∀ s, update back s = update printedExample s :=
  c48 alphabetical alphabetical_order printedExample printedExample_printable 80 _ (by simp)

/-- Its effect is not trivial: each of the two instruments gets the tied note and the two notes of the chord. -/
example : (update printedExample newScore).err = none ∧ (update printedExample newScore).s.events.length = 6 := by decide +kernel

end Syn
end Alda
