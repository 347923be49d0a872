import Verif.Props.MusicXml
import Verif.Props.Print
/-!
C50, for the text: what `alda import` prints plays the music of the file.
-/
namespace Alda
namespace Importer
open Spec Syn

/-- C50: for a file of the class of `c50_import_partial`, the Alda code that is made of the imported score (whatever the width and the indentation) can be read, plays without an error, and what is
heard is exactly the notes of the file.

The lengths of the imported notes have to be finite decimals: the code prints and reads `float64`s, the model has rational numbers. -/
theorem c50_text_partial (o : Orders) (fair : o.Fair) (order : MapOrder) (ho : AnyOrder order) (roots : List Elem) (root : Elem)
    (hroot : roots.find? (fun e => e.tag = "score-partwise") = some root) (players : List XmlPlayer) (h : ScoreOf root players) (few : players.length ≤ 15) (hp : ∀ p ∈ players, p.Playable)
    (hf : ∀ us, importMusicXML o roots = .ok us → ∀ u ∈ us, FiniteLengths u) (width : Int) (indent : List Char) (hi : ∀ c ∈ indent, c ∈ [' ', '\t', '\r', '\n']) :
    ∃ us ast out ast' back t, importMusicXML o roots = .ok us ∧ generate order us = .ok ast ∧ format width indent ast = .ok out ∧ parse out = .ok ast' ∧ updatesOf ast' = .ok back ∧
      update back newScore = .ok t ∧ (t.events.map (heardAs t)).Perm (players.flatMap XmlPlayer.music) := by
  obtain ⟨us, vs, t, h1, h2, h3, h4⟩ := import_plays true o fair hroot h few hp
  obtain ⟨b1, b2⟩ := h2.2 rfl
  obtain ⟨m', out, ast', back, g1, g2, g3, g4, g5⟩ := c48 order ho vs (b2 (hf us h1) [] (by simp [PrintableL])) width indent hi
  obtain ⟨m, e1, e2⟩ := b1.text order g1
  exact ⟨us, m, out, ast', back, t, h1, e1, by rw [e2]; exact g2, g3, g4, by rw [g5]; exact h3, h4⟩

/-- The lengths are whole numbers. -/
def wholeLeaf : Leaf → Bool
  | .note _ d _ | .rest d => d.all (fun c => match c with
    | .length q _ => q.den == 1
    | _ => true)
  | _ => true

/-- The same for notes, rests and chords. -/
def wholeLengths : Upd → Bool
  | .leaf l => wholeLeaf l
  | .chord es => es.all (fun e => match e with
    | .leaf l => wholeLeaf l
    | _ => true)
  | _ => true

theorem rat_whole {q : Rat} (h : q.den = 1) : (q.num : Rat) = q := by
  apply Rat.ext
  · rw [Rat.num_intCast]
  · rw [Rat.den_intCast, h]

theorem wholeLeaf_finite {l : Leaf} (h : wholeLeaf l = true) : FiniteLeaf l := by
  have key : ∀ (d : Dur), d.all (fun c => match c with
      | .length q _ => q.den == 1
      | _ => true) = true → ∀ (q : Rat) (k : Nat), DurComp.length q k ∈ d → FiniteDecimal q := by
    intro d hd q k hm
    have := List.all_eq_true.1 hd _ hm
    simp only [beq_iff_eq] at this
    exact ⟨0, q.num, by rw [show (10 : Rat) ^ 0 = 1 from rfl, Rat.one_mul]; exact (rat_whole this).symm⟩
  cases l with
  | note p d sl => exact key d h
  | rest d => exact key d h
  | attr u => trivial
  | globalAttr u => trivial

theorem wholeLengths_finite {u : Upd} (h : wholeLengths u = true) : FiniteLengths u := by
  cases u with
  | leaf l => exact wholeLeaf_finite h
  | chord es =>
    intro l hl
    exact wholeLeaf_finite (List.all_eq_true.1 h _ hl)
  | _ => trivial

theorem duet_finite : ∀ us, importMusicXML ord [duet] = .ok us → ∀ u ∈ us, FiniteLengths u := by
  have hx : (match importMusicXML ord [duet] with
    | .ok us => us.all wholeLengths
    | .error _ => false) = true := by decide +kernel
  intro us hus u hu
  rw [hus] at hx
  exact wholeLengths_finite (List.all_eq_true.1 hx u hu)

/-- The duet meets the hypotheses of the theorem. -/
example : ∃ us ast out ast' back t, importMusicXML ord [duet] = .ok us ∧ generate alphabetical us = .ok ast ∧ format 80 [' ', ' '] ast = .ok out ∧ parse out = .ok ast' ∧ updatesOf ast' = .ok back ∧
    update back newScore = .ok t ∧ (t.events.map (heardAs t)).Perm ([duetFlute, duetPiano].flatMap XmlPlayer.music) :=
  c50_text_partial ord ord_fair alphabetical alphabetical_order [duet] duet rfl _ duet_is_score (by decide) duet_playable duet_finite 80 [' ', ' '] (by decide)

/-- What is printed for it. -/
example : (match importMusicXML ord [duet] with
    | .ok us => (match generate alphabetical us with
      | .ok ast => (format 80 [' ', ' '] ast).toOption
      | .error _ => none)
    | .error _ => none) = some ("piano:\n  (transpose -2)\n  V1:\n    (p) > c1 / e | r1\n  V2:\n    r2 < b | > c1\n\n" ++
      "midi-flute:\n  (key-signature \"f+\") o5 f_2 g4 r | f1\n").toList := by decide +kernel

end Importer
end Alda
