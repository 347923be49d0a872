import Verif.Lemmas.Gen
import Verif.Props.Parse
/-!
C31: turning score updates into an AST and back into updates.

The full statement, "gives the original updates", is false: dynamic markings and key signatures come back as lisp expressions, and a transposition makes
the conversion panic (`c31_transposition_witness`). Proved: what comes back has the same effect on every score (`c31_partial`), and is literally the same where
there are no such attributes (`c31_exact_partial`).
-/
namespace Alda
namespace Syn
open Spec

/-- C31 (part). The AST for a written score exists, and the updates it stands for have the same effect, errors included, on every score, whatever the
order in which the key signatures are listed. Missing: transpositions, for which the claim is false. -/
theorem c31_partial (order : MapOrder) (ho : AnyOrder order) (us : List Upd) (h : ExpressibleScore us) :
    ∃ ast back, generate order us = .ok ast ∧ updatesOf ast = .ok back ∧ ∀ s, update back s = update us s := by
  obtain ⟨n, h1, h2⟩ := generate_ok order h
  exact ⟨n, _, h1, h2, update_rewritten ho h⟩

/-- C31 (part). Without dynamic markings and key signatures the original updates come back. -/
theorem c31_exact_partial (order : MapOrder) (us : List Upd) (h : ExpressibleScore us) (hl : NoLispAttributesL us) :
    ∃ ast, generate order us = .ok ast ∧ updatesOf ast = .ok us := by
  obtain ⟨n, h1, h2⟩ := generate_ok order h
  rw [rewrittenL_literal order us hl] at h2
  exact ⟨n, h1, h2⟩

/-- The key signature of a written key is read back exactly, whatever the order of its letters in the text. -/
theorem c31_key (order : MapOrder) (ho : AnyOrder order) (ks : KeySig) (hk : ExpressibleKey ks) :
    keySigFromString (.str (keyString order ks)) = .ok ks := keySig_roundTrip ho hk

/-- Every key signature of the circle of fifths can be written. -/
theorem c31_fifths (n : Int) : ExpressibleKey (keySigFromFifths n) := by
  have key : ∀ (ls : List Letter) (a : Accidental), a ≠ .natural → ∀ k, ExpressibleKey (fifthsLoop ls a k) := by
    intro ls a ha k
    induction k with
    | zero => intro l as h; cases h
    | succ k ih =>
      intro l as h
      simp only [fifthsLoop, KeySig.set] at h
      by_cases hl : l = ls.getD (k % ls.length) .A
      · rw [if_pos hl] at h
        cases h
        refine ⟨by simp, ?_⟩
        intro hm
        rcases List.mem_append.1 hm with hm | hm
        · cases hr : fifthsLoop ls a k (ls.getD (k % ls.length) .A) with
          | none => simp only [KeySig.read, hr] at hm; cases hm
          | some as => simp only [KeySig.read, hr] at hm; exact (ih _ _ hr).2 hm
        · rw [List.mem_singleton] at hm; exact ha hm.symm
      · rw [if_neg hl] at h; exact ih l as h
  unfold keySigFromFifths
  by_cases h0 : n = 0
  · rw [if_pos h0]; intro l as h; cases h
  · rw [if_neg h0]
    by_cases h1 : n > 0
    · rw [if_pos h1]; exact key _ _ (by decide) _
    · rw [if_neg h1]; exact key _ _ (by decide) _

/-- The letters of a key signature in alphabetical order. -/
def alphabetical : MapOrder := fun ks => [Letter.A, .B, .C, .D, .E, .F, .G].filter fun l => (ks l).isSome

theorem alphabetical_order : AnyOrder alphabetical := by
  intro ks
  refine ⟨(by decide : [Letter.A, .B, .C, .D, .E, .F, .G].Nodup).sublist List.filter_sublist, ?_⟩
  intro l
  rw [alphabetical, List.mem_filter]
  cases ks l <;> cases l <;> simp

/-- A score as the importer builds it: key signature, dynamics, two voices, a chord, a slur, a tie over a barline, a repeat with endings. -/
def importedExample : List Upd :=
  [.partDecl ["piano", "violin"] "duo",
   .leaf (.attr (.keySignature (keySigFromFifths (-3)))),
   .voice 1, .leaf (.attr (.dynamic "mf")), .leaf (.attr (.octave 5)),
   .leaf (.note (.letter .C (some [.sharp])) [.length 4 1, .barline, .length 8 0] true),
   .chord [.leaf (.note (.letter .C none) [] false), .leaf (.attr .octaveUp), .leaf (.note (.letter .E (some [.natural])) [] false)],
   .barline,
   .voice 2, .rep (.seq [.leaf (.rest [.ms 500]), .onReps [(1, 1), (3, 4)] (.seq [.leaf (.rest [])])]) 4, .voiceEnd,
   .lisp [.sym "tempo!", .num 120],
   .partDecl ["flute"] "",
   .cram [.leaf (.rest [])] [.seconds 2]]

theorem importedExample_written : ExpressibleScore importedExample := by
  refine .part [] _ _ _ trivial (by decide) (.part (_ :: _ :: _ :: _ :: _ :: _ :: _ :: _ :: _ :: _ :: [_]) _ _ _ ?_ (by decide) (.events _ ?_))
  · simp [ExpressibleL, Expressible, ExpressibleLeaf, ExpressibleDur, ExpressibleForms, ExpressibleForm, c31_fifths, markings]
  · simp [ExpressibleL, Expressible, ExpressibleLeaf, ExpressibleDur]

example : ∃ ast back, generate alphabetical importedExample = .ok ast ∧ updatesOf ast = .ok back ∧
    ∀ s, update back s = update importedExample s :=
  c31_partial alphabetical alphabetical_order importedExample importedExample_written

/-- The three flats are written as "a- b- e-". -/
example : keyString alphabetical (keySigFromFifths (-3)) = "a- b- e-" := by decide +kernel

/-- The effect is not trivial: each of the two instruments gets the tied note and the two notes of the chord. -/
example : (update importedExample newScore).err = none ∧ (update importedExample newScore).s.events.length = 6 := by
  decide +kernel

/-- The negation of the full statement: an imported transposition gives an AST whose conversion panics, since the literal is an `int32` and not a `float64`. -/
theorem c31_transposition_witness (order : MapOrder) (n : Int) :
    ∃ ast, generate order [.partDecl ["clarinet"] "", .leaf (.attr (.transposition n))] = .ok ast ∧
      updatesOf ast = .error (.panic "type assertion") := ⟨_, rfl, rfl⟩

/-- The end of a voice group where none was started makes the generation panic. -/
theorem c31_voiceEnd_witness (order : MapOrder) : generate order [.voiceEnd] = .error (.panic "nil pointer dereference") := rfl

/-- The updates themselves are not always the same: a dynamic marking comes back as a lisp expression. -/
theorem c31_dynamic_witness (order : MapOrder) :
    ∃ ast, generate order [.leaf (.attr (.dynamic "mf"))] = .ok ast ∧ updatesOf ast = .ok [.lisp [.sym "mf"]] := ⟨_, rfl, rfl⟩

end Syn
end Alda
