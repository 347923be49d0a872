import Verif.Lemmas.LispNotes
/-!
C66: notes and rests that are written as lisp expressions.
-/
namespace Alda
open Spec

theorem lispUpdate_note {es : List LispForm} {l : Leaf} (h : NoteForm (.list es) l) (hl : Large (.list es)) : ∃ u, lispUpdate es = .ok (some u) ∧ StandsLeaf u l := by
  obtain ⟨u, h1, h2⟩ := note_eval h hl
  exact ⟨u, by simp only [lispUpdate, h1], h2⟩

/-- C66: a note or rest that is written as a lisp expression does the same as the one in Alda's own notation, in every score: the same notes, the same
error if there is one, and the same score afterwards; only the duration for notes without one may be written differently, but lasts equally long.
Missing: numbers between 0 and 1 (`c66_fraction_witness`). -/
theorem c66_same_partial {es : List LispForm} {l : Leaf} (h : NoteForm (.list es) l) (hl : Large (.list es)) (s : Score) :
    (update [.lisp es] s).err = (update [.leaf l] s).err ∧ SoundsAlike (update [.leaf l] s).s (update [.lisp es] s).s := by
  obtain ⟨u, h1, h2⟩ := lispUpdate_note h hl
  have e : update [.lisp es] s = update [.leaf u] s := by simp only [update, updListWith, updWith, h1]
  rw [e]
  simp only [update, updListWith, updWith]
  exact Alike.andThen (stands_alike h2 s) (fun s s' hs _ _ => ⟨rfl, hs⟩)

/-- C66: without a duration, the two do exactly the same. -/
theorem c66_untimed {f : LispForm} {p : Pitch} (h : PitchForm f p) (s : Score) :
    update [.lisp [.sym "note", f]] s = update [.leaf (.note p [] false)] s ∧
    update [.lisp [.sym "slur", call "note" [f]]] s = update [.leaf (.note p [] true)] s ∧
    update [.lisp [.sym "pause"]] s = update [.leaf (.rest [])] s := by
  have h1 : (call "note" [f]).eval = .ok (.update (.note p [] false)) := by
    rw [eval_call (n := "note") (List.mem_of_getElem? (i := 6) rfl) (evalArgs_one (pitch_eval h))]
    simp [operate, argumentsMatchSignature, fixedArgsMatch, typeOk, LispForm.hasType]
  have h2 : (call "slur" [call "note" [f]]).eval = .ok (.update (.note p [] true)) := by
    rw [eval_call (n := "slur") (List.mem_of_getElem? (i := 8) rfl) (evalArgs_one h1)]
    simp [operate, argumentsMatchSignature, fixedArgsMatch, typeOk, LispForm.hasType]
  have h3 : (call "pause" []).eval = .ok (.update (.rest [])) := by
    rw [eval_call (n := "pause") (List.mem_of_getElem? (i := 7) rfl) (args := []) (vs := []) rfl]
    simp [operate, argumentsMatchSignature]
  simp only [call] at h1 h2 h3
  simp only [update, updListWith, updWith, lispUpdate, call, h1, h2, h3, and_self]

/-- C66 is false of numbers below one: `c0.5` lasts two whole notes, but `(note-length 0.5)` is refused. -/
theorem c66_fraction_witness : NoteForm (call "note" [call "pitch" [.quoted (.list [.sym "c"])], call "note-length" [.num (1 / 2)]]) (.note (.letter .C none) [.length (1 / 2) 0] false) ∧
    (∀ s, (update [.lisp [.sym "note", call "pitch" [.quoted (.list [.sym "c"])], call "note-length" [.num (1 / 2)]]] s).err ≠ none) ∧
    (update [.partDecl ["piano"] "", .leaf (.note (.letter .C none) [.length (1 / 2) 0] false)] newScore).err = none := by
  refine ⟨.timed _ _ _ _ (.plain .C) (.number _ (by decide +kernel)), fun s => ?_, by decide +kernel⟩
  have h1 : (call "note-length" [.num (1 / 2)]).eval = .error (.user "expected positive number") := by
    rw [eval_call (n := "note-length") (List.mem_of_getElem? (i := 2) rfl) (evalArgs_num _)]
    have : positiveNumber (.num (1 / 2)) = .error (.user "expected positive number") := by rw [positiveNumber, if_pos (by decide +kernel)]
    simp [operate, argumentsMatchSignature, fixedArgsMatch, typeOk, LispForm.hasType, this, Except.map]
  have h0 := pitch_eval (.plain .C)
  have h2 : lispUpdate [.sym "note", call "pitch" [.quoted (.list [.sym "c"])], call "note-length" [.num (1 / 2)]] = .error (.user "expected positive number") := by
    have hn : lookupFn "note" ≠ none := by
      rw [lookupFn_plain (n := "note") (List.mem_of_getElem? (i := 6) rfl)]; simp
    simp only [lispUpdate, LispForm.eval, evalSym]
    rw [if_neg (by decide)]
    cases hq : lookupFn "note" with
    | none => exact absurd hq hn
    | some sigs =>
      simp only [LispForm.evalArgs]
      rw [show letterName .C = "c" from rfl] at h0
      simp only [h0, h1]
  simp only [update, updListWith, updWith, h2, Out.andThen, Out.fail]
  simp

/-- The hypotheses are met: `(slur (note (pitch '(f sharp)) (duration (note-length "4.") (ms 200))))` is `f+4.~200ms~`. -/
example : let es := [LispForm.sym "slur", call "note" [call "pitch" [.quoted (.list [.sym "f", .sym "sharp"])],
      call "duration" [call "note-length" [.str "4."], call "ms" [.num 200]]]]
    NoteForm (.list es) (.note (.letter .F (some [.sharp])) [.length 4 1, .ms 200] true) ∧ Large (.list es) := by
  refine ⟨.slur _ _ _ _ (.timed _ _ _ _ (.altered .F [.sharp] (by simp)) (.tied _ _ (by simp) (.cons _ _ _ _ (.text "4." 4 1 ?_) (.cons _ _ _ _ (.ms 200 (by decide +kernel)) .nil)))), ?_⟩
  · have := NoteLengthText.whole ['4'] 1 (by simp) (by intro c hc; simp at hc; subst hc; decide)
    have e : ((decimal ['4'] : Nat) : Rat) = 4 := by decide +kernel
    rw [e] at this
    exact this
  · simp only [Large, LargeL, call, true_and, and_true]
    exact .inl (by decide +kernel)

end Alda
