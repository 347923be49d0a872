import Verif.Lemmas.Endings
import Verif.Lemmas.Demo
import Verif.Spec.Music
/-!
C13: repeats. C14: numbered endings.
-/
namespace Alda
open Spec

/-- C13: a repeat gives the same error, or the same score up to the number of the repetition (which only matters to numbered endings), as writing the
event `n` times; also with any further events without numbered endings behind it. (For `n` = 2^31-1 the Go loop does not end.) -/
theorem c13_repeat (s : Score) (hs : VarsNoEndings s) (e : Upd) (he : NoEndings e) (n : Int) (rest : List Upd) (hr : NoEndingsL rest) :
    (update (.rep e n :: rest) s).err = (update (List.replicate n.toNat e ++ rest) s).err ∧
    ∃ f, (update (.rep e n :: rest) s).s = withRepetitions (update (List.replicate n.toNat e ++ rest) s).s f := by
  have h : RepSim (update (List.replicate n.toNat e ++ rest) s) (update (.rep e n :: rest) s) := by
    unfold update
    rw [updListWith_append]
    simp only [updListWith, updWith]
    refine RepSim.andThen ?_ (upd_blindL deref_blind rest hr)
    have := rep_unrolled deref_blind e he n.toNat 1 s (fun i => (s.heap i).repetition) hs
    exact this
  exact ⟨h.err, h.same⟩

/-- C13: in particular the same notes are played, and every part has the same attributes afterwards. -/
theorem c13_same_music (s : Score) (hs : VarsNoEndings s) (e : Upd) (he : NoEndings e) (n : Int) :
    (update [.rep e n] s).s.events = (update (List.replicate n.toNat e) s).s.events ∧
    ∀ id, attributesAt (update [.rep e n] s).s id = attributesAt (update (List.replicate n.toNat e) s).s id := by
  obtain ⟨_, f, h⟩ := c13_repeat s hs e he n [] (by simp only [NoEndingsL])
  rw [List.append_nil] at h
  rw [h]
  exact ⟨rfl, fun _ => rfl⟩

/-- C13: a count of zero (or less) plays nothing at all, even with numbered endings. -/
theorem c13_zero (s : Score) (e : Upd) (n : Int) (hn : n ≤ 0) : update [.rep e n] s = .ok s := by
  simp only [update, updListWith, updWith]
  rw [Int.toNat_of_nonpos hn]
  rfl

/-- `[c {e f}2 g/a var]*3` after a part declaration and a definition of `var`. -/
def demoRepeat : Upd :=
  .seq [.leaf (.note (.letter .C none) [] false), .cram [.leaf (.note (.letter .E none) [] false), .leaf (.note (.letter .F none) [] false)] [.length 2 0],
    .chord [.leaf (.note (.letter .G none) [] false), .leaf (.note (.letter .A none) [] false)], .varRef "var"]

def demoRepeatStart : Score :=
  (update [.varDef "var" [.rep (.leaf (.note (.letter .B none) [] false)) 2], .partDecl ["piano", "violin"] ""] newScore).s

/-- The hypotheses of C13 hold for it, and it plays forty-two notes. -/
example : VarsNoEndings demoRepeatStart ∧ NoEndings demoRepeat ∧ (update [.rep demoRepeat 3] demoRepeatStart).err = none ∧
    (update [.rep demoRepeat 3] demoRepeatStart).s.events.length = 42 := by
  refine ⟨?_, by simp [demoRepeat, NoEndings, NoEndingsL], by decide +kernel, by decide +kernel⟩
  intro n es h
  by_cases hn : n = "var"
  · subst hn
    have : demoRepeatStart.vars "var" = some [.rep (.leaf (.note (.letter .B none) [] false)) 2] := by with_unfolding_all rfl
    rw [this] at h
    cases h
    simp [NoEndingsL, NoEndings]
  · have : demoRepeatStart.vars n = if n = "var" then some [.rep (.leaf (.note (.letter .B none) [] false)) 2] else none := by with_unfolding_all rfl
    rw [this, if_neg hn] at h
    cases h

/-- C14, for one active part and without repeats or voices inside: the repeat gives the same score, up to the number of the repetition, as writing all repetitions
one after the other, leaving out in each the endings of which no range contains its number, and writing the others once.
Missing: several active parts, see `c14_two_parts_witness`; repeats inside, see `c14_inner_repeat_witness`; voices. -/
theorem c14_endings_partial (s : Score) (hs : VarsNoEndings s) (hv : VarsSteady s) (hc : s.current.length = 1) (e : Upd) (he : Endings e) (hst : Steady e) (n : Int)
    (rest : List Upd) (hr : NoEndingsL rest) :
    (update (.rep e n :: rest) s).err = (update (unroll e n.toNat 1 ++ rest) s).err ∧
    ∃ f, (update (.rep e n :: rest) s).s = withRepetitions (update (unroll e n.toNat 1 ++ rest) s).s f := by
  have h : RepSim (update (unroll e n.toNat 1 ++ rest) s) (update (.rep e n :: rest) s) := by
    unfold update
    rw [updListWith_append]
    simp only [updListWith, updWith]
    refine RepSim.andThen ?_ (upd_blindL deref_blind rest hr)
    have := rep_resolved deref_blind deref_keeps e he hst n.toNat 1 s (fun i => (s.heap i).repetition) hs hv hc
    exact this
  exact ⟨h.err, h.same⟩

/-- C14: whatever the number of active parts, nothing happens if none of them is on one of the listed repetitions. -/
theorem c14_not_listed (s : Score) (ranges : List (Int × Int)) (e : Upd) (h : ∀ id ∈ s.current, ¬ InRanges ranges (s.heap id).repetition) :
    update [.onReps ranges e] s = .ok s := by
  have h1 : ∀ l, forIds (onRepsAt ranges (updWith derefUpd e)) l s = .ok s := by
    intro l
    induction l with
    | nil => rfl
    | cons i l ih =>
      have : onRepsAt ranges (updWith derefUpd e) i s = .ok s := by
        unfold onRepsAt
        cases hi : s.current[i]? with
        | none => rfl
        | some id =>
          have hn : ¬ appliesTo ranges (s.heap id).repetition = true := by
            have := h id (List.mem_of_getElem? hi)
            simpa [appliesTo, InRanges] using this
          simp only [if_neg hn]
      simp only [forIds, this]
      exact ih
  simp only [update, updListWith, updWith, h1]
  rfl

/-- `[c [d {e f'2}2]'1-2,4 g'3]*4` -/
def demoEndings : Upd :=
  .seq [.leaf (.note (.letter .C none) [] false),
    .onReps [(1, 2), (4, 4)] (.seq [.leaf (.note (.letter .D none) [] false),
      .cram [.leaf (.note (.letter .E none) [] false), .onReps [(2, 2)] (.leaf (.note (.letter .F none) [] false))] [.length 2 0]]),
    .onReps [(3, 3)] (.leaf (.note (.letter .G none) [] false))]

/-- The hypotheses of C14 hold for it; the notes are c d e c d e f c g c d e. -/
example :
    let s := (update [.partDecl ["piano"] ""] newScore).s
    VarsNoEndings s ∧ VarsSteady s ∧ s.current.length = 1 ∧ Endings demoEndings ∧ Steady demoEndings ∧
    (update [.rep demoEndings 4] s).err = none ∧ (update [.rep demoEndings 4] s).s.events.map (·.note) = [60, 62, 64, 60, 62, 64, 65, 60, 67, 60, 62, 64] := by
  refine ⟨?_, ?_, by decide +kernel, by simp [demoEndings, Endings, EndingsL], by simp [demoEndings, Steady, SteadyL], by decide +kernel, by decide +kernel⟩ <;>
  · intro n es h
    have : (update [.partDecl ["piano"] ""] newScore).s.vars n = none := by with_unfolding_all rfl
    rw [this] at h
    cases h

/-- The full claim is false: with two active parts, `[c'1]*1` plays the note twice on each of them, because the event is played for all parts once for each part. -/
theorem c14_two_parts_witness :
    let s := (update [.partDecl ["piano", "violin"] ""] newScore).s
    (update [.rep (.seq [.onReps [(1, 1)] (.leaf (.note (.letter .C none) [] false))]) 1] s).s.events.map (fun e => (e.part, e.offset)) =
      [(0, 0), (1, 0), (0, 500), (1, 500)] := by decide +kernel

/-- And a repeat inside changes the number of the outer repetition: in `[c*2 d'1]*3` the `d` is never played. -/
theorem c14_inner_repeat_witness :
    let s := (update [.partDecl ["piano"] ""] newScore).s
    let c : Upd := .leaf (.note (.letter .C none) [] false)
    let d : Upd := .leaf (.note (.letter .D none) [] false)
    (update [.rep (.seq [.rep c 2, .onReps [(1, 1)] d]) 3] s).s.events.map (·.note) = [60, 60, 60, 60, 60, 60] := by decide +kernel

end Alda
