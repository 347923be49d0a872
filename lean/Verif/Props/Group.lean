import Verif.Lemmas.TrackLine
import Verif.Lemmas.Demo
/-!
C24: the instruments of a group play independently.
-/
namespace Alda
open Spec

/-- Everything but numbered endings. -/
def groupMode : Mode := ⟨false, true, true⟩

/-- The same score with only one of the active parts active. -/
def onlyActive (s : Score) (id : Nat) : Score := { s with current := [id] }

theorem Good.onlyActive {L : Leaf → Prop} {s : Score} (g : Good L False s) {id : Nat} (hid : id ∈ s.current) : Good L False (onlyActive s id) := by
  have sub : ∀ i ∈ [id], i ∈ s.current := by intro i hi; simp only [List.mem_singleton] at hi; rw [hi]; exact hid
  obtain ⟨w, v, o, _⟩ := g
  refine ⟨?_, v, ?_, fun h => h.elim⟩
  · exact ⟨w.org_lt, w.org_org, w.org_instr, w.vo_lt, w.vo_share, w.vo_mem, w.tmpl, fun i hi => w.cur_lt i (sub i hi), w.parts_lt, w.parts_nodup,
      by show ([id].map _).Nodup; simp, w.alias_parts, w.alias_nodup, fun i hi => w.cur_parts i (sub i hi)⟩
  · exact ⟨fun i hi => o.keys i (sub i hi), fun i hi => o.addrs i (sub i hi), fun i hi => o.same i (sub i hi), fun i hi => o.tmpl i (sub i hi)⟩

mutual
theorem Tame.noDecl {mo : Mode} {vf : Bool} : ∀ e, Tame mo vf e → NoDecl e
  | .leaf _, _ | .lisp _, _ | .lispNil, _ | .barline, _ | .marker _, _ | .atMarker _, _ | .voice _, _ | .voiceEnd, _ | .varRef _, _ => trivial
  | .chord es, h => TameL.noDecl es h
  | .cram es _, h => TameL.noDecl es h
  | .seq es, h => TameL.noDecl es h
  | .rep e _, h => Tame.noDecl e h
  | .onReps _ e, h => Tame.noDecl e h.2
  | .varDef _ es, h => TameL.noDecl es h.2
  | .partDecl _ _, h => h
theorem TameL.noDecl {mo : Mode} {vf : Bool} : ∀ es, TameL mo vf es → NoDeclL es
  | [], _ => trivial
  | e :: es, h => ⟨Tame.noDecl e h.1, TameL.noDecl es h.2⟩
end

/-- The active instruments stay the same without declarations. -/
theorem update_origins {es : List Upd} {s : Score} (g : G s) (hd : NoDeclL es) : ∀ (i id id' : Nat), s.current[i]? = some id →
    (update es s).s.current[i]? = some id' → ((update es s).s.heap id').origin = (s.heap id).origin := by
  have st := update_steps (L := fun _ => True) (D := False) es s (allLeavesL_true es) (Or.inr hd) g
  have : WF (update es s).s ∧ origins (update es s).s (update es s).s.current = origins s s.current := by
    refine Steps.invariant (I := fun u => WF u ∧ origins u u.current = origins s s.current) ?_ st ⟨g.wf, rfl⟩
    intro u v huv ⟨w, ho⟩
    exact ⟨huv.wf w, (huv.current_origins (fun h => h) w).trans ho⟩
  intro i id id' h1 h2
  have h := congrArg (fun l => l[i]?) this.2
  simp only [origins, List.getElem?_map, h1, h2, Option.map_some, Option.some.injEq] at h
  exact h

/-- C24: whatever several active instruments play together (notes, rests, chords, crams, repeats, variables, voices, attribute changes, also global
ones, markers), each of them ends up with the notes and attributes it would have had if it had been the only active instrument. -/
theorem c24_independent {s : Score} (hr : Reachable s) (es : List Upd) (ht : TameL groupMode true es)
    (hv : ∀ n vs, s.vars n = some vs → TameL groupMode true vs) {i id : Nat} (hid : s.current[i]? = some id)
    (h : (update es s).err = none) (h1 : (update es (onlyActive s id)).err = none) :
    ∃ id' solo, (update es s).s.current[i]? = some id' ∧ (update es (onlyActive s id)).s.current = [solo] ∧
      attributesAt (update es s).s id' = attributesAt (update es (onlyActive s id)).s solo ∧
      sounds (update es s).s (s.heap id).origin = sounds (update es (onlyActive s id)).s (s.heap id).origin := by
  have hmem := List.mem_of_getElem? hid
  have g : G s := hr.good.weaken _
  have r1 := update_ran (mo := groupMode) true es s ht ⟨g, fun _ => hv, by simp [groupMode]⟩ h
  have r2 := update_ran (mo := groupMode) true es (onlyActive s id) ht ⟨g.onlyActive hmem, fun _ => hv, by simp [groupMode]⟩ h1
  obtain ⟨id', hid', e1⟩ := r1.track i id hid
  obtain ⟨solo, hsolo, e2⟩ := r2.track 0 id rfl
  have hcur : (update es (onlyActive s id)).s.current = [solo] := by
    have := r2.len
    match hx : (update es (onlyActive s id)).s.current with
    | [] => rw [hx] at this; simp [onlyActive] at this
    | [x] => rw [hx] at hsolo; simp at hsolo; rw [hsolo]
    | _ :: _ :: _ => rw [hx] at this; simp [onlyActive] at this
  have e : trackOf (update es s).s id' = trackOf (update es (onlyActive s id)).s solo := by
    have : trackOf (onlyActive s id) id = trackOf s id := rfl
    rw [this, e1, Option.some.injEq] at e2; exact e2
  refine ⟨id', solo, hid', hcur, ?_, ?_⟩
  · have := congrArg (fun t => attributes t.cell) e; exact this
  · have hs := congrArg Track.sounds e
    rw [sounds_trackOf, sounds_trackOf] at hs
    have nd : NoDeclL es := TameL.noDecl es ht
    rw [update_origins g nd i id id' hid hid', update_origins (g.onlyActive hmem) nd 0 id solo rfl hsolo] at hs
    exact hs

/-- A program with voices, a cram, a repeated sequence, a variable and a chord. -/
def demoGroup : List Upd :=
  [.varDef "x" [.leaf (.note (.letter .G none) [.length 8 0] false)], .leaf (.attr (.octave 5)), .voice 1, .varRef "x", .varRef "x", .voice 2, .leaf (.note (.letter .C none) [.length 2 0] true),
   .voiceEnd, .cram [.leaf (.note (.letter .C none) [] false), .leaf (.note (.letter .D none) [] false), .leaf (.note (.letter .E none) [] false)] [.length 4 0],
   .rep (.seq [.chord [.leaf (.note (.letter .C none) [.length 4 0] false), .leaf (.note (.letter .E none) [] false)], .leaf (.attr .octaveDown)]) 2]

/-- The hypotheses of C24 hold for it and three active instruments that are at different positions and have different attributes. -/
example : ∃ s, Reachable s ∧ s.current = [0, 1, 2] ∧ (s.heap 0).offset ≠ (s.heap 1).offset ∧ TameL groupMode true demoGroup ∧
    (∀ n vs, s.vars n = some vs → TameL groupMode true vs) ∧ (update demoGroup s).err = none ∧ (update demoGroup (onlyActive s 1)).err = none ∧
    (update demoGroup s).s.current.length = 3 ∧ (sounds (update demoGroup s).s 1).length = 10 := by
  refine ⟨(update [.partDecl ["piano"] "", .leaf (.note (.letter .C none) [.length 1 0] false), .partDecl ["violin"] "", .leaf (.attr (.volume (1/2))),
    .partDecl ["piano", "violin", "cello"] ""] newScore).s, ⟨_, rfl⟩, by decide +kernel, by decide +kernel, ?_, ?_, by decide +kernel, by decide +kernel,
    by decide +kernel, by decide +kernel⟩
  · simp [demoGroup, TameL, Tame, groupMode]
  · intro n vs h
    have : (update [.partDecl ["piano"] "", .leaf (.note (.letter .C none) [.length 1 0] false), .partDecl ["violin"] "", .leaf (.attr (.volume (1/2))),
      .partDecl ["piano", "violin", "cello"] ""] newScore).s.vars n = none := by with_unfolding_all rfl
    rw [this] at h; simp at h

end Alda
