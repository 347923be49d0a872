import Verif.Lemmas.TrackChord
import Verif.Props.Line
/-!
C11: chords.
-/
namespace Alda
open Spec

theorem members_tame (vf : Bool) : ∀ (es : List Upd), (∀ e ∈ es, ChordMember e) → TameL plainMode vf es := by
  intro es
  induction es with
  | nil => intro _; simp only [TameL]
  | cons e es ih =>
    intro h
    simp only [TameL]
    refine ⟨?_, ih (fun e he => h e (List.mem_cons_of_mem _ he))⟩
    have := h e (List.mem_cons_self ..)
    match e, this with
    | .leaf (.note _ _ _), _ | .leaf (.rest _), _ | .leaf (.attr _), _ | .barline, _ => simp [Tame]

/-- The track of an active part after tame events without voices. -/
theorem track_after {s : Score} (hr : Reachable s) (es : List Upd) (ht : TameL plainMode false es) (h : (update es s).err = none) {id : Nat}
    (hid : id ∈ s.current) : (update es s).s.current = s.current ∧ ((update es s).s.heap id).origin = (s.heap id).origin ∧
    Track.list es (trackOf s id) = some (trackOf (update es s).s id) := by
  have r := update_ran false es s ht hr.ready h
  have hcur := r.cur rfl
  obtain ⟨i, hi⟩ := List.getElem?_of_mem hid
  obtain ⟨id', hid', hg⟩ := r.track i id hi
  rw [hcur, hi, Option.some.injEq] at hid'
  subst hid'
  exact ⟨hcur, update_origin hr es (hr.wf.cur_lt id hid), hg⟩

/-- C11: every member of a chord is played from the position at which the chord was reached, with its own length, and afterwards the position has
advanced by the least length among the chord's notes and rests. The members may include barlines and changes of attributes that
have nothing to do with time (such as the octave), but the first one is a note or a rest, as the syntax requires. -/
theorem c11_chord {s : Score} (hr : Reachable s) (e : Upd) (es : List Upd) (he : Sounding e) (hm : ∀ x ∈ e :: es, ChordMember x)
    (h : (update [.chord (e :: es)] s).err = none) {id : Nat} (hid : id ∈ s.current) :
    (update [.chord (e :: es)] s).s.current = s.current ∧ (update [.chord (e :: es)] s).s.chordMode = false ∧
    ∃ (ps : List Play) (y : Rat), ps.length = (e :: es).length ∧ (∀ p ∈ ps, p.start = (s.heap id).offset) ∧
      sounds (update [.chord (e :: es)] s).s (s.heap id).origin = sounds s (s.heap id).origin ++ ps.flatMap (·.sounds) ∧
      (∀ (k : Nat) e' p, (e :: es)[k]? = some e' → ps[k]? = some p → PlayedAs e' p) ∧
      ((update [.chord (e :: es)] s).s.heap id).offset = (s.heap id).offset + y ∧
      (∀ (k : Nat) e' p, (e :: es)[k]? = some e' → ps[k]? = some p → Sounding e' → y ≤ p.length) ∧
      (∃ (k : Nat) (e' : Upd) (p : Play), (e :: es)[k]? = some e' ∧ ps[k]? = some p ∧ Sounding e' ∧ y = p.length) := by
  have ht : TameL plainMode false [.chord (e :: es)] := by
    simp only [TameL, Tame, and_true]; exact members_tame false _ hm
  obtain ⟨hcur, ho, hg⟩ := track_after hr _ ht h hid
  have hg' : Track.updWith (Track.listWith (fun _ _ => none)) (.chord (e :: es)) (trackOf s id) = some (trackOf (update [.chord (e :: es)] s).s id) := by
    simp only [Track.list, Track.listWith] at hg
    cases hx : Track.updWith (Track.listWith (fun _ _ => none)) (.chord (e :: es)) (trackOf s id) with
    | none => rw [hx] at hg; simp at hg
    | some u => rw [hx] at hg; simpa using hg
  obtain ⟨ps, y, h1, h2, h3, h4, h5, h6, h7, h8⟩ := chord_ok he hm hg'
  rw [sounds_trackOf, sounds_trackOf, ho] at h3
  exact ⟨hcur, h5, ps, y, h1, h2, h3, h4, h6, h7, h8⟩

/-- C11: in particular every note of the chord starts where the chord was reached. -/
theorem c11_start_together {s : Score} (hr : Reachable s) (e : Upd) (es : List Upd) (he : Sounding e) (hm : ∀ x ∈ e :: es, ChordMember x)
    (h : (update [.chord (e :: es)] s).err = none) {id : Nat} (hid : id ∈ s.current) :
    ∃ new, sounds (update [.chord (e :: es)] s).s (s.heap id).origin = sounds s (s.heap id).origin ++ new ∧
      ∀ x ∈ new, x.start = (s.heap id).offset := by
  obtain ⟨_, _, ps, _, h1, h2, h3, h4, _⟩ := c11_chord hr e es he hm h hid
  refine ⟨_, h3, ?_⟩
  intro x hx
  obtain ⟨p, hp, hxp⟩ := List.mem_flatMap.1 hx
  obtain ⟨k, hk⟩ := List.getElem?_of_mem hp
  have hlt : k < (e :: es).length := by rw [← h1]; exact (List.getElem?_eq_some_iff.1 hk).1
  have has := h4 k _ p (List.getElem?_eq_getElem hlt) hk
  have hm' := hm _ (List.getElem_mem hlt)
  have hst : ∀ y ∈ p.sounds, y.start = p.start := by
    revert has
    match (e :: es)[k], hm' with
    | .leaf (.note pi d sl), _ =>
      rintro ⟨_, h2⟩
      simp only at h2
      intro y hy
      generalize (if sl = true then p.length else p.length * p.attrs.quant) = a at h2
      split at h2
      · obtain ⟨n, _, hn⟩ := h2
        rw [hn] at hy; simp only [List.mem_singleton] at hy; rw [hy]
      · rw [h2] at hy; simp at hy
    | .leaf (.rest d), _ => rintro ⟨_, h2⟩; rw [h2]; simp
    | .leaf (.attr u), _ => rintro ⟨_, h2⟩; rw [h2]; simp
    | .barline, _ => rintro ⟨_, h2⟩; rw [h2]; simp
  rw [hst x hxp, h2 p hp]

/-- A chord `c1/>e4/r8/g`. -/
def demoChord : List Upd :=
  [.leaf (.note (.letter .C none) [.length 1 0] false), .leaf (.attr .octaveUp), .leaf (.note (.letter .E none) [.length 4 0] false), .leaf (.rest [.length 8 0]),
   .leaf (.note (.letter .G none) [] false)]

/-- The hypotheses of C11 hold for it, played at a position other than 0 by two active parts. -/
example : ∃ s, Reachable s ∧ (update [.chord demoChord] s).err = none ∧ s.current = [0, 1] ∧ (∀ x ∈ demoChord, ChordMember x) ∧
    (sounds (update [.chord demoChord] s).s 1).map (fun x => (x.note, x.start, x.duration)) =
      [(60, 0, 500), (60, 500, 2000), (76, 500, 500), (79, 500, 250)] ∧
    ((update [.chord demoChord] s).s.heap 1).offset = 750 := by
  refine ⟨(update [.partDecl ["piano", "violin"] "", .leaf (.note (.letter .C none) [.length 4 0] false)] newScore).s, ⟨_, rfl⟩,
    by decide +kernel, by decide +kernel, ?_, by decide +kernel, by decide +kernel⟩
  simp [demoChord, ChordMember, PartUpd.kind]

/-- A rest of length zero cannot be written, so the advance is positive; but a chord without any note or rest would move the part to the end of time
(`math.MaxFloat64`). The parser never produces one. -/
theorem c11_empty_chord_witness : ((update [.partDecl ["piano"] "", .chord []] newScore).s.heap 0).offset = maxFloat := by decide +kernel

end Alda
