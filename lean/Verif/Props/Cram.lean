import Verif.Lemmas.TrackStretch
import Verif.Props.Chord
/-!
C12: crams.
-/
namespace Alda
open Spec

/-- Numbered endings, but no variables. -/
def endingsMode : Mode := ⟨true, false, false⟩

mutual
theorem settled_tame : ∀ (e : Upd) (b b' : Bool) (vf : Bool), settled b e = some b' → Tame endingsMode vf e
  | .leaf _, _, _, _, _ | .lisp _, _, _, _, _ | .lispNil, _, _, _, _ | .barline, _, _, _, _ | .marker _, _, _, _, _ => by simp only [Tame]
  | .chord [], b, b', vf, h => by simp [settled] at h
  | .chord (e :: es), b, b', vf, h => by
    simp only [settled] at h
    split at h
    · simp only [Tame]; exact settledL_tame (e :: es) b b' false h
    · simp at h
  | .cram es d, b, b', vf, h => by
    simp only [settled] at h
    split at h
    · simp at h
    · rename_i hb; simp only [Tame]; exact settledL_tame es _ _ false hb
  | .seq es, b, b', vf, h => by simp only [settled] at h; simp only [Tame]; exact settledL_tame es b b' vf h
  | .rep e n, b, b', vf, h => by
    simp only [settled] at h
    simp only [Tame]
    · split at h
      · rename_i hb; exact settled_tame e _ _ vf hb
      · split at h
        · rename_i hb
          simp only [Bool.and_eq_true, beq_iff_eq] at hb
          exact settled_tame e _ _ vf hb.2
        · simp at h
  | .onReps rs e, b, b', vf, h => by
    simp only [settled] at h
    split at h
    · rename_i hb; simp only [Tame]; exact ⟨rfl, settled_tame e _ _ vf hb⟩
    · simp at h
  | .varRef _, b, b', _, hs | .voice _, b, b', _, hs | .voiceEnd, b, b', _, hs
  | .atMarker _, b, b', _, hs | .varDef _ _, b, b', _, hs | .partDecl _ _, b, b', _, hs => by
    simp [settled] at hs
theorem settledL_tame : ∀ (es : List Upd) (b b' : Bool) (vf : Bool), settledL b es = some b' → TameL endingsMode vf es
  | [], _, _, _, _ => by simp only [TameL]
  | e :: es, b, b', vf, h => by
    simp only [settledL] at h
    split at h
    · simp at h
    · rename_i hb; simp only [TameL]; exact ⟨settled_tame e _ _ vf hb, settledL_tame es _ _ vf h⟩
end

/-- The track of an active part after tame events without voices. -/
theorem track_after' {mo : Mode} {s : Score} (hr : Reachable s) (hm : Ready mo s) (es : List Upd) (ht : TameL mo false es) (h : (update es s).err = none) {id : Nat}
    (hid : id ∈ s.current) : (update es s).s.current = s.current ∧ ((update es s).s.heap id).origin = (s.heap id).origin ∧
    Track.list es (trackOf s id) = some (trackOf (update es s).s id) := by
  have r := update_ran false es s ht hm h
  have hcur := r.cur rfl
  obtain ⟨i, hi⟩ := List.getElem?_of_mem hid
  obtain ⟨id', hid', hg⟩ := r.track i id hi
  rw [hcur, hi, Option.some.injEq] at hid'
  subst hid'
  exact ⟨hcur, update_origin hr es (hr.wf.cur_lt id hid), hg⟩

theorem list_one {deref : List Upd → Track → Option Track} {e : Upd} {t t' : Track} (h : Track.listWith deref [e] t = some t') : Track.updWith deref e t = some t' := by
  simp only [Track.listWith] at h
  obtain ⟨u, h1, h2⟩ := bind_some_iff h
  simp only [Option.some.injEq] at h2; subst h2; exact h1

/-- The conditions under which the length of a cram is predicted correctly for a part (see `Spec.settled`): the events are predictable, the written
durations and the default duration have some length, no global change of the tempo or the default duration is pending, and there are numbered endings only if one part is active. -/
structure CramOk (s : Score) (id : Nat) (es : List Upd) (d : Dur) : Prop where
  events : Predictable es
  written : d = [] ∨ properDur d = true
  endings : TameL plainMode false es ∨ s.current.length ≤ 1
  active : id ∈ s.current
  tempo : 0 < (s.heap id).tempo
  default : 0 < total (s.heap id).tempo (atoms (s.heap id).dur)
  scale : 0 ≤ (s.heap id).timeScale
  globals : NoGlobal s.globals [.duration] ∧ NoGlobal s.globals [.tempo, .metricModulation]
  outside : s.chordMode = false

/-- What is known about the run of such a cram, and of its events alone. -/
theorem CramOk.run {s : Score} {id : Nat} {es : List Upd} {d : Dur} (c : CramOk s id es d) (hr : Reachable s) (h : (update [.cram es d] s).err = none) :
    ((update [.cram es d] s).s.heap id).origin = (s.heap id).origin ∧
    Track.updWith (Track.listWith (fun _ _ => none)) (.cram es d) (trackOf s id) = some (trackOf (update [.cram es d] s).s id) := by
  rcases c.endings with he | he
  · obtain ⟨_, h1, h2⟩ := track_after' hr hr.ready [.cram es d] (by simp only [TameL, Tame, and_true]; exact he) h c.active
    exact ⟨h1, list_one h2⟩
  · cases hb : settledL true es with
    | none => exact absurd hb c.events
    | some b =>
      obtain ⟨_, h1, h2⟩ := track_after' (mo := endingsMode) hr ⟨hr.good.weaken _, by simp [endingsMode], fun _ => he⟩ [.cram es d]
        (by simp only [TameL, Tame, and_true]; exact settledL_tame es _ _ false hb) h c.active
      exact ⟨h1, list_one h2⟩

theorem CramOk.runEvents {s : Score} {id : Nat} {es : List Upd} {d : Dur} (c : CramOk s id es d) (hr : Reachable s) (h : (update es s).err = none) :
    ((update es s).s.heap id).origin = (s.heap id).origin ∧
    Track.listWith (Track.listWith (fun _ _ => none)) es (trackOf s id) = some (trackOf (update es s).s id) := by
  rcases c.endings with he | he
  · obtain ⟨_, h1, h2⟩ := track_after' hr hr.ready es he h c.active
    exact ⟨h1, h2⟩
  · cases hb : settledL true es with
    | none => exact absurd hb c.events
    | some b =>
      obtain ⟨_, h1, h2⟩ := track_after' (mo := endingsMode) hr ⟨hr.good.weaken _, by simp [endingsMode], fun _ => he⟩ es (settledL_tame es _ _ false hb) h c.active
      exact ⟨h1, h2⟩

/-- C12, under the conditions of `CramOk`: a cram advances the part by exactly its outer duration (that is by as much as a note with the written duration), and afterwards
the time scale is the one from before; the written duration becomes the default.
Missing from the full claim, and false of the code: events outside of `CramOk.events`, see the witnesses below. -/
theorem c12_fills_partial {s : Score} (hr : Reachable s) (es : List Upd) (d : Dur) {id : Nat} (c : CramOk s id es d) (h : (update [.cram es d] s).err = none) :
    ((update [.cram es d] s).s.heap id).offset = (s.heap id).offset + lengthFor (attributesAt s id) d ∧
    ((update [.cram es d] s).s.heap id).timeScale = (s.heap id).timeScale ∧ ((update [.cram es d] s).s.heap id).dur = lastWritten (s.heap id).dur [d] := by
  obtain ⟨_, hg⟩ := c.run hr h
  cases hb : settledL true es with
  | none => exact absurd hb c.events
  | some b =>
    have outer : ∀ o, (effectiveDuration d (trackOf s id).cell).toMs (trackOf s id).cell.tempo = some o →
        o = total (s.heap id).tempo (atoms (effectiveDuration d (s.heap id))) ∧ 0 ≤ total (s.heap id).tempo (atoms (effectiveDuration d (s.heap id))) := by
      intro o ho
      have ho := dur_toMs_some ho
      cases d with
      | nil => exact ⟨ho, Rat.le_of_lt c.default⟩
      | cons x xs =>
        refine ⟨ho, Rat.le_of_lt (proper_pos ?_ c.tempo)⟩
        rcases c.written with hw | hw
        · simp at hw
        · exact hw
    obtain ⟨w, _, _, _, h4⟩ := cram_fills (Track.listWith (fun _ _ => none)) es d (t := trackOf s id) hb c.tempo c.default c.scale c.globals c.outside outer
      (fun vars dd y q t1 t2 a1 a2 a3 a4 => predictedL _ es vars dd true b _ q t1 t2 0 y hb a1 a2 a3 a4) hg
    refine ⟨?_, w.scale, ?_⟩
    · cases d <;> exact w.offset
    · rw [lastWritten_one]
      exact h4

/-- A sound stretched by `f` around `o`. -/
def stretchSound (f o : Rat) (x : Sound) : Sound := { x with start := o + (x.start - o) * f, duration := x.duration * f, audible := x.audible * f }

/-- C12, under the conditions of `CramOk` and without global changes: relative lengths inside a cram are preserved. The notes of the cram are those of
the same events played without the cram, all of them stretched by one positive factor around the position where the cram starts. -/
theorem c12_relative_partial {s : Score} (hr : Reachable s) (es : List Upd) (d : Dur) {id : Nat} (c : CramOk s id es d) (hn : NoGlobals s.globals)
    (h : (update [.cram es d] s).err = none) (h' : (update es s).err = none) :
    ∃ (f : Rat) (new : List Sound), 0 < f ∧ sounds (update es s).s (s.heap id).origin = sounds s (s.heap id).origin ++ new ∧
      sounds (update [.cram es d] s).s (s.heap id).origin = sounds s (s.heap id).origin ++ new.map (stretchSound f (s.heap id).offset) ∧
      ((update [.cram es d] s).s.heap id).offset = (s.heap id).offset + (((update es s).s.heap id).offset - (s.heap id).offset) * f := by
  obtain ⟨ho1, hg⟩ := c.run hr h
  obtain ⟨ho2, hg'⟩ := c.runEvents hr h'
  cases hb : settledL true es with
  | none => exact absurd hb c.events
  | some b =>
    simp only [Track.updWith] at hg
    obtain ⟨t1, a1, a2⟩ := bind_some_iff hg
    obtain ⟨t2, b1, b2⟩ := bind_some_iff a2
    unfold Track.cramScale at a1
    split at a1
    · simp at a1
    · rename_i x hx
      simp only [Option.some.injEq] at a1
      have hf : ∃ f, 0 < f ∧ x = (trackOf s id).cell.timeScale * f := by
        unfold cramTimeScale at hx
        split at hx
        · simp at hx
        · rename_i outer ho
          split at hx
          · simp at hx
          · rename_i inner q hq
            split at hx
            · simp at hx
            · rename_i hne
              simp only [Option.some.injEq] at hx
              have hy0 := (listDurMs_nonneg _ _ es true b (trackOf s id).cell.clone q 0 inner hb c.tempo c.default Rat.le_refl hq).1
              have ho0 : 0 < outer := by
                have ho := dur_toMs_some ho
                cases d with
                | nil => rw [ho]; exact c.default
                | cons z zs =>
                  rcases c.written with hw | hw
                  · simp at hw
                  · rw [ho]; exact proper_pos hw c.tempo
              refine ⟨inner⁻¹ * outer, Rat.mul_pos (Rat.inv_pos.2 (by grind)) ho0, ?_⟩
              rw [← hx, Rat.div_def]; grind
      obtain ⟨f, hf, hfx⟩ := hf
      have st : Stretched f (s.heap id).offset (trackOf s id).notes (trackOf s id) t1 := by
        subst a1
        refine ⟨rfl, rfl, rfl, rfl, rfl, rfl, rfl, rfl, rfl, rfl, rfl, hfx, ?_, rfl, hn, hn, [], by simp, by simp [Track.set]⟩
        show (s.heap id).offset = (s.heap id).offset + ((s.heap id).offset - (s.heap id).offset) * f
        grind
      have fin := stretchedL hf _ es true b _ _ _ _ hb st hg' b1
      simp only [Track.cramRestore, Option.some.injEq] at b2
      obtain ⟨new, n1, n2⟩ := fin.notes
      have e1 := sounds_trackOf s id
      have e2 := sounds_trackOf (update es s).s id
      have e3 := sounds_trackOf (update [.cram es d] s).s id
      rw [ho1] at e3
      rw [ho2] at e2
      refine ⟨f, new.map soundOf, hf, ?_, ?_, ?_⟩
      · rw [← e1, ← e2]; unfold Track.sounds; rw [n1, List.map_append]
      · rw [← e1, ← e3, ← b2]
        unfold Track.sounds
        show t2.notes.map soundOf = _
        rw [n2, List.map_append, List.map_map, List.map_map]; rfl
      · have : (trackOf (update [.cram es d] s).s id).cell.offset = t2.cell.offset := by rw [← b2]; rfl
        have k := fin.offset
        rw [← this] at k
        exact k

/-- C12: after every cram without voices inside, the time scale is the one from before. -/
theorem c12_time_scale_restored {s : Score} (hr : Reachable s) (es : List Upd) (d : Dur) (ht : TameL plainMode false es) (h : (update [.cram es d] s).err = none) {id : Nat}
    (hid : id ∈ s.current) : ((update [.cram es d] s).s.heap id).timeScale = (s.heap id).timeScale := by
  obtain ⟨_, _, h2⟩ := track_after hr [.cram es d] (by simp only [TameL, Tame, and_true]; exact ht) h hid
  have h2 := list_one h2
  simp only [Track.updWith] at h2
  obtain ⟨t1, a1, a2⟩ := bind_some_iff h2
  obtain ⟨t2, b1, b2⟩ := bind_some_iff a2
  simp only [Track.cramRestore, Option.some.injEq] at b2
  have : (trackOf (update [.cram es d] s).s id).cell.timeScale = (trackOf s id).cell.timeScale := by rw [← b2]; rfl
  exact this

/-- `{c e/g {f d}2 r8 [b]*3}2.`, with a note before it. -/
def demoCram : List Upd :=
  [.leaf (.note (.letter .C none) [] false), .chord [.leaf (.note (.letter .E none) [] false), .leaf (.note (.letter .G none) [] false)],
   .cram [.leaf (.note (.letter .F none) [] false), .leaf (.note (.letter .D none) [] false)] [.length 2 0], .leaf (.rest [.length 8 0]),
   .rep (.seq [.leaf (.note (.letter .B none) [] false)]) 3]

/-- The hypotheses of C12 hold for it, for two active parts. -/
example : ∃ s, Reachable s ∧ CramOk s 1 demoCram [.length 2 1] ∧ s.current = [0, 1] ∧ NoGlobals s.globals ∧ (update [.cram demoCram [.length 2 1]] s).err = none ∧
    (update demoCram s).err = none ∧ ((update [.cram demoCram [.length 2 1]] s).s.heap 1).offset = 2000 ∧ ((update demoCram s).s.heap 1).offset = 3500 := by
  refine ⟨(update [.partDecl ["piano", "violin"] "", .leaf (.note (.letter .C none) [.length 4 0] false)] newScore).s, ⟨_, rfl⟩,
    ⟨?_, Or.inr (by decide +kernel), Or.inl ?_, by decide +kernel, by decide +kernel, by decide +kernel, by decide +kernel, ?_, by decide +kernel⟩,
    by decide +kernel, ?_, by decide +kernel, by decide +kernel, by decide +kernel, by decide +kernel⟩
  · unfold Predictable; decide +kernel
  · simp [demoCram, TameL, Tame]
  · have hn : ∀ o, (update [.partDecl ["piano", "violin"] "", .leaf (.note (.letter .C none) [.length 4 0] false)] newScore).s.globals.itinerary o = none := by
      intro o; with_unfolding_all rfl
    constructor <;> intro o us h <;> rw [hn o] at h <;> simp at h
  · intro o; with_unfolding_all rfl

/-- The full claim is false: in `{{c d}2 e}1` the inner cram changes the default duration to a half note, but the length of the `e` is predicted with the default duration
from before. So the cram takes 8/3 seconds instead of 2. -/
theorem c12_nested_cram_witness :
    let s := (update [.partDecl ["piano"] ""] newScore).s
    let inner : Upd := .cram [.leaf (.note (.letter .C none) [] false), .leaf (.note (.letter .D none) [] false)] [.length 2 0]
    lengthFor (attributesAt s 0) [.length 1 0] = 2000 ∧
    ((update [.cram [inner, .leaf (.note (.letter .E none) [] false)] [.length 1 0]] s).s.heap 0).offset = 8000 / 3 := by decide +kernel

/-- Changes of the tempo inside a cram are overlooked, too: `{c (tempo 60) d}1` takes three seconds instead of two. -/
theorem c12_tempo_witness :
    let s := (update [.partDecl ["piano"] ""] newScore).s
    lengthFor (attributesAt s 0) [.length 1 0] = 2000 ∧
    ((update [.cram [.leaf (.note (.letter .C none) [] false), .leaf (.attr (.tempo 60)), .leaf (.note (.letter .D none) [] false)] [.length 1 0]] s).s.heap 0).offset = 3000 := by
  decide +kernel

/-- And voices inside a cram lose the time scale altogether: all following notes have no length. -/
theorem c12_voices_witness :
    let s := (update [.partDecl ["piano"] "", .cram [.voice 1, .leaf (.note (.letter .C none) [.length 4 0] false), .voiceEnd] [.length 1 0]] newScore).s
    (s.current.map (fun id => (s.heap id).timeScale)) = [0] := by decide +kernel

end Alda
