import Verif.Lemmas.Begins
import Verif.Lemmas.Transmit
import Verif.Lemmas.XmlScore
import Verif.Props.Line
import Verif.Props.Score
/-!
C69: an instrument begins as documented, and goes on where it left off.
-/
namespace Alda
open Spec

theorem voiceEnd_instances {s : Score} (w : WF s) : instances (update [.voiceEnd] s).s = instances s := by
  rw [update_voiceEnd, instances_view, (voiceEndUpd_view s w).1.1, ← instances_view]

/-- C69: an instance that a declaration adds to the score starts at the beginning of the score, with the documented initial value of every
attribute and without a MIDI channel of its own, whatever the instruments before it have set. -/
theorem c69_begins {s : Score} (hr : Reachable s) (names : List String) (alias : String) (h : (update [.partDecl names alias] s).err = none) {i : Nat}
    (hi : i ∈ (update [.partDecl names alias] s).s.current) (hnew : ((update [.partDecl names alias] s).s.heap i).origin ∉ instances s) :
    Begins (attributesAt (update [.partDecl names alias] s).s i) ∧ ((update [.partDecl names alias] s).s.heap i).explicitChannel = false := by
  rcases decl_current hr.good names alias h hi with ⟨h1, h2⟩ | ⟨_, _, h3, h4, _⟩
  · rw [h2, ← voiceEnd_instances hr.wf] at hnew
    exact absurd (List.mem_map.2 ⟨i, h1, rfl⟩) hnew
  · exact ⟨h3, h4⟩

/-- How the first note of an instrument that begins as documented is played. -/
theorem begins_played (pitch : Pitch) (d : Dur) (slurred : Bool) {a : Attributes} (hb : Begins a) {p : Play} (ha : p.attrs = a) (hst : p.start = 0)
    (hpl : PlayedAs (.leaf (.note pitch d slurred)) p) (hpos : 0 < firstLength d) :
    ∃ n, (InInt32 (plainPitch pitch) → n = plainPitch pitch) ∧
      p.sounds = [⟨n, 0, firstLength d, if slurred then firstLength d else firstLength d * (90 / 100), 54210 / 100000, 100 / 127, 50 / 100⟩] := by
  have hlen : p.length = firstLength d := by
    have := hpl.1
    rw [this, ha]
    cases d with
    | nil => rw [hb.quarter]; show (60000 / 120 : Rat) = 500; decide +kernel
    | cons c cs => unfold lengthFor; rw [hb.tempo, hb.timeScale, Rat.mul_one]; rfl
  have hw : soundingPitch p.attrs pitch = plainPitch pitch := by
    rw [ha]
    cases pitch with
    | letter l as =>
      cases as with
      | none => simp only [soundingPitch, hb.key l, hb.octave, hb.transposition, plainPitch]
      | some as => simp only [soundingPitch, hb.octave, hb.transposition, plainPitch]
    | midi n => simp only [soundingPitch, hb.transposition, plainPitch, Int.add_zero]
  have h2 := hpl.2
  rw [hlen, hw, ha, hst] at h2
  simp only [hb.quant, hb.volume, hb.trackVolume, hb.panning] at h2
  have haud : (if slurred = true then firstLength d else firstLength d * (90 / 100)) > 0 := by
    split
    · exact hpos
    · grind
  rw [if_pos haud] at h2
  exact h2

/-- C69: the first note of such an instance, after any program, starts at time 0, has the pitch of its letter in octave 4 with the written
accidentals only, the documented volume, track volume and panning, and is heard for nine tenths of its length (or all of it if slurred); without a
written duration it is a quarter note at 120 beats per minute, half a second. (If global attributes are recorded the rules of C18 apply.) -/
theorem c69_first_note (program : List Upd) (names : List String) (alias : String) (pitch : Pitch) (d : Dur) (slurred : Bool)
    (hc : (update program newScore).s.chordMode = false) (hg : NoGlobals (update program newScore).s.globals)
    (h : (update (program ++ [.partDecl names alias, .leaf (.note pitch d slurred)]) newScore).err = none) {o : Nat}
    (ho : o ∈ playing (update (program ++ [.partDecl names alias]) newScore).s) (hnew : o ∉ instances (update program newScore).s)
    (hpos : 0 < firstLength d) :
    ∃ n, (InInt32 (plainPitch pitch) → n = plainPitch pitch) ∧
      sounds (update (program ++ [.partDecl names alias, .leaf (.note pitch d slurred)]) newScore).s o =
        [⟨n, 0, firstLength d, if slurred then firstLength d else firstLength d * (90 / 100), 54210 / 100000, 100 / 127, 50 / 100⟩] := by
  have e1 : program ++ [.partDecl names alias, .leaf (.note pitch d slurred)] = (program ++ [.partDecl names alias]) ++ [.leaf (.note pitch d slurred)] := by simp
  rw [e1, c23_append] at h ⊢
  cases hp : (update (program ++ [.partDecl names alias]) newScore).err with
  | some x => rw [hp] at h; simp at h
  | none =>
    rw [hp] at h
    simp only at h ⊢
    have hp' := hp
    rw [c23_append] at hp'
    cases hp0 : (update program newScore).err with
    | some x => rw [hp0] at hp'; simp at hp'
    | none =>
      have e2 : update (program ++ [.partDecl names alias]) newScore = update [.partDecl names alias] (update program newScore).s := by
        rw [c23_append, hp0]
      have hrt : Reachable (update (program ++ [.partDecl names alias]) newScore).s := ⟨_, rfl⟩
      have hrs : Reachable (update program newScore).s := ⟨_, rfl⟩
      generalize hs : (update program newScore).s = s at *
      rw [e2] at hp hrt ho h ⊢
      obtain ⟨he, hgl, hcm⟩ := decl_events names alias s
      obtain ⟨v1, v2, v3⟩ := Importer.voiceEndUpd_keeps s
      rw [update_voiceEnd] at he hgl hcm
      generalize ht : (update [.partDecl names alias] s).s = t at *
      obtain ⟨i, hi, rfl⟩ := List.mem_map.1 ho
      have hb := c69_begins hrs names alias hp (i := i) (by rw [ht]; exact hi) (by rw [ht]; exact hnew)
      rw [ht] at hb
      obtain ⟨_, ps, hlen, hch, hso, has, _, hat⟩ := c09_no_gaps hrt (by rw [hcm, v3]; exact hc) [.leaf (.note pitch d slurred)] (by simp [Melodic]) h hi
      have hat := hat (by rw [hgl, v2]; exact hg)
      obtain ⟨p, rfl⟩ := List.length_eq_one_iff.1 hlen
      have ha := hat 0 p rfl
      have hpl := has 0 _ p rfl rfl
      simp only [List.take_zero] at ha
      have ha : p.attrs = attributesAt t i := ha
      have hst : p.start = 0 := by
        cases hch with
        | cons h _ => rw [h]; exact hb.1.position
      have hempty : sounds t (t.heap i).origin = [] := by
        unfold sounds
        rw [List.map_eq_nil_iff, List.filter_eq_nil_iff]
        intro e hm
        rw [he, v1] at hm
        have := reachable_eventsIn hrs e hm
        simp only [decide_eq_true_eq]
        intro hh; exact hnew (by rw [← hh]; exact this)
      rw [hempty] at hso
      simp only [List.nil_append, List.flatMap_cons, List.flatMap_nil, List.append_nil] at hso
      obtain ⟨n, h2, h3⟩ := begins_played pitch d slurred hb.1 ha hst hpl hpos
      exact ⟨n, h2, hso.trans h3⟩

/-- C69: a declaration brings an instance that is in the score back exactly as it was (after its open voices, if any, have ended): all its attributes
and its position. -/
theorem c69_goes_on {s : Score} (hr : Reachable s) (names : List String) (alias : String) (h : (update [.partDecl names alias] s).err = none) {i : Nat}
    (hi : i ∈ (update [.partDecl names alias] s).s.current) (hold : ((update [.partDecl names alias] s).s.heap i).origin ∈ instances s) :
    i ∈ (update [.voiceEnd] s).s.parts ∧ (update [.partDecl names alias] s).s.heap i = (update [.voiceEnd] s).s.heap i ∧
    ((∀ c ∈ s.current, s.vheap (s.heap c).voices = []) → i ∈ s.parts ∧ (update [.partDecl names alias] s).s.heap i = s.heap i) := by
  rcases decl_current hr.good names alias h hi with ⟨h1, h2⟩ | ⟨h0, h3, _⟩
  · refine ⟨h1, h2, fun hv => ?_⟩
    have e := voiceEndUpd_idle hv
    rw [update_voiceEnd, e] at h1 h2
    exact ⟨h1, h2⟩
  · rw [h0] at hold; exact absurd hold h3

theorem voiceEnd_noDecl : NoDeclL [Upd.voiceEnd] := by simp [NoDeclL, NoDecl]

theorem away_keeps {s t : Score} (g : Good (fun _ => True) True s) {q : Nat} (hq : q ∈ s.parts) (ha : Away (s.heap q).origin s t) :
    Good (fun _ => True) True t ∧ q ∈ t.parts ∧ t.heap q = s.heap q ∧ (s.heap q).origin ∉ playing t ∧
    sounds t (s.heap q).origin = sounds s (s.heap q).origin := by
  have snd : ∀ {u v : Score} {o : Nat}, (∃ new, v.events = u.events ++ new ∧ ∀ e ∈ new, e.part ≠ o) → sounds v o = sounds u o := by
    intro u v o ⟨new, h1, h2⟩
    unfold sounds
    rw [h1, List.filter_append, (List.filter_eq_nil_iff (l := new)).2 (fun e he => by simpa using h2 e he), List.append_nil]
  have act : ∀ {u : Score}, u.heap q = s.heap q → (s.heap q).origin ∉ playing u → ∀ c ∈ u.current, (u.heap c).origin ≠ (u.heap q).origin := by
    intro u e h c hc he
    rw [e] at he
    exact h (List.mem_map.2 ⟨c, hc, he⟩)
  generalize ho : (s.heap q).origin = o at ha
  induction ha with
  | start h => subst ho; exact ⟨g, hq, rfl, h, rfl⟩
  | @event t e _ hnd ih =>
    obtain ⟨gt, h1, h2, h3, h4⟩ := ih
    have ha := act h2 (by rw [ho] at *; exact h3)
    obtain ⟨k1, k2, k3, k4⟩ := inactive_good gt h1 ha [e] ⟨hnd, trivial⟩
    refine ⟨(update_all_steps [e] _ gt).good gt, k1, k2.trans h2, ?_, ?_⟩
    · unfold playing; unfold origins at k3; rw [k3]; exact h3
    · rw [← h4]; exact snd (by rw [h2, ho] at k4; exact k4)
  | @declare t names alias _ hp ih =>
    obtain ⟨gt, h1, h2, h3, h4⟩ := ih
    have ha := act h2 (by rw [ho] at *; exact h3)
    obtain ⟨k1, k2, k3, k4⟩ := inactive_good gt h1 ha [.voiceEnd] voiceEnd_noDecl
    obtain ⟨m1, m2⟩ := decl_keeps gt names alias k1
    refine ⟨(update_all_steps _ _ gt).good gt, m1, (m2.trans k2).trans h2, hp, ?_⟩
    rw [← h4]
    refine snd ?_
    rw [(decl_events names alias t).1]
    rw [h2, ho] at k4; exact k4

/-- C69: while an instance is not playing, nothing that happens (declarations and any other events, whether or not they fail) changes it: it keeps
its attributes and position and gets no note; and when a later declaration makes it play again, it goes on with them. -/
theorem c69_resumes {s t : Score} (hr : Reachable s) {q : Nat} (hq : q ∈ s.parts) (ha : Away (s.heap q).origin s t) :
    q ∈ t.parts ∧ t.heap q = s.heap q ∧ sounds t (s.heap q).origin = sounds s (s.heap q).origin ∧
    ∀ names alias, (update [.partDecl names alias] t).err = none → (s.heap q).origin ∈ playing (update [.partDecl names alias] t).s →
      q ∈ (update [.partDecl names alias] t).s.current ∧ (update [.partDecl names alias] t).s.heap q = s.heap q := by
  obtain ⟨g, h1, h2, h0, h3⟩ := away_keeps hr.good hq ha
  refine ⟨h1, h2, h3, fun names alias he ho => ?_⟩
  obtain ⟨i, hi, hio⟩ := List.mem_map.1 ho
  have hv : q ∈ (update [.voiceEnd] t).s.parts ∧ (update [.voiceEnd] t).s.heap q = t.heap q := by
    obtain ⟨k1, k2, _⟩ := inactive_good g h1 (fun c hc he => h0 (List.mem_map.2 ⟨c, hc, by rw [he, h2]⟩)) [.voiceEnd] voiceEnd_noDecl
    exact ⟨k1, k2⟩
  obtain ⟨k1, k2⟩ := decl_keeps g names alias hv.1
  refine ⟨?_, by rw [k2, hv.2, h2]⟩
  have gu := (update_all_steps [.partDecl names alias] t g).good g
  rcases decl_current g names alias he hi with ⟨h4, h5⟩ | ⟨h4, h5, _⟩
  · have := decl_keeps g names alias h4
    rw [origin_inj gu.wf this.1 k1 (by rw [hio, k2, hv.2, h2])] at hi
    exact hi
  · exfalso
    rw [h4] at hio
    rw [hio] at h5
    exact h5 (List.mem_map.2 ⟨q, h1, by rw [h2]⟩)

/-! The cases of the theorems occur. -/

/-- A piano that has changed everything, then a guitar. -/
def begun : List Upd :=
  [.partDecl ["piano"] "", .leaf (.attr (.tempo 60)), .leaf (.attr (.octave 2)), .leaf (.attr (.volume (1 / 5))), .leaf (.note (.letter .C none) [.length 1 0] false)]

example : (update begun newScore).err = none ∧ (update begun newScore).s.chordMode = false ∧
    (update (begun ++ [.partDecl ["guitar"] "g", .leaf (.note (.letter .E (some [.flat])) [] false)]) newScore).err = none ∧
    playing (update (begun ++ [.partDecl ["guitar"] "g"]) newScore).s = [1] ∧ instances (update begun newScore).s = [0] ∧
    sounds (update (begun ++ [.partDecl ["guitar"] "g", .leaf (.note (.letter .E (some [.flat])) [] false)]) newScore).s 1 =
      [⟨63, 0, 500, 450, 54210 / 100000, 100 / 127, 50 / 100⟩] := by decide +kernel

example : NoGlobals (update begun newScore).s.globals := by intro o; with_unfolding_all rfl

-- the piano goes on after four seconds, in octave 2
example : let t := (update (begun ++ [.partDecl ["guitar"] "g", .leaf (.note (.letter .E none) [] false), .partDecl ["piano"] ""]) newScore)
    t.err = none ∧ playing t.s = [0] ∧ (t.s.heap 0).offset = 4000 ∧ (t.s.heap 0).octave = 2 ∧ (t.s.heap 0).tempo = 60 := by decide +kernel

-- after the guitar is declared, the piano is away
example : let s := (update (begun ++ [.partDecl ["guitar"] "g"]) newScore).s
    s.parts = [0, 1] ∧ (s.heap 0).origin = 0 ∧ Away 0 s (update [.partDecl ["guitar"] "h"] (update [.barline] s).s).s := by
  refine ⟨by decide +kernel, by decide +kernel, ?_⟩
  refine .declare _ _ (.event _ (.start ?_) (by simp [NoDecl])) ?_ <;> decide +kernel

end Alda
