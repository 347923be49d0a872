import Verif.Lemmas.Globals
import Verif.Lemmas.Still
import Verif.Props.Line
/-!
C18: every global change reaches a part once. C19: a part's own change wins.
-/
namespace Alda
open Spec

/-- C18: after any sequence of recordings, looking up the changes between two positions gives exactly the changes recorded there, in order of offset and, at equal
offsets, in the order in which they were written. -/
theorem c18_window (cs : List (Rat × PartUpd)) (a b : Rat) : ∃ due, (recorded cs).inWindow a b = due.map (·.2) ∧ DueBetween cs a b due :=
  inWindow_due (recorded_holds cs) a b

/-- C18: successive lookups of a part that moves forward give every change once: together they are one lookup over the whole way. -/
theorem c18_once (cs : List (Rat × PartUpd)) (a : Rat) (ps : List Rat) (h : Forward a ps) :
    (stretches a ps).flatMap (fun x => (recorded cs).inWindow x.1 x.2) = (recorded cs).inWindow a (ps.getLastD a) := by
  induction ps generalizing a with
  | nil => rw [show [].getLastD a = a from rfl, inWindow_self (recorded_holds cs)]; rfl
  | cons p ps ih =>
    obtain ⟨h1, h2⟩ := List.pairwise_cons.1 h
    have hl : (p :: ps).getLastD a = ps.getLastD p := by
      cases ps <;> rfl
    have hp : p ≤ ps.getLastD p := by
      cases hx : ps.getLast? with
      | none => rw [List.getLastD_eq_getLast?, hx]; exact Rat.le_refl
      | some y =>
        rw [List.getLastD_eq_getLast?, hx]
        exact (List.pairwise_cons.1 h2).1 y (List.mem_of_getLast? hx)
    rw [hl, inWindow_append (recorded_holds cs) (h1 p (List.mem_cons_self ..)) hp, ← ih p h2]
    rfl

/-- C18: the global changes of a score are what was recorded; a global change in the score is recorded at the position of the active parts (at the beginning if there are none). -/
theorem c18_recorded (s : Score) (hr : Reachable s) : ∃ cs, s.globals = recorded cs ∧
    ∀ u, (update [.leaf (.globalAttr u)] s).err = none → ∃ o, (∀ id ∈ s.current, (s.heap id).offset = o) ∧ (s.current = [] → o = 0) ∧
      (update [.leaf (.globalAttr u)] s).s = { s with globals := recorded (cs ++ [(o, u)]) } := by
  obtain ⟨cs, h⟩ := reachable_recorded hr
  refine ⟨cs, h, ?_⟩
  intro u hok
  simp only [update, updListWith, updWith, leafUpd, globalAttrUpd] at hok ⊢
  cases hc : s.current with
  | nil =>
    refine ⟨0, fun _ h => (by cases h), fun _ => rfl, ?_⟩
    rw [recorded_snoc, ← h]
    simp only [Out.andThen, Out.ok]
  | cons i is =>
    rw [hc] at hok
    simp only at hok ⊢
    cases ho : commonOffset s (i :: is) with
    | none => rw [ho] at hok; cases hok
    | some o =>
      refine ⟨o, commonOffset_mem ho, fun h => (by cases h), ?_⟩
      rw [recorded_snoc, ← h]
      simp only [Out.andThen, Out.ok]

theorem sounding_melodic {es : List Upd} (h : ∀ e ∈ es, Sounding e) : ∀ e ∈ es, Melodic e := by
  intro e he
  have := h e he
  match e, this with
  | .leaf (.note _ _ _), _ | .leaf (.rest _), _ => trivial

/-- The starts of the events of a line. -/
def starts (ps : List Play) : List Rat := ps.map (·.start)

theorem forward_bounds {l o u : Rat} {ps : List Play} (hc : Chain o ps u) (hf : Forward l (starts ps)) {k : Nat} {p : Play} (hp : ps[k]? = some p) :
    l ≤ o ∧ o ≤ p.start := by
  cases hc with
  | nil => cases hp
  | @cons q _ qs _ hq _ =>
    obtain ⟨h1, h2⟩ := List.pairwise_cons.1 hf
    rw [← hq]
    refine ⟨h1 _ (by simp [starts]), ?_⟩
    cases k with
    | zero => simp only [List.getElem?_cons_zero, Option.some.injEq] at hp; rw [hp]; exact Rat.le_refl
    | succ k =>
      simp only [List.getElem?_cons_succ] at hp
      exact (List.pairwise_cons.1 h2).1 p.start (List.mem_map.2 ⟨p, List.mem_of_getElem? hp, rfl⟩)

theorem line_due : ∀ (es : List Upd) (t t' : Track) (cs : List (Rat × PartUpd)), t.globals = recorded cs → (∀ e ∈ es, Sounding e) → t.chordMode = false →
    Track.list es t = some t' →
    ∃ ps, LineOk es t t' ps ∧ (Forward t.cell.lastOffset (starts ps) → ∀ (k : Nat) p, ps[k]? = some p →
      SameSettings p.attrs (changes (notOverridden t.cell.override (t.globals.inWindow t.cell.lastOffset t.cell.offset) ++
        t.globals.inWindow t.cell.offset p.start) (attributes t.cell))) := by
  intro es
  induction es with
  | nil =>
    intro t t' cs _ _ _ h
    simp only [Track.list, Track.listWith, Option.some.injEq] at h; subst h
    exact ⟨[], ⟨rfl, .nil _, by simp, by simp, by simp, by simp, by simp, by simp⟩, by simp⟩
  | cons e es ih =>
    intro t t' cs hg hs hc h
    have hm := sounding_melodic hs
    simp only [Track.list, Track.listWith] at h
    cases he : Track.updWith (Track.listWith (fun _ _ => none)) e t with
    | none => rw [he] at h; simp at h
    | some u =>
      rw [he, Option.bind_some] at h
      obtain ⟨p, pp⟩ := melodic_played (hm e (List.mem_cons_self ..)) hc he
      obtain ⟨ps, r, due⟩ := ih u t' cs (pp.globals.trans hg) (fun e he => hs e (List.mem_cons_of_mem _ he)) (pp.mode.trans hc) h
      obtain ⟨c, d1, d2, d3, d4, d5⟩ := pp.due (hs e (List.mem_cons_self ..))
      have hch := applyGlobals_changes d1
      have hself : t.globals.inWindow t.cell.offset t.cell.offset = [] := by rw [hg]; exact inWindow_self (recorded_holds cs) _
      refine ⟨p :: ps, ⟨by simp [r.length], .cons pp.start (by rw [← pp.stop]; exact r.chain), ?_, ?_, ?_, ?_, ?_, ?_⟩, ?_⟩
      · rw [r.sounds, pp.sounds, List.flatMap_cons, List.append_assoc]
      · intro k e' p' h1 h2
        cases k with
        | zero =>
          simp only [List.getElem?_cons_zero, Option.some.injEq] at h1 h2
          subst h1; subst h2; exact pp.as
        | succ k => simp only [List.getElem?_cons_succ] at h1 h2; exact r.as k e' p' h1 h2
      · intro hn hd k p' hp'
        have hd' := pp.defaultDur hn (hd e (List.mem_cons_self ..))
        cases k with
        | zero =>
          simp only [List.getElem?_cons_zero, Option.some.injEq] at hp'; subst hp'
          rw [hd'.2]; rfl
        | succ k =>
          simp only [List.getElem?_cons_succ] at hp'
          rw [r.dur (by rw [pp.globals]; exact hn) (fun e he => hd e (List.mem_cons_of_mem _ he)) k p' hp', hd'.1]
          simp only [List.take_succ_cons, List.map_cons]
          exact (lastWritten_cons t.cell.dur _ _).symm
      · intro p' hp'
        rcases List.mem_cons.1 hp' with rfl | hp'
        · exact pp.scale.2
        · rw [r.scale p' hp', pp.scale.1]
      · intro hn hx p' hp'
        have h1 := pp.tempo hn
        rcases List.mem_cons.1 hp' with rfl | hp'
        · exact h1.1
        · rw [r.tempo (by rw [pp.globals]; exact hn) (fun e he => hx e (List.mem_cons_of_mem _ he)) p' hp', h1.2 (hx e (List.mem_cons_self ..))]
      · intro hn k p' hp'
        cases k with
        | zero =>
          simp only [List.getElem?_cons_zero, Option.some.injEq] at hp'; subst hp'
          exact ⟨t, rfl, pp.attrs hn⟩
        | succ k =>
          simp only [List.getElem?_cons_succ] at hp'
          obtain ⟨v, h1, h2⟩ := r.attrs (by rw [pp.globals]; exact hn) k p' hp'
          refine ⟨v, ?_, h2⟩
          simp only [List.take_succ_cons, Track.list, Track.listWith]
          rw [he, Option.bind_some]; exact h1
      · intro hf k p' hp'
        cases k with
        | zero =>
          simp only [List.getElem?_cons_zero, Option.some.injEq] at hp'; subst hp'
          rw [pp.start, hself, List.append_nil, d2, hch]
          rfl
        | succ k =>
          simp only [List.getElem?_cons_succ] at hp'
          obtain ⟨_, hf2⟩ := List.pairwise_cons.1 hf
          have hf3 : Forward u.cell.lastOffset (starts ps) := by
            rw [d3, ← pp.start]
            exact hf2
          have hle := forward_bounds r.chain hf3 hp'
          have hk := due hf3 k p' hp'
          rw [d4, notOverridden_none, pp.globals, hg, ← inWindow_append (recorded_holds cs) hle.1 hle.2, d3] at hk
          rw [changes_append, hg]
          refine Eq.trans hk ?_
          refine changes_same _ ?_
          rw [d5, hch, hg]
          rfl

/-- C18: while a part plays notes and rests forward, each event is played with the attributes the part had before, changed by every global change that was due up to then exactly once and
in order: those due at the first event (except the kind that the part has just set itself), then those after the first event's position up to that of the event. Positions and default
durations are left out; with `c18_window` the lookups are exactly the recorded changes with these offsets. -/
theorem c18_line {s : Score} (hr : Reachable s) (hc : s.chordMode = false) (es : List Upd) (hs : ∀ e ∈ es, Sounding e)
    (h : (update es s).err = none) {id : Nat} (hid : id ∈ s.current) :
    ∃ ps : List Play, ps.length = es.length ∧ Chain (s.heap id).offset ps ((update es s).s.heap id).offset ∧
      sounds (update es s).s (s.heap id).origin = sounds s (s.heap id).origin ++ ps.flatMap (·.sounds) ∧
      (∀ (k : Nat) e p, es[k]? = some e → ps[k]? = some p → PlayedAs e p) ∧
      (Forward (s.heap id).lastOffset (ps.map (·.start)) → ∀ (k : Nat) p, ps[k]? = some p →
        SameSettings p.attrs (changes
          ((s.globals.inWindow (s.heap id).lastOffset (s.heap id).offset).filter (fun u => decide ((s.heap id).override.map PartUpd.kind ≠ some u.kind)) ++
            s.globals.inWindow (s.heap id).offset p.start) (attributesAt s id))) := by
  have hm := sounding_melodic hs
  obtain ⟨cs, hcs⟩ := reachable_recorded hr
  obtain ⟨hcur, hg⟩ := track_of_line hr es hm h hid
  obtain ⟨ps, l, due⟩ := line_due es _ _ cs hcs hs hc hg
  have hsn := l.sounds
  rw [sounds_trackOf, sounds_trackOf, update_origin hr es (hr.wf.cur_lt id hid)] at hsn
  exact ⟨ps, l.length, l.chain, hsn, l.as, due⟩

/-- C18, for a part that goes to a marker: the changes that were due before the jump are applied, then, as the part plays on, those after the position that it left up to the position of
each event, once and in order. -/
theorem c18_jump {s : Score} (hr : Reachable s) (hc : s.chordMode = false) (m : String) (es : List Upd) (hs : ∀ e ∈ es, Sounding e)
    (h : (update (.atMarker m :: es) s).err = none) {id : Nat} (hid : id ∈ s.current) :
    ∃ (o : Rat) (ps : List Play), s.markers m = some o ∧ ps.length = es.length ∧ Chain o ps ((update (.atMarker m :: es) s).s.heap id).offset ∧
      sounds (update (.atMarker m :: es) s).s (s.heap id).origin = sounds s (s.heap id).origin ++ ps.flatMap (·.sounds) ∧
      (∀ (k : Nat) e p, es[k]? = some e → ps[k]? = some p → PlayedAs e p) ∧
      (Forward (s.heap id).offset (ps.map (·.start)) → ∀ (k : Nat) p, ps[k]? = some p →
        SameSettings p.attrs (changes
          ((s.globals.inWindow (s.heap id).lastOffset (s.heap id).offset).filter (fun u => decide ((s.heap id).override.map PartUpd.kind ≠ some u.kind)) ++
            s.globals.inWindow (s.heap id).offset p.start) (attributesAt s id))) := by
  have ht : TameL plainMode false (.atMarker m :: es) := by
    simp only [TameL]
    exact ⟨by simp only [Tame], melodic_tame es (sounding_melodic hs)⟩
  have r := update_ran false (.atMarker m :: es) s ht hr.ready h
  have hcur := r.cur rfl
  obtain ⟨i, hi⟩ := List.getElem?_of_mem hid
  obtain ⟨id', hid', hg⟩ := r.track i id hi
  rw [hcur, hi, Option.some.injEq] at hid'
  subst hid'
  obtain ⟨cs, hcs⟩ := reachable_recorded hr
  simp only [Track.list, Track.listWith, Track.updWith, Track.atMarker] at hg
  cases ha : Track.applyGlobals (trackOf s id) with
  | none => rw [ha] at hg; simp at hg
  | some u =>
    obtain ⟨c, hu, hb, ho, hl, -⟩ := applyGlobals_track ha
    have hov := applyGlobals_override ha
    subst hu
    have hch := applyGlobals_changes ha
    rw [ha, Option.bind_some] at hg
    simp only at hg
    cases hm : s.markers m with
    | none => rw [show (trackOf s id).markers m = none from hm] at hg; simp at hg
    | some o =>
      rw [show (trackOf s id).markers m = some o from hm] at hg
      simp only [Track.jump, Option.bind_some] at hg
      obtain ⟨ps, l, due⟩ := line_due es _ _ cs hcs hs hc hg
      have hsn := l.sounds
      rw [sounds_trackOf, update_origin hr _ (hr.wf.cur_lt id hid)] at hsn
      refine ⟨o, ps, rfl, l.length, l.chain, ?_, l.as, ?_⟩
      · rw [hsn, ← sounds_trackOf s id]; rfl
      · intro hf k p hp
        have hf' : Forward c.offset (starts ps) := by rw [ho]; exact hf
        have hle : c.offset ≤ o ∧ o ≤ p.start := forward_bounds l.chain hf' hp
        have hk := due hf' k p hp
        simp only [Track.set, Part.bare] at hk
        rw [show c.override = none from hov, notOverridden_none, show (trackOf s id).globals = recorded cs from hcs,
          ← inWindow_append (recorded_holds cs) hle.1 hle.2, ho] at hk
        rw [changes_append, hcs]
        refine Eq.trans hk ?_
        refine changes_same _ ?_
        rw [show changes (List.filter _ ((recorded cs).inWindow (s.heap id).lastOffset (s.heap id).offset)) (attributesAt s id) = attributes c from by
          rw [hch, ← hcs]; rfl]
        rfl

/-- The hypotheses of `c18_jump` hold: the piano plays two seconds, places a marker, and an octave change stands after one second; the violin plays half a second and goes to the marker. Its note
there is an octave higher. -/
example :
    let c : Upd := .leaf (.note (.letter .C none) [] true)
    let s := (update [.partDecl ["piano"] "", c, c, .leaf (.globalAttr .octaveUp), c, c, .marker "end", .partDecl ["violin"] "", c] newScore).s
    Reachable s ∧ s.chordMode = false ∧ (update [.atMarker "end", c] s).err = none ∧ s.current = [1] ∧ (s.heap 1).offset = 500 ∧
      (s.heap 1).override = none ∧ (sounds (update [.atMarker "end", c] s).s 1).map (fun x => (x.note, x.start)) = [(60, 0), (72, 2000)] := by
  exact ⟨⟨_, rfl⟩, by decide +kernel, by decide +kernel, by decide +kernel, by decide +kernel, by decide +kernel, by decide +kernel⟩

/-- A change of one setting leaves the others alone. -/
theorem change_other (u : PartUpd) (x : Setting) (a : Attributes) (h : setting u ≠ x) : SameValue x (change u a) a := by
  cases u <;> cases x <;> first | exact (h rfl).elim | exact rfl | trivial

theorem sameValue_refl (x : Setting) (a : Attributes) : SameValue x a a := by cases x <;> first | rfl | trivial
theorem sameValue_trans {x : Setting} {a b c : Attributes} (h : SameValue x a b) (h' : SameValue x b c) : SameValue x a c := by
  cases x <;> first | exact Eq.trans h h' | trivial

theorem changes_other (x : Setting) : ∀ (us : List PartUpd) (a : Attributes), (∀ u ∈ us, setting u ≠ x) → SameValue x (changes us a) a := by
  intro us
  induction us with
  | nil => intro a _; exact sameValue_refl x a
  | cons u us ih =>
    intro a h
    exact sameValue_trans (ih (change u a) (fun v hv => h v (List.mem_cons_of_mem _ hv))) (change_other u x a (h u (List.mem_cons_self ..)))

/-- C19, for the attribute that was set last: if a part sets an attribute itself right before a note or rest, that note or rest is played with the part's own value, whatever global
changes of the same kind are due. Missing: several own changes before the note, see `c19_two_changes_witness`; due changes of the same attribute of another kind (a dynamic marking
and a volume, an octave number and an octave step, a tempo and a metric modulation), see `c19_other_kind_witness`. -/
theorem c19_local_wins_partial {s : Score} (hr : Reachable s) (hc : s.chordMode = false) (u : PartUpd) (e : Upd) (he : Sounding e)
    (h : (update [.leaf (.attr u), e] s).err = none) {id : Nat} (hid : id ∈ s.current)
    (hk : ∀ v ∈ s.globals.inWindow (s.heap id).lastOffset (s.heap id).offset, setting v = setting u → v.kind = u.kind) :
    ∃ p, p.start = (s.heap id).offset ∧ PlayedAs e p ∧ ((update [.leaf (.attr u), e] s).s.heap id).offset = (s.heap id).offset + p.length ∧
      sounds (update [.leaf (.attr u), e] s).s (s.heap id).origin = sounds s (s.heap id).origin ++ p.sounds ∧
      SameValue (setting u) p.attrs (change u (attributesAt s id)) := by
  have hm : ∀ x ∈ [Upd.leaf (.attr u), e], Melodic x := by
    intro x hx
    rcases List.mem_cons.1 hx with rfl | hx
    · trivial
    · simp only [List.mem_singleton] at hx
      subst hx
      match x, he with
      | .leaf (.note _ _ _), _ | .leaf (.rest _), _ => trivial
  obtain ⟨hcur, hg⟩ := track_of_line hr _ hm h hid
  simp only [Track.list, Track.listWith, Track.updWith, Track.leaf, Track.attr] at hg
  split at hg
  · cases hg
  · rename_i q hq
    simp only [Option.bind_some] at hg
    generalize ht : (trackOf s id).set { q with override := some u } = t at hg
    have hc' : t.chordMode = false := by rw [← ht]; exact hc
    cases he' : Track.updWith (Track.listWith (fun _ _ => none)) e t with
    | none => rw [he'] at hg; cases hg
    | some w =>
      rw [he'] at hg
      simp only [Option.bind_some, Option.some.injEq] at hg
      obtain ⟨p, pp⟩ := melodic_played (hm e (by simp)) hc' he'
      obtain ⟨c, d1, d2, d3, d4, d5⟩ := pp.due he
      have hch := applyGlobals_changes d1
      obtain ⟨k1, k2⟩ := updatePart_change hq
      obtain ⟨t1, t2, _⟩ := updatePart_timing hq
      have ho : t.cell.offset = (s.heap id).offset := by rw [← ht]; exact t1
      have hl : t.cell.lastOffset = (s.heap id).lastOffset := by rw [← ht]; exact t2
      have hsn := pp.sounds
      rw [hg, sounds_trackOf, update_origin hr _ (hr.wf.cur_lt id hid)] at hsn
      refine ⟨p, pp.start.trans ho, pp.as, ?_, ?_, ?_⟩
      · have := pp.stop
        rw [hg, ho] at this
        exact this
      · rw [hsn]
        have : t.sounds = (trackOf s id).sounds := by rw [← ht]; rfl
        rw [this, sounds_trackOf]
      · rw [d2, hch]
        refine sameValue_trans (changes_other (setting u) _ _ ?_) ?_
        · intro v hv
          unfold notOverridden at hv
          obtain ⟨hv1, hv2⟩ := List.mem_filter.1 hv
          rw [hl, ho] at hv1
          have hgl : t.globals = s.globals := by rw [← ht]; rfl
          rw [hgl] at hv1
          have hov : t.cell.override = some u := by rw [← ht]; rfl
          rw [hov] at hv2
          intro hset
          have := hk v hv1 hset
          simp only [Option.map_some, ne_eq, decide_not, Bool.not_eq_eq_eq_not, Bool.not_true, decide_eq_false_iff_not, Option.some.injEq] at hv2
          exact hv2 this.symm
        · have : attributes t.cell = change u (attributesAt s id) := by
            rw [← ht]
            exact k1
          rw [this]
          exact sameValue_refl _ _

/-- The full claim is false: a part that sets its tempo and then its volume right before a note where a global tempo change is due plays the note at the global tempo, because only the last
own change is remembered: `(tempo! 60)` at the beginning, then `piano: (tempo 240) (vol 50) c4` lasts 1000 ms; without the volume it lasts 250 ms. -/
theorem c19_two_changes_witness :
    let c : Upd := .leaf (.note (.letter .C none) [] true)
    let s := (update [.leaf (.globalAttr (.tempo 60)), .partDecl ["piano"] ""] newScore).s
    (update [.leaf (.attr (.tempo 240)), .leaf (.attr (.volume (1/2))), c] s).s.events.map (·.duration) = [1000] ∧
    (update [.leaf (.attr (.tempo 240)), c] s).s.events.map (·.duration) = [250] := by decide +kernel

/-- And a global dynamic marking beats a part's own volume. -/
theorem c19_other_kind_witness :
    let c : Upd := .leaf (.note (.letter .C none) [] true)
    let s := (update [.leaf (.globalAttr (.dynamic "ffffff")), .partDecl ["piano"] ""] newScore).s
    (update [.leaf (.attr (.volume (1/10))), c] s).s.events.map (·.volume) = [1] := by decide +kernel

/-- Going back to a marker makes the changes on the way due again: `(octave-up!)` half a second after the beginning is applied twice to a part that plays the passage twice. -/
theorem c18_backward_witness :
    let c : Upd := .leaf (.note (.letter .C none) [] true)
    (update [.partDecl ["piano"] "", .marker "start", c, .leaf (.globalAttr .octaveUp), c, .atMarker "start", c, c] newScore).s.events.map (·.note) =
      [60, 72, 72, 84] := by decide +kernel

/-- A tempo change and a metric modulation at the beginning, and an octave change after one second: `(tempo! 60) (metric-modulation! 2)`, then `piano: (quant 50) c c (octave-up!)`
and back to the violin. -/
def demoGlobals : List Upd :=
  [.leaf (.globalAttr (.tempo 60)), .leaf (.globalAttr (.metricModulation 2)), .partDecl ["piano"] "", .leaf (.note (.letter .C none) [] false),
   .leaf (.note (.letter .C none) [] false), .leaf (.globalAttr .octaveUp), .partDecl ["violin"] "", .leaf (.attr (.quantization 1))]

/-- The hypotheses of C18 hold for the violin, whose second event is a rest over the octave change; its last note is an octave higher. -/
example :
    let s := (update demoGlobals newScore).s
    let es : List Upd := [.leaf (.note (.letter .C none) [] false), .leaf (.rest [.length 2 0]), .leaf (.note (.letter .C none) [] false)]
    Reachable s ∧ s.chordMode = false ∧ (∀ e ∈ es, Sounding e) ∧ (update es s).err = none ∧ 1 ∈ s.current ∧
    Forward (s.heap 1).lastOffset [0, 500, 1500] ∧ (sounds (update es s).s 1).map (fun x => (x.note, x.start)) = [(60, 0), (72, 1500)] := by
  refine ⟨⟨_, rfl⟩, by decide +kernel, by simp [Sounding], by decide +kernel, by decide +kernel, ?_, by decide +kernel⟩
  have : (((update demoGlobals newScore).s).heap 1).lastOffset = -1 := by decide +kernel
  rw [this]
  unfold Forward
  decide +kernel

/-- The hypotheses of C19 hold for it: the violin's own tempo wins over the global one. -/
example :
    let s := (update [.leaf (.globalAttr (.tempo 60)), .partDecl ["violin"] ""] newScore).s
    let e : Upd := .leaf (.note (.letter .C none) [] true)
    Reachable s ∧ s.chordMode = false ∧ Sounding e ∧ (update [.leaf (.attr (.tempo 240)), e] s).err = none ∧ 0 ∈ s.current ∧
    (s.globals.inWindow (s.heap 0).lastOffset (s.heap 0).offset).map PartUpd.kind = [.tempo] ∧
    (∀ v ∈ s.globals.inWindow (s.heap 0).lastOffset (s.heap 0).offset, setting v = setting (.tempo 240) → v.kind = (PartUpd.tempo 240).kind) := by
  have hk : ((update [.leaf (.globalAttr (.tempo 60)), .partDecl ["violin"] ""] newScore).s.globals.inWindow
      ((update [.leaf (.globalAttr (.tempo 60)), .partDecl ["violin"] ""] newScore).s.heap 0).lastOffset
      ((update [.leaf (.globalAttr (.tempo 60)), .partDecl ["violin"] ""] newScore).s.heap 0).offset).map PartUpd.kind = [.tempo] := by decide +kernel
  refine ⟨⟨_, rfl⟩, by decide +kernel, trivial, by decide +kernel, by decide +kernel, hk, ?_⟩
  intro v hv _
  have := List.mem_map_of_mem (f := PartUpd.kind) hv
  rw [hk] at this
  exact List.mem_singleton.1 this

end Alda
