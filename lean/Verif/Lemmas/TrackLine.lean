import Verif.Lemmas.SimAll
import Verif.Props.Duration
import Verif.Props.Pitch
/-!
What notes, rests and attribute changes do to a track.
-/
namespace Alda
open Spec

mutual
/-- Whenever the length of a duration is a number, it is the sum of the lengths of its parts. -/
theorem toMs_some (t : Rat) (c : DurComp) (x : Rat) (h : c.toMs t = some x) : x = total t (atomsOf c) := by
  cases c with
  | length d k =>
    simp only [DurComp.toMs, noteLengthBeats] at h
    split at h
    · simp at h
    · rename_i q hq
      split at hq
      · simp at hq
      · simp only [Option.some.injEq] at hq
        simp only [beatsMs] at h
        split at h
        · simp at h
        · simp only [Option.some.injEq] at h
          subst hq; subst h
          simp only [atomsOf, total, Atom.length]
          have hd := dotted_closed k
          grind
  | beats q =>
    simp only [DurComp.toMs, beatsMs] at h
    split at h
    · simp at h
    · simp only [Option.some.injEq] at h; subst h
      simp only [atomsOf, total, Atom.length]; grind
  | ms q => simp only [DurComp.toMs, Option.some.injEq] at h; subst h; simp only [atomsOf, total, Atom.length]; grind
  | seconds q => simp only [DurComp.toMs, Option.some.injEq] at h; subst h; simp only [atomsOf, total, Atom.length]; grind
  | nested cs => simp only [DurComp.toMs] at h; have := toMsFrom_some t cs 0 x h; simp only [atomsOf]; grind
  | barline => simp only [DurComp.toMs, Option.some.injEq] at h; subst h; simp [atomsOf, total]
theorem toMsFrom_some (t : Rat) (cs : List DurComp) (acc x : Rat) (h : Dur.toMsFrom t acc cs = some x) : x = acc + total t (atoms cs) := by
  cases cs with
  | nil => simp only [Dur.toMsFrom, Option.some.injEq] at h; subst h; simp only [atoms, total]; grind
  | cons c cs =>
    simp only [Dur.toMsFrom] at h
    split at h
    · simp at h
    · rename_i y hy
      have h1 := toMs_some t c y hy
      have h2 := toMsFrom_some t cs _ x h
      simp only [atoms]
      have : ∀ as bs : List Atom, total t (as ++ bs) = total t as + total t bs := by
        intro as bs
        induction as with
        | nil => simp only [List.nil_append, total]; grind
        | cons a as ih => simp only [List.cons_append, total, ih]; grind
      rw [this]; grind
end

theorem dur_toMs_some {d : Dur} {t x : Rat} (h : d.toMs t = some x) : x = total t (atoms d) := by
  have := toMsFrom_some t d 0 x h; grind

/-- Attribute changes leave the timing alone. -/
theorem updatePart_timing {u : PartUpd} {g : Bool} {p q : Part} (h : updatePart u g p = .ok q) :
    q.offset = p.offset ∧ q.lastOffset = p.lastOffset ∧ q.timeScale = p.timeScale ∧ q.repetition = p.repetition ∧
    (u.kind ≠ AttrKind.duration → q.dur = p.dur) ∧
    (u.kind ≠ AttrKind.tempo → u.kind ≠ AttrKind.metricModulation → q.tempo = p.tempo) := by
  cases u with
  | tempo t => cases g <;> simp only [updatePart, Except.ok.injEq, Bool.false_eq_true, if_false, if_true] at h <;> subst h <;> simp [Part.recordTempoValue, PartUpd.kind]
  | metricModulation t => cases g <;> simp only [updatePart, Except.ok.injEq, Bool.false_eq_true, if_false, if_true] at h <;> subst h <;> simp [Part.recordTempoValue, PartUpd.kind]
  | midiChannel n =>
    simp only [updatePart] at h
    split at h
    · simp at h
    · simp only [Except.ok.injEq] at h; subst h; simp
  | duration d => simp only [updatePart, Except.ok.injEq] at h; subst h; simp [PartUpd.kind]
  | _ => simp only [updatePart, Except.ok.injEq] at h; subst h; simp

theorem applyUpdates_timing (us : List PartUpd) : ∀ {p q : Part}, applyUpdates us p = (none, q) →
    q.offset = p.offset ∧ q.lastOffset = p.lastOffset ∧ q.timeScale = p.timeScale ∧ q.repetition = p.repetition ∧
    ((∀ u ∈ us, u.kind ≠ AttrKind.duration) → q.dur = p.dur) ∧
    ((∀ u ∈ us, u.kind ≠ AttrKind.tempo ∧ u.kind ≠ AttrKind.metricModulation) → q.tempo = p.tempo) := by
  induction us with
  | nil => intro p q h; simp only [applyUpdates, Prod.mk.injEq, true_and] at h; subst h; simp
  | cons u us ih =>
    intro p q h
    simp only [applyUpdates] at h
    split at h
    · obtain ⟨a, b, c, d, e, f⟩ := ih h
      exact ⟨a, b, c, d, fun hh => e (fun u hu => hh u (List.mem_cons_of_mem _ hu)), fun hh => f (fun u hu => hh u (List.mem_cons_of_mem _ hu))⟩
    · split at h
      · simp at h
      · rename_i p' hp'
        obtain ⟨a, b, c, d, e, f⟩ := ih h
        obtain ⟨a', b', c', d', e', f'⟩ := updatePart_timing hp'
        refine ⟨a.trans a', b.trans b', c.trans c', d.trans d', ?_, ?_⟩
        · intro hh
          exact (e (fun u hu => hh u (List.mem_cons_of_mem _ hu))).trans (e' (hh u (List.mem_cons_self ..)))
        · intro hh
          have := hh u (List.mem_cons_self ..)
          exact (f (fun u hu => hh u (List.mem_cons_of_mem _ hu))).trans (f' this.1 this.2)

/-- The sounds of a track. -/
def Track.sounds (t : Track) : List Sound := t.notes.map soundOf

theorem sounds_trackOf (s : Score) (id : Nat) : (trackOf s id).sounds = Spec.sounds s (s.heap id).origin := by
  unfold Track.sounds trackOf notesOf Spec.sounds
  simp only [List.map_map]
  apply List.map_congr_left
  intro e _; rfl

theorem attributes_bare (p : Part) : attributes p.bare = attributes p := rfl

theorem applyGlobals_track {t t' : Track} (h : Track.applyGlobals t = some t') :
    ∃ p, t' = { t with cell := p } ∧ p.bare = p ∧ p.offset = t.cell.offset ∧ p.lastOffset = t.cell.lastOffset ∧ p.timeScale = t.cell.timeScale ∧
    p.repetition = t.cell.repetition ∧
    (NoGlobal t.globals [.duration] → p.dur = t.cell.dur) ∧ (NoGlobal t.globals [.tempo, .metricModulation] → p.tempo = t.cell.tempo) ∧
    (NoGlobals t.globals → attributes p = attributes t.cell) := by
  unfold Track.applyGlobals at h
  split at h
  · simp at h
  · rename_i q hq
    simp only [Option.some.injEq] at h; subst h
    obtain ⟨a, b, c, d, e, f⟩ := applyUpdates_timing _ hq
    refine ⟨_, rfl, rfl, a, b, c, d, ?_, ?_, ?_⟩
    rotate_right
    · intro hn
      have h0 : t.globals.inWindow t.cell.lastOffset t.cell.offset = [] := by
        rw [List.eq_nil_iff_forall_not_mem]
        intro u hu
        obtain ⟨o, us, h1, h2⟩ := inWindowFrom_mem _ hu
        rw [hn o] at h1; simp at h1
      rw [h0] at hq
      simp only [applyUpdates, Prod.mk.injEq, true_and] at hq
      subst hq; rfl
    · intro hn
      refine e (fun u hu => ?_)
      obtain ⟨o, us, h1, h2⟩ := inWindowFrom_mem _ hu
      have := hn o us h1 u h2; simpa using this
    · intro hn
      refine f (fun u hu => ?_)
      obtain ⟨o, us, h1, h2⟩ := inWindowFrom_mem _ hu
      have := hn o us h1 u h2; simpa using this

theorem beforeNote_track {d : Dur} {t t' : Track} (hc : t.chordMode = false) (h : Track.beforeNote d t = some t') :
    Track.applyGlobals t = some t' ∧ d.valid = true := by
  unfold Track.beforeNote at h
  rw [hc] at h
  simp only [Bool.false_eq_true, if_false] at h
  cases hg : Track.applyGlobals t with
  | none => rw [hg] at h; simp at h
  | some u =>
    rw [hg] at h
    simp only [Option.bind_some] at h
    split at h
    · rename_i hv; simp only [Option.some.injEq] at h; subst h; exact ⟨rfl, hv⟩
    · simp at h

theorem effective_length {d : Dur} {p : Part} {ms : Rat} (h : (effectiveDuration d p).toMs p.tempo = some ms) :
    ms * p.timeScale = lengthFor (attributes p) d := by
  have := dur_toMs_some h
  subst this
  unfold lengthFor effectiveDuration attributes
  cases d <;> rfl

theorem advance_track (ms : Rat) (d : Dur) (t : Track) (hc : t.chordMode = false) :
    Track.advance ms d t = { t with cell := (updateDefaultDuration { t.cell with lastOffset := t.cell.offset, offset := t.cell.offset + ms } d).bare } := by
  unfold Track.advance Track.set; rw [hc]; rfl

/-- How a track changes while an event is played. -/
structure Played (e : Upd) (t t' : Track) (p : Play) : Prop where
  start : p.start = t.cell.offset
  stop : t'.cell.offset = t.cell.offset + p.length
  sounds : t'.sounds = t.sounds ++ p.sounds
  as : PlayedAs e p
  mode : t'.chordMode = t.chordMode
  globals : t'.globals = t.globals
  defaultDur : NoGlobal t.globals [.duration] → (∀ d, e ≠ .leaf (.attr (.duration d))) → t'.cell.dur = lastWritten t.cell.dur [written e] ∧ p.attrs.dur = t.cell.dur
  scale : t'.cell.timeScale = t.cell.timeScale ∧ p.attrs.timeScale = t.cell.timeScale
  tempo : NoGlobal t.globals [.tempo, .metricModulation] → p.attrs.tempo = t.cell.tempo ∧
    ((∀ x, e ≠ .leaf (.attr (.tempo x)) ∧ e ≠ .leaf (.attr (.metricModulation x))) → t'.cell.tempo = t.cell.tempo)
  attrs : NoGlobals t.globals → p.attrs = attributes t.cell
  due : Sounding e → ∃ c, Track.applyGlobals t = some { t with cell := c } ∧ p.attrs = attributes c ∧ t'.cell.lastOffset = t.cell.offset ∧
    t'.cell.override = none ∧ attributes t'.cell = { attributes c with dur := t'.cell.dur, position := t'.cell.offset }

theorem applyGlobals_override {t u : Track} (h : Track.applyGlobals t = some u) : u.cell.override = none := by
  unfold Track.applyGlobals at h
  split at h
  · cases h
  · simp only [Option.some.injEq] at h; subst h; rfl

theorem advanced_attributes {c : Part} (hc : c.override = none) (len : Rat) (d : Dur) :
    let q := (updateDefaultDuration { c with lastOffset := c.offset, offset := c.offset + len } d).bare
    q.lastOffset = c.offset ∧ q.override = none ∧ attributes q = { attributes c with dur := q.dur, position := q.offset } := by
  cases d <;> exact ⟨rfl, hc, rfl⟩

theorem calculateMidiNote_pitch (pi : Pitch) (p : Part) (h : InInt32 (soundingPitch (attributes p) pi)) :
    calculateMidiNote pi p.octave p.keySig p.transposition = soundingPitch (attributes p) pi := by
  match pi, h with
  | .letter l none, h => exact c05_key_signature l _ _ _ h
  | .letter l (some as), h => exact c05_written_accidentals l as _ _ _ h
  | .midi n, h => exact c05_midi_number n _ _ _ h

theorem lastWritten_one (d0 d : Dur) : lastWritten d0 [d] = match d with | [] => d0 | _ :: _ => d := by
  cases d <;> rfl

theorem dur_advance (p : Part) (d : Dur) : (updateDefaultDuration p (effectiveDuration d p)).dur = lastWritten p.dur [d] := by
  rw [lastWritten_one]
  cases d with
  | nil =>
    show (updateDefaultDuration p p.dur).dur = p.dur
    unfold updateDefaultDuration; split
    · rfl
    · rename_i h; exact h.symm ▸ rfl
  | cons c cs => rfl

theorem updateDefault_fields (p : Part) (d : Dur) : (updateDefaultDuration p d).offset = p.offset ∧ (updateDefaultDuration p d).lastOffset = p.lastOffset ∧
    (updateDefaultDuration p d).timeScale = p.timeScale ∧ (updateDefaultDuration p d).tempo = p.tempo ∧ (updateDefaultDuration p d).repetition = p.repetition := by
  cases d <;> exact ⟨rfl, rfl, rfl, rfl, rfl⟩

theorem note_played (pi : Pitch) (d : Dur) (sl : Bool) {t t' : Track} (hc : t.chordMode = false) (h : Track.leaf (.note pi d sl) t = some t') :
    ∃ p, Played (.leaf (.note pi d sl)) t t' p := by
  simp only [Track.leaf] at h
  cases hb : Track.beforeNote d t with
  | none => rw [hb] at h; simp at h
  | some u =>
    rw [hb, Option.bind_some] at h
    obtain ⟨hg, _⟩ := beforeNote_track hc hb
    obtain ⟨c, rfl, hcb, ho, hl, hts, hrep, hdur, htempo, hattrs⟩ := applyGlobals_track hg
    unfold Track.note at h
    simp only at h
    split at h
    · simp at h
    · rename_i ms hms
      have hlen := effective_length hms
      generalize ms * c.timeScale = len at h hlen
      have fin : ∀ u2 : Track, u2.cell = c → u2.chordMode = false → u2.globals = t.globals →
          ∀ p : Play, p.start = t.cell.offset → p.length = len → p.attrs = attributes c → u2.sounds = t.sounds ++ p.sounds →
          PlayedAs (.leaf (.note pi d sl)) p →
          some (Track.advance len (effectiveDuration d c) u2) = some t' → Played (.leaf (.note pi d sl)) t t' p := by
        intro u2 h1 h2 h3 p p1 p2 p3 p4 p5 h
        simp only [Option.some.injEq] at h
        rw [advance_track _ _ _ h2, h1] at h
        obtain ⟨f1, f2, f3, f4, f5⟩ := updateDefault_fields { c with lastOffset := c.offset, offset := c.offset + len } (effectiveDuration d c)
        subst h
        have hadv := advanced_attributes (applyGlobals_override hg) len (effectiveDuration d c)
        refine ⟨p1, ?_, p4, p5, h2.trans hc.symm, h3, ?_, ?_, ?_, fun hn => p3.trans (hattrs hn),
          fun _ => ⟨c, hg, p3, hadv.1.trans ho, hadv.2.1, hadv.2.2⟩⟩
        · rw [p2]
          show (updateDefaultDuration _ _).offset = _
          rw [f1]; show c.offset + len = _; rw [ho]
        · intro hn _
          rw [p3]
          refine ⟨?_, hdur hn⟩
          show (updateDefaultDuration _ _).dur = _
          have := dur_advance { c with lastOffset := c.offset, offset := c.offset + len } d
          rw [← hdur hn]
          exact this
        · rw [p3]; exact ⟨by show (updateDefaultDuration _ _).timeScale = _; rw [f3]; exact hts, hts⟩
        · intro hn
          rw [p3]
          exact ⟨htempo hn, fun _ => by show (updateDefaultDuration _ _).tempo = _; rw [f4]; exact htempo hn⟩
      by_cases ha : (if sl = true then len else len * c.quant) > 0
      · rw [if_pos ha] at h
        cases he : Track.emit pi len (if sl = true then len else len * c.quant) { t with cell := c } with
        | none => rw [he] at h; simp at h
        | some u2 =>
          rw [he, Option.bind_some] at h
          unfold Track.emit at he
          simp only at he
          split at he
          · simp at he
          · simp only [Option.some.injEq] at he
            refine ⟨⟨t.cell.offset, len, [⟨calculateMidiNote pi c.octave c.keySig c.transposition, c.offset, len, (if sl = true then len else len * c.quant), c.volume, c.trackVolume, c.panning⟩], attributes c⟩, ?_⟩
            refine fin u2 (by subst he; rfl) (by subst he; exact hc) (by subst he; rfl) _ rfl rfl rfl ?_ ?_ h
            · subst he; simp [Track.sounds, soundOf]
            · refine ⟨hlen, ?_⟩
              show if (if sl = true then len else len * c.quant) > 0 then _ else _
              rw [if_pos ha]
              exact ⟨calculateMidiNote pi c.octave c.keySig c.transposition, calculateMidiNote_pitch pi c, by rw [ho]; rfl⟩
      · rw [if_neg ha, Option.bind_some] at h
        refine ⟨⟨t.cell.offset, len, [], attributes c⟩, ?_⟩
        refine fin { t with cell := c } rfl hc rfl _ rfl rfl rfl (by simp [Track.sounds]) ?_ h
        refine ⟨hlen, ?_⟩
        show if (if sl = true then len else len * c.quant) > 0 then _ else _
        rw [if_neg ha]

theorem rest_played (d : Dur) {t t' : Track} (hc : t.chordMode = false) (h : Track.leaf (.rest d) t = some t') :
    ∃ p, Played (.leaf (.rest d)) t t' p := by
  simp only [Track.leaf] at h
  cases hb : Track.beforeNote d t with
  | none => rw [hb] at h; simp at h
  | some u =>
    rw [hb, Option.bind_some] at h
    obtain ⟨hg, _⟩ := beforeNote_track hc hb
    obtain ⟨c, rfl, hcb, ho, hl, hts, hrep, hdur, htempo, hattrs⟩ := applyGlobals_track hg
    unfold Track.rest at h
    simp only at h
    split at h
    · simp at h
    · rename_i ms hms
      have hlen := effective_length hms
      generalize ms * c.timeScale = len at h hlen
      simp only [Option.some.injEq] at h
      rw [advance_track _ _ { t with cell := c } hc] at h
      obtain ⟨f1, f2, f3, f4, f5⟩ := updateDefault_fields { c with lastOffset := c.offset, offset := c.offset + len } (effectiveDuration d c)
      subst h
      have hadv := advanced_attributes (applyGlobals_override hg) len (effectiveDuration d c)
      refine ⟨⟨t.cell.offset, len, [], attributes c⟩, rfl, ?_, by simp [Track.sounds], ⟨hlen, rfl⟩, rfl, rfl, ?_, ?_, ?_, hattrs,
        fun _ => ⟨c, hg, rfl, hadv.1.trans ho, hadv.2.1, hadv.2.2⟩⟩
      · show (updateDefaultDuration _ _).offset = _
        rw [f1]; show c.offset + len = _; rw [ho]
      · intro hn _
        refine ⟨?_, hdur hn⟩
        show (updateDefaultDuration _ _).dur = _
        have := dur_advance { c with lastOffset := c.offset, offset := c.offset + len } d
        rw [← hdur hn]
        exact this
      · exact ⟨by show (updateDefaultDuration _ _).timeScale = _; rw [f3]; exact hts, hts⟩
      · intro hn
        exact ⟨htempo hn, fun _ => by show (updateDefaultDuration _ _).tempo = _; rw [f4]; exact htempo hn⟩

theorem attr_played (u : PartUpd) {t t' : Track} (h : Track.leaf (.attr u) t = some t') :
    ∃ p, Played (.leaf (.attr u)) t t' p := by
  simp only [Track.leaf, Track.attr] at h
  split at h
  · simp at h
  · rename_i q hq
    simp only [Option.some.injEq] at h; subst h
    obtain ⟨a, b, c, d, e, f⟩ := updatePart_timing hq
    refine ⟨⟨t.cell.offset, 0, [], attributes t.cell⟩, rfl, ?_, by simp [Track.sounds, Track.set], ⟨rfl, rfl⟩, rfl, rfl, ?_, ⟨c, rfl⟩, ?_, fun _ => rfl, fun h => h.elim⟩
    · show q.offset = t.cell.offset + 0; rw [a]; grind
    · intro _ hd
      refine ⟨?_, rfl⟩
      show q.dur = t.cell.dur
      refine e ?_
      cases u <;> simp [PartUpd.kind]
      rename_i d; exact (hd d) rfl
    · intro _
      refine ⟨rfl, fun hx => ?_⟩
      refine f ?_ ?_ <;> cases u <;> simp [PartUpd.kind]
      · rename_i x; exact (hx x).1 rfl
      · rename_i x; exact (hx x).2 rfl

theorem melodic_played {e : Upd} (he : Melodic e) {t t' : Track} (hc : t.chordMode = false) (h : Track.upd e t = some t') :
    ∃ p, Played e t t' p := by
  unfold Track.upd at h
  match e, he with
  | .leaf (.note pi d sl), _ => simp only [Track.updWith] at h; exact note_played pi d sl hc h
  | .leaf (.rest d), _ => simp only [Track.updWith] at h; exact rest_played d hc h
  | .leaf (.attr u), _ => simp only [Track.updWith] at h; exact attr_played u h
  | .barline, _ =>
    simp only [Track.updWith, Option.some.injEq] at h; subst h
    refine ⟨⟨t.cell.offset, 0, [], attributes t.cell⟩, rfl, by grind, by simp, ⟨rfl, rfl⟩, rfl, rfl, fun _ _ => ⟨rfl, rfl⟩, ⟨rfl, rfl⟩, fun _ => ⟨rfl, fun _ => rfl⟩, fun _ => rfl, fun h => h.elim⟩

/-- Nothing ever changes which instrument an allocated part belongs to. -/
theorem update_origin {s : Score} (hr : Reachable s) (es : List Upd) {id : Nat} (hid : id < s.next) :
    ((update es s).s.heap id).origin = (s.heap id).origin := by
  have st := update_all_steps es s hr.good
  have : WF (update es s).s ∧ s.next ≤ (update es s).s.next ∧ ((update es s).s.heap id).origin = (s.heap id).origin := by
    refine Steps.invariant (I := fun u => WF u ∧ s.next ≤ u.next ∧ (u.heap id).origin = (s.heap id).origin) ?_ st ⟨hr.wf, Nat.le_refl _, rfl⟩
    intro u v huv ⟨w, hn, ho⟩
    obtain ⟨h1, h2⟩ := huv.stable w
    exact ⟨huv.wf w, Nat.le_trans hn h1, (h2 id (by omega)).1.trans ho⟩
  exact this.2.2

end Alda
