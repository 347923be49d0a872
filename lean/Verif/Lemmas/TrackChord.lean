import Verif.Lemmas.TrackLine
/-!
What a chord does to a track.
-/
namespace Alda
open Spec

/-- How a track changes while a member of a chord is played. -/
structure Member (e : Upd) (t t' : Track) (p : Play) : Prop where
  start : p.start = t.cell.offset
  offset : t'.cell.offset = t.cell.offset
  sounds : t'.sounds = t.sounds ++ p.sounds
  as : PlayedAs e p
  mode : t'.chordMode = true
  attrs : p.attrs = attributes t.cell
  default1 : Sounding e → p.length = lengthFor (attributes t'.cell) []
  default2 : ¬ Sounding e → lengthFor (attributes t'.cell) [] = lengthFor (attributes t.cell) []

theorem advance_chord (ms : Rat) (d : Dur) (t : Track) (hc : t.chordMode = true) :
    Track.advance ms d t = { t with cell := (updateDefaultDuration t.cell d).bare } := by
  unfold Track.advance Track.set; rw [hc]; rfl

theorem default_after (p : Part) (d : Dur) :
    lengthFor (attributes p) d = lengthFor (attributes (updateDefaultDuration p (effectiveDuration d p)).bare) [] := by
  have h := dur_advance p d
  rw [lastWritten_one] at h
  obtain ⟨_, _, f3, f4, _⟩ := updateDefault_fields p (effectiveDuration d p)
  unfold lengthFor attributes
  simp only [Part.bare]
  rw [f3, f4, h]
  cases d <;> rfl

theorem note_member (pi : Pitch) (d : Dur) (sl : Bool) {t t' : Track} (hc : t.chordMode = true) (h : Track.leaf (.note pi d sl) t = some t') :
    ∃ p, Member (.leaf (.note pi d sl)) t t' p := by
  simp only [Track.leaf] at h
  unfold Track.beforeNote at h
  rw [hc] at h
  simp only [if_true, Option.bind_some] at h
  split at h
  · rw [Option.bind_some] at h
    unfold Track.note at h
    simp only at h
    split at h
    · simp at h
    · rename_i ms hms
      have hlen := effective_length hms
      generalize ms * t.cell.timeScale = len at h hlen
      have fin : ∀ u2 : Track, u2.cell = t.cell → u2.chordMode = true →
          ∀ p : Play, p.start = t.cell.offset → p.length = len → p.attrs = attributes t.cell → u2.sounds = t.sounds ++ p.sounds →
          PlayedAs (.leaf (.note pi d sl)) p →
          some (Track.advance len (effectiveDuration d t.cell) u2) = some t' → Member (.leaf (.note pi d sl)) t t' p := by
        intro u2 h1 h2 p p1 p2 p3 p4 p5 h
        simp only [Option.some.injEq] at h
        rw [advance_chord _ _ _ h2, h1] at h
        obtain ⟨f1, f2, f3, f4, f5⟩ := updateDefault_fields t.cell (effectiveDuration d t.cell)
        subst h
        refine ⟨p1, f1, p4, p5, h2, p3, ?_, fun hn => absurd trivial hn⟩
        intro _
        rw [p2, hlen]; exact default_after _ _
      by_cases ha : (if sl = true then len else len * t.cell.quant) > 0
      · rw [if_pos ha] at h
        cases he : Track.emit pi len (if sl = true then len else len * t.cell.quant) t with
        | none => rw [he] at h; simp at h
        | some u2 =>
          rw [he, Option.bind_some] at h
          unfold Track.emit at he
          simp only at he
          split at he
          · simp at he
          · simp only [Option.some.injEq] at he
            refine ⟨⟨t.cell.offset, len, [⟨calculateMidiNote pi t.cell.octave t.cell.keySig t.cell.transposition, t.cell.offset, len, (if sl = true then len else len * t.cell.quant), t.cell.volume, t.cell.trackVolume, t.cell.panning⟩], attributes t.cell⟩, ?_⟩
            refine fin u2 (by subst he; rfl) (by subst he; exact hc) _ rfl rfl rfl ?_ ?_ h
            · subst he; simp [Track.sounds, soundOf]
            · refine ⟨hlen, ?_⟩
              show if (if sl = true then len else len * t.cell.quant) > 0 then _ else _
              rw [if_pos ha]
              exact ⟨calculateMidiNote pi t.cell.octave t.cell.keySig t.cell.transposition, calculateMidiNote_pitch pi t.cell, rfl⟩
      · rw [if_neg ha, Option.bind_some] at h
        refine ⟨⟨t.cell.offset, len, [], attributes t.cell⟩, ?_⟩
        refine fin t rfl hc _ rfl rfl rfl (by simp) ?_ h
        refine ⟨hlen, ?_⟩
        show if (if sl = true then len else len * t.cell.quant) > 0 then _ else _
        rw [if_neg ha]
  · simp at h

theorem rest_member (d : Dur) {t t' : Track} (hc : t.chordMode = true) (h : Track.leaf (.rest d) t = some t') :
    ∃ p, Member (.leaf (.rest d)) t t' p := by
  simp only [Track.leaf] at h
  unfold Track.beforeNote at h
  rw [hc] at h
  simp only [if_true, Option.bind_some] at h
  split at h
  · rw [Option.bind_some] at h
    unfold Track.rest at h
    simp only at h
    split at h
    · simp at h
    · rename_i ms hms
      have hlen := effective_length hms
      generalize ms * t.cell.timeScale = len at h hlen
      simp only [Option.some.injEq] at h
      rw [advance_chord _ _ _ hc] at h
      obtain ⟨f1, f2, f3, f4, f5⟩ := updateDefault_fields t.cell (effectiveDuration d t.cell)
      subst h
      refine ⟨⟨t.cell.offset, len, [], attributes t.cell⟩, rfl, f1, by simp [Track.sounds], ⟨hlen, rfl⟩, hc, rfl, ?_, fun hn => absurd trivial hn⟩
      intro _
      show len = _
      rw [hlen]; exact default_after _ _
  · simp at h

theorem attr_member (u : PartUpd) (hu : u.kind ∉ [AttrKind.duration, AttrKind.tempo, AttrKind.metricModulation]) {t t' : Track} (hc : t.chordMode = true)
    (h : Track.leaf (.attr u) t = some t') : ∃ p, Member (.leaf (.attr u)) t t' p := by
  simp only [List.mem_cons, List.not_mem_nil, or_false, not_or] at hu
  simp only [Track.leaf, Track.attr] at h
  split at h
  · simp at h
  · rename_i q hq
    simp only [Option.some.injEq] at h; subst h
    obtain ⟨a, b, c, d, e, f⟩ := updatePart_timing hq
    refine ⟨⟨t.cell.offset, 0, [], attributes t.cell⟩, rfl, a, by simp [Track.sounds, Track.set], ⟨rfl, rfl⟩, hc, rfl, fun hn => absurd hn id, ?_⟩
    intro _
    unfold lengthFor
    show total q.tempo (atoms q.dur) * q.timeScale = total t.cell.tempo (atoms t.cell.dur) * t.cell.timeScale
    rw [c, e hu.1, f hu.2.1 hu.2.2]

theorem member_ok {e : Upd} (he : ChordMember e) {deref : List Upd → Track → Option Track} {t t' : Track} (hc : t.chordMode = true)
    (h : Track.updWith deref e t = some t') : ∃ p, Member e t t' p := by
  match e, he with
  | .leaf (.note pi d sl), _ => simp only [Track.updWith] at h; exact note_member pi d sl hc h
  | .leaf (.rest d), _ => simp only [Track.updWith] at h; exact rest_member d hc h
  | .leaf (.attr u), hu => simp only [Track.updWith] at h; exact attr_member u hu hc h
  | .barline, _ =>
    simp only [Track.updWith, Option.some.injEq] at h; subst h
    exact ⟨⟨t.cell.offset, 0, [], attributes t.cell⟩, rfl, rfl, by simp, ⟨rfl, rfl⟩, hc, rfl, fun hn => absurd hn id, fun _ => rfl⟩

/-- What is known about the members of a chord. -/
structure MembersOk (es : List Upd) (t t' : Track) (ps : List Play) : Prop where
  length : ps.length = es.length
  start : ∀ p ∈ ps, p.start = t.cell.offset
  offset : t'.cell.offset = t.cell.offset
  sounds : t'.sounds = t.sounds ++ ps.flatMap (·.sounds)
  as : ∀ (k : Nat) e p, es[k]? = some e → ps[k]? = some p → PlayedAs e p
  mode : t'.chordMode = true

theorem members_cons {e : Upd} {es : List Upd} {t u t' : Track} {p : Play} {ps : List Play} (pp : Member e t u p) (r : MembersOk es u t' ps) :
    MembersOk (e :: es) t t' (p :: ps) := by
  refine ⟨by simp [r.length], ?_, r.offset.trans pp.offset, ?_, ?_, r.mode⟩
  · intro q hq
    rcases List.mem_cons.1 hq with rfl | hq
    · exact pp.start
    · exact (r.start q hq).trans pp.offset
  · rw [r.sounds, pp.sounds, List.flatMap_cons, List.append_assoc]
  · intro k e' p' h1 h2
    cases k with
    | zero =>
      simp only [List.getElem?_cons_zero, Option.some.injEq] at h1 h2
      subst h1; subst h2; exact pp.as
    | succ k => simp only [List.getElem?_cons_succ] at h1 h2; exact r.as k e' p' h1 h2

theorem specified_eq_written (e : Upd) (he : ChordMember e) : specifiedDuration e = written e := by
  match e, he with
  | .leaf (.note pi d sl), _ | .leaf (.rest d), _ | .leaf (.attr u), _ | .barline, _ => rfl

theorem written_quiet {e : Upd} (hn : ¬ Sounding e) : written e = [] := by
  unfold written
  split
  · exact absurd trivial hn
  · exact absurd trivial hn
  · rfl

theorem played_length {e : Upd} (hs : Sounding e) {p : Play} (h : PlayedAs e p) : p.length = lengthFor p.attrs (written e) := by
  match e, hs with
  | .leaf (.note pi d sl), _ | .leaf (.rest d), _ => exact h.1

/-- Members after the first. -/
theorem chordWith_ok (deref : List Upd → Track → Option Track) : ∀ (es : List Upd) (x : Rat) (m' : Option Rat) (t t' : Track), (∀ e ∈ es, ChordMember e) → t.chordMode = true →
    x ≤ lengthFor (attributes t.cell) [] → Track.chordWith deref es (some x) t = some (m', t') →
    ∃ ps y, MembersOk es t t' ps ∧ m' = some y ∧ y ≤ x ∧ (∀ (k : Nat) e p, es[k]? = some e → ps[k]? = some p → Sounding e → y ≤ p.length) ∧
      (y = x ∨ ∃ (k : Nat) (e : Upd) (p : Play), es[k]? = some e ∧ ps[k]? = some p ∧ Sounding e ∧ y = p.length) := by
  intro es
  induction es with
  | nil =>
    intro x m' t t' _ hc hx h
    simp only [Track.chordWith, Option.some.injEq, Prod.mk.injEq] at h
    obtain ⟨rfl, rfl⟩ := h
    exact ⟨[], x, ⟨rfl, by simp, rfl, by simp, by simp, hc⟩, rfl, by grind, by simp, Or.inl rfl⟩
  | cons e es ih =>
    intro x m' t t' hm hc hx h
    simp only [Track.chordWith] at h
    split at h
    · simp at h
    · rename_i ms hms
      have he := hm e (List.mem_cons_self ..)
      have hlen := effective_length hms
      rw [specified_eq_written e he] at hlen
      rw [hlen] at h
      cases hu : Track.updWith deref e t with
      | none => rw [hu] at h; simp at h
      | some u =>
        rw [hu, Option.bind_some] at h
        obtain ⟨p, pp⟩ := member_ok he hc hu
        by_cases hs : Sounding e
        · have hl : p.length = lengthFor (attributes t.cell) (written e) := by rw [played_length hs pp.as, pp.attrs]
          rw [← hl] at h
          unfold minOpt at h
          obtain ⟨ps, y, r, h1, h2, h3, h4⟩ := ih _ m' u t' (fun e he => hm e (List.mem_cons_of_mem _ he)) pp.mode
            (by rw [← pp.default1 hs]; split <;> grind) h
          refine ⟨p :: ps, y, members_cons pp r, h1, by split at h2 <;> grind, ?_, ?_⟩
          · intro k e' p' k1 k2 k3
            cases k with
            | zero =>
              simp only [List.getElem?_cons_zero, Option.some.injEq] at k1 k2
              subst k1; subst k2; split at h2 <;> grind
            | succ k => simp only [List.getElem?_cons_succ] at k1 k2; exact h3 k e' p' k1 k2 k3
          · rcases h4 with h4 | ⟨k, e', p', k1, k2, k3, k4⟩
            · split at h4
              · exact Or.inr ⟨0, e, p, rfl, rfl, hs, h4⟩
              · exact Or.inl h4
            · exact Or.inr ⟨k + 1, e', p', k1, k2, k3, k4⟩
        · rw [written_quiet hs] at h
          unfold minOpt at h
          simp only at h
          rw [if_neg (by grind)] at h
          obtain ⟨ps, y, r, h1, h2, h3, h4⟩ := ih _ m' u t' (fun e he => hm e (List.mem_cons_of_mem _ he)) pp.mode
            (by rw [pp.default2 hs]; exact hx) h
          refine ⟨p :: ps, y, members_cons pp r, h1, h2, ?_, ?_⟩
          · intro k e' p' k1 k2 k3
            cases k with
            | zero =>
              simp only [List.getElem?_cons_zero, Option.some.injEq] at k1 k2
              subst k1; exact absurd k3 hs
            | succ k => simp only [List.getElem?_cons_succ] at k1 k2; exact h3 k e' p' k1 k2 k3
          · rcases h4 with h4 | ⟨k, e', p', k1, k2, k3, k4⟩
            · exact Or.inl h4
            · exact Or.inr ⟨k + 1, e', p', k1, k2, k3, k4⟩

/-- A whole chord. -/
theorem chord_ok {deref : List Upd → Track → Option Track} {e : Upd} {es : List Upd} (he : Sounding e) (hm : ∀ x ∈ e :: es, ChordMember x) {t t' : Track}
    (h : Track.updWith deref (.chord (e :: es)) t = some t') :
    ∃ (ps : List Play) (y : Rat), ps.length = (e :: es).length ∧ (∀ p ∈ ps, p.start = t.cell.offset) ∧ t'.sounds = t.sounds ++ ps.flatMap (·.sounds) ∧
      (∀ (k : Nat) e' p, (e :: es)[k]? = some e' → ps[k]? = some p → PlayedAs e' p) ∧ t'.chordMode = false ∧
      t'.cell.offset = t.cell.offset + y ∧ (∀ (k : Nat) e' p, (e :: es)[k]? = some e' → ps[k]? = some p → Sounding e' → y ≤ p.length) ∧
      (∃ (k : Nat) (e' : Upd) (p : Play), (e :: es)[k]? = some e' ∧ ps[k]? = some p ∧ Sounding e' ∧ y = p.length) := by
  simp only [Track.updWith] at h
  cases hg : Track.applyGlobals t with
  | none => rw [hg] at h; simp at h
  | some u =>
    rw [hg, Option.bind_some] at h
    obtain ⟨c, rfl, hcb, ho, _⟩ := applyGlobals_track hg
    cases hc : Track.chordWith deref (e :: es) none { t with cell := c, chordMode := true } with
    | none => rw [hc] at h; simp at h
    | some r =>
      obtain ⟨m', v⟩ := r
      rw [hc, Option.bind_some] at h
      simp only [Track.chordAdvance, Option.some.injEq] at h
      simp only [Track.chordWith] at hc
      split at hc
      · simp at hc
      · rename_i ms hms
        have hlen := effective_length hms
        rw [specified_eq_written e (hm e (List.mem_cons_self ..))] at hlen
        rw [hlen] at hc
        cases hu : Track.updWith deref e { t with cell := c, chordMode := true } with
        | none => rw [hu] at hc; simp at hc
        | some u =>
          rw [hu, Option.bind_some] at hc
          obtain ⟨p, pp⟩ := member_ok (hm e (List.mem_cons_self ..)) rfl hu
          have hl : p.length = lengthFor (attributes c) (written e) := by rw [played_length he pp.as, pp.attrs]
          rw [← hl] at hc
          simp only [minOpt] at hc
          obtain ⟨ps, y, r, h1, h2, h3, h4⟩ := chordWith_ok deref es p.length m' u v (fun e he => hm e (List.mem_cons_of_mem _ he)) pp.mode
            (by rw [← pp.default1 he]; grind) hc
          have R := members_cons pp r
          subst h
          refine ⟨p :: ps, y, R.length, ?_, R.sounds, R.as, rfl, ?_, ?_, ?_⟩
          · intro q hq; exact (R.start q hq).trans ho
          · show v.cell.offset + m'.getD maxFloat = _
            rw [h1, R.offset]; show c.offset + y = _; rw [ho]
          · intro k e' p' k1 k2 k3
            cases k with
            | zero =>
              simp only [List.getElem?_cons_zero, Option.some.injEq] at k1 k2
              subst k1; subst k2; exact h2
            | succ k => simp only [List.getElem?_cons_succ] at k1 k2; exact h3 k e' p' k1 k2 k3
          · rcases h4 with h4 | ⟨k, e', p', k1, k2, k3, k4⟩
            · exact ⟨0, e, p, rfl, rfl, he, h4⟩
            · exact ⟨k + 1, e', p', k1, k2, k3, k4⟩

end Alda
