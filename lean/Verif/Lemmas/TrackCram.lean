import Verif.Lemmas.TrackVoices
import Verif.Lemmas.TrackChord
import Verif.Spec.Cram
/-!
The predicted length of events is the length they have when they are played.
-/
namespace Alda
open Spec

/-- The global changes have nothing to do with time. -/
abbrev Timeless (g : GlobalAttributes) : Prop := NoGlobal g [.duration] ∧ NoGlobal g [.tempo, .metricModulation]

/-- `p` is the copy of the part used for the prediction, `b` says whether its default duration is known to be right. -/
structure Agree (b : Bool) (p : Part) (t : Track) : Prop where
  tempo : p.tempo = t.cell.tempo
  tempo_pos : 0 < t.cell.tempo
  repetition : p.repetition = t.cell.repetition
  dur : b = true → p.dur = t.cell.dur
  pos1 : 0 < total t.cell.tempo (atoms p.dur)
  pos2 : 0 < total t.cell.tempo (atoms t.cell.dur)
  scale : 0 ≤ t.cell.timeScale
  globals : Timeless t.globals

theorem Agree.weaken {b b' : Bool} (h : b' = true → b = true) {p : Part} {t : Track} (a : Agree b p t) : Agree b' p t :=
  ⟨a.tempo, a.tempo_pos, a.repetition, fun k => a.dur (h k), a.pos1, a.pos2, a.scale, a.globals⟩

/-- The time of a track went on by `x` (unscaled). -/
structure Went (t t' : Track) (x : Rat) : Prop where
  offset : t'.cell.offset = t.cell.offset + x * t.cell.timeScale
  scale : t'.cell.timeScale = t.cell.timeScale
  mode : t'.chordMode = t.chordMode
  nonneg : 0 ≤ x

theorem Went.zero {t t' : Track} (h1 : t'.cell.offset = t.cell.offset) (h2 : t'.cell.timeScale = t.cell.timeScale) (h3 : t'.chordMode = t.chordMode) :
    Went t t' 0 := ⟨by rw [h1]; grind, h2, h3, Rat.le_refl⟩

theorem Went.trans {t u v : Track} {x y : Rat} (a : Went t u x) (b : Went u v y) : Went t v (x + y) :=
  ⟨by rw [b.offset, a.offset, a.scale]; grind, b.scale.trans a.scale, b.mode.trans a.mode, by have := a.nonneg; have := b.nonneg; grind⟩

theorem proper_pos {d : Dur} {tempo : Rat} (h : properDur d = true) (ht : 0 < tempo) : 0 < total tempo (atoms d) := by
  simp only [properDur, Bool.and_eq_true, Bool.not_eq_true', List.isEmpty_eq_false_iff] at h
  obtain ⟨x, hx, hp⟩ := c08_positive d tempo ht h.1 h.2
  rw [c08_duration_is_sum d tempo ht h.1, Option.some.injEq] at hx
  rw [hx]; exact hp

/-- What a note or rest does with the time. -/
theorem timed_leaf {l : Leaf} {d : Dur} (hl : (∃ pi sl, l = .note pi d sl) ∨ l = .rest d) {t t' : Track} (hg : Timeless t.globals) (h : Track.leaf l t = some t') :
    ∃ ms, (effectiveDuration d t.cell).toMs t.cell.tempo = some ms ∧ t'.cell.tempo = t.cell.tempo ∧ t'.cell.timeScale = t.cell.timeScale ∧
      t'.cell.repetition = t.cell.repetition ∧ t'.globals = t.globals ∧ t'.chordMode = t.chordMode ∧ t'.cell.dur = lastWritten t.cell.dur [d] ∧
      t'.cell.offset = (if t.chordMode then t.cell.offset else t.cell.offset + ms * t.cell.timeScale) := by
  have before : ∀ u, Track.beforeNote d t = some u → u.globals = t.globals ∧ u.chordMode = t.chordMode ∧ u.cell.offset = t.cell.offset ∧
      u.cell.timeScale = t.cell.timeScale ∧ u.cell.repetition = t.cell.repetition ∧ u.cell.dur = t.cell.dur ∧ u.cell.tempo = t.cell.tempo := by
    intro u hu
    unfold Track.beforeNote at hu
    obtain ⟨v, h1, h2⟩ := bind_some_iff hu
    split at h2
    · simp only [Option.some.injEq] at h2; subst h2
      split at h1
      · simp only [Option.some.injEq] at h1; subst h1; exact ⟨rfl, rfl, rfl, rfl, rfl, rfl, rfl⟩
      · obtain ⟨p, rfl, _, a, _, b, c, e, f, _⟩ := applyGlobals_track h1
        exact ⟨rfl, rfl, a, b, c, e hg.1, f hg.2⟩
    · simp at h2
  have after : ∀ (u v : Track) (ms : Rat), u.cell = v.cell → u.chordMode = v.chordMode → u.globals = v.globals →
      some (Track.advance (ms * v.cell.timeScale) (effectiveDuration d v.cell) u) = some t' →
      t'.cell.tempo = v.cell.tempo ∧ t'.cell.timeScale = v.cell.timeScale ∧ t'.cell.repetition = v.cell.repetition ∧ t'.globals = v.globals ∧ t'.chordMode = v.chordMode ∧
        t'.cell.dur = lastWritten v.cell.dur [d] ∧ t'.cell.offset = (if v.chordMode then v.cell.offset else v.cell.offset + ms * v.cell.timeScale) := by
    intro u v ms h1 h2 h3 h4
    simp only [Option.some.injEq] at h4
    unfold Track.advance Track.set at h4
    rw [h1, h2] at h4
    cases hc : v.chordMode with
    | true =>
      rw [hc] at h4
      obtain ⟨f1, f2, f3, f4, f5⟩ := updateDefault_fields v.cell (effectiveDuration d v.cell)
      have f6 := dur_advance v.cell d
      subst h4
      exact ⟨f4, f3, f5, h3, rfl, f6, f1⟩
    | false =>
      rw [hc] at h4
      obtain ⟨f1, f2, f3, f4, f5⟩ := updateDefault_fields { v.cell with lastOffset := v.cell.offset, offset := v.cell.offset + ms * v.cell.timeScale } (effectiveDuration d v.cell)
      have f6 := dur_advance { v.cell with lastOffset := v.cell.offset, offset := v.cell.offset + ms * v.cell.timeScale } d
      subst h4
      exact ⟨f4, f3, f5, h3, rfl, f6, f1⟩
  have fin : ∀ (v : Track) (ms : Rat), Track.beforeNote d t = some v → (effectiveDuration d v.cell).toMs v.cell.tempo = some ms →
      ∀ u : Track, u.cell = v.cell → u.chordMode = v.chordMode → u.globals = v.globals →
      some (Track.advance (ms * v.cell.timeScale) (effectiveDuration d v.cell) u) = some t' →
      ∃ ms, (effectiveDuration d t.cell).toMs t.cell.tempo = some ms ∧ t'.cell.tempo = t.cell.tempo ∧ t'.cell.timeScale = t.cell.timeScale ∧
      t'.cell.repetition = t.cell.repetition ∧ t'.globals = t.globals ∧ t'.chordMode = t.chordMode ∧ t'.cell.dur = lastWritten t.cell.dur [d] ∧
      t'.cell.offset = (if t.chordMode then t.cell.offset else t.cell.offset + ms * t.cell.timeScale) := by
    intro v ms hv hms u u1 u2 u3 h4
    obtain ⟨b1, b2, b3, b4, b5, b6, b7⟩ := before v hv
    obtain ⟨a1, a2, a3, a4, a5, a6, a7⟩ := after u v ms u1 u2 u3 h4
    refine ⟨ms, ?_, a1.trans b7, a2.trans b4, a3.trans b5, a4.trans b1, a5.trans b2, by rw [a6, b6], by rw [a7, b2, b3, b4]⟩
    rw [← hms, b7]
    unfold effectiveDuration; rw [b6]
  rcases hl with ⟨pi, sl, rfl⟩ | rfl
  · simp only [Track.leaf] at h
    obtain ⟨v, hv, h2⟩ := bind_some_iff h
    unfold Track.note at h2
    simp only at h2
    split at h2
    · simp at h2
    · rename_i ms hms
      obtain ⟨u, h3, h4⟩ := bind_some_iff h2
      clear h2
      have : u.cell = v.cell ∧ u.chordMode = v.chordMode ∧ u.globals = v.globals := by
        generalize (if sl = true then _ else _) = a at h3
        split at h3
        · unfold Track.emit at h3
          simp only at h3
          split at h3
          · simp at h3
          · simp only [Option.some.injEq] at h3; subst h3; exact ⟨rfl, rfl, rfl⟩
        · simp only [Option.some.injEq] at h3; subst h3; exact ⟨rfl, rfl, rfl⟩
      exact fin v ms hv hms u this.1 this.2.1 this.2.2 h4
  · simp only [Track.leaf] at h
    obtain ⟨v, hv, h2⟩ := bind_some_iff h
    unfold Track.rest at h2
    simp only at h2
    split at h2
    · simp at h2
    · rename_i ms hms
      exact fin v ms hv hms v rfl rfl rfl h2

/-- An attribute change that has nothing to do with time. -/
theorem untimed_attr {u : PartUpd} (hu : timeKind u.kind = false) {t t' : Track} (h : Track.leaf (.attr u) t = some t') :
    t'.cell.tempo = t.cell.tempo ∧ t'.cell.timeScale = t.cell.timeScale ∧ t'.cell.repetition = t.cell.repetition ∧ t'.globals = t.globals ∧
      t'.chordMode = t.chordMode ∧ t'.cell.dur = t.cell.dur ∧ t'.cell.offset = t.cell.offset := by
  simp only [timeKind, List.mem_cons, List.not_mem_nil, or_false, decide_eq_false_iff_not, not_or] at hu
  simp only [Track.leaf, Track.attr] at h
  split at h
  · simp at h
  · rename_i q hq
    simp only [Option.some.injEq] at h; subst h
    obtain ⟨a, b, c, d, e, f⟩ := updatePart_timing hq
    exact ⟨f hu.2.1 hu.2.2, c, d, rfl, rfl, e hu.1, a⟩

/-- The prediction for a note or rest. -/
theorem predicted_sounding {b b' : Bool} {l : Leaf} {d : Dur} (hl : (∃ pi sl, l = .note pi d sl) ∨ l = .rest d) (hs : settledLeaf b l = some b') {p p' : Part} {t t' : Track}
    {x : Rat} (ag : Agree b p t) (hd : leafDurMs l p = some (x, p')) (h : Track.leaf l t = some t') :
    b' = true ∧ Agree true p' t' ∧ 0 < x ∧ (effectiveDuration d t.cell).toMs t.cell.tempo = some x ∧ t'.cell.timeScale = t.cell.timeScale ∧ t'.chordMode = t.chordMode ∧
    t'.cell.offset = (if t.chordMode then t.cell.offset else t.cell.offset + x * t.cell.timeScale) ∧ x = total t'.cell.tempo (atoms t'.cell.dur) := by
  obtain ⟨ms, a1, a2, a3, a4, a5, a6, a7, a8⟩ := timed_leaf hl ag.globals h
  rw [lastWritten_one] at a7
  have hd' : (match (effectiveDuration d p).toMs p.tempo with | none => none | some ms => some (ms, updateDefaultDuration p d)) = some (x, p') := by
    rcases hl with ⟨pi, sl, rfl⟩ | rfl <;> exact hd
  have hs' : (match d with | [] => if b then some true else none | c :: cs => if properDur (c :: cs) then some true else none) = some b' := by
    rcases hl with ⟨pi, sl, rfl⟩ | rfl <;> cases d <;> exact hs
  cases d with
  | nil =>
    simp only at hs'
    split at hs'
    · rename_i hb
      simp only [Option.some.injEq] at hs'
      have e := ag.dur hb
      simp only [effectiveDuration] at hd' a1
      rw [ag.tempo, e, a1] at hd'
      simp only [Option.some.injEq, Prod.mk.injEq] at hd'
      obtain ⟨rfl, rfl⟩ := hd'
      have hx := dur_toMs_some a1
      simp only [updateDefaultDuration]
      simp only at a7
      refine ⟨hs'.symm, ⟨ag.tempo.trans a2.symm, by rw [a2]; exact ag.tempo_pos, ag.repetition.trans a4.symm, fun _ => by rw [a7]; exact e, by rw [a2]; exact ag.pos1,
        by rw [a2, a7]; exact ag.pos2, by rw [a3]; exact ag.scale, by rw [a5]; exact ag.globals⟩, by rw [hx]; exact ag.pos2, a1, a3, a6, a8, by rw [a2, a7, hx]⟩
    · simp at hs'
  | cons c cs =>
    simp only at hs'
    split at hs'
    · rename_i hp
      simp only [Option.some.injEq] at hs'
      simp only [effectiveDuration] at hd' a1
      rw [ag.tempo, a1] at hd'
      simp only [Option.some.injEq, Prod.mk.injEq] at hd'
      obtain ⟨rfl, rfl⟩ := hd'
      have hx := dur_toMs_some a1
      have hpos := proper_pos hp ag.tempo_pos
      simp only at a7
      refine ⟨hs'.symm, ⟨ag.tempo.trans a2.symm, by rw [a2]; exact ag.tempo_pos, ag.repetition.trans a4.symm, fun _ => a7.symm, by rw [a2]; exact hpos,
        by rw [a2, a7]; exact hpos, by rw [a3]; exact ag.scale, by rw [a5]; exact ag.globals⟩, by rw [hx]; exact hpos, a1, a3, a6, a8, by rw [a2, a7, hx]⟩
    · simp at hs'

/-- The prediction for an attribute change. -/
theorem predicted_attr {b b' : Bool} {u : PartUpd} (hs : settledLeaf b (.attr u) = some b') {p p' : Part} {t t' : Track}
    {x : Rat} (ag : Agree b p t) (hd : leafDurMs (.attr u) p = some (x, p')) (h : Track.leaf (.attr u) t = some t') :
    x = 0 ∧ Agree b' p' t' ∧ t'.cell.timeScale = t.cell.timeScale ∧ t'.chordMode = t.chordMode ∧ t'.cell.offset = t.cell.offset ∧
      t'.cell.tempo = t.cell.tempo ∧ t'.cell.dur = t.cell.dur := by
  simp only [settledLeaf] at hs
  split at hs
  · simp at hs
  · rename_i hu
    simp only [Option.some.injEq] at hs; subst hs
    obtain ⟨a1, a2, a3, a4, a5, a6, a7⟩ := untimed_attr (by simpa using hu) h
    simp only [leafDurMs, Option.some.injEq, Prod.mk.injEq] at hd
    obtain ⟨rfl, rfl⟩ := hd
    exact ⟨rfl, ⟨ag.tempo.trans a1.symm, by rw [a1]; exact ag.tempo_pos, ag.repetition.trans a3.symm, fun hb => by rw [a6]; exact ag.dur hb, by rw [a1]; exact ag.pos1,
      by rw [a1, a6]; exact ag.pos2, by rw [a2]; exact ag.scale, by rw [a4]; exact ag.globals⟩, a2, a5, a7, a1, a6⟩

/-- The prediction for any leaf outside of a chord. -/
theorem predicted_leaf {b b' : Bool} {l : Leaf} (hs : settledLeaf b l = some b') {p p' : Part} {t t' : Track}
    {x : Rat} (ag : Agree b p t) (hc : t.chordMode = false) (hd : leafDurMs l p = some (x, p')) (h : Track.leaf l t = some t') :
    Agree b' p' t' ∧ Went t t' x := by
  cases l with
  | note pi d sl =>
    obtain ⟨h1, h2, h3, _, h5, h6, h7, _⟩ := predicted_sounding (d := d) (Or.inl ⟨pi, sl, rfl⟩) hs ag hd h
    rw [hc] at h7
    exact ⟨by rw [h1]; exact h2, h7, h5, h6, by grind⟩
  | rest d =>
    obtain ⟨h1, h2, h3, _, h5, h6, h7, _⟩ := predicted_sounding (d := d) (Or.inr rfl) hs ag hd h
    rw [hc] at h7
    exact ⟨by rw [h1]; exact h2, h7, h5, h6, by grind⟩
  | attr u =>
    obtain ⟨rfl, h2, h3, h4, h5, _⟩ := predicted_attr hs ag hd h
    exact ⟨h2, Went.zero h5 h3 h4⟩
  | globalAttr u => simp [settledLeaf] at hs

theorem minOpt_scale {x y ts : Rat} (h : 0 ≤ ts) : minOpt (some (x * ts)) (y * ts) = (minOpt (some x) y).map (· * ts) := by
  have hm : ∀ a : Rat, 0 ≤ a → 0 ≤ a * ts := fun a ha => Rat.mul_nonneg ha h
  have hm' : ∀ a b : Rat, (a - b) * ts = a * ts - b * ts := by intros; grind
  simp only [minOpt, Option.map_some, Option.some.injEq]
  by_cases h1 : y < x
  · rw [if_pos h1]
    split
    · rfl
    · have := hm (x - y) (by grind); have := hm' x y; grind
  · rw [if_neg h1]
    split
    · have := hm (y - x) (by grind); have := hm' y x; grind
    · rfl

theorem le_scale {x y ts : Rat} (h : 0 ≤ ts) (hxy : x ≤ y) : x * ts ≤ y * ts := by
  have := Rat.mul_nonneg (show 0 ≤ y - x by grind) h
  have e : (y - x) * ts = y * ts - x * ts := by grind
  grind

/-- Members of a chord after the first: `y` is the least length so far. -/
theorem predicted_members (vars : String → Option (List Upd)) (dd : List Upd → Part → Option (Rat × Part)) (deref : List Upd → Track → Option Track) :
    ∀ (es : List Upd) (b b' : Bool) (p p' : Part) (t t' : Track) (y : Rat) (m m' : Option Rat), es.all memberB = true → settledL b es = some b' →
      Agree b p t → t.chordMode = true → 0 < y → y ≤ total t.cell.tempo (atoms t.cell.dur) →
      chordDurMs vars dd (some y) es p = some (m, p') → Track.chordWith deref es (some (y * t.cell.timeScale)) t = some (m', t') →
      ∃ z, 0 < z ∧ m = some z ∧ m' = some (z * t.cell.timeScale) ∧ Agree b' p' t' ∧ t'.cell.offset = t.cell.offset ∧ t'.cell.timeScale = t.cell.timeScale := by
  intro es
  induction es with
  | nil =>
    intro b b' p p' t t' y m m' _ hs ag hc hy hle hd h
    simp only [settledL, Option.some.injEq] at hs; subst hs
    simp only [chordDurMs, Option.some.injEq, Prod.mk.injEq] at hd
    simp only [Track.chordWith, Option.some.injEq, Prod.mk.injEq] at h
    obtain ⟨rfl, rfl⟩ := hd
    obtain ⟨rfl, rfl⟩ := h
    exact ⟨y, hy, rfl, rfl, ag, rfl, rfl⟩
  | cons e es ih =>
    intro b b' p p' t t' y m m' hm hs ag hc hy hle hd h
    simp only [List.all_cons, Bool.and_eq_true] at hm
    simp only [settledL] at hs
    simp only [chordDurMs] at hd
    simp only [Track.chordWith] at h
    split at hs
    · simp at hs
    · rename_i b1 hb1
      split at hd
      · simp at hd
      · rename_i x p1 hx
        split at h
        · simp at h
        · rename_i ms hms
          replace h := bind_some_iff h
          obtain ⟨u, hu, h⟩ := h
          -- a quiet member
          have quiet : x = 0 → specifiedDuration e = [] → Agree b1 p1 u → u.chordMode = true → u.cell.timeScale = t.cell.timeScale → u.cell.offset = t.cell.offset →
              u.cell.tempo = t.cell.tempo → u.cell.dur = t.cell.dur →
              ∃ z, 0 < z ∧ m = some z ∧ m' = some (z * t.cell.timeScale) ∧ Agree b' p' t' ∧ t'.cell.offset = t.cell.offset ∧ t'.cell.timeScale = t.cell.timeScale := by
            intro h0 hsp ag1 hc1 hts1 ho1 ht1 hd1
            subst h0
            rw [if_neg (by decide)] at hd
            have hms' := dur_toMs_some hms
            rw [hsp] at hms'
            simp only [effectiveDuration] at hms'
            have hmin : minOpt (some (y * t.cell.timeScale)) (ms * t.cell.timeScale) = some (y * u.cell.timeScale) := by
              rw [hms']
              have := le_scale ag.scale hle
              simp only [minOpt]; rw [if_neg (by grind), hts1]
            rw [hmin] at h
            obtain ⟨z, z1, z2, z3, z4, z5, z6⟩ := ih b1 b' p1 p' u t' y m m' hm.2 hs ag1 hc1 hy (by rw [ht1, hd1]; exact hle) hd h
            exact ⟨z, z1, z2, by rw [z3, hts1], z4, z5.trans ho1, z6.trans hts1⟩
          have loud : ∀ (l : Leaf) (d : Dur), e = .leaf l → specifiedDuration e = d → ((∃ pi sl, l = .note pi d sl) ∨ l = .rest d) →
              ∃ z, 0 < z ∧ m = some z ∧ m' = some (z * t.cell.timeScale) ∧ Agree b' p' t' ∧ t'.cell.offset = t.cell.offset ∧ t'.cell.timeScale = t.cell.timeScale := by
            intro l d he hsp hl
            subst he
            simp only [settled] at hb1
            simp only [durMsWith] at hx
            simp only [Track.updWith] at hu
            obtain ⟨h1, h2, h3, h4, h5, h6, h7, h8⟩ := predicted_sounding hl hb1 ag hx hu
            rw [hsp, h4, Option.some.injEq] at hms
            subst hms
            rw [if_pos h3] at hd
            rw [minOpt_scale ag.scale] at h
            simp only [minOpt, Option.map_some] at h hd
            rw [hc] at h7 h6
            rw [← h5] at h
            have h7' : u.cell.offset = t.cell.offset := h7
            rw [← h1] at h2
            obtain ⟨z, z1, z2, z3, z4, z5, z6⟩ := ih b1 b' p1 p' u t' _ m m' hm.2 hs h2 h6 (by split <;> grind) (by rw [← h8]; split <;> grind) hd h
            exact ⟨z, z1, z2, by rw [z3, h5], z4, z5.trans h7', z6.trans h5⟩
          match e, hm.1 with
          | .leaf (.note pi d sl), _ => exact loud _ d rfl rfl (Or.inl ⟨pi, sl, rfl⟩)
          | .leaf (.rest d), _ => exact loud _ d rfl rfl (Or.inr rfl)
          | .leaf (.attr w), _ =>
            simp only [settled] at hb1
            simp only [durMsWith] at hx
            simp only [Track.updWith] at hu
            obtain ⟨h1, h2, h3, h4, h5, h6, h7⟩ := predicted_attr hb1 ag hx hu
            exact quiet h1 rfl h2 (h4.trans hc) h3 h5 h6 h7
          | .barline, _ =>
            simp only [settled, Option.some.injEq] at hb1; subst hb1
            simp only [durMsWith, Option.some.injEq, Prod.mk.injEq] at hx
            simp only [Track.updWith, Option.some.injEq] at hu
            obtain ⟨h1, rfl⟩ := hx
            subst hu
            exact quiet h1.symm rfl ag hc rfl rfl rfl rfl

theorem predicted_chord (vars : String → Option (List Upd)) (dd : List Upd → Part → Option (Rat × Part)) (deref : List Upd → Track → Option Track)
    {es : List Upd} {b b' : Bool} {p p' : Part} {t t' : Track} {x : Rat} (hs : settled b (.chord es) = some b') (ag : Agree b p t) (hc : t.chordMode = false)
    (hd : durMsWith vars dd (.chord es) p = some (x, p')) (h : Track.updWith deref (.chord es) t = some t') : Agree b' p' t' ∧ Went t t' x := by
  cases es with
  | nil => simp [settled] at hs
  | cons e es =>
    simp only [settled] at hs
    split at hs
    · rename_i hm
      simp only [Bool.and_eq_true] at hm
      simp only [durMsWith] at hd
      simp only [Track.updWith] at h
      replace h := bind_some_iff h
      obtain ⟨u, hg, h⟩ := h
      replace h := bind_some_iff h
      obtain ⟨⟨m', v⟩, hcw, h⟩ := h
      simp only [Track.chordAdvance, Option.some.injEq] at h
      obtain ⟨c, rfl, _, c1, _, c2, c3, c4, c5, _⟩ := applyGlobals_track hg
      have c4 := c4 ag.globals.1
      have c5 := c5 ag.globals.2
      have ag1 : Agree b p { t with cell := c, chordMode := true } :=
        ⟨ag.tempo.trans c5.symm, by show 0 < c.tempo; rw [c5]; exact ag.tempo_pos, ag.repetition.trans c3.symm, fun hb => (ag.dur hb).trans c4.symm,
          by show 0 < total c.tempo _; rw [c5]; exact ag.pos1, by show 0 < total c.tempo (atoms c.dur); rw [c5, c4]; exact ag.pos2, by show 0 ≤ c.timeScale; rw [c2]; exact ag.scale,
          ag.globals⟩
      split at hd
      · simp at hd
      · rename_i m p1 hcd
        simp only [Option.some.injEq, Prod.mk.injEq] at hd
        obtain ⟨hd, rfl⟩ := hd
        simp only [settledL] at hs
        simp only [chordDurMs] at hcd
        simp only [Track.chordWith] at hcw
        split at hs
        · simp at hs
        · rename_i b1 hb1
          split at hcd
          · simp at hcd
          · rename_i x1 p2 hx1
            split at hcw
            · simp at hcw
            · rename_i ms hms
              replace hcw := bind_some_iff hcw
              obtain ⟨w, hw, hcw⟩ := hcw
              have loud : ∀ (l : Leaf) (d : Dur), e = .leaf l → specifiedDuration e = d → ((∃ pi sl, l = .note pi d sl) ∨ l = .rest d) →
                  Agree b' p1 t' ∧ Went t t' x := by
                intro l d he hsp hl
                subst he
                simp only [settled] at hb1
                simp only [durMsWith] at hx1
                simp only [Track.updWith] at hw
                obtain ⟨h1, h2, h3, h4, h5, h6, h7, h8⟩ := predicted_sounding hl hb1 ag1 hx1 hw
                rw [hsp, h4, Option.some.injEq] at hms
                subst hms
                rw [if_pos h3] at hcd
                simp only [minOpt] at hcd hcw
                have h7' : w.cell.offset = c.offset := h7
                have h5' : w.cell.timeScale = c.timeScale := h5
                rw [← h5'] at hcw
                rw [← h1] at h2
                obtain ⟨z, z1, z2, z3, z4, z5, z6⟩ := predicted_members vars dd deref es b1 b' p2 p1 w v x1 m m' hm.2 hs h2 h6 h3 (by rw [← h8]; exact Rat.le_refl) hcd hcw
                subst h
                refine ⟨⟨z4.tempo, z4.tempo_pos, z4.repetition, z4.dur, z4.pos1, z4.pos2, z4.scale, z4.globals⟩, ?_, ?_, ?_, ?_⟩
                · show v.cell.offset + m'.getD maxFloat = _
                  rw [z3, z5, h7', c1, h5', c2, ← hd, z2]; rfl
                · show v.cell.timeScale = _
                  rw [z6, h5', c2]
                · exact hc.symm
                · rw [← hd, z2]; show 0 ≤ z; grind
              match e, hm.1 with
              | .leaf (.note pi d sl), _ => exact loud _ d rfl rfl (Or.inl ⟨pi, sl, rfl⟩)
              | .leaf (.rest d), _ => exact loud _ d rfl rfl (Or.inr rfl)
    · simp at hs


/-! ### Predicted lengths are not negative -/

/-- The default duration has some length. -/
structure Positive (norep : Bool) (p p' : Part) : Prop where
  tempo : p'.tempo = p.tempo
  repetition : norep = true → p'.repetition = p.repetition
  pos : 0 < total p.tempo (atoms p'.dur)

theorem leafDurMs_nonneg {b b' : Bool} {l : Leaf} (hs : settledLeaf b l = some b') {p p' : Part} {x : Rat} (ht : 0 < p.tempo) (hp : 0 < total p.tempo (atoms p.dur))
    (hd : leafDurMs l p = some (x, p')) : 0 ≤ x ∧ Positive true p p' := by
  have sounding : ∀ d : Dur, (match d with | [] => if b then some true else none | c :: cs => if properDur (c :: cs) then some true else none) = some b' →
      (match (effectiveDuration d p).toMs p.tempo with | none => none | some ms => some (ms, updateDefaultDuration p d)) = some (x, p') → 0 ≤ x ∧ Positive true p p' := by
    intro d hs' hd'
    split at hd'
    · simp at hd'
    · rename_i ms hms
      have hms := dur_toMs_some hms
      simp only [Option.some.injEq, Prod.mk.injEq] at hd'
      obtain ⟨rfl, rfl⟩ := hd'
      cases d with
      | nil => simp only [effectiveDuration] at hms; exact ⟨by rw [hms]; grind, rfl, fun _ => rfl, hp⟩
      | cons c cs =>
        simp only at hs'
        split at hs'
        · rename_i hpr
          have := proper_pos hpr ht
          simp only [effectiveDuration] at hms
          exact ⟨by rw [hms]; grind, rfl, fun _ => rfl, this⟩
        · simp at hs'
  cases l with
  | note pi d sl => exact sounding d (by cases d <;> exact hs) hd
  | rest d => exact sounding d (by cases d <;> exact hs) hd
  | attr u =>
    simp only [leafDurMs, Option.some.injEq, Prod.mk.injEq] at hd
    obtain ⟨rfl, rfl⟩ := hd
    exact ⟨Rat.le_refl, rfl, fun _ => rfl, hp⟩
  | globalAttr u => simp [settledLeaf] at hs

theorem repDurMs_nonneg {f : Part → Option (Rat × Part)} {nr : Bool} (hf : ∀ p p' x, 0 < p.tempo → 0 < total p.tempo (atoms p.dur) → f p = some (x, p') → 0 ≤ x ∧ Positive nr p p') :
    ∀ (k : Nat) (r : Int) (acc : Rat) (p p' : Part) (x : Rat), 0 ≤ acc → 0 < p.tempo → 0 < total p.tempo (atoms p.dur) → repDurMs f k r acc p = some (x, p') →
      0 ≤ x ∧ Positive false p p' := by
  intro k
  induction k with
  | zero =>
    intro r acc p p' x ha ht hp h
    simp only [repDurMs, Option.some.injEq, Prod.mk.injEq] at h
    obtain ⟨rfl, rfl⟩ := h
    exact ⟨ha, rfl, by simp, hp⟩
  | succ k ih =>
    intro r acc p p' x ha ht hp h
    simp only [repDurMs] at h
    split at h
    · simp at h
    · rename_i ms p1 h1
      obtain ⟨a, b⟩ := hf { p with repetition := r } _ _ ht hp h1
      have b1 : p1.tempo = p.tempo := b.tempo
      obtain ⟨c, d⟩ := ih _ _ p1 p' x (by grind) (by rw [b1]; exact ht) (by rw [b1]; exact b.pos) h
      exact ⟨c, d.tempo.trans b1, by simp, by rw [← b1]; exact d.pos⟩

mutual
theorem durMs_nonneg (vars : String → Option (List Upd)) (dd : List Upd → Part → Option (Rat × Part)) :
    ∀ (e : Upd) (b b' : Bool) (p p' : Part) (x : Rat), settled b e = some b' → 0 < p.tempo → 0 < total p.tempo (atoms p.dur) → durMsWith vars dd e p = some (x, p') →
      0 ≤ x ∧ Positive (noRep e) p p'
  | .leaf l, b, b', p, p', x, hs, ht, hp, h => (fun z => ⟨z.1, z.2.tempo, fun _ => z.2.repetition rfl, z.2.pos⟩) (leafDurMs_nonneg hs ht hp h)
  | .lisp es, b, b', p, p', x, hs, ht, hp, h => by
    simp only [settled] at hs
    simp only [durMsWith] at h
    split at hs
    · rename_i hl
      rw [hl] at h
      simp only [Option.some.injEq, Prod.mk.injEq] at h
      obtain ⟨rfl, rfl⟩ := h
      exact ⟨Rat.le_refl, rfl, fun _ => rfl, hp⟩
    · rename_i l hl
      rw [hl] at h
      exact (fun z => ⟨z.1, z.2.tempo, fun _ => z.2.repetition rfl, z.2.pos⟩) (leafDurMs_nonneg hs ht hp h)
    · simp at hs
  | .lispNil, b, b', p, p', x, hs, ht, hp, h | .barline, b, b', p, p', x, hs, ht, hp, h | .marker _, b, b', p, p', x, hs, ht, hp, h => by
    simp only [durMsWith, Option.some.injEq, Prod.mk.injEq] at h
    obtain ⟨rfl, rfl⟩ := h
    exact ⟨Rat.le_refl, rfl, fun _ => rfl, hp⟩
  | .chord [], b, b', p, p', x, hs, ht, hp, h => by simp [settled] at hs
  | .chord (e :: es), b, b', p, p', x, hs, ht, hp, h => by
    simp only [settled] at hs
    split at hs
    · simp only [durMsWith] at h
      split at h
      · simp at h
      · rename_i m p1 h1
        simp only [Option.some.injEq, Prod.mk.injEq] at h
        obtain ⟨rfl, rfl⟩ := h
        obtain ⟨a, c⟩ := chordDurMs_nonneg vars dd (e :: es) b b' p p1 none m hs ht hp (by simp) h1
        refine ⟨?_, c.tempo, fun hn => c.repetition (by simpa only [noRep] using hn), c.pos⟩
        cases m with
        | none => show (0 : Rat) ≤ maxFloat; decide +kernel
        | some y => exact a y rfl
    · simp at hs
  | .cram es d, b, b', p, p', x, hs, ht, hp, h => by
    simp only [settled] at hs
    simp only [durMsWith] at h
    split at h
    · simp at h
    · rename_i ms hms
      have hms := dur_toMs_some hms
      simp only [Option.some.injEq, Prod.mk.injEq] at h
      obtain ⟨rfl, rfl⟩ := h
      split at hs
      · simp at hs
      · split at hs
        · split at hs
          · simp only [effectiveDuration] at hms
            exact ⟨by rw [hms]; grind, rfl, fun _ => rfl, hp⟩
          · split at hs
            · rename_i hpr
              have := proper_pos hpr ht
              simp only [effectiveDuration] at hms
              exact ⟨by rw [hms]; grind, rfl, fun _ => rfl, hp⟩
            · simp at hs
        · simp at hs
  | .seq es, b, b', p, p', x, hs, ht, hp, h => by
    obtain ⟨a, c⟩ := listDurMs_nonneg vars dd es b b' p p' 0 x (by simpa only [settled] using hs) ht hp Rat.le_refl (by simpa only [durMsWith] using h)
    exact ⟨a, c.tempo, fun hn => c.repetition (by simpa only [noRep] using hn), c.pos⟩
  | .rep e n, b, b', p, p', x, hs, ht, hp, h => by
    simp only [settled] at hs
    simp only [durMsWith] at h
    · split at hs
      · rename_i b1 hb1
        refine (fun z => ⟨z.1, z.2.tempo, fun hn => absurd hn (by simp [noRep]), z.2.pos⟩) <| repDurMs_nonneg (fun q q' y h1 h2 h3 => durMs_nonneg vars dd e false b1 q q' y hb1 h1 h2 h3) _ _ _ _ _ _ Rat.le_refl ht hp h
      · split at hs
        · rename_i hb1
          simp only [Bool.and_eq_true, beq_iff_eq] at hb1
          refine (fun z => ⟨z.1, z.2.tempo, fun hn => absurd hn (by simp [noRep]), z.2.pos⟩) <| repDurMs_nonneg (fun q q' y h1 h2 h3 => durMs_nonneg vars dd e true true q q' y hb1.2 h1 h2 h3) _ _ _ _ _ _ Rat.le_refl ht hp h
        · simp at hs
  | .onReps rs e, b, b', p, p', x, hs, ht, hp, h => by
    simp only [settled] at hs
    simp only [durMsWith] at h
    split at hs
    · rename_i b1 hb1
      split at h
      · obtain ⟨a, c⟩ := durMs_nonneg vars dd e b b1 p p' x hb1 ht hp h
        exact ⟨a, c.tempo, fun hn => c.repetition (by simpa only [noRep] using hn), c.pos⟩
      · simp only [Option.some.injEq, Prod.mk.injEq] at h
        obtain ⟨rfl, rfl⟩ := h
        exact ⟨Rat.le_refl, rfl, fun _ => rfl, hp⟩
    · simp at hs
  | .varRef _, b, b', p, p', x, hs, ht, hp, h | .voice _, b, b', p, p', x, hs, ht, hp, h | .voiceEnd, b, b', p, p', x, hs, ht, hp, h
  | .atMarker _, b, b', p, p', x, hs, ht, hp, h | .varDef _ _, b, b', p, p', x, hs, ht, hp, h | .partDecl _ _, b, b', p, p', x, hs, ht, hp, h => by
    simp [settled] at hs
theorem listDurMs_nonneg (vars : String → Option (List Upd)) (dd : List Upd → Part → Option (Rat × Part)) :
    ∀ (es : List Upd) (b b' : Bool) (p p' : Part) (acc x : Rat), settledL b es = some b' → 0 < p.tempo → 0 < total p.tempo (atoms p.dur) → 0 ≤ acc →
      listDurMs vars dd acc es p = some (x, p') → 0 ≤ x ∧ Positive (noRepL es) p p'
  | [], b, b', p, p', acc, x, hs, ht, hp, ha, h => by
    simp only [listDurMs, Option.some.injEq, Prod.mk.injEq] at h
    obtain ⟨rfl, rfl⟩ := h
    exact ⟨ha, rfl, fun _ => rfl, hp⟩
  | e :: es, b, b', p, p', acc, x, hs, ht, hp, ha, h => by
    simp only [settledL] at hs
    simp only [listDurMs] at h
    split at hs
    · simp at hs
    · rename_i b1 hb1
      split at h
      · simp at h
      · rename_i ms p1 h1
        obtain ⟨a, c⟩ := durMs_nonneg vars dd e b b1 p p1 ms hb1 ht hp h1
        obtain ⟨d, f⟩ := listDurMs_nonneg vars dd es b1 b' p1 p' (acc + ms) x hs (by rw [c.tempo]; exact ht) (by rw [c.tempo]; exact c.pos) (by grind) h
        exact ⟨d, f.tempo.trans c.tempo, fun hn => by
          simp only [noRepL, Bool.and_eq_true] at hn; exact (f.repetition hn.2).trans (c.repetition hn.1), by rw [← c.tempo]; exact f.pos⟩
theorem chordDurMs_nonneg (vars : String → Option (List Upd)) (dd : List Upd → Part → Option (Rat × Part)) :
    ∀ (es : List Upd) (b b' : Bool) (p p' : Part) (m m' : Option Rat), settledL b es = some b' → 0 < p.tempo → 0 < total p.tempo (atoms p.dur) →
      (∀ y, m = some y → 0 ≤ y) → chordDurMs vars dd m es p = some (m', p') → (∀ y, m' = some y → 0 ≤ y) ∧ Positive (noRepL es) p p'
  | [], b, b', p, p', m, m', hs, ht, hp, ha, h => by
    simp only [chordDurMs, Option.some.injEq, Prod.mk.injEq] at h
    obtain ⟨rfl, rfl⟩ := h
    exact ⟨ha, rfl, fun _ => rfl, hp⟩
  | e :: es, b, b', p, p', m, m', hs, ht, hp, ha, h => by
    simp only [settledL] at hs
    simp only [chordDurMs] at h
    split at hs
    · simp at hs
    · rename_i b1 hb1
      split at h
      · simp at h
      · rename_i ms p1 h1
        obtain ⟨a, c⟩ := durMs_nonneg vars dd e b b1 p p1 ms hb1 ht hp h1
        obtain ⟨d, f⟩ := chordDurMs_nonneg vars dd es b1 b' p1 p' _ m' hs (by rw [c.tempo]; exact ht) (by rw [c.tempo]; exact c.pos) (by
          intro y hy
          split at hy
          · cases m with
            | none => simp only [minOpt, Option.some.injEq] at hy; grind
            | some z => have := ha z rfl; simp only [minOpt, Option.some.injEq] at hy; split at hy <;> grind
          · exact ha y hy) h
        exact ⟨d, f.tempo.trans c.tempo, fun hn => by
          simp only [noRepL, Bool.and_eq_true] at hn; exact (f.repetition hn.2).trans (c.repetition hn.1), by rw [← c.tempo]; exact f.pos⟩
end

/-! ### The prediction is right -/

theorem predicted_repeat {f : Part → Option (Rat × Part)} {g : Track → Option Track} {b1 b2 : Bool} (h12 : b1 = true → b2 = true)
    (hfg : ∀ p p' t t' x, Agree b1 p t → t.chordMode = false → f p = some (x, p') → g t = some t' → Agree b2 p' t' ∧ Went t t' x) :
    ∀ (k : Nat) (r : Int) (acc : Rat) (p p' : Part) (t t' : Track) (x : Rat), Agree b1 p t → t.chordMode = false → repDurMs f (k + 1) r acc p = some (x, p') →
      Track.repeated g (k + 1) r t = some t' → Agree b2 p' t' ∧ Went t t' (x - acc) := by
  intro k
  induction k with
  | zero =>
    intro r acc p p' t t' x ag hc hd h
    simp only [repDurMs] at hd
    simp only [Track.repeated, Track.setRepetition, Option.bind_some] at h
    split at hd
    · simp at hd
    · rename_i ms p1 h1
      obtain ⟨u, hu, h2⟩ := bind_some_iff h
      simp only [Option.some.injEq] at h2; subst h2
      simp only [Option.some.injEq, Prod.mk.injEq] at hd
      obtain ⟨rfl, rfl⟩ := hd
      obtain ⟨a, w⟩ := hfg { p with repetition := r } _ (t.set { t.cell with repetition := r }) _ _
        ⟨ag.tempo, ag.tempo_pos, rfl, ag.dur, ag.pos1, ag.pos2, ag.scale, ag.globals⟩ hc h1 hu
      refine ⟨a, ?_⟩
      have : acc + ms - acc = ms := by grind
      rw [this]
      exact ⟨w.offset, w.scale, w.mode, w.nonneg⟩
  | succ k ih =>
    intro r acc p p' t t' x ag hc hd h
    rw [repDurMs] at hd
    rw [Track.repeated] at h
    simp only [Track.setRepetition, Option.bind_some] at h
    split at hd
    · simp at hd
    · rename_i ms p1 h1
      obtain ⟨u, hu, h2⟩ := bind_some_iff h
      obtain ⟨a, w⟩ := hfg { p with repetition := r } _ (t.set { t.cell with repetition := r }) _ _
        ⟨ag.tempo, ag.tempo_pos, rfl, ag.dur, ag.pos1, ag.pos2, ag.scale, ag.globals⟩ hc h1 hu
      have w : Went t u ms := ⟨w.offset, w.scale, w.mode, w.nonneg⟩
      obtain ⟨a2, w2⟩ := ih (r + 1) (acc + ms) p1 p' u t' x (a.weaken h12) (w.mode.trans hc) hd h2
      refine ⟨a2, ?_⟩
      have := w.trans w2
      have e : ms + (x - (acc + ms)) = x - acc := by grind
      rw [e] at this
      exact this

/-- A cram takes its outer duration, if the length of its events is predicted correctly. -/
theorem cram_fills (deref : List Upd → Track → Option Track) (es : List Upd) (d : Dur) {b1 : Bool} (hb1 : settledL true es = some b1) {t t' : Track} {ms : Rat}
    (ht : 0 < t.cell.tempo) (hp : 0 < total t.cell.tempo (atoms t.cell.dur)) (hsc : 0 ≤ t.cell.timeScale) (hg : Timeless t.globals) (hc : t.chordMode = false)
    (outer : ∀ o, (effectiveDuration d t.cell).toMs t.cell.tempo = some o → o = ms ∧ 0 ≤ ms)
    (rec : ∀ vars dd y q t1 t2, Agree true t.cell.clone t1 → t1.chordMode = false → listDurMs vars dd 0 es t.cell.clone = some (y, q) → Track.listWith deref es t1 = some t2 →
      Agree b1 q t2 ∧ Went t1 t2 (y - 0))
    (h : Track.updWith deref (.cram es d) t = some t') :
    Went t t' ms ∧ t'.cell.tempo = t.cell.tempo ∧ (noRepL es = true → t'.cell.repetition = t.cell.repetition) ∧ Timeless t'.globals ∧
      t'.cell.dur = (match d with | [] => t.cell.dur | _ :: _ => d) := by
  simp only [Track.updWith] at h
  replace h := bind_some_iff h
  obtain ⟨t1, h1, h⟩ := h
  replace h := bind_some_iff h
  obtain ⟨t2, h2, h⟩ := h
  simp only [Track.cramRestore, Option.some.injEq] at h
  unfold Track.cramScale at h1
  split at h1
  · simp at h1
  · rename_i x hx
    simp only [Option.some.injEq] at h1; subst h1
    unfold cramTimeScale at hx
    split at hx
    · simp at hx
    · rename_i o ho
      obtain ⟨rfl, hms⟩ := outer o ho
      split at hx
      · simp at hx
      · rename_i y q hy
        split at hx
        · simp at hx
        · rename_i hne
          simp only [Option.some.injEq] at hx
          obtain ⟨hy0, hpos⟩ := listDurMs_nonneg _ _ es true b1 t.cell.clone q 0 y hb1 ht hp Rat.le_refl hy
          have hx0 : 0 ≤ x := by
            rw [← hx]
            have : 0 ≤ y⁻¹ := by
              have : 0 < y := by grind
              exact Rat.le_of_lt (Rat.inv_pos.2 this)
            rw [Rat.div_def]
            exact Rat.mul_nonneg (Rat.mul_nonneg hsc this) hms
          obtain ⟨a, w⟩ := rec _ _ y q (t.set { t.cell with timeScale := x }) t2
            ⟨rfl, ht, rfl, fun _ => rfl, hp, hp, hx0, hg⟩ hc hy h2
          subst h
          refine ⟨⟨?_, rfl, w.mode, hms⟩, a.tempo.symm.trans hpos.tempo, fun hn => a.repetition.symm.trans (hpos.repetition hn), a.globals, rfl⟩
          show t2.cell.offset = _
          rw [w.offset]
          show t.cell.offset + (y - 0) * x = _
          rw [← hx, Rat.div_def]
          have : y * y⁻¹ = 1 := Rat.mul_inv_cancel y hne
          grind

mutual
/-- The predicted length of an event is the time it takes. -/
theorem predicted (deref : List Upd → Track → Option Track) :
    ∀ (e : Upd) (vars : String → Option (List Upd)) (dd : List Upd → Part → Option (Rat × Part)) (b b' : Bool) (p p' : Part) (t t' : Track) (x : Rat),
      settled b e = some b' → Agree b p t → t.chordMode = false → durMsWith vars dd e p = some (x, p') → Track.updWith deref e t = some t' →
      Agree b' p' t' ∧ Went t t' x
  | .leaf l, vars, dd, b, b', p, p', t, t', x, hs, ag, hc, hd, h => predicted_leaf hs ag hc hd h
  | .lisp es, vars, dd, b, b', p, p', t, t', x, hs, ag, hc, hd, h => by
    simp only [settled] at hs
    simp only [durMsWith] at hd
    simp only [Track.updWith] at h
    split at hs
    · rename_i hl
      rw [hl] at hd h
      simp only [Option.some.injEq, Prod.mk.injEq] at hs hd h
      obtain ⟨rfl, rfl⟩ := hd
      subst hs; subst h
      exact ⟨ag, .zero rfl rfl rfl⟩
    · rename_i l hl
      rw [hl] at hd h
      exact predicted_leaf hs ag hc hd h
    · simp at hs
  | .lispNil, vars, dd, b, b', p, p', t, t', x, hs, ag, hc, hd, h | .barline, vars, dd, b, b', p, p', t, t', x, hs, ag, hc, hd, h => by
    simp only [settled, Option.some.injEq] at hs
    simp only [durMsWith, Option.some.injEq, Prod.mk.injEq] at hd
    simp only [Track.updWith, Option.some.injEq] at h
    obtain ⟨rfl, rfl⟩ := hd
    subst hs; subst h
    exact ⟨ag, .zero rfl rfl rfl⟩
  | .marker _, vars, dd, b, b', p, p', t, t', x, hs, ag, hc, hd, h => by
    simp only [settled, Option.some.injEq] at hs
    simp only [durMsWith, Option.some.injEq, Prod.mk.injEq] at hd
    simp only [Track.updWith, Track.marker, Option.some.injEq] at h
    obtain ⟨rfl, rfl⟩ := hd
    subst hs; subst h
    exact ⟨⟨ag.tempo, ag.tempo_pos, ag.repetition, ag.dur, ag.pos1, ag.pos2, ag.scale, ag.globals⟩, .zero rfl rfl rfl⟩
  | .chord es, vars, dd, b, b', p, p', t, t', x, hs, ag, hc, hd, h => predicted_chord vars dd deref hs ag hc hd h
  | .cram es d, vars, dd, b, b', p, p', t, t', x, hs, ag, hc, hd, h => by
    simp only [settled] at hs
    simp only [durMsWith] at hd
    split at hs
    · simp at hs
    · rename_i b1 hb1
      split at hs
      case isFalse => simp at hs
      rename_i hnr
      split at hd
      · simp at hd
      · rename_i ms hms
        simp only [Option.some.injEq, Prod.mk.injEq] at hd
        obtain ⟨rfl, rfl⟩ := hd
        have hms := dur_toMs_some hms
        -- the outer duration
        have outer : ∀ o, (effectiveDuration d t.cell).toMs t.cell.tempo = some o → o = ms ∧ 0 ≤ ms := by
          intro o ho
          have ho := dur_toMs_some ho
          cases d with
          | nil =>
            simp only at hs
            split at hs
            · rename_i hb
              simp only [effectiveDuration] at ho hms
              rw [ag.tempo, ag.dur hb] at hms
              have := ag.pos2
              exact ⟨by rw [ho, hms], by rw [hms]; grind⟩
            · simp at hs
          | cons c cs =>
            simp only at hs
            split at hs
            · rename_i hpr
              simp only [effectiveDuration] at ho hms
              rw [ag.tempo] at hms
              have := proper_pos hpr ag.tempo_pos
              exact ⟨by rw [ho, hms], by rw [hms]; grind⟩
            · simp at hs
        obtain ⟨w, h⟩ := cram_fills deref es d hb1 ag.tempo_pos ag.pos2 ag.scale ag.globals hc outer
          (fun vars' dd' y q t1 t2 a1 a2 a3 a4 => predictedL deref es vars' dd' true b1 t.cell.clone q t1 t2 0 y hb1 a1 a2 a3 a4) h
        obtain ⟨h1, h2, h3, h4⟩ := h
        refine ⟨⟨ag.tempo.trans h1.symm, by rw [h1]; exact ag.tempo_pos, ag.repetition.trans (h2 hnr).symm, ?_, by rw [h1]; exact ag.pos1, ?_, by rw [w.scale]; exact ag.scale,
          h3⟩, w⟩
        · intro hb'
          cases d with
          | nil =>
            simp only at hs
            split at hs
            · rename_i hb
              rw [h4]; exact ag.dur hb
            · simp at hs
          | cons c cs =>
            simp only at hs
            split at hs
            · simp only [Option.some.injEq] at hs; rw [← hs] at hb'; simp at hb'
            · simp at hs
        · rw [h1, h4]
          cases d with
          | nil => exact ag.pos2
          | cons c cs =>
            simp only at hs
            split at hs
            · rename_i hpr; exact proper_pos hpr ag.tempo_pos
            · simp at hs
  | .seq es, vars, dd, b, b', p, p', t, t', x, hs, ag, hc, hd, h => by
    simp only [settled] at hs
    simp only [durMsWith] at hd
    simp only [Track.updWith] at h
    obtain ⟨a, w⟩ := predictedL deref es vars dd b b' p p' t t' 0 x hs ag hc hd h
    have : x - 0 = x := by grind
    rw [this] at w
    exact ⟨a, w⟩
  | .rep e n, vars, dd, b, b', p, p', t, t', x, hs, ag, hc, hd, h => by
    simp only [settled] at hs
    simp only [durMsWith] at hd
    simp only [Track.updWith] at h
    by_cases hn : n ≤ 0
    · rw [show n.toNat = 0 by omega] at hd h
      simp only [repDurMs, Option.some.injEq, Prod.mk.injEq] at hd
      simp only [Track.repeated, Option.some.injEq] at h
      obtain ⟨rfl, rfl⟩ := hd
      subst h
      refine ⟨ag.weaken ?_, .zero rfl rfl rfl⟩
      intro hb
      simp only [if_pos hn] at hs
      split at hs
      · simp only [Option.some.injEq] at hs; rw [hs]; exact hb
      · split at hs
        · rename_i hb1
          simp only [Bool.and_eq_true] at hb1
          exact hb1.1
        · simp at hs
    · simp only [if_neg hn] at hs
      obtain ⟨k, hk⟩ : ∃ k, n.toNat = k + 1 := ⟨n.toNat - 1, by omega⟩
      rw [hk] at hd h
      have e0 : x - 0 = x := by grind
      split at hs
      · rename_i b1 hb1
        simp only [Option.some.injEq] at hs; subst hs
        obtain ⟨a, w⟩ := predicted_repeat (b1 := false) (b2 := b1) (by simp)
          (fun q q' u u' y h1 h2 h3 h4 => predicted deref e vars dd false b1 q q' u u' y hb1 h1 h2 h3 h4) k 1 0 p p' t t' x (ag.weaken (by simp)) hc hd h
        rw [e0] at w
        exact ⟨a, w⟩
      · split at hs
        · rename_i hb1
          simp only [Option.some.injEq] at hs; subst hs
          simp only [Bool.and_eq_true, beq_iff_eq] at hb1
          obtain ⟨a, w⟩ := predicted_repeat (b1 := true) (b2 := true) (by simp)
            (fun q q' u u' y h1 h2 h3 h4 => predicted deref e vars dd true true q q' u u' y hb1.2 h1 h2 h3 h4) k 1 0 p p' t t' x (ag.weaken (fun _ => hb1.1)) hc hd h
          rw [e0] at w
          exact ⟨a, w⟩
        · simp at hs
  | .onReps rs e, vars, dd, b, b', p, p', t, t', x, hs, ag, hc, hd, h => by
    simp only [settled] at hs
    simp only [durMsWith, ag.repetition] at hd
    simp only [Track.updWith] at h
    split at hs
    · rename_i b1 hb1
      simp only [Option.some.injEq] at hs; subst hs
      split at hd
      · rename_i hr
        rw [if_pos hr] at h
        obtain ⟨a, w⟩ := predicted deref e vars dd b b1 p p' t t' x hb1 ag hc hd h
        exact ⟨a.weaken (by simp), w⟩
      · rename_i hr
        rw [if_neg hr] at h
        simp only [Option.some.injEq, Prod.mk.injEq] at hd h
        obtain ⟨rfl, rfl⟩ := hd
        subst h
        exact ⟨ag.weaken (by simp +contextual), .zero rfl rfl rfl⟩
    · simp at hs
  | .varRef _, vars, dd, b, b', p, p', t, t', x, hs, ag, hc, hd, h | .voice _, vars, dd, b, b', p, p', t, t', x, hs, ag, hc, hd, h
  | .voiceEnd, vars, dd, b, b', p, p', t, t', x, hs, ag, hc, hd, h
  | .atMarker _, vars, dd, b, b', p, p', t, t', x, hs, ag, hc, hd, h | .varDef _ _, vars, dd, b, b', p, p', t, t', x, hs, ag, hc, hd, h
  | .partDecl _ _, vars, dd, b, b', p, p', t, t', x, hs, ag, hc, hd, h => by
    simp [settled] at hs
/-- The same for lists. -/
theorem predictedL (deref : List Upd → Track → Option Track) :
    ∀ (es : List Upd) (vars : String → Option (List Upd)) (dd : List Upd → Part → Option (Rat × Part)) (b b' : Bool) (p p' : Part) (t t' : Track) (acc x : Rat),
      settledL b es = some b' → Agree b p t → t.chordMode = false → listDurMs vars dd acc es p = some (x, p') → Track.listWith deref es t = some t' →
      Agree b' p' t' ∧ Went t t' (x - acc)
  | [], vars, dd, b, b', p, p', t, t', acc, x, hs, ag, hc, hd, h => by
    simp only [settledL, Option.some.injEq] at hs
    simp only [listDurMs, Option.some.injEq, Prod.mk.injEq] at hd
    simp only [Track.listWith, Option.some.injEq] at h
    obtain ⟨rfl, rfl⟩ := hd
    subst hs; subst h
    have : acc - acc = 0 := by grind
    rw [this]
    exact ⟨ag, .zero rfl rfl rfl⟩
  | e :: es, vars, dd, b, b', p, p', t, t', acc, x, hs, ag, hc, hd, h => by
    simp only [settledL] at hs
    simp only [listDurMs] at hd
    simp only [Track.listWith] at h
    split at hs
    · simp at hs
    · rename_i b1 hb1
      split at hd
      · simp at hd
      · rename_i ms p1 h1
        obtain ⟨u, hu, h2⟩ := bind_some_iff h
        obtain ⟨a, w⟩ := predicted deref e vars dd b b1 p p1 t u ms hb1 ag hc h1 hu
        obtain ⟨a2, w2⟩ := predictedL deref es vars dd b1 b' p1 p' u t' (acc + ms) x hs a (w.mode.trans hc) hd h2
        refine ⟨a2, ?_⟩
        have := w.trans w2
        have e : ms + (x - (acc + ms)) = x - acc := by grind
        rw [e] at this
        exact this
end

end Alda
