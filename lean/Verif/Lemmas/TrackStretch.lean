import Verif.Lemmas.TrackCram
/-!
Playing events with another time scale stretches everything by the same factor.
-/
namespace Alda
open Spec

/-- A note, stretched by `f` around `o`. -/
def stretchNote (f o : Rat) (e : NoteEvent) : NoteEvent := { e with offset := o + (e.offset - o) * f, duration := e.duration * f, audible := e.audible * f }

/-- `t'` is `t` stretched by `f` around `o`, from the notes `N` on. -/
structure Stretched (f o : Rat) (N : List NoteEvent) (t t' : Track) : Prop where
  instr : t'.cell.instr = t.cell.instr
  tempo : t'.cell.tempo = t.cell.tempo
  octave : t'.cell.octave = t.cell.octave
  volume : t'.cell.volume = t.cell.volume
  trackVolume : t'.cell.trackVolume = t.cell.trackVolume
  panning : t'.cell.panning = t.cell.panning
  quant : t'.cell.quant = t.cell.quant
  dur : t'.cell.dur = t.cell.dur
  keySig : t'.cell.keySig = t.cell.keySig
  transposition : t'.cell.transposition = t.cell.transposition
  repetition : t'.cell.repetition = t.cell.repetition
  scale : t'.cell.timeScale = t.cell.timeScale * f
  offset : t'.cell.offset = o + (t.cell.offset - o) * f
  mode : t'.chordMode = t.chordMode
  globals : NoGlobals t.globals
  globals' : NoGlobals t'.globals
  notes : ∃ new, t.notes = N ++ new ∧ t'.notes = N ++ new.map (stretchNote f o)

section
variable {f o : Rat} {N : List NoteEvent}

/-- Nothing changes when there are no global changes. -/
theorem Stretched.applyGlobals {t t' u u' : Track} (h : Stretched f o N t t') (h1 : Track.applyGlobals t = some u) (h2 : Track.applyGlobals t' = some u') :
    Stretched f o N u u' := by
  unfold Track.applyGlobals at h1 h2
  have e : ∀ t : Track, NoGlobals t.globals → t.globals.inWindow t.cell.lastOffset t.cell.offset = [] := by
    intro t hn
    unfold GlobalAttributes.inWindow
    have : ∀ a b l, inWindowFrom t.globals a b l = [] := by
      intro a b l
      induction l with
      | nil => rfl
      | cons x l ih =>
        simp only [inWindowFrom]
        split
        · rfl
        · split
          · rw [hn x]; simpa using ih
          · exact ih
    exact this _ _ _
  rw [e t h.globals] at h1
  rw [e t' h.globals'] at h2
  simp only [applyUpdates, Option.some.injEq] at h1 h2
  subst h1; subst h2
  exact ⟨h.instr, h.tempo, h.octave, h.volume, h.trackVolume, h.panning, h.quant, h.dur, h.keySig, h.transposition, h.repetition, h.scale, h.offset, h.mode,
    h.globals, h.globals', h.notes⟩

theorem Stretched.advance {t t' : Track} (h : Stretched f o N t t') (ms : Rat) (d : Dur) :
    Stretched f o N (Track.advance ms d t) (Track.advance (ms * f) d t') := by
  unfold Track.advance
  rw [h.mode]
  cases hc : t.chordMode with
  | true =>
    cases d with
    | nil => exact ⟨h.instr, h.tempo, h.octave, h.volume, h.trackVolume, h.panning, h.quant, h.dur, h.keySig, h.transposition, h.repetition, h.scale, h.offset, h.mode,
        h.globals, h.globals', h.notes⟩
    | cons c cs => exact ⟨h.instr, h.tempo, h.octave, h.volume, h.trackVolume, h.panning, h.quant, rfl, h.keySig, h.transposition, h.repetition, h.scale, h.offset, h.mode,
        h.globals, h.globals', h.notes⟩
  | false =>
    have ho : t'.cell.offset + ms * f = o + (t.cell.offset + ms - o) * f := by rw [h.offset]; grind
    cases d with
    | nil => exact ⟨h.instr, h.tempo, h.octave, h.volume, h.trackVolume, h.panning, h.quant, h.dur, h.keySig, h.transposition, h.repetition, h.scale, ho, h.mode,
        h.globals, h.globals', h.notes⟩
    | cons c cs => exact ⟨h.instr, h.tempo, h.octave, h.volume, h.trackVolume, h.panning, h.quant, rfl, h.keySig, h.transposition, h.repetition, h.scale, ho, h.mode,
        h.globals, h.globals', h.notes⟩

theorem Stretched.effective {t t' : Track} (h : Stretched f o N t t') (d : Dur) :
    (effectiveDuration d t'.cell).toMs t'.cell.tempo = (effectiveDuration d t.cell).toMs t.cell.tempo ∧ effectiveDuration d t'.cell = effectiveDuration d t.cell := by
  unfold effectiveDuration; rw [h.dur, h.tempo]; exact ⟨rfl, rfl⟩

theorem Stretched.beforeNote {t t' u u' : Track} (h : Stretched f o N t t') (d : Dur) (h1 : Track.beforeNote d t = some u) (h2 : Track.beforeNote d t' = some u') :
    Stretched f o N u u' := by
  unfold Track.beforeNote at h1 h2
  obtain ⟨v, a1, a2⟩ := bind_some_iff h1
  obtain ⟨v', b1, b2⟩ := bind_some_iff h2
  rw [h.mode] at b1
  split at a2
  · simp only [Option.some.injEq] at a2; subst a2
    split at b2
    · simp only [Option.some.injEq] at b2; subst b2
      split at a1
      · rename_i hm
        rw [if_pos hm] at b1
        simp only [Option.some.injEq] at a1 b1; subst a1; subst b1; exact h
      · rename_i hm
        rw [if_neg hm] at b1
        exact h.applyGlobals a1 b1
    · contradiction
  · simp at a2

theorem Stretched.leaf {t t' u u' : Track} (hf : 0 < f) (h : Stretched f o N t t') {l : Leaf} {b b' : Bool} (hs : settledLeaf b l = some b') (h1 : Track.leaf l t = some u)
    (h2 : Track.leaf l t' = some u') : Stretched f o N u u' := by
  cases l with
  | note pi d sl =>
    simp only [Track.leaf] at h1 h2
    obtain ⟨v, a1, a2⟩ := bind_some_iff h1
    obtain ⟨v', b1, b2⟩ := bind_some_iff h2
    have hv := h.beforeNote d a1 b1
    clear h1 h2 a1 b1 h
    unfold Track.note at a2 b2
    simp only at a2 b2
    rw [(hv.effective d).1, (hv.effective d).2] at b2
    split at a2
    · simp at a2
    · rename_i ms hms
      rw [hms] at b2
      simp only at b2
      obtain ⟨w, c1, c2⟩ := bind_some_iff a2
      obtain ⟨w', d1, d2⟩ := bind_some_iff b2
      clear a2 b2
      simp only [Option.some.injEq] at c2 d2; subst c2; subst d2
      have key : Stretched f o N w w' := by
        have ha : (if sl = true then ms * v'.cell.timeScale else ms * v'.cell.timeScale * v'.cell.quant) =
            (if sl = true then ms * v.cell.timeScale else ms * v.cell.timeScale * v.cell.quant) * f := by
          rw [hv.scale, hv.quant]; split <;> grind
        rw [ha] at d1
        generalize (if sl = true then _ else _) = a at c1 d1
        have hpos : a * f > 0 ↔ a > 0 := by
          constructor
          · intro h
            have h0 : ¬ a ≤ 0 := by
              intro h0
              have := Rat.mul_nonneg (show 0 ≤ -a by grind) (Rat.le_of_lt hf)
              grind
            grind
          · intro h; exact Rat.mul_pos h hf
        split at c1
        · rename_i ha0
          rw [if_pos (hpos.2 ha0)] at d1
          unfold Track.emit at c1 d1
          simp only at c1 d1
          rw [hv.octave, hv.keySig, hv.transposition] at d1
          split at c1
          · simp at c1
          · rename_i hn
            rw [if_neg hn] at d1
            simp only [Option.some.injEq] at c1 d1
            subst c1; subst d1
            refine ⟨hv.instr, hv.tempo, hv.octave, hv.volume, hv.trackVolume, hv.panning, hv.quant, hv.dur, hv.keySig, hv.transposition, hv.repetition, hv.scale, hv.offset,
              hv.mode, hv.globals, hv.globals', ?_⟩
            obtain ⟨new, e1, e2⟩ := hv.notes
            refine ⟨new ++ [_], by rw [e1, List.append_assoc], ?_⟩
            rw [List.map_append, ← List.append_assoc, ← e2]
            simp only [stretchNote, List.map_cons, List.map_nil, hv.offset, hv.scale, hv.volume, hv.trackVolume, hv.panning]
            have : ms * (v.cell.timeScale * f) = ms * v.cell.timeScale * f := by grind
            rw [this]
        · rename_i ha0
          rw [if_neg (fun h => ha0 (hpos.1 h))] at d1
          simp only [Option.some.injEq] at c1 d1
          subst c1; subst d1; exact hv
      have e : ms * v'.cell.timeScale = ms * v.cell.timeScale * f := by rw [hv.scale]; grind
      rw [e]
      exact key.advance _ _
  | rest d =>
    simp only [Track.leaf] at h1 h2
    obtain ⟨v, a1, a2⟩ := bind_some_iff h1
    obtain ⟨v', b1, b2⟩ := bind_some_iff h2
    have hv := h.beforeNote d a1 b1
    unfold Track.rest at a2 b2
    simp only at a2 b2
    rw [(hv.effective d).1, (hv.effective d).2] at b2
    split at a2
    · simp at a2
    · rename_i ms hms
      rw [hms] at b2
      simp only [Option.some.injEq] at a2 b2
      subst a2; subst b2
      have e : ms * v'.cell.timeScale = ms * v.cell.timeScale * f := by rw [hv.scale]; grind
      rw [e]
      exact hv.advance _ _
  | attr p =>
    simp only [settledLeaf] at hs
    split at hs
    · simp at hs
    · rename_i hk
      simp only [Track.leaf, Track.attr] at h1 h2
      cases p with
      | tempo x => simp [timeKind, PartUpd.kind] at hk
      | metricModulation x => simp [timeKind, PartUpd.kind] at hk
      | duration x => simp [timeKind, PartUpd.kind] at hk
      | midiChannel n =>
        simp only [updatePart, h.instr] at h1 h2
        split at h1
        · simp at h1
        · rename_i q hq
          split at hq
          · simp at hq
          · rename_i hn
            rw [if_neg hn] at h2
            simp only [Except.ok.injEq, Option.some.injEq] at hq h1 h2
            subst hq; subst h1; subst h2
            exact ⟨rfl, h.tempo, h.octave, h.volume, h.trackVolume, h.panning, h.quant, h.dur, h.keySig, h.transposition, h.repetition, h.scale, h.offset, h.mode,
              h.globals, h.globals', h.notes⟩
      | octaveUp =>
        simp only [updatePart, Option.some.injEq] at h1 h2
        subst h1; subst h2
        exact ⟨h.instr, h.tempo, congrArg (fun x => wrap32 (x + 1)) h.octave, h.volume, h.trackVolume, h.panning, h.quant, h.dur, h.keySig, h.transposition, h.repetition, h.scale, h.offset,
          h.mode, h.globals, h.globals', h.notes⟩
      | octaveDown =>
        simp only [updatePart, Option.some.injEq] at h1 h2
        subst h1; subst h2
        exact ⟨h.instr, h.tempo, congrArg (fun x => wrap32 (x - 1)) h.octave, h.volume, h.trackVolume, h.panning, h.quant, h.dur, h.keySig, h.transposition, h.repetition, h.scale, h.offset,
          h.mode, h.globals, h.globals', h.notes⟩
      | octave n =>
        simp only [updatePart, Option.some.injEq] at h1 h2
        subst h1; subst h2
        exact ⟨h.instr, h.tempo, rfl, h.volume, h.trackVolume, h.panning, h.quant, h.dur, h.keySig, h.transposition, h.repetition, h.scale, h.offset,
          h.mode, h.globals, h.globals', h.notes⟩
      | volume n =>
        simp only [updatePart, Option.some.injEq] at h1 h2
        subst h1; subst h2
        exact ⟨h.instr, h.tempo, h.octave, rfl, h.trackVolume, h.panning, h.quant, h.dur, h.keySig, h.transposition, h.repetition, h.scale, h.offset,
          h.mode, h.globals, h.globals', h.notes⟩
      | trackVolume n =>
        simp only [updatePart, Option.some.injEq] at h1 h2
        subst h1; subst h2
        exact ⟨h.instr, h.tempo, h.octave, h.volume, rfl, h.panning, h.quant, h.dur, h.keySig, h.transposition, h.repetition, h.scale, h.offset,
          h.mode, h.globals, h.globals', h.notes⟩
      | dynamic n =>
        simp only [updatePart, Option.some.injEq] at h1 h2
        subst h1; subst h2
        exact ⟨h.instr, h.tempo, h.octave, rfl, h.trackVolume, h.panning, h.quant, h.dur, h.keySig, h.transposition, h.repetition, h.scale, h.offset,
          h.mode, h.globals, h.globals', h.notes⟩
      | panning n =>
        simp only [updatePart, Option.some.injEq] at h1 h2
        subst h1; subst h2
        exact ⟨h.instr, h.tempo, h.octave, h.volume, h.trackVolume, rfl, h.quant, h.dur, h.keySig, h.transposition, h.repetition, h.scale, h.offset,
          h.mode, h.globals, h.globals', h.notes⟩
      | quantization n =>
        simp only [updatePart, Option.some.injEq] at h1 h2
        subst h1; subst h2
        exact ⟨h.instr, h.tempo, h.octave, h.volume, h.trackVolume, h.panning, rfl, h.dur, h.keySig, h.transposition, h.repetition, h.scale, h.offset,
          h.mode, h.globals, h.globals', h.notes⟩
      | keySignature n =>
        simp only [updatePart, Option.some.injEq] at h1 h2
        subst h1; subst h2
        exact ⟨h.instr, h.tempo, h.octave, h.volume, h.trackVolume, h.panning, h.quant, h.dur, rfl, h.transposition, h.repetition, h.scale, h.offset,
          h.mode, h.globals, h.globals', h.notes⟩
      | transposition n =>
        simp only [updatePart, Option.some.injEq] at h1 h2
        subst h1; subst h2
        exact ⟨h.instr, h.tempo, h.octave, h.volume, h.trackVolume, h.panning, h.quant, h.dur, h.keySig, rfl, h.repetition, h.scale, h.offset,
          h.mode, h.globals, h.globals', h.notes⟩
      | referencePitch n =>
        simp only [updatePart, Option.some.injEq] at h1 h2
        subst h1; subst h2
        exact ⟨h.instr, h.tempo, h.octave, h.volume, h.trackVolume, h.panning, h.quant, h.dur, h.keySig, h.transposition, h.repetition, h.scale, h.offset,
          h.mode, h.globals, h.globals', h.notes⟩
  | globalAttr p => simp [settledLeaf] at hs

end

/-- Parts with the same tempo, default duration and repetition number. -/
structure SameTime (p q : Part) : Prop where
  tempo : p.tempo = q.tempo
  dur : p.dur = q.dur
  repetition : p.repetition = q.repetition

/-- Two predictions agree. -/
def SamePred {α : Type} (a b : Option (α × Part)) : Prop :=
  match a, b with
  | none, none => True
  | some (x, p), some (y, q) => x = y ∧ SameTime p q
  | _, _ => False

theorem SamePred.cases {α : Type} {a b : Option (α × Part)} (h : SamePred a b) : (a = none ∧ b = none) ∨ ∃ x p q, a = some (x, p) ∧ b = some (x, q) ∧ SameTime p q := by
  cases a with
  | none =>
    cases b with
    | none => exact Or.inl ⟨rfl, rfl⟩
    | some y => exact h.elim
  | some x =>
    cases b with
    | none => exact h.elim
    | some y => exact Or.inr ⟨x.1, x.2, y.2, rfl, by rw [h.1], h.2⟩

theorem leafDurMs_same (l : Leaf) {p q : Part} (h : SameTime p q) : SamePred (leafDurMs l p) (leafDurMs l q) := by
  have k : ∀ d : Dur, SamePred (match (effectiveDuration d p).toMs p.tempo with | none => none | some ms => some (ms, updateDefaultDuration p d))
      (match (effectiveDuration d q).toMs q.tempo with | none => none | some ms => some (ms, updateDefaultDuration q d)) := by
    intro d
    have e : (effectiveDuration d p).toMs p.tempo = (effectiveDuration d q).toMs q.tempo := by unfold effectiveDuration; rw [h.tempo, h.dur]
    rw [e]
    cases (effectiveDuration d q).toMs q.tempo with
    | none => trivial
    | some ms =>
      refine ⟨rfl, ?_⟩
      cases d with
      | nil => exact h
      | cons c cs => exact ⟨h.tempo, rfl, h.repetition⟩
  cases l with
  | note pi d sl => exact k d
  | rest d => exact k d
  | attr u => exact ⟨rfl, h⟩
  | globalAttr u => exact ⟨rfl, h⟩

theorem repDurMs_same {f g : Part → Option (Rat × Part)} (hf : ∀ p q, SameTime p q → SamePred (f p) (g q)) : ∀ (k : Nat) (r : Int) (acc : Rat) (p q : Part), SameTime p q →
    SamePred (repDurMs f k r acc p) (repDurMs g k r acc q) := by
  intro k
  induction k with
  | zero => intro r acc p q h; exact ⟨rfl, h⟩
  | succ k ih =>
    intro r acc p q h
    simp only [repDurMs]
    have := hf { p with repetition := r } { q with repetition := r } ⟨h.tempo, h.dur, rfl⟩
    rcases this.cases with ⟨e1, e2⟩ | ⟨x, p1, q1, e1, e2, h1⟩ <;> rw [e1, e2]
    · trivial
    · exact ih _ _ _ _ h1

mutual
theorem durMs_same (vars vars' : String → Option (List Upd)) (dd dd' : List Upd → Part → Option (Rat × Part)) :
    ∀ (e : Upd) (b b' : Bool), settled b e = some b' → ∀ (p q : Part), SameTime p q → SamePred (durMsWith vars dd e p) (durMsWith vars' dd' e q)
  | .leaf l, _, _, _, p, q, h => by simp only [durMsWith]; exact leafDurMs_same l h
  | .lisp es, b, b', hs, p, q, h => by
    simp only [durMsWith]
    split
    · exact ⟨rfl, h⟩
    · exact ⟨rfl, h⟩
    · exact leafDurMs_same _ h
  | .lispNil, b, b', hs, p, q, h | .barline, b, b', hs, p, q, h | .marker _, b, b', hs, p, q, h => by simp only [durMsWith]; exact ⟨rfl, h⟩
  | .chord [], b, b', hs, p, q, h => by simp [settled] at hs
  | .chord (e :: es), b, b', hs, p, q, h => by
    simp only [settled] at hs
    split at hs
    · have := chordDurMs_same vars vars' dd dd' (e :: es) b b' hs none p q h
      simp only [durMsWith]
      rcases this.cases with ⟨e1, e2⟩ | ⟨x, p1, q1, e1, e2, h1⟩ <;> rw [e1, e2]
      · trivial
      · exact ⟨rfl, h1⟩
    · simp at hs
  | .cram es d, b, b', hs, p, q, h => by
    simp only [durMsWith]
    have e : (effectiveDuration d p).toMs p.tempo = (effectiveDuration d q).toMs q.tempo := by unfold effectiveDuration; rw [h.tempo, h.dur]
    rw [e]
    cases (effectiveDuration d q).toMs q.tempo with
    | none => trivial
    | some ms => exact ⟨rfl, h⟩
  | .seq es, b, b', hs, p, q, h => by simp only [durMsWith]; exact listDurMs_same vars vars' dd dd' es b b' (by simpa only [settled] using hs) 0 p q h
  | .rep e n, b, b', hs, p, q, h => by
    simp only [settled] at hs
    simp only [durMsWith]
    have key : ∀ b b' : Bool, settled b e = some b' → SamePred (repDurMs (durMsWith vars dd e) n.toNat 1 0 p) (repDurMs (durMsWith vars' dd' e) n.toNat 1 0 q) := by
      intro b b' he
      exact repDurMs_same (fun p q h => durMs_same vars vars' dd dd' e b b' he p q h) _ _ _ _ _ h
    · split at hs
      · rename_i b1 hb1; exact key _ _ hb1
      · split at hs
        · rename_i hb1
          simp only [Bool.and_eq_true, beq_iff_eq] at hb1
          exact key _ _ hb1.2
        · simp at hs
  | .onReps rs e, b, b', hs, p, q, h => by
    simp only [settled] at hs
    simp only [durMsWith, h.repetition]
    split at hs
    · rename_i b1 hb1
      split
      · exact durMs_same vars vars' dd dd' e b b1 hb1 p q h
      · exact ⟨rfl, h⟩
    · simp at hs
  | .varRef _, b, b', hs, p, q, h | .voice _, b, b', hs, p, q, h | .voiceEnd, b, b', hs, p, q, h
  | .atMarker _, b, b', hs, p, q, h | .varDef _ _, b, b', hs, p, q, h | .partDecl _ _, b, b', hs, p, q, h => by
    simp [settled] at hs
theorem listDurMs_same (vars vars' : String → Option (List Upd)) (dd dd' : List Upd → Part → Option (Rat × Part)) :
    ∀ (es : List Upd) (b b' : Bool), settledL b es = some b' → ∀ (acc : Rat) (p q : Part), SameTime p q →
      SamePred (listDurMs vars dd acc es p) (listDurMs vars' dd' acc es q)
  | [], b, b', hs, acc, p, q, h => by simp only [listDurMs]; exact ⟨rfl, h⟩
  | e :: es, b, b', hs, acc, p, q, h => by
    simp only [settledL] at hs
    split at hs
    · simp at hs
    · rename_i b1 hb1
      simp only [listDurMs]
      have := durMs_same vars vars' dd dd' e b b1 hb1 p q h
      rcases this.cases with ⟨e1, e2⟩ | ⟨x, p1, q1, e1, e2, h1⟩ <;> rw [e1, e2]
      · trivial
      · exact listDurMs_same vars vars' dd dd' es b1 b' hs _ _ _ h1
theorem chordDurMs_same (vars vars' : String → Option (List Upd)) (dd dd' : List Upd → Part → Option (Rat × Part)) :
    ∀ (es : List Upd) (b b' : Bool), settledL b es = some b' → ∀ (m : Option Rat) (p q : Part), SameTime p q →
      SamePred (chordDurMs vars dd m es p) (chordDurMs vars' dd' m es q)
  | [], b, b', hs, m, p, q, h => by simp only [chordDurMs]; exact ⟨rfl, h⟩
  | e :: es, b, b', hs, m, p, q, h => by
    simp only [settledL] at hs
    split at hs
    · simp at hs
    · rename_i b1 hb1
      simp only [chordDurMs]
      have := durMs_same vars vars' dd dd' e b b1 hb1 p q h
      rcases this.cases with ⟨e1, e2⟩ | ⟨x, p1, q1, e1, e2, h1⟩ <;> rw [e1, e2]
      · trivial
      · exact chordDurMs_same vars vars' dd dd' es b1 b' hs _ _ _ h1
end

theorem minOpt_stretch {f : Rat} (hf : 0 ≤ f) (m : Option Rat) (y : Rat) : minOpt (m.map (· * f)) (y * f) = (minOpt m y).map (· * f) := by
  cases m with
  | none => rfl
  | some x => exact minOpt_scale hf

theorem minOpt_isSome (m : Option Rat) (y : Rat) : (minOpt m y).isSome := by cases m <;> rfl

section
variable {f o : Rat} {N : List NoteEvent}

theorem Stretched.repeated {g : Track → Option Track} (hg : ∀ t t' u u', Stretched f o N t t' → g t = some u → g t' = some u' → Stretched f o N u u') :
    ∀ (k : Nat) (r : Int) (t t' u u' : Track), Stretched f o N t t' → Track.repeated g k r t = some u → Track.repeated g k r t' = some u' → Stretched f o N u u' := by
  intro k
  induction k with
  | zero =>
    intro r t t' u u' h h1 h2
    simp only [Track.repeated, Option.some.injEq] at h1 h2; subst h1; subst h2; exact h
  | succ k ih =>
    intro r t t' u u' h h1 h2
    simp only [Track.repeated, Track.setRepetition, Option.bind_some] at h1 h2
    obtain ⟨v, a1, a2⟩ := bind_some_iff h1
    obtain ⟨v', b1, b2⟩ := bind_some_iff h2
    refine ih (r + 1) v v' u u' (hg _ _ _ _ ?_ a1 b1) a2 b2
    exact ⟨h.instr, h.tempo, h.octave, h.volume, h.trackVolume, h.panning, h.quant, h.dur, h.keySig, h.transposition, rfl, h.scale, h.offset, h.mode,
      h.globals, h.globals', h.notes⟩

mutual
/-- Events with a stretched time scale are stretched. -/
theorem stretched (hf : 0 < f) (deref : List Upd → Track → Option Track) : ∀ (e : Upd) (b b' : Bool) (t t' u u' : Track), settled b e = some b' → Stretched f o N t t' →
    Track.updWith deref e t = some u → Track.updWith deref e t' = some u' → Stretched f o N u u'
  | .leaf l, b, b', t, t', u, u', hs, h, h1, h2 => h.leaf hf (by simpa only [settled] using hs) (by simpa only [Track.updWith] using h1) (by simpa only [Track.updWith] using h2)
  | .lisp es, b, b', t, t', u, u', hs, h, h1, h2 => by
    simp only [settled] at hs
    simp only [Track.updWith] at h1 h2
    split at hs
    · rename_i hl
      rw [hl] at h1 h2
      simp only [Option.some.injEq] at h1 h2
      subst h1; subst h2; exact h
    · rename_i l hl
      rw [hl] at h1 h2
      exact h.leaf hf hs h1 h2
    · simp at hs
  | .lispNil, b, b', t, t', u, u', hs, h, h1, h2 | .barline, b, b', t, t', u, u', hs, h, h1, h2 => by
    simp only [Track.updWith, Option.some.injEq] at h1 h2
    subst h1; subst h2; exact h
  | .marker _, b, b', t, t', u, u', hs, h, h1, h2 => by
    simp only [Track.updWith, Track.marker, Option.some.injEq] at h1 h2
    subst h1; subst h2
    exact ⟨h.instr, h.tempo, h.octave, h.volume, h.trackVolume, h.panning, h.quant, h.dur, h.keySig, h.transposition, h.repetition, h.scale, h.offset, h.mode,
      h.globals, h.globals', h.notes⟩
  | .chord [], b, b', t, t', u, u', hs, h, h1, h2 => by simp [settled] at hs
  | .chord (e :: es), b, b', t, t', u, u', hs, h, h1, h2 => by
    simp only [settled] at hs
    split at hs
    · simp only [Track.updWith] at h1 h2
      obtain ⟨v, a1, a2⟩ := bind_some_iff h1
      obtain ⟨v', b1, b2⟩ := bind_some_iff h2
      obtain ⟨⟨m, w⟩, c1, c2⟩ := bind_some_iff a2
      obtain ⟨⟨m', w'⟩, d1, d2⟩ := bind_some_iff b2
      have hv := h.applyGlobals a1 b1
      obtain ⟨hm, hms, hw⟩ := stretchedChord hf deref (e :: es) b b' none { v with chordMode := true } { v' with chordMode := true } m m' w w' hs
        ⟨hv.instr, hv.tempo, hv.octave, hv.volume, hv.trackVolume, hv.panning, hv.quant, hv.dur, hv.keySig, hv.transposition, hv.repetition, hv.scale, hv.offset, rfl,
          hv.globals, hv.globals', hv.notes⟩ c1 d1
      have hms := hms (Or.inr (by simp))
      simp only [Track.chordAdvance, Option.some.injEq] at c2 d2
      subst c2; subst d2
      refine ⟨hw.instr, hw.tempo, hw.octave, hw.volume, hw.trackVolume, hw.panning, hw.quant, hw.dur, hw.keySig, hw.transposition, hw.repetition, hw.scale, ?_, rfl,
          hw.globals, hw.globals', hw.notes⟩
      show w'.cell.offset + m'.getD maxFloat = o + (w.cell.offset + m.getD maxFloat - o) * f
      cases m with
      | none => simp at hms
      | some y => rw [hm, hw.offset]; simp only [Option.map_some, Option.getD_some]; grind
    · simp at hs
  | .cram es d, b, b', t, t', u, u', hs, h, h1, h2 => by
    simp only [settled] at hs
    split at hs
    · simp at hs
    · rename_i b1 hb1
      simp only [Track.updWith] at h1 h2
      obtain ⟨v, a1, a2⟩ := bind_some_iff h1
      obtain ⟨v', b1, b2⟩ := bind_some_iff h2
      obtain ⟨w, c1, c2⟩ := bind_some_iff a2
      obtain ⟨w', d1, d2⟩ := bind_some_iff b2
      clear h1 h2 a2 b2
      unfold Track.cramScale at a1 b1
      have sc : ∀ x y, cramTimeScale t.vars es d t.cell = some x → cramTimeScale t'.vars es d t'.cell = some y → y = x * f := by
        intro x y hx hy
        unfold cramTimeScale at hx hy
        rw [(h.effective d).1] at hy
        have hsame := listDurMs_same t.vars t'.vars (durMs0 t.vars) (durMs0 t'.vars) es true _ hb1 0 t.cell.clone t'.cell.clone ⟨h.tempo.symm, h.dur.symm, h.repetition.symm⟩
        unfold eventsDurMs at hx hy
        split at hx
        · simp at hx
        · rename_i outer ho
          rw [ho] at hy
          simp only at hy
          split at hx
          · simp at hx
          · rename_i inner q hq
            rw [hq] at hsame
            split at hy
            · simp at hy
            · rename_i inner' q' hq'
              rw [hq'] at hsame
              obtain ⟨rfl, _⟩ := hsame
              split at hx
              · simp at hx
              · rename_i hne
                rw [if_neg hne] at hy
                simp only [Option.some.injEq] at hx hy
                rw [← hx, ← hy, h.scale, Rat.div_def, Rat.div_def]; grind
      split at a1
      · simp at a1
      · rename_i x hx
        split at b1
        · simp at b1
        · rename_i y hy
          have := sc x y hx hy
          simp only [Option.some.injEq] at a1 b1
          subst a1; subst b1
          have hw := stretchedL hf deref es true _ _ _ w w' hb1 
            (Stretched.mk (t := t.set { t.cell with timeScale := x }) (t' := t'.set { t'.cell with timeScale := y }) h.instr h.tempo h.octave h.volume h.trackVolume h.panning
              h.quant h.dur h.keySig h.transposition h.repetition this h.offset h.mode h.globals h.globals' h.notes) c1 d1
          simp only [Track.cramRestore, Option.some.injEq] at c2 d2
          subst c2; subst d2
          refine ⟨hw.instr, hw.tempo, hw.octave, hw.volume, hw.trackVolume, hw.panning, hw.quant, ?_, hw.keySig, hw.transposition, hw.repetition, h.scale, hw.offset, hw.mode,
            hw.globals, hw.globals', hw.notes⟩
          cases d with
          | nil => exact h.dur
          | cons c cs => rfl
  | .seq es, b, b', t, t', u, u', hs, h, h1, h2 =>
    stretchedL hf deref es b b' t t' u u' (by simpa only [settled] using hs) h (by simpa only [Track.updWith] using h1) (by simpa only [Track.updWith] using h2)
  | .rep e n, b, b', t, t', u, u', hs, h, h1, h2 => by
    simp only [settled] at hs
    simp only [Track.updWith] at h1 h2
    · split at hs
      · rename_i b1 hb1
        exact Stretched.repeated (fun t t' u u' a c d => stretched hf deref e _ _ t t' u u' hb1 a c d) _ _ _ _ _ _ h h1 h2
      · split at hs
        · rename_i hb1
          simp only [Bool.and_eq_true, beq_iff_eq] at hb1
          exact Stretched.repeated (fun t t' u u' a c d => stretched hf deref e _ _ t t' u u' hb1.2 a c d) _ _ _ _ _ _ h h1 h2
        · simp at hs
  | .onReps rs e, b, b', t, t', u, u', hs, h, h1, h2 => by
    simp only [settled] at hs
    simp only [Track.updWith, h.repetition] at h1 h2
    split at hs
    · rename_i b1 hb1
      split at h1
      · rename_i hr
        rw [if_pos hr] at h2
        exact stretched hf deref e _ _ t t' u u' hb1 h h1 h2
      · rename_i hr
        rw [if_neg hr] at h2
        simp only [Option.some.injEq] at h1 h2
        subst h1; subst h2; exact h
    · simp at hs
  | .varRef _, b, b', t, t', u, u', hs, h, h1, h2 | .voice _, b, b', t, t', u, u', hs, h, h1, h2 | .voiceEnd, b, b', t, t', u, u', hs, h, h1, h2
  | .atMarker _, b, b', t, t', u, u', hs, h, h1, h2 | .varDef _ _, b, b', t, t', u, u', hs, h, h1, h2 | .partDecl _ _, b, b', t, t', u, u', hs, h, h1, h2 => by
    simp [settled] at hs
theorem stretchedL (hf : 0 < f) (deref : List Upd → Track → Option Track) : ∀ (es : List Upd) (b b' : Bool) (t t' u u' : Track), settledL b es = some b' → Stretched f o N t t' →
    Track.listWith deref es t = some u → Track.listWith deref es t' = some u' → Stretched f o N u u'
  | [], b, b', t, t', u, u', hs, h, h1, h2 => by
    simp only [Track.listWith, Option.some.injEq] at h1 h2
    subst h1; subst h2; exact h
  | e :: es, b, b', t, t', u, u', hs, h, h1, h2 => by
    simp only [settledL] at hs
    split at hs
    · simp at hs
    · rename_i b1 hb1
      simp only [Track.listWith] at h1 h2
      obtain ⟨v, a1, a2⟩ := bind_some_iff h1
      obtain ⟨v', b1, b2⟩ := bind_some_iff h2
      exact stretchedL hf deref es _ b' v v' u u' hs (stretched hf deref e b _ t t' v v' hb1 h a1 b1) a2 b2
theorem stretchedChord (hf : 0 < f) (deref : List Upd → Track → Option Track) : ∀ (es : List Upd) (b b' : Bool) (m : Option Rat) (t t' : Track) (n n' : Option Rat) (u u' : Track),
    settledL b es = some b' → Stretched f o N t t' →
    Track.chordWith deref es m t = some (n, u) → Track.chordWith deref es (m.map (· * f)) t' = some (n', u') →
    n' = n.map (· * f) ∧ (m.isSome ∨ es ≠ [] → n.isSome) ∧ Stretched f o N u u'
  | [], b, b', m, t, t', n, n', u, u', hs, h, h1, h2 => by
    simp only [Track.chordWith, Option.some.injEq, Prod.mk.injEq] at h1 h2
    obtain ⟨rfl, rfl⟩ := h1
    obtain ⟨rfl, rfl⟩ := h2
    exact ⟨rfl, by simp, h⟩
  | e :: es, b, b', m, t, t', n, n', u, u', hs, h, h1, h2 => by
    simp only [settledL] at hs
    split at hs
    · simp at hs
    · rename_i b1 hb1
      simp only [Track.chordWith] at h1 h2
      rw [(h.effective _).1] at h2
      split at h1
      · simp at h1
      · rename_i ms hms
        rw [hms] at h2
        simp only at h2
        obtain ⟨v, a1, a2⟩ := bind_some_iff h1
        obtain ⟨v', b1, b2⟩ := bind_some_iff h2
        have : ms * t'.cell.timeScale = ms * t.cell.timeScale * f := by rw [h.scale]; grind
        rw [this, minOpt_stretch (by grind)] at b2
        obtain ⟨x, y, z⟩ := stretchedChord hf deref es _ b' _ v v' n n' u u' hs (stretched hf deref e b _ t t' v v' hb1 h a1 b1) a2 b2
        exact ⟨x, fun _ => y (Or.inl (minOpt_isSome _ _)), z⟩
end
end

end Alda
