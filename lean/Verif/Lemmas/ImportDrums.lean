import Verif.Lemmas.ImportShape
/-!
The pass over percussion: events run on scores that differ in the octaves only.
-/
namespace Alda
open Spec Importer

/-- A part with another octave. -/
def Part.tuned (p : Part) (o : Int) (v : Option PartUpd) : Part := { p with octave := o, override := v }

/-- A score with other octaves (and other notes of what was last set). -/
def withOcts (s : Score) (f : Nat → Int) (g : Nat → Option PartUpd) : Score := { s with heap := fun i => (s.heap i).tuned (f i) (g i) }

/-- The scores differ in the octaves only; no global changes, the active parts are `c`, and their key signature is `K`. -/
def OctRel (K : KeySig) (c : List Nat) (s s' : Score) : Prop := InKey K c s ∧ ∃ f g, s' = withOcts s f g

/-- The same for results. -/
structure OctOut (K : KeySig) (c : List Nat) (o o' : Out) : Prop where
  err : o'.err = o.err
  rel : OctRel K c o.s o'.s

/-- The octave of the parts is known. -/
def Octave (q : Int) (c : List Nat) (s : Score) : Prop := q = -1 ∨ ∀ i ∈ c, (s.heap i).octave = q

theorem Octave.of {q : Int} {c : List Nat} {s t : Score} (h : Octave q c s) (e : ∀ i, (t.heap i).octave = (s.heap i).octave) : Octave q c t := by
  rcases h with h | h
  · exact .inl h
  · exact .inr (fun i hi => (e i).trans (h i hi))

theorem OctRel.refl {K : KeySig} {c : List Nat} {s : Score} (h : InKey K c s) : OctRel K c s s :=
  ⟨h, fun i => (s.heap i).octave, fun i => (s.heap i).override, rfl⟩

theorem OctRel.current {K : KeySig} {c : List Nat} {s s' : Score} (h : OctRel K c s s') : s'.current = c := by
  obtain ⟨h, f, g, rfl⟩ := h; exact h.cur

theorem OctRel.none' {K : KeySig} {c : List Nat} {s s' : Score} (h : OctRel K c s s') : NothingGlobal s' := by
  obtain ⟨h, f, g, rfl⟩ := h; exact h.none

theorem OctOut.andThen {K : KeySig} {c : List Nat} {o o' : Out} {k k' : Score → Out} (h : OctOut K c o o')
    (hk : ∀ s s', OctRel K c s s' → o'.err = none → s' = o'.s → OctOut K c (k s) (k' s')) : OctOut K c (o.andThen k) (o'.andThen k') := by
  obtain ⟨e, s⟩ := o
  obtain ⟨e', s'⟩ := o'
  obtain ⟨h1, h2⟩ := h
  simp only at h1 h2
  subst h1
  cases e' with
  | none => exact hk s s' h2 rfl rfl
  | some e => exact ⟨rfl, h2⟩

/-- Two bodies that correspond. -/
def OctBody (K : KeySig) (c : List Nat) (b b' : Score → Out) : Prop := ∀ s s', OctRel K c s s' → OctOut K c (b s) (b' s')

theorem OctBody.forIds {K : KeySig} {c : List Nat} {g g' : Nat → Score → Out} (hg : ∀ i, OctBody K c (g i) (g' i)) : ∀ l, OctBody K c (forIds g l) (forIds g' l) := by
  intro l
  induction l with
  | nil => intro s s' hr; exact ⟨rfl, hr⟩
  | cons i l ih => intro s s' hr; exact (hg i s s' hr).andThen (fun t t' ht _ _ => ih t t' ht)

theorem withOcts_setPart (s : Score) (f : Nat → Int) (g : Nat → Option PartUpd) (id : Nat) (p : Part) (o : Int) (v : Option PartUpd) :
    (withOcts s f g).setPart id (p.tuned o v) = withOcts (s.setPart id p) (fun i => if i = id then o else f i) (fun i => if i = id then v else g i) := by
  simp only [withOcts, Score.setPart]
  congr 1
  funext i
  by_cases h : i = id
  · simp [h]
  · simp [h]

theorem OctRel.set {K : KeySig} {c : List Nat} {s s' : Score} (h : OctRel K c s s') (id : Nat) (p : Part) (o : Int) (v : Option PartUpd) (hp : p.keySig = (s.heap id).keySig) :
    OctRel K c (s.setPart id p) (s'.setPart id (p.tuned o v)) := by
  obtain ⟨h0, f, g, rfl⟩ := h
  refine ⟨⟨h0.none, h0.cur, fun i hi => ?_⟩, _, _, withOcts_setPart s f g id p o v⟩
  simp only [Score.setPart]
  split
  · rename_i e; rw [hp, ← e]; exact h0.key i hi
  · exact h0.key i hi

theorem OctRel.mod {K : KeySig} {c : List Nat} {s s' : Score} (h : OctRel K c s s') (id : Nat) (m : Part → Part) (hm : ∀ p o v, m (p.tuned o v) = (m p).tuned o v)
    (hk : ∀ p, (m p).keySig = p.keySig) : OctRel K c (s.modPart id m) (s'.modPart id m) := by
  have h0 := h
  obtain ⟨_, f, g, rfl⟩ := h
  have := h0.set id (m (s.heap id)) (f id) (g id) (hk _)
  rw [← hm] at this
  exact this

theorem applyGlobals_oct {K : KeySig} {c : List Nat} : OctBody K c applyGlobals applyGlobals := by
  intro s s' h
  unfold applyGlobals
  rw [h.current, h.1.cur]
  refine OctBody.forIds ?_ c s s' h
  intro i t t' ht
  have h0 := ht
  obtain ⟨h1, f, g, rfl⟩ := ht
  unfold applyGlobalsPart
  simp only [inWindow_none h1.none, inWindow_none (s := withOcts t f g) h1.none, applyUpdates]
  exact ⟨rfl, h0.set i { t.heap i with override := none } (f i) none rfl⟩

theorem beforeNote_oct {K : KeySig} {c : List Nat} (d : Dur) : OctBody K c (beforeNote d) (beforeNote d) := by
  intro s s' h
  unfold beforeNote
  have hm : s'.chordMode = s.chordMode := by obtain ⟨_, f, g, rfl⟩ := h; rfl
  rw [hm]
  refine OctOut.andThen ?_ ?_
  · split
    · exact ⟨rfl, h⟩
    · exact applyGlobals_oct s s' h
  · intro t t' ht _ _
    split <;> exact ⟨rfl, ht⟩

theorem advance_oct {K : KeySig} {c : List Nat} (i : Nat) (ms : Rat) (d : Dur) {s s' : Score} (h : OctRel K c s s') :
    OctRel K c (advancePart s i ms d) (advancePart s' i ms d) := by
  unfold advancePart
  have hm : s'.chordMode = s.chordMode := by obtain ⟨_, f, g, rfl⟩ := h; rfl
  rw [hm]
  refine h.mod i (fun p => updateDefaultDuration (if s.chordMode then p else { p with lastOffset := p.offset, offset := p.offset + ms }) d) ?_ ?_
  · intro p o v; cases s.chordMode <;> cases d <;> rfl
  · intro p; cases s.chordMode <;> cases d <;> rfl

theorem eff_tuned (d : Dur) (p : Part) (o : Int) (v : Option PartUpd) : effectiveDuration d (p.tuned o v) = effectiveDuration d p := by cases d <;> rfl

theorem restUpd_oct {K : KeySig} {c : List Nat} (d : Dur) : OctBody K c (restUpd d) (restUpd d) := by
  intro s s' h
  unfold restUpd
  refine (beforeNote_oct d s s' h).andThen ?_
  intro t t' ht _ _
  rw [ht.current, ht.1.cur]
  refine OctBody.forIds ?_ c t t' ht
  intro i u u' hu
  have key : restPart d i u' = match (effectiveDuration d (u.heap i)).toMs (u.heap i).tempo with
      | none => .fail .nonFinite u'
      | some ms => .ok (advancePart u' i (ms * (u.heap i).timeScale) (effectiveDuration d (u.heap i))) := by
    obtain ⟨_, f, g, rfl⟩ := hu
    cases d <;> rfl
  rw [key]
  unfold restPart
  simp only
  cases (effectiveDuration d (u.heap i)).toMs (u.heap i).tempo with
  | none => exact ⟨rfl, hu⟩
  | some ms => exact ⟨rfl, advance_oct i _ _ hu⟩

/-! ### Attributes -/

theorem updatePart_tuned (u : PartUpd) (hu : u.kind ≠ .octave ∧ u.kind ≠ .octaveUp ∧ u.kind ≠ .octaveDown) (b : Bool) (p : Part) (o : Int) (v : Option PartUpd) :
    updatePart u b (p.tuned o v) = match updatePart u b p with | .error e => .error e | .ok q => .ok (q.tuned o v) := by
  cases u with
  | tempo t => cases b <;> rfl
  | metricModulation t => cases b <;> rfl
  | octave n => exact absurd rfl hu.1
  | octaveUp => exact absurd rfl hu.2.1
  | octaveDown => exact absurd rfl hu.2.2
  | midiChannel n =>
    simp only [updatePart]
    by_cases h : n = 9 ∧ p.instr.percussion = false
    · rw [if_pos h, if_pos (show n = 9 ∧ (p.tuned o v).instr.percussion = false from h)]
    · rw [if_neg h, if_neg (show ¬ (n = 9 ∧ (p.tuned o v).instr.percussion = false) from h)]; rfl
  | _ => rfl

theorem updatePart_octave {u : PartUpd} (hu : u.kind ≠ .octave ∧ u.kind ≠ .octaveUp ∧ u.kind ≠ .octaveDown) {b : Bool} {p q : Part} (h : updatePart u b p = .ok q) :
    q.octave = p.octave := by
  cases u with
  | tempo t => simp only [updatePart, Except.ok.injEq] at h; subst h; cases b <;> rfl
  | metricModulation t => simp only [updatePart, Except.ok.injEq] at h; subst h; cases b <;> rfl
  | octave n => exact absurd rfl hu.1
  | octaveUp => exact absurd rfl hu.2.1
  | octaveDown => exact absurd rfl hu.2.2
  | midiChannel n =>
    simp only [updatePart] at h
    split at h
    · simp at h
    · simp only [Except.ok.injEq] at h; subst h; rfl
  | _ => simp only [updatePart, Except.ok.injEq] at h; subst h; rfl

theorem attr_oct {K : KeySig} {c : List Nat} (u : PartUpd) (hk : u.kind ≠ .keySignature) (hu : u.kind ≠ .octave ∧ u.kind ≠ .octaveUp ∧ u.kind ≠ .octaveDown) :
    OctBody K c (attrUpd u) (attrUpd u) := by
  intro s s' h
  unfold attrUpd
  rw [h.current, h.1.cur]
  refine OctBody.forIds ?_ c s s' h
  intro i t t' ht
  have h0 := ht
  obtain ⟨h1, f, g, rfl⟩ := ht
  unfold attrPart
  rw [show (withOcts t f g).heap i = (t.heap i).tuned (f i) (g i) from rfl, updatePart_tuned u hu]
  cases hp : updatePart u false (t.heap i) with
  | error e => exact ⟨rfl, h0⟩
  | ok q => exact ⟨rfl, h0.set i { q with override := some u } (f i) (some u) (show q.keySig = _ from updatePart_keySig hk hp)⟩

theorem forIds_octaves {g : Nat → Score → Out} (hg : ∀ i t j, ((g i t).s.heap j).octave = (t.heap j).octave) :
    ∀ (l : List Nat) (s : Score) (j : Nat), ((forIds g l s).s.heap j).octave = (s.heap j).octave := by
  intro l
  induction l with
  | nil => intro s j; rfl
  | cons i l ih =>
    intro s j
    simp only [forIds]
    have := hg i s j
    rcases hx : g i s with ⟨e, t⟩
    rw [hx] at this
    cases e with
    | some e => exact this
    | none => exact (ih t j).trans this

theorem attr_octaves (u : PartUpd) (hu : u.kind ≠ .octave ∧ u.kind ≠ .octaveUp ∧ u.kind ≠ .octaveDown) (s : Score) (j : Nat) :
    ((attrUpd u s).s.heap j).octave = (s.heap j).octave := by
  refine forIds_octaves ?_ _ s j
  intro i t j
  unfold attrPart
  split
  · rfl
  · rename_i p hp
    simp only [Out.ok, Score.setPart]
    split
    · rename_i e; rw [e]; show p.octave = _; exact updatePart_octave hu hp
    · rfl

/-- Setting the octave in the second score only. -/
theorem setOctave_oct {K : KeySig} {c : List Nat} (q : Int) : ∀ (l : List Nat) (s s' : Score), OctRel K c s s' →
    (forIds (attrPart (.octave q)) l s').err = none ∧ OctRel K c s (forIds (attrPart (.octave q)) l s').s ∧
      ∀ i, ((forIds (attrPart (.octave q)) l s').s.heap i).octave = if i ∈ l then q else (s'.heap i).octave := by
  intro l
  induction l with
  | nil => intro s s' h; exact ⟨rfl, h, fun i => by simp [forIds, Out.ok]⟩
  | cons i l ih =>
    intro s s' h
    simp only [forIds]
    have e : attrPart (.octave q) i s' = .ok (s'.setPart i { s'.heap i with octave := q, override := some (.octave q) }) := rfl
    rw [e]
    have hr : OctRel K c s (s'.setPart i { s'.heap i with octave := q, override := some (.octave q) }) := by
      obtain ⟨h1, f, g, rfl⟩ := h
      refine ⟨h1, fun j => if j = i then q else f j, fun j => if j = i then some (.octave q) else g j, ?_⟩
      have := withOcts_setPart s f g i (s.heap i) q (some (.octave q))
      rw [show s.setPart i (s.heap i) = s from by
        unfold Score.setPart
        cases s
        simp only [Score.mk.injEq, and_true]
        funext j
        by_cases hj : j = i
        · simp [hj]
        · simp [hj]] at this
      exact this
    obtain ⟨a, b, d⟩ := ih s _ hr
    refine ⟨a, b, fun j => ?_⟩
    refine (d j).trans ?_
    by_cases hj : j ∈ l
    · simp [hj]
    · by_cases hi : j = i
      · simp [hi, Score.setPart]
      · simp [hj, hi, Score.setPart]

/-! ### Notes -/

theorem drum_pitch (n : Int) (h0 : 24 ≤ n) (h1 : n ≤ 127) (K : KeySig) (hK : ∀ l, K.read l = []) (o t : Int) :
    calculateMidiNote (.letter (toLetterAndOctave n).1 (toLetterAndOctave n).2.1) (toLetterAndOctave n).2.2 K t = calculateMidiNote (.midi n) o K t := by
  have key : ∀ k < 104, applyAccidentals (wrap32 (wrap32 (wrap32 ((toLetterAndOctave (k + 24 : Nat)).2.2 + 1) * 12) + (toLetterAndOctave (k + 24 : Nat)).1.interval))
      ((toLetterAndOctave (k + 24 : Nat)).2.1.getD []) = (k + 24 : Nat) := by decide +kernel
  have := key (n.toNat - 24) (by omega)
  rw [show ((n.toNat - 24 + 24 : Nat) : Int) = n from by omega] at this
  unfold calculateMidiNote
  simp only [hK]
  generalize toLetterAndOctave n = x at this ⊢
  obtain ⟨l, a, q⟩ := x
  cases a with
  | none => simp only [Option.getD_none] at this ⊢; rw [this]
  | some as => simp only [Option.getD_some] at this ⊢; rw [this]

theorem drum_octave (n : Int) (h0 : 24 ≤ n) (h1 : n ≤ 127) : (toLetterAndOctave n).2.2 ≠ -1 := by
  have key : ∀ k < 104, (toLetterAndOctave (k + 24 : Nat)).2.2 ≠ -1 := by decide +kernel
  have := key (n.toNat - 24) (by omega)
  rw [show ((n.toNat - 24 + 24 : Nat) : Int) = n from by omega] at this
  exact this

theorem simpleCheckFrom_tuned (s : Score) (f : Nat → Int) (g : Nat → Option PartUpd) (p : Part) (o : Int) (v : Option PartUpd) : ∀ l,
    simpleCheckFrom (withOcts s f g) (p.tuned o v) l = simpleCheckFrom s p l := by
  intro l
  induction l with
  | nil => rfl
  | cons c l ih => simp only [simpleCheckFrom, ih]; rfl

theorem complexCheckFrom_tuned (s : Score) (f : Nat → Int) (g : Nat → Option PartUpd) (p : Part) (o : Int) (v : Option PartUpd) (a : Rat) : ∀ l,
    complexCheckFrom (withOcts s f g) (p.tuned o v) a l = complexCheckFrom s p a l := by
  intro l
  induction l with
  | nil => rfl
  | cons c l ih => simp only [complexCheckFrom, ih]; rfl

theorem determineMidiChannel_tuned (s : Score) (f : Nat → Int) (g : Nat → Option PartUpd) (p : Part) (o : Int) (v : Option PartUpd) (a : Rat) :
    determineMidiChannel (withOcts s f g) (p.tuned o v) a = determineMidiChannel s p a := by
  unfold determineMidiChannel availableMidiChannel simpleCheck complexCheck
  rw [simpleCheckFrom_tuned, complexCheckFrom_tuned]
  rfl

theorem recordUsage_oct {K : KeySig} {c : List Nat} {s s' : Score} (h : OctRel K c s s') (ch o : Nat) : OctRel K c (recordUsage s ch o) (recordUsage s' ch o) := by
  obtain ⟨h1, f, g, rfl⟩ := h
  unfold recordUsage
  rw [show (withOcts s f g).usage = s.usage from rfl]
  split
  · exact ⟨h1, f, g, rfl⟩
  · exact ⟨⟨h1.none, h1.cur, h1.key⟩, f, g, rfl⟩

/-- Adding an event: the rest of `emitNote`. -/
def emitPitch (m : Int) (ms a : Rat) (i : Nat) (s : Score) : Out :=
  let p := s.heap i
  if m < 0 ∨ m > 127 then .fail (.user "MIDI note out of the 0-127 range") s
  else
    match assignMidiChannel s p a with
    | .error e => .fail e s
    | .ok (ch, s) =>
      let s := s.modPart i (fun p => { p with midiChannel := ch })
      let s := s.modPart p.origin (fun p => { p with midiChannel := ch })
      .ok { s with events := s.events ++
        [{ part := p.origin, channel := ch, note := m, offset := p.offset, duration := ms,
           audible := a, volume := p.volume, trackVolume := p.trackVolume, panning := p.panning }] }

theorem emitPitch_oct {K : KeySig} {c : List Nat} (m : Int) (ms a : Rat) (i : Nat) : OctBody K c (emitPitch m ms a i) (emitPitch m ms a i) := by
  intro s s' h
  unfold emitPitch
  simp only
  by_cases hm : m < 0 ∨ m > 127
  · simp only [if_pos hm]; exact ⟨rfl, h⟩
  · simp only [if_neg hm]
    have hd : determineMidiChannel s' (s'.heap i) a = determineMidiChannel s (s.heap i) a := by
      obtain ⟨h1, f, g, rfl⟩ := h; exact determineMidiChannel_tuned s f g (s.heap i) (f i) (g i) a
    have hp : (s'.heap i).origin = (s.heap i).origin ∧ (s'.heap i).offset = (s.heap i).offset ∧ (s'.heap i).volume = (s.heap i).volume ∧
        (s'.heap i).trackVolume = (s.heap i).trackVolume ∧ (s'.heap i).panning = (s.heap i).panning := by
      obtain ⟨h1, f, g, rfl⟩ := h; exact ⟨rfl, rfl, rfl, rfl, rfl⟩
    unfold assignMidiChannel
    rw [hd, hp.1, hp.2.1, hp.2.2.1, hp.2.2.2.1, hp.2.2.2.2]
    cases determineMidiChannel s (s.heap i) a with
    | error e => exact ⟨rfl, h⟩
    | ok ch =>
      simp only
      by_cases hch : 0 ≤ ch ∧ ch < 16
      · simp only [if_pos hch]
        have h1 := (recordUsage_oct h ch.toNat (s.heap i).origin).mod i (fun p => { p with midiChannel := ch }) (fun _ _ _ => rfl) (fun _ => rfl)
        have h2 := h1.mod (s.heap i).origin (fun p => { p with midiChannel := ch }) (fun _ _ _ => rfl) (fun _ => rfl)
        refine ⟨rfl, ?_⟩
        generalize ((recordUsage s ch.toNat (s.heap i).origin).modPart i (fun p => { p with midiChannel := ch })).modPart (s.heap i).origin (fun p => { p with midiChannel := ch }) = x at h2 ⊢
        generalize ((recordUsage s' ch.toNat (s.heap i).origin).modPart i (fun p => { p with midiChannel := ch })).modPart (s.heap i).origin (fun p => { p with midiChannel := ch }) = x' at h2 ⊢
        obtain ⟨g0, f, g, rfl⟩ := h2
        exact ⟨⟨g0.none, g0.cur, g0.key⟩, f, g, rfl⟩
      · simp only [if_neg hch]; exact ⟨rfl, h⟩

theorem notePart_drum {K : KeySig} {c : List Nat} (hK : ∀ l, K.read l = []) (n : Int) (h0 : 24 ≤ n) (h1 : n ≤ 127) (d : Dur) (sl : Bool) (i : Nat) (hi : i ∈ c)
    {s s' : Score} (h : OctRel K c s s') (ho : (s'.heap i).octave = (toLetterAndOctave n).2.2) :
    OctOut K c (notePart (.midi n) d sl i s) (notePart (.letter (toLetterAndOctave n).1 (toLetterAndOctave n).2.1) d sl i s') := by
  have hp : effectiveDuration d (s'.heap i) = effectiveDuration d (s.heap i) ∧ (s'.heap i).tempo = (s.heap i).tempo ∧ (s'.heap i).timeScale = (s.heap i).timeScale ∧
      (s'.heap i).quant = (s.heap i).quant ∧ (s'.heap i).keySig = K ∧ (s'.heap i).transposition = (s.heap i).transposition := by
    obtain ⟨hk, f, g, rfl⟩ := h
    exact ⟨eff_tuned _ _ _ _, rfl, rfl, rfl, hk.key i hi, rfl⟩
  unfold notePart
  simp only
  rw [hp.1, hp.2.1, hp.2.2.1, hp.2.2.2.1]
  cases (effectiveDuration d (s.heap i)).toMs (s.heap i).tempo with
  | none => exact ⟨rfl, h⟩
  | some ms =>
    simp only
    generalize (if sl = true then ms * (s.heap i).timeScale else ms * (s.heap i).timeScale * (s.heap i).quant) = a
    refine OctOut.andThen ?_ (fun t t' ht _ _ => ⟨rfl, advance_oct i _ _ ht⟩)
    by_cases ha : a > 0
    · simp only [if_pos ha]
      have := emitPitch_oct (K := K) (c := c) (calculateMidiNote (.midi n) (s.heap i).octave (s.heap i).keySig (s.heap i).transposition) (ms * (s.heap i).timeScale) a i s s' h
      have e1 : emitNote (.midi n) (ms * (s.heap i).timeScale) a i s =
        emitPitch (calculateMidiNote (.midi n) (s.heap i).octave (s.heap i).keySig (s.heap i).transposition) (ms * (s.heap i).timeScale) a i s := rfl
      have e2 : emitNote (.letter (toLetterAndOctave n).1 (toLetterAndOctave n).2.1) (ms * (s.heap i).timeScale) a i s' =
        emitPitch (calculateMidiNote (.letter (toLetterAndOctave n).1 (toLetterAndOctave n).2.1) (s'.heap i).octave (s'.heap i).keySig (s'.heap i).transposition)
          (ms * (s.heap i).timeScale) a i s' := rfl
      rw [e1, e2, ho, hp.2.2.2.2.1, hp.2.2.2.2.2, drum_pitch n h0 h1 K hK (s.heap i).octave]
      rw [h.1.key i hi] at this ⊢
      exact this
    · simp only [if_neg ha]; exact ⟨rfl, h⟩

theorem noteUpd_drum {K : KeySig} {c : List Nat} (hK : ∀ l, K.read l = []) (n : Int) (h0 : 24 ≤ n) (h1 : n ≤ 127) (d : Dur) (sl : Bool)
    {s s' : Score} (h : OctRel K c s s') (ho : ∀ i ∈ c, (s'.heap i).octave = (toLetterAndOctave n).2.2) :
    OctOut K c (noteUpd (.midi n) d sl s) (noteUpd (.letter (toLetterAndOctave n).1 (toLetterAndOctave n).2.1) d sl s') := by
  unfold noteUpd
  refine (beforeNote_oct d s s' h).andThen ?_
  intro t t' ht _ e
  have hoct : ∀ i ∈ c, (t'.heap i).octave = (toLetterAndOctave n).2.2 := by
    intro i hi; rw [e, (beforeNote_timed d h.none').octave i]; exact ho i hi
  rw [ht.current, ht.1.cur]
  clear e
  have loop : ∀ (l : List Nat), (∀ i ∈ l, i ∈ c) → ∀ (u u' : Score), OctRel K c u u' → (∀ i ∈ c, (u'.heap i).octave = (toLetterAndOctave n).2.2) →
      OctOut K c (forIds (notePart (.midi n) d sl) l u) (forIds (notePart (.letter (toLetterAndOctave n).1 (toLetterAndOctave n).2.1) d sl) l u') := by
    intro l
    induction l with
    | nil => intro _ u u' hu _; exact ⟨rfl, hu⟩
    | cons i l ih =>
      intro hl u u' hu ho
      simp only [forIds]
      refine (notePart_drum hK n h0 h1 d sl i (hl i (by simp)) hu (ho i (hl i (by simp)))).andThen ?_
      intro v v' hv _ e
      refine ih (fun j hj => hl j (by simp [hj])) v v' hv ?_
      intro j hj
      rw [e, (notePart_timed _ d sl i u').octave j]
      exact ho j hj
  exact loop c (fun _ h => h) t t' ht hoct

/-! ### The pass -/

/-- What the pass must do at one event. -/
def OctStep (K : KeySig) (c : List Nat) (deref : List Upd → Score → Out) (es es' : List Upd) (o o' : Opt) : Prop :=
  ∀ s s', OctRel K c s s' → Octave o.octave c s' →
    OctOut K c (updListWith deref es s) (updListWith deref es' s') ∧ ((updListWith deref es' s').err = none → Octave o'.octave c (updListWith deref es' s').s)

theorem OctBody.rep {K : KeySig} {c : List Nat} {deref : List Upd → Score → Out} {e e' : Upd} (n : Int) (h : OctBody K c (updWith deref e) (updWith deref e')) :
    OctBody K c (updWith deref (.rep e n)) (updWith deref (.rep e' n)) := by
  intro s s' hr
  simp only [updWith]
  generalize n.toNat = k, (1 : Int) = r
  induction k generalizing r s s' with
  | zero => exact ⟨rfl, hr⟩
  | succ k ih =>
    simp only [repLoop]
    rw [hr.current, hr.1.cur]
    refine OctOut.andThen (OctBody.forIds ?_ c s s' hr) ?_
    · intro i v v' hv
      exact ⟨rfl, hv.mod i (fun p => { p with repetition := r }) (fun _ _ _ => rfl) (fun _ => rfl)⟩
    · intro t t' ht _ _
      exact (h t t' ht).andThen (fun u u' hu _ _ => ih u u' hu _)

theorem OctBody.onReps {K : KeySig} {c : List Nat} {deref : List Upd → Score → Out} {e e' : Upd} (rs : List (Int × Int)) (h : OctBody K c (updWith deref e) (updWith deref e')) :
    OctBody K c (updWith deref (.onReps rs e)) (updWith deref (.onReps rs e')) := by
  intro s s' hr
  simp only [updWith]
  rw [hr.current, hr.1.cur]
  refine OctBody.forIds ?_ _ s s' hr
  intro i t t' ht
  unfold onRepsAt
  rw [ht.current, ht.1.cur]
  cases c[i]? with
  | none => exact ⟨rfl, ht⟩
  | some id =>
    simp only
    rw [show (t'.heap id).repetition = (t.heap id).repetition from by obtain ⟨_, f, g, rfl⟩ := ht; rfl]
    split
    · exact h t t' ht
    · exact ⟨rfl, ht⟩

theorem OctStep.one {K : KeySig} {c : List Nat} {deref : List Upd → Score → Out} {e e' : Upd} {o o' : Opt} (h : OctBody K c (updWith deref e) (updWith deref e'))
    (ho : o'.octave = -1) : OctStep K c deref [e] [e'] o o' := by
  intro s s' hr _
  rw [updList_one, updList_one]
  exact ⟨h s s' hr, fun _ => .inl ho⟩

theorem OctStep.leaf {K : KeySig} {c : List Nat} {deref : List Upd → Score → Out} {e e' : Upd} {o : Opt} (b : Bool) (h : OctBody K c (updWith deref e) (updWith deref e'))
    (ho : ∀ s, NothingGlobal s → ∀ i, ((updWith deref e' s).s.heap i).octave = (s.heap i).octave) : OctStep K c deref [e] [e'] o (if b then o.resetOctave else o) := by
  intro s s' hr hq
  rw [updList_one, updList_one]
  refine ⟨h s s' hr, fun _ => ?_⟩
  cases b with
  | true => exact .inl rfl
  | false => exact hq.of (ho s' hr.none')

theorem OctStep.note {K : KeySig} {c : List Nat} {deref : List Upd → Score → Out} (hK : ∀ l, K.read l = []) (o : Opt) (n : Int) (h0 : 24 ≤ n) (h1 : n ≤ 127) (d : Dur) (sl b : Bool) :
    OctStep K c deref [.leaf (.note (.midi n) d sl)] (modifyMidi o (.leaf (.note (.midi n) d sl))).1 o
      (if b then (modifyMidi o (.leaf (.note (.midi n) d sl))).2.resetOctave else (modifyMidi o (.leaf (.note (.midi n) d sl))).2) := by
  intro s s' hr hq
  have fin : ∀ (q : Int) (t' : Score), NothingGlobal t' → (∀ i ∈ c, (t'.heap i).octave = q) → ∀ i ∈ c,
      ((noteUpd (.letter (toLetterAndOctave n).1 (toLetterAndOctave n).2.1) d sl t').s.heap i).octave = q := by
    intro q t' hn ht i hi
    rw [(noteUpd_timed _ d sl hn).octave i]; exact ht i hi
  simp only [modifyMidi]
  by_cases hq' : (toLetterAndOctave n).2.2 ≠ o.octave
  · simp only [if_pos hq']
    obtain ⟨a, b', e⟩ := setOctave_oct (K := K) (c := c) (toLetterAndOctave n).2.2 c s s' hr
    have eo : ∀ i ∈ c, ((forIds (attrPart (.octave (toLetterAndOctave n).2.2)) c s').s.heap i).octave = (toLetterAndOctave n).2.2 := by
      intro i hi; rw [e i, if_pos hi]
    have key : updListWith deref [.leaf (.attr (.octave (toLetterAndOctave n).2.2)), .leaf (.note (.letter (toLetterAndOctave n).1 (toLetterAndOctave n).2.1) d sl)] s' =
        noteUpd (.letter (toLetterAndOctave n).1 (toLetterAndOctave n).2.1) d sl (forIds (attrPart (.octave (toLetterAndOctave n).2.2)) c s').s := by
      rw [show ∀ (x y : Upd), updListWith deref [x, y] s' = (updWith deref x s').andThen (fun t => updListWith deref [y] t) from fun _ _ => rfl]
      rw [show updWith deref (.leaf (.attr (.octave (toLetterAndOctave n).2.2))) s' = forIds (attrPart (.octave (toLetterAndOctave n).2.2)) s'.current s' from rfl, hr.current]
      rcases hx : forIds (attrPart (.octave (toLetterAndOctave n).2.2)) c s' with ⟨er, t⟩
      rw [hx] at a
      simp only at a
      subst a
      simp only [Out.andThen]
      rw [updList_one]; rfl
    rw [key, updList_one]
    refine ⟨noteUpd_drum hK n h0 h1 d sl b' eo, fun _ => ?_⟩
    cases b with
    | true => exact .inl rfl
    | false => exact .inr (fin _ _ b'.none' eo)
  · simp only [if_neg hq']
    have hq' : (toLetterAndOctave n).2.2 = o.octave := Decidable.not_not.1 hq'
    have ho : ∀ i ∈ c, (s'.heap i).octave = (toLetterAndOctave n).2.2 := by
      rcases hq with hq | hq
      · exact absurd (hq'.trans hq) (drum_octave n h0 h1)
      · rw [hq']; exact hq
    rw [updList_one, updList_one]
    refine ⟨noteUpd_drum hK n h0 h1 d sl hr ho, fun _ => ?_⟩
    cases b with
    | true => exact .inl rfl
    | false =>
      refine .inr ?_
      have := fin _ s' hr.none' ho
      rw [hq'] at this
      exact this

mutual
theorem midi_upd {K : KeySig} {c : List Nat} {deref : List Upd → Score → Out} (hK : ∀ l, K.read l = []) : ∀ (e : Upd) (o : Opt), Imported e → Percussive e →
    OctStep K c deref [e] (midiUpd o e).1 o (midiUpd o e).2
  | .leaf (.note (.midi n) d sl), o, _, h => by simp only [midiUpd]; exact OctStep.note hK o n h.1 h.2 d sl _
  | .leaf (.rest d), o, _, _ => by
    simp only [midiUpd, modifyMidi]
    exact OctStep.leaf _ (restUpd_oct d) (fun s hs i => (restUpd_timed d hs).octave i)
  | .leaf (.attr u), o, h, h' => by
    simp only [midiUpd, modifyMidi]
    exact OctStep.leaf _ (attr_oct u h.1 h') (fun s _ i => attr_octaves u h' s i)
  | .barline, o, _, _ => by
    simp only [midiUpd, modifyMidi]
    exact OctStep.leaf _ (fun s s' hr => ⟨rfl, hr⟩) (fun s _ i => rfl)
  | .seq es, o, h, h' => by
    simp only [midiUpd]
    refine OctStep.one (fun s s' hr => ?_) rfl
    simp only [updWith]
    exact (midi_list hK es o.resetOctave h h' s s' hr (.inl rfl)).1
  | .rep (.seq es) n, o, h, h' => by
    simp only [midiUpd]
    refine OctStep.one (OctBody.rep n fun s s' hr => ?_) rfl
    simp only [updWith]
    exact (midi_list hK es o.resetOctave h.2 h' s s' hr (.inl rfl)).1
  | .onReps rs (.seq es), o, h, h' => by
    simp only [midiUpd]
    refine OctStep.one (OctBody.onReps rs fun s s' hr => ?_) rfl
    simp only [updWith]
    exact (midi_list hK es o.resetOctave h h' s s' hr (.inl rfl)).1
theorem midi_list {K : KeySig} {c : List Nat} {deref : List Upd → Score → Out} (hK : ∀ l, K.read l = []) : ∀ (es : List Upd) (o : Opt), ImportedL es → PercussiveL es →
    OctStep K c deref es (midiList o es).1 o (midiList o es).2
  | [], o, _, _ => fun s s' hr hq => ⟨⟨rfl, hr⟩, fun _ => hq⟩
  | e :: es, o, h, h' => by
    intro s s' hr hq
    obtain ⟨a, b⟩ := midi_upd (K := K) (c := c) (deref := deref) hK e o h.1 h'.1 s s' hr hq
    have ih := midi_list (K := K) (c := c) (deref := deref) hK es (midiUpd o e).2 h.2 h'.2
    simp only [midiList]
    rw [updList_append]
    rw [updList_one] at a
    constructor
    · show OctOut K c ((updWith deref e s).andThen fun t => updListWith deref es t) _
      refine a.andThen ?_
      intro t t' ht he e'
      exact (ih t t' ht (by rw [e']; exact b he)).1
    · intro he
      rcases hx : updListWith deref (midiUpd o e).1 s' with ⟨er, t'⟩
      rw [hx] at he b a
      cases er with
      | some x => simp [Out.andThen] at he
      | none => exact (ih _ t' a.rel (b rfl)).2 he
end

/-! ### What the pass keeps -/

theorem modifyMidi_imported (o : Opt) (e : Upd) (h : Imported e) : ImportedL (modifyMidi o e).1 ∧ (modifyMidi o e).2.dur = o.dur := by
  match e, h with
  | .leaf (.note (.midi n) d sl), h =>
    simp only [modifyMidi]
    split
    · exact ⟨⟨⟨by simp [PartUpd.kind], by simp [PartUpd.kind]⟩, h, trivial⟩, rfl⟩
    · exact ⟨⟨h, trivial⟩, rfl⟩
  | .leaf (.note (.letter l a) d sl), h => exact ⟨⟨h, trivial⟩, rfl⟩
  | .leaf (.rest d), h => exact ⟨⟨h, trivial⟩, rfl⟩
  | .leaf (.attr u), h => exact ⟨⟨h, trivial⟩, rfl⟩
  | .barline, h => exact ⟨⟨h, trivial⟩, rfl⟩
  | .chord es, h => exact ⟨⟨h, trivial⟩, rfl⟩
  | .seq es, h => exact ⟨⟨h, trivial⟩, rfl⟩
  | .rep (.seq es) n, h => exact ⟨⟨h, trivial⟩, rfl⟩
  | .onReps rs (.seq es), h => exact ⟨⟨h, trivial⟩, rfl⟩

mutual
theorem midiUpd_imported : ∀ (e : Upd) (o : Opt), Imported e → Percussive e → ImportedL (midiUpd o e).1 ∧ (midiUpd o e).2.dur = o.dur
  | .leaf (.note p d sl), o, h, _ => by
    obtain ⟨a, b⟩ := modifyMidi_imported o (.leaf (.note p d sl)) h
    simp only [midiUpd]
    exact ⟨a, by split <;> exact b⟩
  | .leaf (.rest d), o, h, _ => by
    obtain ⟨a, b⟩ := modifyMidi_imported o (.leaf (.rest d)) h
    simp only [midiUpd]
    exact ⟨a, by split <;> exact b⟩
  | .leaf (.attr u), o, h, _ => by
    obtain ⟨a, b⟩ := modifyMidi_imported o (.leaf (.attr u)) h
    simp only [midiUpd]
    exact ⟨a, by split <;> exact b⟩
  | .barline, o, h, _ => by
    obtain ⟨a, b⟩ := modifyMidi_imported o .barline h
    simp only [midiUpd]
    exact ⟨a, by split <;> exact b⟩
  | .seq es, o, h, h' => by
    obtain ⟨a, b⟩ := midiList_imported es o.resetOctave h h'
    simp only [midiUpd]
    exact ⟨⟨a, trivial⟩, b⟩
  | .rep (.seq es) n, o, h, h' => by
    obtain ⟨a, b⟩ := midiList_imported es o.resetOctave h.2 h'
    simp only [midiUpd]
    exact ⟨⟨⟨h.1, a⟩, trivial⟩, b⟩
  | .onReps rs (.seq es), o, h, h' => by
    obtain ⟨a, b⟩ := midiList_imported es o.resetOctave h h'
    simp only [midiUpd]
    exact ⟨⟨a, trivial⟩, b⟩
theorem midiList_imported : ∀ (es : List Upd) (o : Opt), ImportedL es → PercussiveL es → ImportedL (midiList o es).1 ∧ (midiList o es).2.dur = o.dur
  | [], _, _, _ => ⟨trivial, rfl⟩
  | e :: es, o, h, h' => by
    obtain ⟨a, b⟩ := midiUpd_imported e o h.1 h'.1
    obtain ⟨a2, b2⟩ := midiList_imported es (midiUpd o e).2 h.2 h'.2
    simp only [midiList]
    exact ⟨importedL_append a a2, b2.trans b⟩
end

end Alda
