import Verif.Importer.Optimizer
import Verif.Spec.Import
/-!
Events run on scores that differ in the default durations only, where these last equally long.
-/
namespace Alda
open Spec

/-- The durations last equally long at every tempo. -/
def SameLength (d e : Dur) : Prop := ∀ T, d.toMs T = e.toMs T


/-- A score with other default durations. -/
def withDurs (s : Score) (f : Nat → Dur) : Score := { s with heap := fun i => { s.heap i with dur := f i } }

/-- The scores differ in the default durations only, and these last equally long. There are no global attributes. -/
def DurRel (s s' : Score) : Prop := NothingGlobal s ∧ ∃ f, s' = withDurs s f ∧ ∀ i, SameLength (f i) (s.heap i).dur

/-- The same for results; the active parts are those of `c`. -/
structure DurOut (c : List Nat) (o o' : Out) : Prop where
  err : o'.err = o.err
  rel : DurRel o.s o'.s
  cur : o.s.current = c

theorem DurRel.refl {s : Score} (h : NothingGlobal s) : DurRel s s := ⟨h, fun i => (s.heap i).dur, rfl, fun _ _ => rfl⟩

theorem DurRel.current {s s' : Score} (h : DurRel s s') : s'.current = s.current := by obtain ⟨_, f, rfl, _⟩ := h; rfl

theorem DurRel.chordMode {s s' : Score} (h : DurRel s s') : s'.chordMode = s.chordMode := by obtain ⟨_, f, rfl, _⟩ := h; rfl

theorem DurOut.andThen {c : List Nat} {o o' : Out} {k k' : Score → Out} (h : DurOut c o o')
    (hk : ∀ s s', DurRel s s' → s.current = c → o.err = none → s = o.s → s' = o'.s → DurOut c (k s) (k' s')) : DurOut c (o.andThen k) (o'.andThen k') := by
  obtain ⟨e, s⟩ := o
  obtain ⟨e', s'⟩ := o'
  obtain ⟨h1, h2, h3⟩ := h
  simp only at h1 h2 h3
  subst h1
  cases e' with
  | none => exact hk s s' h2 h3 rfl rfl rfl
  | some e => exact ⟨rfl, h2, h3⟩

/-- A loop, with an invariant of the second score. -/
theorem DurOut.forIds {c : List Nat} (I : Score → Prop) {g g' : Nat → Score → Out}
    (hg : ∀ i ∈ c, ∀ s s', DurRel s s' → s.current = c → I s' → DurOut c (g i s) (g' i s') ∧ ((g' i s').err = none → I (g' i s').s)) :
    ∀ (l : List Nat) (s s' : Score), (∀ i ∈ l, i ∈ c) → DurRel s s' → s.current = c → I s' →
      DurOut c (forIds g l s) (Alda.forIds g' l s') ∧ ((Alda.forIds g' l s').err = none → I (Alda.forIds g' l s').s) := by
  intro l
  induction l with
  | nil => intro s s' _ h hc hI; exact ⟨⟨rfl, h, hc⟩, fun _ => hI⟩
  | cons i l ih =>
    intro s s' hl h hc hI
    obtain ⟨h1, h2⟩ := hg i (hl i (by simp)) s s' h hc hI
    simp only [Alda.forIds]
    have hl' : ∀ j ∈ l, j ∈ c := fun j hj => hl j (by simp [hj])
    constructor
    · refine h1.andThen ?_
      intro t t' ht htc he e e'
      subst e e'
      exact (ih _ _ hl' ht htc (h2 (h1.err.trans he))).1
    · intro he
      rcases ho : g' i s' with ⟨err, t'⟩
      rw [ho] at he h2
      cases err with
      | some e => simp [Out.andThen] at he
      | none =>
        have := ih (g i s).s t' hl' (by have := h1.rel; rw [ho] at this; exact this) h1.cur (h2 rfl)
        simp only [Out.andThen] at he ⊢
        exact this.2 he

/-- A part with another default duration. -/
def Part.lasting (p : Part) (d : Dur) : Part := { p with dur := d }

theorem heap_lasting (s : Score) (f : Nat → Dur) (i : Nat) : (withDurs s f).heap i = (s.heap i).lasting (f i) := rfl

theorem withDurs_setPart (s : Score) (f : Nat → Dur) (id : Nat) (p : Part) (d : Dur) :
    (withDurs s f).setPart id (p.lasting d) = withDurs (s.setPart id p) (fun i => if i = id then d else f i) := by
  simp only [withDurs, Score.setPart]
  congr 1
  funext i
  by_cases h : i = id
  · simp [h, Part.lasting]
  · simp [h]

/-- Writing parts that differ in the duration only. -/
theorem DurRel.set {s s' : Score} (h : DurRel s s') (id : Nat) (p : Part) (d : Dur) (hd : SameLength d p.dur) :
    DurRel (s.setPart id p) (s'.setPart id (p.lasting d)) := by
  obtain ⟨h0, f, rfl, hf⟩ := h
  refine ⟨h0, _, withDurs_setPart s f id p d, ?_⟩
  intro i
  simp only [Score.setPart]
  by_cases h : i = id
  · simp only [if_pos h]; exact hd
  · simp only [if_neg h]; exact hf i

/-- Changing a part without regard to its duration. -/
theorem DurRel.mod {s s' : Score} (h : DurRel s s') (id : Nat) (g : Part → Part) (hg : ∀ p d, g (p.lasting d) = (g p).lasting d) (hd : ∀ p, (g p).dur = p.dur) :
    DurRel (s.modPart id g) (s'.modPart id g) := by
  have h0 := h
  obtain ⟨_, f, rfl, hf⟩ := h
  have := h0.set id (g (s.heap id)) (f id) (by rw [hd]; exact hf id)
  rw [← hg] at this
  exact this

/-! ### Attributes -/

theorem updatePart_lasting (u : PartUpd) (hu : u.kind ≠ .duration) (g : Bool) (p : Part) (d : Dur) :
    updatePart u g (p.lasting d) = match updatePart u g p with | .error e => .error e | .ok q => .ok (q.lasting d) := by
  cases u with
  | tempo t => cases g <;> rfl
  | metricModulation t => cases g <;> rfl
  | duration d => simp [PartUpd.kind] at hu
  | midiChannel n =>
    simp only [updatePart]
    by_cases h : n = 9 ∧ p.instr.percussion = false
    · rw [if_pos h, if_pos (show n = 9 ∧ (p.lasting d).instr.percussion = false from h)]
    · rw [if_neg h, if_neg (show ¬ (n = 9 ∧ (p.lasting d).instr.percussion = false) from h)]; rfl
  | _ => rfl

theorem updatePart_dur {u : PartUpd} (hu : u.kind ≠ .duration) {g : Bool} {p q : Part} (h : updatePart u g p = .ok q) : q.dur = p.dur := by
  cases u with
  | tempo t => simp only [updatePart, Except.ok.injEq] at h; subst h; cases g <;> rfl
  | metricModulation t => simp only [updatePart, Except.ok.injEq] at h; subst h; cases g <;> rfl
  | duration d => simp [PartUpd.kind] at hu
  | midiChannel n =>
    simp only [updatePart] at h
    split at h
    · simp at h
    · simp only [Except.ok.injEq] at h; subst h; rfl
  | _ => simp only [updatePart, Except.ok.injEq] at h; subst h; rfl

theorem updatePart_keySig {u : PartUpd} (hu : u.kind ≠ .keySignature) {g : Bool} {p q : Part} (h : updatePart u g p = .ok q) : q.keySig = p.keySig := by
  cases u with
  | tempo t => simp only [updatePart, Except.ok.injEq] at h; subst h; cases g <;> rfl
  | metricModulation t => simp only [updatePart, Except.ok.injEq] at h; subst h; cases g <;> rfl
  | keySignature d => simp [PartUpd.kind] at hu
  | midiChannel n =>
    simp only [updatePart] at h
    split at h
    · simp at h
    · simp only [Except.ok.injEq] at h; subst h; rfl
  | _ => simp only [updatePart, Except.ok.injEq] at h; subst h; rfl

/-- The default durations of the active parts last as long as `d`; no information if `d` is empty. -/
def Lasting (d : Dur) (c : List Nat) (s : Score) : Prop := d = [] ∨ (d.valid = true ∧ ∀ i ∈ c, SameLength (s.heap i).dur d)

theorem Lasting.of_dur {d : Dur} {c : List Nat} {s t : Score} (h : Lasting d c s) (e : ∀ i, (t.heap i).dur = (s.heap i).dur) : Lasting d c t := by
  rcases h with h | ⟨h1, h2⟩
  · exact .inl h
  · exact .inr ⟨h1, fun i hi => by rw [e i]; exact h2 i hi⟩

/-- No durations change. -/
def SameDurs (s t : Score) : Prop := ∀ i, (t.heap i).dur = (s.heap i).dur

theorem setPart_sameDurs {s : Score} {id : Nat} {p : Part} (h : p.dur = (s.heap id).dur) : SameDurs s (s.setPart id p) := by
  intro i
  simp only [Score.setPart]
  split
  · rename_i e; rw [e]; exact h
  · rfl

theorem attrPart_rel {c : List Nat} {d : Dur} (u : PartUpd) (hu : u.kind ≠ .duration) (i : Nat) {s s' : Score} (h : DurRel s s') (hc : s.current = c) (hI : Lasting d c s') :
    DurOut c (attrPart u i s) (attrPart u i s') ∧ ((attrPart u i s').err = none → Lasting d c (attrPart u i s').s) := by
  have h0 := h
  obtain ⟨hg, f, rfl, hf⟩ := h
  unfold attrPart
  rw [heap_lasting, updatePart_lasting u hu]
  cases hp : updatePart u false (s.heap i) with
  | error e => exact ⟨⟨rfl, h0, hc⟩, fun he => by simp [Out.fail] at he⟩
  | ok q =>
    refine ⟨⟨rfl, h0.set i { q with override := some u } (f i) ?_, hc⟩, fun _ => hI.of_dur (setPart_sameDurs rfl)⟩
    rw [show ({ q with override := some u } : Part).dur = q.dur from rfl, updatePart_dur hu hp]
    exact hf i

theorem attr_rel {c : List Nat} {d : Dur} (u : PartUpd) (hu : u.kind ≠ .duration) {s s' : Score} (h : DurRel s s') (hc : s.current = c) (hI : Lasting d c s') :
    DurOut c (attrUpd u s) (attrUpd u s') ∧ ((attrUpd u s').err = none → Lasting d c (attrUpd u s').s) := by
  unfold attrUpd
  rw [h.current, hc]
  exact DurOut.forIds (Lasting d c) (fun i _ s s' h hc hI => attrPart_rel u hu i h hc hI) c s s' (fun _ h => h) h hc hI

theorem inWindow_none {s : Score} (h : NothingGlobal s) (a b : Rat) : s.globals.inWindow a b = [] := by
  unfold GlobalAttributes.inWindow; rw [h]; rfl

theorem applyGlobals_rel {c : List Nat} {d : Dur} {s s' : Score} (h : DurRel s s') (hc : s.current = c) (hI : Lasting d c s') :
    DurOut c (applyGlobals s) (applyGlobals s') ∧ ((applyGlobals s').err = none → Lasting d c (applyGlobals s').s) := by
  unfold applyGlobals
  rw [h.current, hc]
  refine DurOut.forIds (Lasting d c) ?_ c s s' (fun _ h => h) h hc hI
  intro i _ s s' h hc hI
  have h0 := h
  obtain ⟨hg, f, rfl, hf⟩ := h
  unfold applyGlobalsPart
  simp only [inWindow_none hg, inWindow_none (s := withDurs s f) hg, applyUpdates]
  exact ⟨⟨rfl, h0.set i { s.heap i with override := none } (f i) (hf i), hc⟩, fun _ => hI.of_dur (setPart_sameDurs rfl)⟩

/-! ### Notes -/

theorem simpleCheckFrom_lasting (s : Score) (f : Nat → Dur) (p : Part) (d : Dur) : ∀ l, simpleCheckFrom (withDurs s f) (p.lasting d) l = simpleCheckFrom s p l := by
  intro l
  induction l with
  | nil => rfl
  | cons c l ih => simp only [simpleCheckFrom, ih]; rfl

theorem complexCheckFrom_lasting (s : Score) (f : Nat → Dur) (p : Part) (d : Dur) (a : Rat) : ∀ l,
    complexCheckFrom (withDurs s f) (p.lasting d) a l = complexCheckFrom s p a l := by
  intro l
  induction l with
  | nil => rfl
  | cons c l ih => simp only [complexCheckFrom, ih]; rfl

theorem determineMidiChannel_lasting (s : Score) (f : Nat → Dur) (p : Part) (d : Dur) (a : Rat) :
    determineMidiChannel (withDurs s f) (p.lasting d) a = determineMidiChannel s p a := by
  unfold determineMidiChannel availableMidiChannel simpleCheck complexCheck
  rw [simpleCheckFrom_lasting, complexCheckFrom_lasting]
  rfl

theorem recordUsage_heap (s : Score) (ch o : Nat) : (recordUsage s ch o).heap = s.heap ∧ (recordUsage s ch o).globals = s.globals ∧ (recordUsage s ch o).current = s.current := by
  unfold recordUsage; split <;> exact ⟨rfl, rfl, rfl⟩

theorem modPart_sameDurs (s : Score) (id : Nat) (g : Part → Part) (h : ∀ p, (g p).dur = p.dur) : SameDurs s (s.modPart id g) := setPart_sameDurs (h _)

theorem emit_rel {c : List Nat} (pi : Pitch) (ms a : Rat) (i : Nat) {s s' : Score} (h : DurRel s s') (hc : s.current = c) :
    DurOut c (emitNote pi ms a i s) (emitNote pi ms a i s') ∧ SameDurs s' (emitNote pi ms a i s').s := by
  have h0 := h
  obtain ⟨hg, f, rfl, hf⟩ := h
  unfold emitNote
  simp only [heap_lasting]
  show DurOut c (if calculateMidiNote pi (s.heap i).octave (s.heap i).keySig (s.heap i).transposition < 0 ∨ _ then _ else _)
      (if calculateMidiNote pi (s.heap i).octave (s.heap i).keySig (s.heap i).transposition < 0 ∨
        calculateMidiNote pi (s.heap i).octave (s.heap i).keySig (s.heap i).transposition > 127 then _ else _) ∧ SameDurs _ (Out.s
      (if calculateMidiNote pi (s.heap i).octave (s.heap i).keySig (s.heap i).transposition < 0 ∨
        calculateMidiNote pi (s.heap i).octave (s.heap i).keySig (s.heap i).transposition > 127 then _ else _))
  by_cases hm : calculateMidiNote pi (s.heap i).octave (s.heap i).keySig (s.heap i).transposition < 0 ∨
      calculateMidiNote pi (s.heap i).octave (s.heap i).keySig (s.heap i).transposition > 127
  · simp only [hm, if_true]; exact ⟨⟨rfl, h0, hc⟩, fun _ => rfl⟩
  · simp only [hm, if_false]
    unfold assignMidiChannel
    rw [determineMidiChannel_lasting]
    cases determineMidiChannel s (s.heap i) a with
    | error e => exact ⟨⟨rfl, h0, hc⟩, fun _ => rfl⟩
    | ok ch =>
      simp only
      by_cases hch : 0 ≤ ch ∧ ch < 16
      · simp only [if_pos hch]
        show DurOut c _ (Out.ok { (((recordUsage (withDurs s f) ch.toNat (s.heap i).origin).modPart i _).modPart (s.heap i).origin _) with events := _ }) ∧
          SameDurs _ (Out.ok { (((recordUsage (withDurs s f) ch.toNat (s.heap i).origin).modPart i _).modPart (s.heap i).origin _) with events := _ }).s
        have hu : recordUsage (withDurs s f) ch.toNat (s.heap i).origin = withDurs (recordUsage s ch.toNat (s.heap i).origin) f := by
          unfold recordUsage
          rw [show (withDurs s f).usage = s.usage from rfl]
          split <;> rfl
        have hr : DurRel (recordUsage s ch.toNat (s.heap i).origin) (recordUsage (withDurs s f) ch.toNat (s.heap i).origin) := by
          obtain ⟨e1, e2, e3⟩ := recordUsage_heap s ch.toNat (s.heap i).origin
          exact ⟨by unfold NothingGlobal; rw [e2]; exact hg, f, hu, by intro j; rw [e1]; exact hf j⟩
        have h1 := hr.mod i (fun p => { p with midiChannel := ch }) (fun _ _ => rfl) (fun _ => rfl)
        have h2 := h1.mod (s.heap i).origin (fun p => { p with midiChannel := ch }) (fun _ _ => rfl) (fun _ => rfl)
        obtain ⟨g0, f2, e2, hf2⟩ := h2
        constructor
        · refine ⟨rfl, ⟨g0, f2, ?_, hf2⟩, ?_⟩
          · show ({ (((recordUsage (withDurs s f) ch.toNat (s.heap i).origin).modPart i _).modPart (s.heap i).origin _) with events := _ } : Score) = _
            have eo : ((s.heap i).lasting (f i)).origin = (s.heap i).origin := rfl
            rw [hu] at e2
            simp only [eo, hu]
            rw [e2]; rfl
          · exact (recordUsage_heap s ch.toNat (s.heap i).origin).2.2.trans hc
        · intro j
          show ((((recordUsage (withDurs s f) ch.toNat (s.heap i).origin).modPart i (fun p => { p with midiChannel := ch })).modPart (s.heap i).origin
            (fun p => { p with midiChannel := ch })).heap j).dur = _
          rw [modPart_sameDurs _ _ (fun p => { p with midiChannel := ch }) (fun _ => rfl) j, modPart_sameDurs _ _ (fun p => { p with midiChannel := ch }) (fun _ => rfl) j, (recordUsage_heap _ _ _).1]
      · simp only [if_neg hch]; exact ⟨⟨rfl, h0, hc⟩, fun _ => rfl⟩


theorem default_dur (p : Part) (d : Dur) (h : d = [] → p.dur = []) : updateDefaultDuration p d = { p with dur := d } := by
  cases d with
  | nil => obtain ⟨⟩ := p; have := h rfl; simp only at this; subst this; rfl
  | cons c cs => rfl

/-- Durations after writing one. -/
def DursSet (s t : Score) (i : Nat) (d : Dur) : Prop := ∀ j, (t.heap j).dur = if j = i then d else (s.heap j).dur

theorem advance_rel {c : List Nat} (i : Nat) (ms : Rat) (d d' : Dur) {s s' : Score} (h : DurRel s s') (hc : s.current = c) (hd : SameLength d' d)
    (he : d = [] → (s.heap i).dur = []) (he' : d' = [] → (s'.heap i).dur = []) :
    DurOut c (.ok (advancePart s i ms d)) (.ok (advancePart s' i ms d')) ∧ DursSet s' (advancePart s' i ms d') i d' := by
  have key : ∀ (t : Score) (e : Dur), (e = [] → (t.heap i).dur = []) →
      advancePart t i ms e = t.setPart i { (if t.chordMode then t.heap i else { t.heap i with lastOffset := (t.heap i).offset, offset := (t.heap i).offset + ms }) with dur := e } := by
    intro t e hte
    unfold advancePart Score.modPart
    simp only
    rw [default_dur]
    intro h0
    split <;> exact hte h0
  rw [key s d he, key s' d' he', h.chordMode]
  constructor
  · refine ⟨rfl, ?_, hc⟩
    have := h.set i { (if s.chordMode then s.heap i else { s.heap i with lastOffset := (s.heap i).offset, offset := (s.heap i).offset + ms }) with dur := d } d' hd
    obtain ⟨_, f, rfl, _⟩ := h
    have e : (({ (if s.chordMode then s.heap i else { s.heap i with lastOffset := (s.heap i).offset, offset := (s.heap i).offset + ms }) with dur := d } : Part).lasting d') =
        { (if s.chordMode then (withDurs s f).heap i else { (withDurs s f).heap i with lastOffset := ((withDurs s f).heap i).offset, offset := ((withDurs s f).heap i).offset + ms }) with dur := d' } := by
      cases s.chordMode <;> rfl
    rw [e] at this
    exact this
  · intro j
    simp only [Score.setPart]
    split <;> rfl

theorem emit_sameDurs (pi : Pitch) (ms a : Rat) (i : Nat) {s : Score} (h : NothingGlobal s) : SameDurs s (emitNote pi ms a i s).s :=
  (emit_rel pi ms a i (DurRel.refl h) rfl).2

theorem eff_nil {d : Dur} {p : Part} (h : effectiveDuration d p = []) : p.dur = [] := by
  cases d with
  | nil => exact h
  | cons c cs => simp [effectiveDuration] at h

theorem notePart_rel {c : List Nat} (pi : Pitch) (d d' : Dur) (sl : Bool) (i : Nat) {s s' : Score} (h : DurRel s s') (hc : s.current = c)
    (hd : SameLength (effectiveDuration d' (s'.heap i)) (effectiveDuration d (s.heap i))) :
    DurOut c (notePart pi d sl i s) (notePart pi d' sl i s') ∧
      ((notePart pi d' sl i s').err = none → DursSet s' (notePart pi d' sl i s').s i (effectiveDuration d' (s'.heap i))) := by
  unfold notePart
  simp only
  have ht : (s'.heap i).tempo = (s.heap i).tempo ∧ (s'.heap i).timeScale = (s.heap i).timeScale ∧ (s'.heap i).quant = (s.heap i).quant := by
    obtain ⟨_, f, rfl, _⟩ := h; exact ⟨rfl, rfl, rfl⟩
  rw [ht.1, ht.2.1, ht.2.2, hd (s.heap i).tempo]
  have hg := h.1
  have hg' : NothingGlobal s' := by obtain ⟨hg, f, rfl, _⟩ := h; exact hg
  cases (effectiveDuration d (s.heap i)).toMs (s.heap i).tempo with
  | none => exact ⟨⟨rfl, h, hc⟩, fun he => by simp [Out.fail] at he⟩
  | some ms =>
    simp only
    generalize hx : effectiveDuration d (s.heap i) = x at hd
    generalize hx' : effectiveDuration d' (s'.heap i) = x' at hd
    generalize (if sl = true then ms * (s.heap i).timeScale else ms * (s.heap i).timeScale * (s.heap i).quant) = a
    have hem : DurOut c (if a > 0 then emitNote pi (ms * (s.heap i).timeScale) a i s else .ok s) (if a > 0 then emitNote pi (ms * (s.heap i).timeScale) a i s' else .ok s') ∧
        SameDurs s (if a > 0 then emitNote pi (ms * (s.heap i).timeScale) a i s else .ok s).s ∧ SameDurs s' (if a > 0 then emitNote pi (ms * (s.heap i).timeScale) a i s' else .ok s').s := by
      split
      · exact ⟨(emit_rel _ _ _ _ h hc).1, emit_sameDurs _ _ _ _ hg, (emit_rel _ _ _ _ h hc).2⟩
      · exact ⟨⟨rfl, h, hc⟩, fun _ => rfl, fun _ => rfl⟩
    obtain ⟨h1, h2, h3⟩ := hem
    constructor
    · refine h1.andThen ?_
      intro t t' ht htc _ e e'
      refine (advance_rel i _ x x' ht htc hd ?_ ?_).1
      · intro h0; rw [h0] at hx; rw [e, h2 i]; exact eff_nil hx
      · intro h0; rw [h0] at hx'; rw [e', h3 i]; exact eff_nil hx'
    · intro he j
      rcases ho : (if a > 0 then emitNote pi (ms * (s.heap i).timeScale) a i s' else .ok s') with ⟨err, t'⟩
      rw [ho] at he h3 h1
      cases err with
      | some e => simp [Out.andThen] at he
      | none =>
        simp only [Out.andThen]
        have := (advance_rel i (ms * (s.heap i).timeScale) x x' h1.rel h1.cur hd (by intro h0; rw [h0] at hx; rw [h2 i]; exact eff_nil hx)
          (by intro h0; rw [h0] at hx'; rw [h3 i]; exact eff_nil hx')).2 j
        simp only at this
        rw [show (Out.ok (advancePart t' i (ms * (s.heap i).timeScale) x')).s = advancePart t' i (ms * (s.heap i).timeScale) x' from rfl, this, h3 j]

theorem restPart_rel {c : List Nat} (d d' : Dur) (i : Nat) {s s' : Score} (h : DurRel s s') (hc : s.current = c)
    (hd : SameLength (effectiveDuration d' (s'.heap i)) (effectiveDuration d (s.heap i))) :
    DurOut c (restPart d i s) (restPart d' i s') ∧
      ((restPart d' i s').err = none → DursSet s' (restPart d' i s').s i (effectiveDuration d' (s'.heap i))) := by
  unfold restPart
  simp only
  have ht : (s'.heap i).tempo = (s.heap i).tempo ∧ (s'.heap i).timeScale = (s.heap i).timeScale := by
    obtain ⟨_, f, rfl, _⟩ := h; exact ⟨rfl, rfl⟩
  rw [ht.1, ht.2, hd (s.heap i).tempo]
  cases (effectiveDuration d (s.heap i)).toMs (s.heap i).tempo with
  | none => exact ⟨⟨rfl, h, hc⟩, fun he => by simp [Out.fail] at he⟩
  | some ms =>
    simp only
    obtain ⟨h1, h2⟩ := advance_rel i (ms * (s.heap i).timeScale) _ _ h hc hd eff_nil eff_nil
    exact ⟨h1, fun _ => h2⟩

/-- The duration `d'` may stand in place of `d`. -/
inductive Fits (d d' : Dur) (c : List Nat) (s' : Score) : Prop where
  | same (h : d = []) (h' : d' = [])
  | given (h : d ≠ []) (h' : d' ≠ []) (hs : SameLength d' d)
  | left (h : d ≠ []) (h' : d' = []) (hs : ∀ i ∈ c, SameLength (s'.heap i).dur d)

theorem eff_cons {d : Dur} (h : d ≠ []) (p : Part) : effectiveDuration d p = d := by
  cases d with
  | nil => exact absurd rfl h
  | cons c cs => rfl

theorem Fits.length {d d' : Dur} {c : List Nat} {s s' : Score} (hf : Fits d d' c s') (h : DurRel s s') {i : Nat} (hi : i ∈ c) :
    SameLength (effectiveDuration d' (s'.heap i)) (effectiveDuration d (s.heap i)) := by
  cases hf with
  | same e e' => subst e e'; obtain ⟨_, f, rfl, hf⟩ := h; exact hf i
  | given e e' hs => rw [eff_cons e, eff_cons e']; exact hs
  | left e e' hs => subst e'; rw [eff_cons e]; exact hs i hi

theorem Fits.set {d d' : Dur} {c : List Nat} {s t : Score} {i : Nat} (hf : Fits d d' c s) (h : DursSet s t i (effectiveDuration d' (s.heap i))) : Fits d d' c t := by
  cases hf with
  | same e e' => exact .same e e'
  | given e e' hs => exact .given e e' hs
  | left e e' hs =>
    refine .left e e' ?_
    intro j hj
    rw [h j]
    split
    · rename_i hji; rw [← hji, e']; exact hs j hj
    · exact hs j hj

theorem Fits.of_dur {d d' : Dur} {c : List Nat} {s t : Score} (hf : Fits d d' c s) (h : SameDurs s t) : Fits d d' c t := by
  cases hf with
  | same e e' => exact .same e e'
  | given e e' hs => exact .given e e' hs
  | left e e' hs => exact .left e e' (fun j hj => by rw [h j]; exact hs j hj)

end Alda
