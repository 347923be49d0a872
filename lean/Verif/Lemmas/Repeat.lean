import Verif.Spec.Repeat
/-!
Events without numbered endings do not depend on the repetition number.
-/
namespace Alda
open Spec

/-- No numbered endings in variables. -/
abbrev RepVars (s : Score) : Prop := VarsNoEndings s

/-- The same result up to repetition numbers. -/
structure RepSim (o o' : Out) : Prop where
  err : o'.err = o.err
  same : ∃ f, o'.s = withRepetitions o.s f
  vars : RepVars o.s

/-- An operation that does not depend on repetition numbers. -/
def Blind (g : Score → Out) : Prop := ∀ s f, RepVars s → RepSim (g s) (g (withRepetitions s f))

theorem RepSim.refl {s : Score} (f : Nat → Int) (h : RepVars s) : RepSim (.ok s) (.ok (withRepetitions s f)) := ⟨rfl, ⟨f, rfl⟩, h⟩

theorem RepSim.andThen {o o' : Out} {k k' : Score → Out} (h : RepSim o o') (hk : ∀ s f, RepVars s → RepSim (k s) (k' (withRepetitions s f))) :
    RepSim (o.andThen k) (o'.andThen k') := by
  obtain ⟨e, s⟩ := o
  obtain ⟨e', s'⟩ := o'
  obtain ⟨h1, ⟨f, h2⟩, h3⟩ := h
  simp only at h1 h2
  subst h1; subst h2
  cases e' with
  | none => exact hk s f h3
  | some e => exact ⟨rfl, ⟨f, rfl⟩, h3⟩

theorem RepSim.forIds {g g' : Nat → Score → Out} (hg : ∀ i s f, RepVars s → RepSim (g i s) (g' i (withRepetitions s f))) : ∀ (l : List Nat) (s : Score) (f : Nat → Int), RepVars s →
    RepSim (forIds g l s) (Alda.forIds g' l (withRepetitions s f)) := by
  intro l
  induction l with
  | nil => intro s f h; exact .refl f h
  | cons i l ih => intro s f h; exact (hg i s f h).andThen ih

/-- A part with another repetition number. -/
def Part.at (p : Part) (r : Int) : Part := { p with repetition := r }

theorem heap_at (s : Score) (f : Nat → Int) (i : Nat) : (withRepetitions s f).heap i = (s.heap i).at (f i) := rfl

theorem at_name (p : Part) (r : Int) : (p.at r).name = p.name := rfl
theorem at_instr (p : Part) (r : Int) : (p.at r).instr = p.instr := rfl
theorem at_tempoMaster (p : Part) (r : Int) : (p.at r).tempoMaster = p.tempoMaster := rfl
theorem at_tempo (p : Part) (r : Int) : (p.at r).tempo = p.tempo := rfl
theorem at_keySig (p : Part) (r : Int) : (p.at r).keySig = p.keySig := rfl
theorem at_transposition (p : Part) (r : Int) : (p.at r).transposition = p.transposition := rfl
theorem at_refPitch (p : Part) (r : Int) : (p.at r).refPitch = p.refPitch := rfl
theorem at_offset (p : Part) (r : Int) : (p.at r).offset = p.offset := rfl
theorem at_lastOffset (p : Part) (r : Int) : (p.at r).lastOffset = p.lastOffset := rfl
theorem at_octave (p : Part) (r : Int) : (p.at r).octave = p.octave := rfl
theorem at_volume (p : Part) (r : Int) : (p.at r).volume = p.volume := rfl
theorem at_trackVolume (p : Part) (r : Int) : (p.at r).trackVolume = p.trackVolume := rfl
theorem at_panning (p : Part) (r : Int) : (p.at r).panning = p.panning := rfl
theorem at_midiChannel (p : Part) (r : Int) : (p.at r).midiChannel = p.midiChannel := rfl
theorem at_explicitChannel (p : Part) (r : Int) : (p.at r).explicitChannel = p.explicitChannel := rfl
theorem at_quant (p : Part) (r : Int) : (p.at r).quant = p.quant := rfl
theorem at_dur (p : Part) (r : Int) : (p.at r).dur = p.dur := rfl
theorem at_timeScale (p : Part) (r : Int) : (p.at r).timeScale = p.timeScale := rfl
theorem at_tempoValues (p : Part) (r : Int) : (p.at r).tempoValues = p.tempoValues := rfl
theorem at_override (p : Part) (r : Int) : (p.at r).override = p.override := rfl
theorem at_template (p : Part) (r : Int) : (p.at r).template = p.template := rfl
theorem at_origin (p : Part) (r : Int) : (p.at r).origin = p.origin := rfl
theorem at_voices (p : Part) (r : Int) : (p.at r).voices = p.voices := rfl

/-- Other fields do not depend on the repetition number. -/
macro "at_simp" : tactic => `(tactic| simp only [heap_at, at_name, at_instr, at_tempoMaster, at_tempo, at_keySig, at_transposition, at_refPitch, at_offset, at_lastOffset, at_octave, at_volume, at_trackVolume, at_panning, at_midiChannel, at_explicitChannel, at_quant, at_dur, at_timeScale, at_tempoValues, at_override, at_template, at_origin, at_voices])

/-- Writing a part. -/
theorem withRepetitions_setPart (s : Score) (f : Nat → Int) (id : Nat) (p : Part) (r : Int) :
    (withRepetitions s f).setPart id (p.at r) = withRepetitions (s.setPart id p) (fun i => if i = id then r else f i) := by
  simp only [withRepetitions, Score.setPart]
  congr 1
  funext i
  by_cases h : i = id
  · simp [h, Part.at]
  · simp [h]

/-- Changing a part in a way that does not depend on the repetition number. -/
theorem withRepetitions_modPart (s : Score) (f : Nat → Int) (id : Nat) (g : Part → Part) (hg : ∀ p r, ∃ r', g (p.at r) = (g p).at r') :
    ∃ f', (withRepetitions s f).modPart id g = withRepetitions (s.modPart id g) f' := by
  obtain ⟨r', h⟩ := hg (s.heap id) (f id)
  refine ⟨fun i => if i = id then r' else f i, ?_⟩
  rw [show (withRepetitions s f).modPart id g = (withRepetitions s f).setPart id (g ((s.heap id).at (f id))) from rfl, h, withRepetitions_setPart]
  rfl

theorem RepSim.mod {s : Score} {f : Nat → Int} (h : RepVars s) (id : Nat) (g : Part → Part) (hg : ∀ p r, ∃ r', g (p.at r) = (g p).at r') :
    RepSim (.ok (s.modPart id g)) (.ok ((withRepetitions s f).modPart id g)) := ⟨rfl, withRepetitions_modPart s f id g hg, h⟩

/-! ### Leaves -/

theorem updatePart_blind (u : PartUpd) (g : Bool) (p : Part) (r : Int) :
    updatePart u g (p.at r) = match updatePart u g p with | .error e => .error e | .ok q => .ok (q.at r) := by
  cases u with
  | tempo t => cases g <;> rfl
  | metricModulation t => cases g <;> rfl
  | midiChannel n =>
    simp only [updatePart]
    by_cases h : n = 9 ∧ p.instr.percussion = false
    · rw [if_pos h, if_pos (show n = 9 ∧ (p.at r).instr.percussion = false from h)]
    · rw [if_neg h, if_neg (show ¬ (n = 9 ∧ (p.at r).instr.percussion = false) from h)]; rfl
  | _ => rfl

theorem attr_blind (u : PartUpd) (i : Nat) : Blind (attrPart u i) := by
  intro s f h
  unfold attrPart
  rw [heap_at, updatePart_blind]
  cases updatePart u false (s.heap i) with
  | error e => exact ⟨rfl, ⟨f, rfl⟩, h⟩
  | ok q => exact ⟨rfl, ⟨_, withRepetitions_setPart s f i { q with override := some u } (f i)⟩, h⟩

theorem applyUpdates_blind : ∀ (us : List PartUpd) (p : Part) (r : Int),
    applyUpdates us (p.at r) = ((applyUpdates us p).1, (applyUpdates us p).2.at r) := by
  intro us
  induction us with
  | nil => intro p r; rfl
  | cons u us ih =>
    intro p r
    simp only [applyUpdates]
    rw [updatePart_blind]
    by_cases h : Option.map PartUpd.kind p.override = some u.kind
    · rw [if_pos h, if_pos (show Option.map PartUpd.kind (p.at r).override = some u.kind from h)]; exact ih p r
    · rw [if_neg h, if_neg (show ¬ Option.map PartUpd.kind (p.at r).override = some u.kind from h)]
      cases updatePart u true p with
      | error e => rfl
      | ok q => exact ih q r

theorem applyGlobals_blind : Blind applyGlobals := by
  intro s f h
  refine RepSim.forIds ?_ _ _ _ h
  intro i s f h
  unfold applyGlobalsPart
  have : (withRepetitions s f).globals = s.globals := rfl
  simp only [this]
  at_simp
  rw [applyUpdates_blind]
  rcases applyUpdates (s.globals.inWindow (s.heap i).lastOffset (s.heap i).offset) (s.heap i) with ⟨e, p⟩
  cases e with
  | none => exact ⟨rfl, ⟨_, withRepetitions_setPart s f i { p with override := none } (f i)⟩, h⟩
  | some e => exact ⟨rfl, ⟨_, withRepetitions_setPart s f i p (f i)⟩, h⟩

theorem commonOffset_blind (s : Score) (f : Nat → Int) (l : List Nat) : commonOffset (withRepetitions s f) l = commonOffset s l := by cases l <;> rfl

theorem globalAttr_blind (u : PartUpd) : Blind (globalAttrUpd u) := by
  intro s f h
  unfold globalAttrUpd
  rw [show (withRepetitions s f).current = s.current from rfl]
  cases s.current with
  | nil => exact ⟨rfl, ⟨f, rfl⟩, h⟩
  | cons i is =>
    simp only [commonOffset_blind]
    cases commonOffset s (i :: is) with
    | none => exact ⟨rfl, ⟨f, rfl⟩, h⟩
    | some o => exact ⟨rfl, ⟨f, rfl⟩, h⟩

theorem unavailable_blind (s : Score) (f : Nat → Int) (p : Part) (r : Int) (a : Rat) (ch : Int) :
    channelUnavailable (withRepetitions s f) (p.at r) a ch = channelUnavailable s p a ch := rfl

theorem simpleCheckFrom_blind (s : Score) (f : Nat → Int) (p : Part) (r : Int) : ∀ l, simpleCheckFrom (withRepetitions s f) (p.at r) l = simpleCheckFrom s p l := by
  intro l
  induction l with
  | nil => rfl
  | cons c l ih => simp only [simpleCheckFrom, ih]; rfl

theorem complexCheckFrom_blind (s : Score) (f : Nat → Int) (p : Part) (r : Int) (a : Rat) : ∀ l,
    complexCheckFrom (withRepetitions s f) (p.at r) a l = complexCheckFrom s p a l := by
  intro l
  induction l with
  | nil => rfl
  | cons c l ih => simp only [complexCheckFrom, ih, unavailable_blind]

theorem complexCheck_blind (s : Score) (f : Nat → Int) (p : Part) (r : Int) (a : Rat) : complexCheck (withRepetitions s f) (p.at r) a = complexCheck s p a := by
  unfold complexCheck; rw [unavailable_blind, complexCheckFrom_blind]; rfl

theorem availableMidiChannel_blind (s : Score) (f : Nat → Int) (p : Part) (r : Int) (a : Rat) :
    availableMidiChannel (withRepetitions s f) (p.at r) a = availableMidiChannel s p a := by
  unfold availableMidiChannel simpleCheck; rw [simpleCheckFrom_blind, complexCheck_blind]

theorem determineMidiChannel_blind (s : Score) (f : Nat → Int) (p : Part) (r : Int) (a : Rat) :
    determineMidiChannel (withRepetitions s f) (p.at r) a = determineMidiChannel s p a := by
  unfold determineMidiChannel; rw [complexCheck_blind, availableMidiChannel_blind]; rfl

theorem emit_blind (pi : Pitch) (ms a : Rat) (i : Nat) : Blind (emitNote pi ms a i) := by
  intro s f h
  unfold emitNote
  simp only
  at_simp
  by_cases hm : calculateMidiNote pi (s.heap i).octave (s.heap i).keySig (s.heap i).transposition < 0 ∨
      calculateMidiNote pi (s.heap i).octave (s.heap i).keySig (s.heap i).transposition > 127
  · simp only [hm, if_true]; exact ⟨rfl, ⟨f, rfl⟩, h⟩
  · simp only [hm, if_false]
    unfold assignMidiChannel
    rw [determineMidiChannel_blind]
    at_simp
    cases determineMidiChannel s (s.heap i) a with
    | error e => exact ⟨rfl, ⟨f, rfl⟩, h⟩
    | ok ch =>
      simp only
      by_cases hch : 0 ≤ ch ∧ ch < 16
      · simp only [if_pos hch]
        have hu : recordUsage (withRepetitions s f) ch.toNat (s.heap i).origin = withRepetitions (recordUsage s ch.toNat (s.heap i).origin) f := by
          unfold recordUsage
          rw [show (withRepetitions s f).usage = s.usage from rfl]
          split <;> rfl
        rw [hu]
        have hv : (recordUsage s ch.toNat (s.heap i).origin).vars = s.vars := by unfold recordUsage; split <;> rfl
        generalize recordUsage s ch.toNat (s.heap i).origin = s1 at hv
        obtain ⟨f1, h1⟩ := withRepetitions_modPart s1 f i (fun p => { p with midiChannel := ch }) (fun p r => ⟨r, rfl⟩)
        rw [h1]
        obtain ⟨f2, h2⟩ := withRepetitions_modPart (s1.modPart i (fun p => { p with midiChannel := ch })) f1 (s.heap i).origin (fun p => { p with midiChannel := ch })
          (fun p r => ⟨r, rfl⟩)
        rw [h2]
        refine ⟨rfl, ⟨f2, rfl⟩, ?_⟩
        intro n es he
        exact h n es (by rw [← hv]; exact he)
      · simp only [if_neg hch]; exact ⟨rfl, ⟨f, rfl⟩, h⟩

theorem advancePart_blind (s : Score) (f : Nat → Int) (h : RepVars s) (i : Nat) (ms : Rat) (d : Dur) :
    RepSim (.ok (advancePart s i ms d)) (.ok (advancePart (withRepetitions s f) i ms d)) := by
  unfold advancePart
  rw [show (withRepetitions s f).chordMode = s.chordMode from rfl]
  refine RepSim.mod h i _ ?_
  intro p r
  refine ⟨r, ?_⟩
  cases s.chordMode <;> cases d <;> rfl

theorem note_blind (pi : Pitch) (d : Dur) (sl : Bool) (i : Nat) : Blind (notePart pi d sl i) := by
  intro s f h
  unfold notePart
  at_simp
  have e : effectiveDuration d ((s.heap i).at (f i)) = effectiveDuration d (s.heap i) := by cases d <;> rfl
  rw [e]
  cases (effectiveDuration d (s.heap i)).toMs (s.heap i).tempo with
  | none => exact ⟨rfl, ⟨f, rfl⟩, h⟩
  | some ms =>
    simp only
    refine RepSim.andThen ?_ (fun s f h => advancePart_blind s f h i _ _)
    show RepSim (if (if sl = true then ms * (s.heap i).timeScale else ms * (s.heap i).timeScale * (s.heap i).quant) > 0 then _ else _)
      (if (if sl = true then ms * (s.heap i).timeScale else ms * (s.heap i).timeScale * (s.heap i).quant) > 0 then _ else _)
    by_cases ha : (if sl = true then ms * (s.heap i).timeScale else ms * (s.heap i).timeScale * (s.heap i).quant) > 0
    · rw [if_pos ha, if_pos ha]; exact emit_blind _ _ _ _ s f h
    · rw [if_neg ha, if_neg ha]; exact .refl f h

theorem rest_blind (d : Dur) (i : Nat) : Blind (restPart d i) := by
  intro s f h
  unfold restPart
  at_simp
  have e : effectiveDuration d ((s.heap i).at (f i)) = effectiveDuration d (s.heap i) := by cases d <;> rfl
  rw [e]
  cases (effectiveDuration d (s.heap i)).toMs (s.heap i).tempo with
  | none => exact ⟨rfl, ⟨f, rfl⟩, h⟩
  | some ms => exact advancePart_blind s f h i _ _

theorem beforeNote_blind (d : Dur) : Blind (beforeNote d) := by
  intro s f h
  unfold beforeNote
  refine RepSim.andThen ?_ ?_
  · rw [show (withRepetitions s f).chordMode = s.chordMode from rfl]
    split
    · exact .refl f h
    · exact applyGlobals_blind s f h
  · intro s f h
    split
    · exact .refl f h
    · exact ⟨rfl, ⟨f, rfl⟩, h⟩

theorem leaf_blind (l : Leaf) : Blind (leafUpd l) := by
  intro s f h
  cases l with
  | note pi d sl =>
    unfold leafUpd noteUpd
    refine RepSim.andThen (beforeNote_blind d s f h) ?_
    intro s f h; exact RepSim.forIds (fun i => note_blind pi d sl i) _ _ _ h
  | rest d =>
    unfold leafUpd restUpd
    refine RepSim.andThen (beforeNote_blind d s f h) ?_
    intro s f h; exact RepSim.forIds (fun i => rest_blind d i) _ _ _ h
  | attr u => exact RepSim.forIds (fun i => attr_blind u i) _ _ _ h
  | globalAttr u => exact globalAttr_blind u s f h

/-! ### Voices and markers -/

theorem replaceByOrigin_blind (s : Score) (f : Nat → Int) (o v : Nat) (l : List Nat) : replaceByOrigin (withRepetitions s f) o v l = replaceByOrigin s o v l := rfl

theorem alloc_blind (s : Score) (f : Nat → Int) (p : Part) (r : Int) :
    (withRepetitions s f).alloc (p.at r) = ((s.alloc p).1, withRepetitions (s.alloc p).2 (fun i => if i = s.next then r else f i)) := by
  have := withRepetitions_setPart s f s.next p r
  simp only [Score.alloc]
  refine Prod.ext rfl ?_
  show { (withRepetitions s f).setPart s.next (p.at r) with next := s.next + 1 } = _
  rw [this]; rfl

theorem ensureTemplate_blind (i : Nat) : Blind (ensureTemplate i) := by
  intro s f h
  unfold ensureTemplate
  rw [show (withRepetitions s f).vheap = s.vheap from rfl,
    show (withRepetitions s f).next = s.next from rfl]
  at_simp
  cases s.vheap (s.heap i).voices with
  | cons x xs => exact .refl f h
  | nil =>
    simp only
    cases (s.heap i).template with
    | some t => exact ⟨rfl, ⟨f, rfl⟩, h⟩
    | none =>
      simp only
      have e : ({ (Part.clone ((s.heap i).at (f i))) with template := some s.next } : Part) =
          ({ (s.heap i).clone with template := some s.next } : Part).at (f i) := rfl
      rw [e, alloc_blind]
      simp only
      exact RepSim.mod (s := (s.alloc { (s.heap i).clone with template := some s.next }).2) h i _ (fun p r => ⟨r, rfl⟩)

/-- The same for operations with a result. -/
structure RepSim2 {α : Type} (x x' : Out × α) : Prop where
  out : RepSim x.1 x'.1
  val : x'.2 = x.2

theorem addVoice_blind (i : Nat) (n : Int) (s : Score) (f : Nat → Int) (h : RepVars s) : RepSim2 (addVoice i n s) (addVoice i n (withRepetitions s f)) := by
  unfold addVoice
  at_simp
  cases (s.heap i).template with
  | none => exact ⟨⟨rfl, ⟨f, rfl⟩, h⟩, rfl⟩
  | some t =>
    simp only
    rw [show ((s.heap t).at (f t)).clone = (s.heap t).clone.at (f t) from rfl, alloc_blind]
    exact ⟨⟨rfl, ⟨_, rfl⟩, h⟩, rfl⟩

theorem getVoice_blind (i : Nat) (n : Int) (s : Score) (f : Nat → Int) (h : RepVars s) : RepSim2 (getVoice i n s) (getVoice i n (withRepetitions s f)) := by
  unfold getVoice
  rw [show (withRepetitions s f).vheap = s.vheap from rfl]
  at_simp
  cases (s.vheap (s.heap i).voices).lookup n with
  | some v => exact ⟨.refl f h, rfl⟩
  | none =>
    simp only
    have e := ensureTemplate_blind i s f h
    rcases ho : ensureTemplate i s with ⟨err, s1⟩
    rcases ho' : ensureTemplate i (withRepetitions s f) with ⟨err', s1'⟩
    rw [ho, ho'] at e
    obtain ⟨h1, ⟨f1, h2⟩, h3⟩ := e
    simp only at h1 h2
    subst h1; subst h2
    cases err' with
    | some e => exact ⟨⟨rfl, ⟨f1, rfl⟩, h3⟩, rfl⟩
    | none => exact addVoice_blind i n s1 f1 h3

theorem voice_blind (n : Int) (i : Nat) : Blind (voiceMarkerAt n i) := by
  intro s f h
  unfold voiceMarkerAt
  rw [show (withRepetitions s f).current = s.current from rfl]
  cases s.current[i]? with
  | none => exact .refl f h
  | some id =>
    simp only
    have e := getVoice_blind id n s f h
    rcases ho : getVoice id n s with ⟨⟨err, s1⟩, v⟩
    rcases ho' : getVoice id n (withRepetitions s f) with ⟨⟨err', s1'⟩, v'⟩
    rw [ho, ho'] at e
    obtain ⟨⟨h1, ⟨f1, h2⟩, h3⟩, h4⟩ := e
    simp only at h1 h2 h4
    subst h1; subst h2; subst h4
    cases err' with
    | some e => exact ⟨rfl, ⟨f1, rfl⟩, h3⟩
    | none => exact ⟨rfl, ⟨f1, rfl⟩, h3⟩

theorem lastToFinish_blind (s : Score) (f : Nat → Int) : ∀ (l : List (Int × Nat)) (b : Nat), lastToFinish (withRepetitions s f) b l = lastToFinish s b l := by
  intro l
  induction l with
  | nil => intro b; rfl
  | cons x l ih => intro b; exact ih _

theorem voiceEnd_blind (i : Nat) : Blind (voiceEndAt i) := by
  intro s f h
  unfold voiceEndAt
  rw [show (withRepetitions s f).current = s.current from rfl]
  cases s.current[i]? with
  | none => exact .refl f h
  | some id =>
    simp only
    rw [show (withRepetitions s f).vheap ((withRepetitions s f).heap id).voices = s.vheap (s.heap id).voices from rfl]
    cases (s.vheap (s.heap id).voices).getLast? with
    | none => exact .refl f h
    | some x =>
      simp only
      rw [lastToFinish_blind]
      rw [show (withRepetitions s f).newVoices = (s.newVoices.1, withRepetitions s.newVoices.2 f) from rfl]
      simp only
      obtain ⟨f1, h1⟩ := withRepetitions_modPart s.newVoices.2 f (lastToFinish s x.2 (s.vheap (s.heap id).voices).dropLast)
        (fun p => { p with voices := s.newVoices.1, template := none }) (fun p r => ⟨r, rfl⟩)
      rw [h1]
      exact ⟨rfl, ⟨f1, rfl⟩, h⟩

theorem marker_blind (n : String) : Blind (markerUpd n) := by
  intro s f h
  unfold markerUpd
  rw [show (withRepetitions s f).current = s.current from rfl]
  cases s.current with
  | nil => exact ⟨rfl, ⟨f, rfl⟩, h⟩
  | cons i is =>
    simp only [commonOffset_blind]
    cases commonOffset s (i :: is) with
    | none => exact ⟨rfl, ⟨f, rfl⟩, h⟩
    | some o => exact ⟨rfl, ⟨f, rfl⟩, h⟩

theorem atMarker_blind (n : String) : Blind (atMarkerUpd n) := by
  intro s f h
  refine (applyGlobals_blind s f h).andThen ?_
  intro s f h
  rw [show (withRepetitions s f).markers = s.markers from rfl]
  cases s.markers n with
  | none => exact ⟨rfl, ⟨f, rfl⟩, h⟩
  | some o => exact RepSim.forIds (fun i s f h => RepSim.mod h i _ (fun p r => ⟨r, rfl⟩)) _ _ _ h

/-! ### Part declarations -/

theorem newPart_blind (n : String) (s : Score) (f : Nat → Int) :
    newPart n (withRepetitions s f) = (newPart n s).map (fun x => (x.1, withRepetitions x.2 (fun i => if i = s.next then 0 else f i))) := by
  unfold newPart
  cases stockInstrument n with
  | none => rfl
  | some instr =>
    simp only [Option.map]
    rw [show (withRepetitions s f).newVoices = (s.newVoices.1, withRepetitions s.newVoices.2 f) from rfl]
    simp only
    refine congrArg some ?_
    have := alloc_blind s.newVoices.2 f
      { name := n, instr := instr, tempoMaster := false, tempo := 120, keySig := KeySig.empty,
        transposition := 0, refPitch := 440, offset := 0, lastOffset := -1, octave := 4,
        volume := dynamicVolume "mf", trackVolume := 100 / 127, panning := 1 / 2, midiChannel := -1,
        explicitChannel := false, quant := 9 / 10, dur := [.length 4 0], timeScale := 1, tempoValues := [],
        override := none, repetition := 0, template := none, origin := s.next, voices := s.newVoices.1 } 0
    exact this

theorem newPart_vars (n : String) (s : Score) (x : Nat × Score) (h : newPart n s = some x) : x.2.vars = s.vars := by
  unfold newPart at h
  cases hn : stockInstrument n with
  | none => rw [hn] at h; cases h
  | some i => rw [hn] at h; simp only [Option.some.injEq] at h; rw [← h]; rfl

/-- The same for operations returning parts or an error. -/
structure RepSim3 {α : Type} (x x' : Except Err α × Score) : Prop where
  val : x'.1 = x.1
  same : ∃ f, x'.2 = withRepetitions x.2 f
  vars : RepVars x.2

theorem RepSim3.ite {α : Type} {c : Prop} {i i' : Decidable c} {x x' y y' : Except Err α × Score} (h : c → RepSim3 x x') (h' : ¬ c → RepSim3 y y') :
    RepSim3 (@_root_.ite _ c i x y) (@_root_.ite _ c i' x' y') := by
  by_cases hc : c
  · simp only [hc, if_true]; exact h hc
  · simp only [hc, if_false]; exact h' hc

theorem onlyNewPart_blind (n : String) (s : Score) (f : Nat → Int) (h : RepVars s) : RepSim3 (onlyNewPart n s) (onlyNewPart n (withRepetitions s f)) := by
  unfold onlyNewPart
  rw [newPart_blind]
  cases hn : newPart n s with
  | none => exact ⟨rfl, ⟨f, rfl⟩, h⟩
  | some x =>
    refine ⟨rfl, ⟨_, rfl⟩, ?_⟩
    intro m es he
    exact h m es (by rw [← newPart_vars n s x hn]; exact he)

theorem unnamedParts_blind (s : Score) (f : Nat → Int) (n : String) : (withRepetitions s f).unnamedParts n = s.unnamedParts n := rfl
theorem namedParts_blind (s : Score) (f : Nat → Int) (n : String) : (withRepetitions s f).namedParts n = s.namedParts n := rfl
theorem aliasedStock_blind (s : Score) (f : Nat → Int) (n : String) : (withRepetitions s f).aliasedStockInstruments n = s.aliasedStockInstruments n := rfl

theorem determineSingle_blind (n a : String) (s : Score) (f : Nat → Int) (h : RepVars s) :
    RepSim3 (determineSingle n a s) (determineSingle n a (withRepetitions s f)) := by
  unfold determineSingle
  simp only [unnamedParts_blind, namedParts_blind, aliasedStock_blind]
  have h0 : ∀ x, RepSim3 (α := List Nat) (x, s) (x, withRepetitions s f) := fun x => ⟨rfl, ⟨f, rfl⟩, h⟩
  repeat (first | exact h0 _ | exact onlyNewPart_blind n s f h | refine RepSim3.ite (fun _ => ?_) (fun _ => ?_))

theorem collectGroup_blind : ∀ (ns : List String) (s : Score) (f : Nat → Int) (a b : List Nat), RepVars s →
    RepSim3 (collectGroup s a b ns) (collectGroup (withRepetitions s f) a b ns) := by
  intro ns
  induction ns with
  | nil => intro s f a b h; exact ⟨rfl, ⟨f, rfl⟩, h⟩
  | cons n ns ih =>
    intro s f a b h
    simp only [collectGroup, unnamedParts_blind, namedParts_blind]
    refine RepSim3.ite (fun _ => ?_) (fun _ => ?_)
    · exact ih s f _ _ h
    · refine RepSim3.ite (fun _ => ?_) (fun _ => ?_)
      · exact ih s f _ _ h
      · rw [newPart_blind]
        cases hn : newPart n s with
        | none => exact ⟨rfl, ⟨f, rfl⟩, h⟩
        | some x => exact ih _ _ _ _ (fun m es he => h m es (by rw [← newPart_vars n s x hn]; exact he))

theorem newGroup_blind : ∀ (ns : List String) (s : Score) (f : Nat → Int) (a : List Nat), RepVars s →
    RepSim3 (newGroup s a ns) (newGroup (withRepetitions s f) a ns) := by
  intro ns
  induction ns with
  | nil => intro s f a h; exact ⟨rfl, ⟨f, rfl⟩, h⟩
  | cons n ns ih =>
    intro s f a h
    simp only [newGroup]
    rw [newPart_blind]
    cases hn : newPart n s with
    | none => exact ⟨rfl, ⟨f, rfl⟩, h⟩
    | some x => exact ih _ _ _ (fun m es he => h m es (by rw [← newPart_vars n s x hn]; exact he))

theorem determineParts_blind (ns : List String) (a : String) (s : Score) (f : Nat → Int) (h : RepVars s) :
    RepSim3 (determineParts ns a s) (determineParts ns a (withRepetitions s f)) := by
  unfold determineParts
  split
  · exact determineSingle_blind _ a s f h
  · refine RepSim3.ite (fun _ => ?_) (fun _ => ?_)
    · exact ⟨rfl, ⟨f, rfl⟩, h⟩
    · have e := collectGroup_blind ns s f [] [] h
      rcases ho : collectGroup s [] [] ns with ⟨x, s1⟩
      rcases ho' : collectGroup (withRepetitions s f) [] [] ns with ⟨x', s1'⟩
      rw [ho, ho'] at e
      obtain ⟨h1, ⟨f1, h2⟩, h3⟩ := e
      simp only at h1 h2
      subst h1; subst h2
      cases x' with
      | error e => exact ⟨rfl, ⟨f1, rfl⟩, h3⟩
      | ok y =>
        simp only
        refine RepSim3.ite (fun _ => ?_) (fun _ => ?_)
        · exact ⟨rfl, ⟨f1, rfl⟩, h3⟩
        · refine RepSim3.ite (fun _ => ?_) (fun _ => ?_)
          · exact newGroup_blind ns s1 f1 _ h3
          · exact ⟨rfl, ⟨f1, rfl⟩, h3⟩

theorem markMaster_blind (parts : List Nat) (s : Score) (f : Nat → Int) : ∃ f', markMaster parts (withRepetitions s f) = withRepetitions (markMaster parts s) f' := by
  unfold markMaster
  rw [show (withRepetitions s f).parts = s.parts from rfl]
  split
  · exact withRepetitions_modPart s f _ _ (fun p r => ⟨r, rfl⟩)
  · exact ⟨f, rfl⟩

theorem partDecl_blind (ns : List String) (a : String) : Blind (partDeclUpd ns a) := by
  intro s f h
  refine RepSim.andThen (RepSim.forIds voiceEnd_blind _ _ _ h) ?_
  intro s f h
  have e := determineParts_blind ns a s f h
  rcases ho : determineParts ns a s with ⟨x, s1⟩
  rcases ho' : determineParts ns a (withRepetitions s f) with ⟨x', s1'⟩
  rw [ho, ho'] at e
  obtain ⟨h1, ⟨f1, h2⟩, h3⟩ := e
  simp only at h1 h2
  subst h1; subst h2
  cases x' with
  | error e => exact ⟨rfl, ⟨f1, rfl⟩, h3⟩
  | ok parts =>
    simp only
    rw [show (withRepetitions s1 f1).parts = s1.parts from rfl]
    by_cases hp : s1.parts = [] ∧ parts = []
    · simp only [if_pos hp]; exact ⟨rfl, ⟨f1, rfl⟩, h3⟩
    · simp only [if_neg hp]
      obtain ⟨f2, h4⟩ := markMaster_blind parts s1 f1
      unfold declareParts
      rw [h4]
      refine ⟨rfl, ⟨f2, rfl⟩, ?_⟩
      have hv : (markMaster parts s1).vars = s1.vars := by unfold markMaster; split <;> rfl
      intro m es he
      exact h3 m es (by rw [← hv]; exact he)

/-! ### Durations -/

/-- The same duration, and parts equal up to the repetition number. -/
def DSim {α : Type} (x y : Option (α × Part)) : Prop := (x = none ∧ y = none) ∨ ∃ a p r, x = some (a, p) ∧ y = some (a, p.at r)

/-- A duration that does not depend on the repetition number. -/
def DBlind {α : Type} (g : Part → Option (α × Part)) : Prop := ∀ p r, DSim (g p) (g (p.at r))

theorem DSim.some {α : Type} {a : α} {p : Part} {r : Int} : DSim (some (a, p)) (some (a, p.at r)) := .inr ⟨a, p, r, rfl, rfl⟩

theorem DSim.refl {α : Type} (x : Option (α × Part)) : DSim x x := by
  cases x with
  | none => exact .inl ⟨rfl, rfl⟩
  | some x => exact .inr ⟨x.1, x.2, x.2.repetition, rfl, rfl⟩

theorem effectiveDuration_blind (d : Dur) (p : Part) (r : Int) : effectiveDuration d (p.at r) = effectiveDuration d p := by cases d <;> rfl

theorem updateDefault_blind (d : Dur) (p : Part) (r : Int) : updateDefaultDuration (p.at r) d = (updateDefaultDuration p d).at r := by cases d <;> rfl

theorem leafDur_blind (l : Leaf) : DBlind (leafDurMs l) := by
  intro p r
  cases l with
  | note a d b =>
    simp only [leafDurMs, effectiveDuration_blind, at_tempo, updateDefault_blind]
    cases (effectiveDuration d p).toMs p.tempo with
    | none => exact .inl ⟨rfl, rfl⟩
    | some ms => exact .some
  | rest d =>
    simp only [leafDurMs, effectiveDuration_blind, at_tempo, updateDefault_blind]
    cases (effectiveDuration d p).toMs p.tempo with
    | none => exact .inl ⟨rfl, rfl⟩
    | some ms => exact .some
  | attr u => exact .some
  | globalAttr u => exact .some

theorem repDur_blind (g : Part → Option (Rat × Part)) (k : Nat) (n : Int) (a : Rat) : DBlind (repDurMs g k n a) := by
  intro p r
  cases k with
  | zero => exact .some
  | succ k => exact .refl _

section
variable {vars : String → Option (List Upd)} {deref : List Upd → Part → Option (Rat × Part)} (hv : ∀ n es, vars n = some es → NoEndingsL es)
  (hd : ∀ es, NoEndingsL es → DBlind (deref es))
include hv hd

mutual
theorem dur_blind : ∀ (e : Upd), NoEndings e → DBlind (durMsWith vars deref e)
  | .leaf l, _ => by intro p r; simp only [durMsWith]; exact leafDur_blind l p r
  | .lisp es, _ => by
    intro p r
    simp only [durMsWith]
    cases lispUpdate es with
    | error e => exact .some
    | ok o => cases o with
      | none => exact .some
      | some l => exact leafDur_blind l p r
  | .lispNil, _ => by intro p r; simp only [durMsWith]; exact .some
  | .barline, _ => by intro p r; simp only [durMsWith]; exact .some
  | .chord es, h => by
    intro p r
    simp only [durMsWith]
    rcases dur_blindC es (by simpa only [NoEndings] using h) none p r with ⟨h1, h2⟩ | ⟨a, q, r', h1, h2⟩
    · rw [h1, h2]; exact .inl ⟨rfl, rfl⟩
    · rw [h1, h2]; exact .some
  | .cram es d, _ => by
    intro p r
    simp only [durMsWith, effectiveDuration_blind, at_tempo]
    cases (effectiveDuration d p).toMs p.tempo with
    | none => exact .inl ⟨rfl, rfl⟩
    | some ms => exact .some
  | .seq es, h => by
    intro p r
    simp only [durMsWith]
    exact dur_blindL es (by simpa only [NoEndings] using h) 0 p r
  | .rep e n, _ => by
    intro p r
    simp only [durMsWith]
    exact repDur_blind _ _ _ _ p r
  | .onReps rs e, h => by simp only [NoEndings] at h
  | .voice n, _ => by intro p r; simp only [durMsWith]; exact .some
  | .voiceEnd, _ => by intro p r; simp only [durMsWith]; exact .some
  | .marker n, _ => by intro p r; simp only [durMsWith]; exact .some
  | .atMarker n, _ => by intro p r; simp only [durMsWith]; exact .some
  | .varDef n es, _ => by intro p r; simp only [durMsWith]; exact .some
  | .varRef n, _ => by
    intro p r
    simp only [durMsWith]
    cases hn : vars n with
    | none => exact .some
    | some es => exact hd es (hv n es hn) p r
  | .partDecl ns a, _ => by intro p r; simp only [durMsWith]; exact .some
theorem dur_blindL : ∀ (es : List Upd), NoEndingsL es → ∀ a, DBlind (listDurMs vars deref a es)
  | [], _ => by intro a p r; simp only [listDurMs]; exact .some
  | e :: es, h => by
    intro a p r
    simp only [NoEndingsL] at h
    simp only [listDurMs]
    rcases dur_blind e h.1 p r with ⟨h1, h2⟩ | ⟨b, q, r', h1, h2⟩
    · rw [h1, h2]; exact .inl ⟨rfl, rfl⟩
    · rw [h1, h2]; exact dur_blindL es h.2 _ q r'
theorem dur_blindC : ∀ (es : List Upd), NoEndingsL es → ∀ a, DBlind (chordDurMs vars deref a es)
  | [], _ => by intro a p r; simp only [chordDurMs]; exact .some
  | e :: es, h => by
    intro a p r
    simp only [NoEndingsL] at h
    simp only [chordDurMs]
    rcases dur_blind e h.1 p r with ⟨h1, h2⟩ | ⟨b, q, r', h1, h2⟩
    · rw [h1, h2]; exact .inl ⟨rfl, rfl⟩
    · rw [h1, h2]; exact dur_blindC es h.2 _ q r'
end
end

theorem eventsDur_blind {vars : String → Option (List Upd)} (hv : ∀ n es, vars n = some es → NoEndingsL es) (es : List Upd) (h : NoEndingsL es) :
    DBlind (eventsDurMs vars es) :=
  dur_blindL hv (fun es h => dur_blindL hv (fun _ _ _ _ => .inl ⟨rfl, rfl⟩) es h 0) es h 0

theorem cramTimeScale_blind {vars : String → Option (List Upd)} (hv : ∀ n es, vars n = some es → NoEndingsL es) (es : List Upd) (h : NoEndingsL es) (d : Dur)
    (p : Part) (r : Int) : cramTimeScale vars es d (p.at r) = cramTimeScale vars es d p := by
  unfold cramTimeScale
  rw [effectiveDuration_blind, show (p.at r).clone = p.clone.at r from rfl]
  at_simp
  cases (effectiveDuration d p).toMs p.tempo with
  | none => rfl
  | some ms =>
    simp only
    rcases eventsDur_blind hv es h p.clone r with ⟨h1, h2⟩ | ⟨b, q, r', h1, h2⟩
    · rw [h1, h2]
    · rw [h1, h2]

/-! ### Variables -/

mutual
theorem varValue_noEndings {vars : String → Option (List Upd)} (hv : ∀ n es, vars n = some es → NoEndingsL es) : ∀ (e v : Upd), NoEndings e →
    varValue vars e = .ok v → NoEndings v
  | .leaf l, v, _, h => by simp only [varValue, Except.ok.injEq] at h; subst h; simp only [NoEndings]
  | .lisp es, v, _, h => by
    simp only [varValue] at h
    split at h
    · cases h
    · cases h; simp only [NoEndings]
    · cases h; simp only [NoEndings]
  | .lispNil, v, _, h => by simp only [varValue, Except.ok.injEq] at h; subst h; simp only [NoEndings]
  | .barline, v, _, h => by simp only [varValue, Except.ok.injEq] at h; subst h; simp only [NoEndings]
  | .chord es, v, hn, h => by
    simp only [varValue] at h
    split at h
    · cases h
    · rename_i vs hvs; cases h; simp only [NoEndings] at hn ⊢; exact varValues_noEndings hv es vs hn hvs
  | .cram es d, v, hn, h => by
    simp only [varValue] at h
    split at h
    · cases h
    · rename_i vs hvs; cases h; simp only [NoEndings] at hn ⊢; exact varValues_noEndings hv es vs hn hvs
  | .seq es, v, hn, h => by
    simp only [varValue] at h
    split at h
    · cases h
    · rename_i vs hvs; cases h; simp only [NoEndings] at hn ⊢; exact varValues_noEndings hv es vs hn hvs
  | .rep e n, v, hn, h => by
    simp only [varValue] at h
    split at h
    · cases h
    · rename_i w hw; cases h; simp only [NoEndings] at hn ⊢; exact varValue_noEndings hv e w hn hw
  | .onReps rs e, v, hn, h => by simp only [NoEndings] at hn
  | .voice n, v, _, h => by simp only [varValue, Except.ok.injEq] at h; subst h; simp only [NoEndings]
  | .voiceEnd, v, _, h => by simp only [varValue, Except.ok.injEq] at h; subst h; simp only [NoEndings]
  | .marker n, v, _, h => by simp only [varValue, Except.ok.injEq] at h; subst h; simp only [NoEndings]
  | .atMarker n, v, _, h => by simp only [varValue, Except.ok.injEq] at h; subst h; simp only [NoEndings]
  | .varDef n es, v, hn, h => by
    simp only [varValue] at h
    split at h
    · cases h
    · rename_i vs hvs; cases h; simp only [NoEndings] at hn ⊢; exact varValues_noEndings hv es vs hn hvs
  | .varRef n, v, _, h => by
    simp only [varValue] at h
    split at h
    · cases h
    · rename_i es hes; cases h; simp only [NoEndings]; exact hv n es hes
  | .partDecl ns a, v, _, h => by simp only [varValue] at h; cases h
theorem varValues_noEndings {vars : String → Option (List Upd)} (hv : ∀ n es, vars n = some es → NoEndingsL es) : ∀ (es vs : List Upd), NoEndingsL es →
    varValues vars es = .ok vs → NoEndingsL vs
  | [], vs, _, h => by simp only [varValues, Except.ok.injEq] at h; subst h; simp only [NoEndingsL]
  | e :: es, vs, hn, h => by
    simp only [NoEndingsL] at hn
    simp only [varValues] at h
    split at h
    · cases h
    · rename_i w hw
      split at h
      · cases h
      · rename_i ws hws
        cases h
        simp only [NoEndingsL]
        exact ⟨varValue_noEndings hv e w hn.1 hw, varValues_noEndings hv es ws hn.2 hws⟩
end

theorem varDef_blind (n : String) (es : List Upd) (hn : NoEndingsL es) : Blind (varDefUpd n es) := by
  intro s f h
  unfold varDefUpd
  rw [show (withRepetitions s f).vars = s.vars from rfl]
  cases hv : varValues s.vars es with
  | error e => exact ⟨rfl, ⟨f, rfl⟩, h⟩
  | ok vs =>
    refine ⟨rfl, ⟨f, rfl⟩, ?_⟩
    intro m us hu
    by_cases hm : m = n
    · simp only [Out.ok, hm, if_true, Option.some.injEq] at hu; subst hu; exact varValues_noEndings h es vs hn hv
    · simp only [Out.ok, if_neg hm] at hu; exact h m us hu

/-! ### All events -/

theorem shortestLoop_blind (s : Score) (f : Nat → Int) (d : Dur) : ∀ (l : List Nat) (m : Shortest), shortestLoop (withRepetitions s f) d l m = shortestLoop s d l m := by
  intro l
  induction l with
  | nil => intro m; rfl
  | cons i l ih =>
    intro m
    simp only [shortestLoop]
    at_simp
    rw [effectiveDuration_blind]
    cases (effectiveDuration d (s.heap i)).toMs (s.heap i).tempo with
    | none => rfl
    | some ms => exact ih _

theorem withRepetitions_repetition (s : Score) (f : Nat → Int) (i : Nat) (r : Int) :
    (withRepetitions s f).modPart i (fun p => { p with repetition := r }) = withRepetitions s (fun j => if j = i then r else f j) := by
  simp only [withRepetitions, Score.modPart, Score.setPart]
  congr 1
  funext j
  by_cases hj : j = i
  · subst hj; simp only [if_true]
  · simp only [if_neg hj]

theorem setRepetition_blind (r : Int) (s : Score) (f : Nat → Int) (h : RepVars s) (l : List Nat) :
    RepSim (.ok s) (forIds (setRepetition r) l (withRepetitions s f)) := by
  induction l generalizing s f with
  | nil => exact .refl f h
  | cons i l ih =>
    simp only [forIds, setRepetition]
    rw [withRepetitions_repetition]
    exact ih s _ h

theorem RepSim.trans' {a b c : Out} (h : RepSim a b) (h' : ∀ f, b.s = withRepetitions a.s f → RepSim b c) : RepSim a c := by
  obtain ⟨h1, ⟨f, h2⟩, h3⟩ := h
  obtain ⟨g1, ⟨f', g2⟩, _⟩ := h' f h2
  exact ⟨g1.trans h1, ⟨f', by rw [g2, h2]; rfl⟩, h3⟩

/-- A chord's loop gives the same result. -/
structure RepSimC (x x' : ChordOut) : Prop where
  out : RepSim x.out x'.out
  shortest : x'.shortest = x.shortest

section
variable {deref : List Upd → Score → Out} (hd : ∀ es, NoEndingsL es → Blind (deref es))
include hd

theorem repLoop_blind {body : Score → Out} (hb : Blind body) : ∀ (k : Nat) (r : Int), Blind (repLoop body k r) := by
  intro k
  induction k with
  | zero => intro r s f h; exact .refl f h
  | succ k ih =>
    intro r s f h
    refine RepSim.andThen (RepSim.forIds (fun i s f h => RepSim.mod h i _ (fun p q => ⟨r, rfl⟩)) _ _ _ h) ?_
    intro s f h
    exact RepSim.andThen (hb s f h) (ih (r + 1))

mutual
theorem upd_blind : ∀ (e : Upd), NoEndings e → Blind (updWith deref e)
  | .leaf l, _ => by intro s f h; simp only [updWith]; exact leaf_blind l s f h
  | .lisp es, _ => by
    intro s f h
    simp only [updWith]
    cases lispUpdate es with
    | error e => exact ⟨rfl, ⟨f, rfl⟩, h⟩
    | ok o => cases o with
      | none => exact .refl f h
      | some l => exact leaf_blind l s f h
  | .lispNil, _ => by intro s f h; simp only [updWith]; exact .refl f h
  | .barline, _ => by intro s f h; simp only [updWith]; exact .refl f h
  | .chord es, hn => by
    intro s f h
    simp only [updWith]
    refine RepSim.andThen (applyGlobals_blind s f h) ?_
    intro s f h
    have e := chord_blind es (by simpa only [NoEndings] using hn) (fun i => if s.current.contains i then none else some 0)
      { s with chordMode := true } f h
    have e1 : ({ withRepetitions s f with chordMode := true } : Score) = withRepetitions { s with chordMode := true } f := rfl
    rw [e1, show (withRepetitions s f).current = s.current from rfl]
    simp only [e.shortest]
    refine RepSim.andThen e.out ?_
    intro s f h
    have e1 : ({ withRepetitions s f with chordMode := false } : Score) = withRepetitions { s with chordMode := false } f := rfl
    rw [e1]
    exact RepSim.forIds (fun i s f h => RepSim.mod h i _ (fun p r => ⟨r, rfl⟩)) _ { s with chordMode := false } f h
  | .cram es d, hn => by
    intro s f h
    simp only [NoEndings] at hn
    simp only [updWith]
    rw [show (withRepetitions s f).vars = s.vars from rfl, show (withRepetitions s f).current = s.current from rfl]
    have hv : ∀ n es, s.vars n = some es → NoEndingsL es := h
    generalize s.vars = vars at hv
    generalize s.current = ids
    refine RepSim.andThen ?_ ?_
    · refine RepSim.forIds ?_ _ _ _ h
      intro i s f h
      unfold cramScalePart
      at_simp
      rw [cramTimeScale_blind hv es hn]
      cases cramTimeScale vars es d (s.heap i) with
      | none => exact ⟨rfl, ⟨f, rfl⟩, h⟩
      | some t => exact RepSim.mod h i _ (fun p r => ⟨r, rfl⟩)
    · intro s' f' h'
      refine RepSim.andThen (upd_blindL es hn s' f' h') ?_
      intro s2 f2 h2
      refine RepSim.forIds ?_ _ _ _ h2
      intro i s3 f3 h3
      unfold cramRestorePart
      exact RepSim.mod h3 i _ (fun p r => ⟨r, rfl⟩)
  | .seq es, hn => by intro s f h; simp only [updWith]; exact upd_blindL es (by simpa only [NoEndings] using hn) s f h
  | .rep e n, hn => by
    intro s f h
    simp only [updWith]
    exact repLoop_blind hd (upd_blind e (by simpa only [NoEndings] using hn)) _ _ s f h
  | .onReps rs e, hn => by simp only [NoEndings] at hn
  | .voice n, _ => by intro s f h; simp only [updWith]; exact RepSim.forIds (voice_blind n) _ _ _ h
  | .voiceEnd, _ => by intro s f h; simp only [updWith]; exact RepSim.forIds voiceEnd_blind _ _ _ h
  | .marker n, _ => by intro s f h; simp only [updWith]; exact marker_blind n s f h
  | .atMarker n, _ => by intro s f h; simp only [updWith]; exact atMarker_blind n s f h
  | .varDef n es, hn => by intro s f h; simp only [updWith]; exact varDef_blind n es (by simpa only [NoEndings] using hn) s f h
  | .varRef n, _ => by
    intro s f h
    simp only [updWith]
    rw [show (withRepetitions s f).vars = s.vars from rfl]
    cases hn : s.vars n with
    | none => exact ⟨rfl, ⟨f, rfl⟩, h⟩
    | some es => exact hd es (h n es hn) s f h
  | .partDecl ns a, _ => by intro s f h; simp only [updWith]; exact partDecl_blind ns a s f h
theorem upd_blindL : ∀ (es : List Upd), NoEndingsL es → Blind (updListWith deref es)
  | [], _ => by intro s f h; simp only [updListWith]; exact .refl f h
  | e :: es, hn => by
    intro s f h
    simp only [NoEndingsL] at hn
    simp only [updListWith]
    exact RepSim.andThen (upd_blind e hn.1 s f h) (upd_blindL es hn.2)
theorem chord_blind : ∀ (es : List Upd), NoEndingsL es → ∀ (m : Shortest) (s : Score) (f : Nat → Int), RepVars s →
    RepSimC (chordEvents deref es m s) (chordEvents deref es m (withRepetitions s f))
  | [], _ => by intro m s f h; simp only [chordEvents]; exact ⟨.refl f h, rfl⟩
  | e :: es, hn => by
    intro m s f h
    simp only [NoEndingsL] at hn
    simp only [chordEvents, shortestLoop_blind, show (withRepetitions s f).current = s.current from rfl]
    cases shortestLoop s (specifiedDuration e) s.current m with
    | none => exact ⟨⟨rfl, ⟨f, rfl⟩, h⟩, rfl⟩
    | some m =>
      simp only
      have e1 := upd_blind e hn.1 s f h
      rcases ho : updWith deref e s with ⟨err, s1⟩
      rcases ho' : updWith deref e (withRepetitions s f) with ⟨err', s1'⟩
      rw [ho, ho'] at e1
      obtain ⟨h1, ⟨f1, h2⟩, h3⟩ := e1
      simp only at h1 h2
      subst h1; subst h2
      cases err' with
      | some e => exact ⟨⟨rfl, ⟨f1, rfl⟩, h3⟩, rfl⟩
      | none => exact chord_blind es hn.2 m s1 f1 h3
end

/-- A repeat is the same as writing the event several times. -/
theorem rep_unrolled (e : Upd) (hn : NoEndings e) : ∀ (k : Nat) (r : Int) (s : Score) (f : Nat → Int), RepVars s →
    RepSim (updListWith deref (List.replicate k e) s) (repLoop (updWith deref e) k r (withRepetitions s f)) := by
  intro k
  induction k with
  | zero => intro r s f h; simp only [List.replicate, updListWith]; exact .refl f h
  | succ k ih =>
    intro r s f h
    simp only [List.replicate, updListWith, repLoop]
    show RepSim ((Out.ok s).andThen fun s => (updWith deref e s).andThen (updListWith deref (List.replicate k e))) _
    refine RepSim.andThen (setRepetition_blind r s f h _) ?_
    intro s f h
    exact RepSim.andThen (upd_blind hd e hn s f h) (ih (r + 1))
end

theorem deref_blind (es : List Upd) (h : NoEndingsL es) : Blind (derefUpd es) :=
  upd_blindL (fun _ _ _ f h => ⟨rfl, ⟨f, rfl⟩, h⟩) es h

end Alda
