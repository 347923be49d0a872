import Verif.Lemmas.ImportSim
import Verif.Lemmas.Attributes
import Verif.Props.Lisp
import Verif.Props.Attributes
import Verif.Spec.LispNotes
/-!
Lemmas for C66: evaluation of the lisp functions for notes; notes with durations that are written differently.
-/
namespace Alda
open Spec

/-! ### Evaluation -/

theorem lookupFn_plain {n : String} {sigs : List Signature} (h : (n, sigs) ∈ plainFns) : lookupFn n = some sigs := by
  apply lookup_of_mem
  · rw [List.map_reverse]; exact List.pairwise_reverse.2 (environment_nodup.imp (fun h => Ne.symm h))
  · exact List.mem_reverse.2 (List.mem_append_right _ h)

theorem eval_call {n : String} {sigs : List Signature} (h : (n, sigs) ∈ plainFns) {args vs : List LispForm} (hv : LispForm.evalArgs args = .ok vs) :
    (call n args).eval = operate sigs vs := by
  have hq : n ≠ "quote" := by
    rintro rfl
    have : "quote" ∈ plainFns.map (·.1) := List.mem_map.2 ⟨_, h, rfl⟩
    revert this; decide +kernel
  simp only [call, LispForm.eval, evalSym, if_neg hq, lookupFn_plain h, hv]

theorem pitchAccidentals_names (as : List Accidental) : pitchAccidentals (as.map fun a => .sym (accidentalName a)) = .ok as := by
  induction as with
  | nil => rfl
  | cons a as ih =>
    have ha : newAccidental (accidentalName a) = some a := by cases a <;> decide
    simp only [List.map_cons, pitchAccidentals, ha, ih]; rfl

theorem pitch_eval {f : LispForm} {p : Pitch} (h : PitchForm f p) : f.eval = .ok (.pitch p) := by
  cases h with
  | plain l =>
    obtain ⟨c, hc, hl, _⟩ := letterName_chars l
    rw [eval_call (n := "pitch") (sigs := [⟨[.list], pitchFn⟩]) (by simp [plainFns]) (evalArgs_one (v := .list [.sym (letterName l)]) (by simp only [LispForm.eval]))]
    simp [operate, argumentsMatchSignature, fixedArgsMatch, typeOk, LispForm.hasType, pitchFn, hc, hl]
  | altered l as hne =>
    obtain ⟨c, hc, hl, _⟩ := letterName_chars l
    rw [eval_call (n := "pitch") (sigs := [⟨[.list], pitchFn⟩]) (by simp [plainFns])
      (evalArgs_one (v := .list (.sym (letterName l) :: as.map fun a => .sym (accidentalName a))) (by simp only [LispForm.eval]))]
    have := pitchAccidentals_names as
    cases as with
    | nil => exact absurd rfl hne
    | cons a as =>
      simp only [List.map_cons] at this ⊢
      simp [operate, argumentsMatchSignature, fixedArgsMatch, typeOk, LispForm.hasType, pitchFn, hc, hl, this, Except.map]
  | midi n hn =>
    have hi : integer (.num (n : Rat)) = .ok n := by
      simp only [integer]
      rw [if_pos ⟨Rat.den_intCast .., by simpa using hn⟩]; simp
    rw [eval_call (n := "midi-note") (List.mem_of_getElem? (i := 4) rfl) (evalArgs_num _)]
    simp [operate, argumentsMatchSignature, fixedArgsMatch, typeOk, LispForm.hasType, hi, Except.map]

theorem positive_large {q : Rat} (h : 0 < q) (hl : Large (.num q)) : positiveNumber (.num q) = .ok q := by
  simp only [positiveNumber]
  simp only [Large] at hl
  rw [if_neg (by grind)]

theorem operate_duration (vs : List DurComp) :
    operate [⟨[.variadic .duration], fun args => (durationArgs args).map (fun cs => .dur (.nested cs))⟩] (vs.map .dur) = .ok (.dur (.nested vs)) := by
  have h1 : ∀ vs : List DurComp, durationArgs (vs.map .dur) = .ok vs := by
    intro vs
    induction vs with
    | nil => rfl
    | cons v vs ih => simp only [List.map_cons, durationArgs, ih]; rfl
  have h2 : argumentsMatchSignature (vs.map .dur) [.variadic .duration] = true := by
    simp only [argumentsMatchSignature, List.getLast?_singleton]
    simp [fixedArgsMatch, typeOk, LispForm.hasType]
  simp only [operate, h2, if_true, h1]; rfl

/-- A duration in place of `d`. -/
def StandsFor (c : DurComp) (d : Dur) : Prop := SameLength [c] d ∧ Dur.valid [c] = d.valid ∧ d ≠ []

theorem toMsFrom_acc (T : Rat) (cs : List DurComp) : ∀ acc, Dur.toMsFrom T acc cs = (Dur.toMsFrom T 0 cs).map (acc + ·) := by
  induction cs with
  | nil => intro acc; simp only [Dur.toMsFrom, Option.map_some]; congr 1; grind
  | cons c cs ih =>
    intro acc
    simp only [Dur.toMsFrom]
    cases c.toMs T with
    | none => rfl
    | some x =>
      simp only
      rw [ih (acc + x), ih (0 + x)]
      cases Dur.toMsFrom T 0 cs with
      | none => rfl
      | some y => simp only [Option.map_some]; congr 1; grind

theorem toMsFrom_append (T : Rat) (cs ds : List DurComp) : ∀ acc, Dur.toMsFrom T acc (cs ++ ds) = (Dur.toMsFrom T acc cs).bind fun x => Dur.toMsFrom T x ds := by
  induction cs with
  | nil => intro acc; simp [Dur.toMsFrom]
  | cons c cs ih =>
    intro acc
    simp only [List.cons_append, Dur.toMsFrom]
    cases c.toMs T with
    | none => rfl
    | some x => exact ih _

theorem sameLength_nested (cs : List DurComp) : SameLength [.nested cs] cs := by
  intro T
  simp only [Dur.toMs, Dur.toMsFrom, DurComp.toMs]
  cases Dur.toMsFrom T 0 cs with
  | none => rfl
  | some x => simp only; congr 1; grind

theorem sameLength_append {a b c d : Dur} (h : SameLength a b) (h' : SameLength c d) : SameLength (a ++ c) (b ++ d) := by
  intro T
  have h1 := h T
  have h2 := h' T
  simp only [Dur.toMs] at *
  rw [toMsFrom_append, toMsFrom_append, h1]
  cases Dur.toMsFrom T 0 b with
  | none => rfl
  | some x =>
    simp only [Option.bind_some]
    rw [toMsFrom_acc T c, toMsFrom_acc T d, h2]

theorem validList_append (a b : List DurComp) : Dur.validList (a ++ b) = (Dur.validList a && Dur.validList b) := by
  induction a with
  | nil => simp [Dur.validList]
  | cons c a ih => simp only [List.cons_append, Dur.validList, ih, Bool.and_assoc]

mutual
theorem duration_eval : ∀ (f : LispForm) (d : Dur), DurationForm f d → Large f → ∃ c, f.eval = .ok (.dur c) ∧ StandsFor c d
  | _, _, .number q hq, hl => by
    simp only [call, Large, LargeL] at hl
    refine ⟨.length q 0, ?_, fun _ => rfl, rfl, by simp⟩
    rw [eval_call (n := "note-length") (List.mem_of_getElem? (i := 2) rfl) (evalArgs_num _)]
    simp [operate, argumentsMatchSignature, fixedArgsMatch, typeOk, LispForm.hasType, positive_large hq hl.2.1, Except.map]
  | _, _, .text s q k h, hl => by
    refine ⟨.length q k, ?_, fun _ => rfl, rfl, by simp⟩
    rw [eval_call (n := "note-length") (List.mem_of_getElem? (i := 2) rfl) (evalArgs_one (v := .str s) (by simp only [LispForm.eval]))]
    simp [operate, argumentsMatchSignature, fixedArgsMatch, typeOk, LispForm.hasType, c28_grammar_accepted _ _ _ h, Except.map]
  | _, _, .ms q hq, hl => by
    simp only [call, Large, LargeL] at hl
    refine ⟨.ms q, ?_, fun _ => rfl, rfl, by simp⟩
    rw [eval_call (n := "ms") (List.mem_of_getElem? (i := 1) rfl) (evalArgs_num _)]
    simp [operate, argumentsMatchSignature, fixedArgsMatch, typeOk, LispForm.hasType, positive_large hq hl.2.1, Except.map]
  | _, _, .tied fs d hne h, hl => by
    simp only [call, Large, LargeL] at hl
    obtain ⟨cs, h1, h2, h3, h4⟩ := durations_eval fs d h hl.2
    refine ⟨.nested cs, ?_, ?_, ?_, h4 hne⟩
    · rw [eval_call (n := "duration") (List.mem_of_getElem? (i := 3) rfl) h1]
      exact operate_duration cs
    · intro T; rw [sameLength_nested cs T, h2 T]
    · simp only [Dur.valid, Dur.validList, DurComp.valid, Bool.and_true] at h3 ⊢; exact h3
theorem durations_eval : ∀ (fs : List LispForm) (d : Dur), DurationForms fs d → LargeL fs →
    ∃ cs : List DurComp, LispForm.evalArgs fs = .ok (cs.map .dur) ∧ SameLength cs d ∧ Dur.valid cs = d.valid ∧ (fs ≠ [] → d ≠ [])
  | _, _, .nil, _ => ⟨[], rfl, fun _ => rfl, rfl, fun h => absurd rfl h⟩
  | _, _, .cons f fs d ds h hs, hl => by
    simp only [LargeL] at hl
    obtain ⟨c, h1, h2, h3, h4⟩ := duration_eval f d h hl.1
    obtain ⟨cs, i1, i2, i3, _⟩ := durations_eval fs ds hs hl.2
    refine ⟨c :: cs, ?_, ?_, ?_, ?_⟩
    · simp only [LispForm.evalArgs, h1, i1, List.map_cons]
    · exact sameLength_append h2 i2
    · have := validList_append [c] cs
      simp only [Dur.valid] at h3 i3 ⊢
      rw [show c :: cs = [c] ++ cs from rfl, this, validList_append, h3, i3]
    · intro _ h0; exact h4 (List.append_eq_nil_iff.1 h0).1
end

/-- A leaf in place of another. -/
inductive StandsLeaf : Leaf → Leaf → Prop where
  | same (l : Leaf) : StandsLeaf l l
  | note (p : Pitch) (c : DurComp) (d : Dur) (b : Bool) : StandsFor c d → StandsLeaf (.note p [c] b) (.note p d b)
  | rest (c : DurComp) (d : Dur) : StandsFor c d → StandsLeaf (.rest [c]) (.rest d)

theorem note_eval {f : LispForm} {l : Leaf} (h : NoteForm f l) (hl : Large f) : ∃ u, f.eval = .ok (.update u) ∧ StandsLeaf u l := by
  induction h with
  | note f p hp =>
    refine ⟨.note p [] false, ?_, .same _⟩
    rw [eval_call (n := "note") (List.mem_of_getElem? (i := 6) rfl) (evalArgs_one (pitch_eval hp))]
    simp [operate, argumentsMatchSignature, fixedArgsMatch, typeOk, LispForm.hasType]
  | timed f g p d hp hd =>
    simp only [call, Large, LargeL] at hl
    obtain ⟨c, h1, h2⟩ := duration_eval g d hd hl.2.2.1
    refine ⟨.note p [c] false, ?_, .note _ _ _ _ h2⟩
    rw [eval_call (n := "note") (List.mem_of_getElem? (i := 6) rfl) (evalArgs_two (pitch_eval hp) h1)]
    simp [operate, argumentsMatchSignature, fixedArgsMatch, typeOk, LispForm.hasType]
  | slur f p d b _ ih =>
    simp only [call, Large, LargeL] at hl
    obtain ⟨u, h1, h2⟩ := ih hl.2.1
    have key : ∃ e, u = .note p e b ∧ StandsLeaf (.note p e true) (.note p d true) := by
      cases h2 with
      | same => exact ⟨d, rfl, .same _⟩
      | note _ c _ _ h => exact ⟨[c], rfl, .note _ _ _ _ h⟩
    obtain ⟨e, rfl, h3⟩ := key
    refine ⟨.note p e true, ?_, h3⟩
    rw [eval_call (n := "slur") (List.mem_of_getElem? (i := 8) rfl) (evalArgs_one h1)]
    simp [operate, argumentsMatchSignature, fixedArgsMatch, typeOk, LispForm.hasType]
  | pause =>
    refine ⟨.rest [], ?_, .same _⟩
    rw [eval_call (n := "pause") (List.mem_of_getElem? (i := 7) rfl) (args := []) (vs := []) rfl]
    simp [operate, argumentsMatchSignature]
  | pauseFor f d hd =>
    simp only [call, Large, LargeL] at hl
    obtain ⟨c, h1, h2⟩ := duration_eval f d hd hl.2.1
    refine ⟨.rest [c], ?_, .rest _ _ h2⟩
    rw [eval_call (n := "pause") (List.mem_of_getElem? (i := 7) rfl) (evalArgs_one h1)]
    simp [operate, argumentsMatchSignature, fixedArgsMatch, typeOk, LispForm.hasType]

/-! ### Notes with durations that are written differently -/

/-- The results are the same but for the durations that notes without one would have. -/
def Alike (o o' : Out) : Prop := o'.err = o.err ∧ SoundsAlike o.s o'.s

theorem Spec.SoundsAlike.refl (s : Score) : SoundsAlike s s := ⟨fun i => (s.heap i).dur, rfl, fun _ _ => rfl⟩

theorem soundsAlike_durs {s s' : Score} : SoundsAlike s s' ↔ ∃ f, s' = withDurs s f ∧ ∀ i, SameLength (f i) (s.heap i).dur := Iff.rfl

theorem Spec.SoundsAlike.set {s s' : Score} (h : SoundsAlike s s') (id : Nat) (p : Part) (d : Dur) (hd : SameLength d p.dur) :
    SoundsAlike (s.setPart id p) (s'.setPart id (p.lasting d)) := by
  obtain ⟨f, rfl, hf⟩ := soundsAlike_durs.1 h
  refine soundsAlike_durs.2 ⟨_, withDurs_setPart s f id p d, ?_⟩
  intro i
  simp only [Score.setPart]
  split
  · exact hd
  · exact hf i

theorem Spec.SoundsAlike.mod {s s' : Score} (h : SoundsAlike s s') (id : Nat) (g : Part → Part) (hg : ∀ p d, g (p.lasting d) = (g p).lasting d) (hd : ∀ p, (g p).dur = p.dur) :
    SoundsAlike (s.modPart id g) (s'.modPart id g) := by
  have h0 := h
  obtain ⟨f, rfl, hf⟩ := soundsAlike_durs.1 h
  have := h0.set id (g (s.heap id)) (f id) (by rw [hd]; exact hf id)
  rw [← hg] at this
  exact this

theorem Alike.andThen {o o' : Out} {k k' : Score → Out} (h : Alike o o') (hk : ∀ s s', SoundsAlike s s' → s = o.s → s' = o'.s → Alike (k s) (k' s')) :
    Alike (o.andThen k) (o'.andThen k') := by
  obtain ⟨e, s⟩ := o
  obtain ⟨e', s'⟩ := o'
  obtain ⟨h1, h2⟩ := h
  simp only at h1 h2
  subst h1
  cases e' with
  | none => exact hk s s' h2 rfl rfl
  | some e => exact ⟨rfl, h2⟩

theorem Alike.forIds {g g' : Nat → Score → Out} (hg : ∀ i s s', SoundsAlike s s' → Alike (g i s) (g' i s')) :
    ∀ (l : List Nat) (s s' : Score), SoundsAlike s s' → Alike (forIds g l s) (Alda.forIds g' l s') := by
  intro l
  induction l with
  | nil => intro s s' h; exact ⟨rfl, h⟩
  | cons i l ih =>
    intro s s' h
    exact (hg i s s' h).andThen (fun t t' h _ _ => ih t t' h)

theorem emit_alike (pi : Pitch) (ms a : Rat) (i : Nat) {s s' : Score} (h : SoundsAlike s s') : Alike (emitNote pi ms a i s) (emitNote pi ms a i s') := by
  have h0 := h
  obtain ⟨f, rfl, hf⟩ := soundsAlike_durs.1 h
  unfold emitNote
  simp only [heap_lasting]
  show Alike (if calculateMidiNote pi (s.heap i).octave (s.heap i).keySig (s.heap i).transposition < 0 ∨ _ then _ else _)
      (if calculateMidiNote pi (s.heap i).octave (s.heap i).keySig (s.heap i).transposition < 0 ∨
        calculateMidiNote pi (s.heap i).octave (s.heap i).keySig (s.heap i).transposition > 127 then _ else _)
  by_cases hm : calculateMidiNote pi (s.heap i).octave (s.heap i).keySig (s.heap i).transposition < 0 ∨
      calculateMidiNote pi (s.heap i).octave (s.heap i).keySig (s.heap i).transposition > 127
  · simp only [hm, if_true]; exact ⟨rfl, h0⟩
  · simp only [hm, if_false]
    unfold assignMidiChannel
    rw [determineMidiChannel_lasting]
    cases determineMidiChannel s (s.heap i) a with
    | error e => exact ⟨rfl, h0⟩
    | ok ch =>
      simp only
      by_cases hch : 0 ≤ ch ∧ ch < 16
      · simp only [if_pos hch]
        show Alike _ (Out.ok { (((recordUsage (withDurs s f) ch.toNat (s.heap i).origin).modPart i _).modPart (s.heap i).origin _) with events := _ })
        have hu : recordUsage (withDurs s f) ch.toNat (s.heap i).origin = withDurs (recordUsage s ch.toNat (s.heap i).origin) f := by
          unfold recordUsage
          rw [show (withDurs s f).usage = s.usage from rfl]
          split <;> rfl
        have hr : SoundsAlike (recordUsage s ch.toNat (s.heap i).origin) (recordUsage (withDurs s f) ch.toNat (s.heap i).origin) := by
          obtain ⟨e1, e2, e3⟩ := recordUsage_heap s ch.toNat (s.heap i).origin
          exact soundsAlike_durs.2 ⟨f, hu, by intro j; rw [e1]; exact hf j⟩
        have h1 := hr.mod i (fun p => { p with midiChannel := ch }) (fun _ _ => rfl) (fun _ => rfl)
        have h2 := h1.mod (s.heap i).origin (fun p => { p with midiChannel := ch }) (fun _ _ => rfl) (fun _ => rfl)
        obtain ⟨f2, e2, hf2⟩ := soundsAlike_durs.1 h2
        refine ⟨rfl, soundsAlike_durs.2 ⟨f2, ?_, hf2⟩⟩
        show ({ (((recordUsage (withDurs s f) ch.toNat (s.heap i).origin).modPart i _).modPart (s.heap i).origin _) with events := _ } : Score) = _
        have eo : ((s.heap i).lasting (f i)).origin = (s.heap i).origin := rfl
        rw [hu] at e2
        simp only [eo, hu]
        rw [e2]; rfl
      · simp only [if_neg hch]; exact ⟨rfl, h0⟩

theorem advance_alike (i : Nat) (ms : Rat) (d d' : Dur) {s s' : Score} (h : SoundsAlike s s') (hd : SameLength d' d) (hn : d' = [] ↔ d = []) :
    SoundsAlike (advancePart s i ms d) (advancePart s' i ms d') := by
  obtain ⟨f, rfl, hf⟩ := soundsAlike_durs.1 h
  cases d with
  | nil =>
    rw [hn.2 rfl]
    unfold advancePart
    rw [show (withDurs s f).chordMode = s.chordMode from rfl]
    apply h.mod
    · intro p d; cases s.chordMode <;> rfl
    · intro p; cases s.chordMode <;> rfl
  | cons c cs =>
    cases d' with
    | nil => simp at hn
    | cons c' cs' =>
      have := h.set i { (if s.chordMode then s.heap i else { s.heap i with lastOffset := (s.heap i).offset, offset := (s.heap i).offset + ms }) with dur := c :: cs } (c' :: cs') hd
      have e : (({ (if s.chordMode then s.heap i else { s.heap i with lastOffset := (s.heap i).offset, offset := (s.heap i).offset + ms }) with dur := c :: cs } : Part).lasting (c' :: cs')) =
          { (if s.chordMode then (withDurs s f).heap i else { (withDurs s f).heap i with lastOffset := ((withDurs s f).heap i).offset, offset := ((withDurs s f).heap i).offset + ms }) with dur := c' :: cs' } := by
        cases s.chordMode <;> rfl
      rw [e] at this
      exact this

theorem eff_alike {c : DurComp} {d : Dur} (h : StandsFor c d) (p q : Part) : SameLength (effectiveDuration [c] q) (effectiveDuration d p) ∧
    (effectiveDuration [c] q = [] ↔ effectiveDuration d p = []) := by
  obtain ⟨h1, _, h3⟩ := h
  rw [eff_cons h3, eff_cons (by simp)]
  exact ⟨h1, by simp [h3]⟩

theorem notePart_alike (pi : Pitch) {c : DurComp} {d : Dur} (hd : StandsFor c d) (sl : Bool) (i : Nat) {s s' : Score} (h : SoundsAlike s s') :
    Alike (notePart pi d sl i s) (notePart pi [c] sl i s') := by
  unfold notePart
  simp only
  have ht : (s'.heap i).tempo = (s.heap i).tempo ∧ (s'.heap i).timeScale = (s.heap i).timeScale ∧ (s'.heap i).quant = (s.heap i).quant := by
    obtain ⟨f, rfl, _⟩ := h; exact ⟨rfl, rfl, rfl⟩
  obtain ⟨h1, h2⟩ := eff_alike hd (s.heap i) (s'.heap i)
  rw [ht.1, ht.2.1, ht.2.2, h1 (s.heap i).tempo]
  cases (effectiveDuration d (s.heap i)).toMs (s.heap i).tempo with
  | none => exact ⟨rfl, h⟩
  | some ms =>
    simp only
    generalize (if sl = true then ms * (s.heap i).timeScale else ms * (s.heap i).timeScale * (s.heap i).quant) = a
    refine Alike.andThen ?_ (fun t t' ht _ _ => ⟨rfl, advance_alike i _ _ _ ht h1 h2⟩)
    split
    · exact emit_alike _ _ _ _ h
    · exact ⟨rfl, h⟩

theorem restPart_alike {c : DurComp} {d : Dur} (hd : StandsFor c d) (i : Nat) {s s' : Score} (h : SoundsAlike s s') :
    Alike (restPart d i s) (restPart [c] i s') := by
  unfold restPart
  simp only
  have ht : (s'.heap i).tempo = (s.heap i).tempo ∧ (s'.heap i).timeScale = (s.heap i).timeScale := by
    obtain ⟨f, rfl, _⟩ := h; exact ⟨rfl, rfl⟩
  obtain ⟨h1, h2⟩ := eff_alike hd (s.heap i) (s'.heap i)
  rw [ht.1, ht.2, h1 (s.heap i).tempo]
  cases (effectiveDuration d (s.heap i)).toMs (s.heap i).tempo with
  | none => exact ⟨rfl, h⟩
  | some ms => exact ⟨rfl, advance_alike i _ _ _ h h1 h2⟩

/-- A note in place of another does the same. -/
theorem stands_alike {l' l : Leaf} (h : StandsLeaf l' l) (s : Score) : Alike (leafUpd l s) (leafUpd l' s) := by
  cases h with
  | same => exact ⟨rfl, .refl _⟩
  | note p c d b h =>
    have hb : beforeNote [c] s = beforeNote d s := by unfold beforeNote; rw [h.2.1]
    simp only [leafUpd, noteUpd, hb]
    refine Alike.andThen ⟨rfl, .refl _⟩ (fun t t' ht e e' => ?_)
    rw [e', e]
    exact Alike.forIds (fun i s s' hs => notePart_alike p h b i hs) _ _ _ (.refl _)
  | rest c d h =>
    have hb : beforeNote [c] s = beforeNote d s := by unfold beforeNote; rw [h.2.1]
    simp only [leafUpd, restUpd, hb]
    refine Alike.andThen ⟨rfl, .refl _⟩ (fun t t' ht e e' => ?_)
    rw [e', e]
    exact Alike.forIds (fun i s s' hs => restPart_alike h i hs) _ _ _ (.refl _)

end Alda
