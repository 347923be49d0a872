import Verif.Lemmas.ImportSim
/-!
Notes, rests and chords on scores that differ in the default durations only.
-/
namespace Alda
open Spec

/-- What no event of an imported voice changes. -/
structure Framed (s t : Score) : Prop where
  cur : t.current = s.current
  glob : t.globals = s.globals
  key : ∀ i, (t.heap i).keySig = (s.heap i).keySig

theorem Framed.refl (s : Score) : Framed s s := ⟨rfl, rfl, fun _ => rfl⟩
theorem Framed.trans {s t u : Score} (a : Framed s t) (b : Framed t u) : Framed s u :=
  ⟨b.cur.trans a.cur, b.glob.trans a.glob, fun i => (b.key i).trans (a.key i)⟩

theorem Framed.andThen {s : Score} {o : Out} {k : Score → Out} (h : Framed s o.s) (hk : ∀ t, Framed s t → Framed t (k t).s) : Framed s (o.andThen k).s := by
  rcases o with ⟨e, t⟩
  cases e with
  | none => exact h.trans (hk t h)
  | some e => exact h

theorem Framed.forIds {g : Nat → Score → Out} (hg : ∀ i t, Framed t (g i t).s) : ∀ (l : List Nat) (s : Score), Framed s (forIds g l s).s := by
  intro l
  induction l with
  | nil => intro s; exact .refl s
  | cons i l ih => intro s; exact (hg i s).andThen (fun t _ => ih t)

theorem Framed.mod (s : Score) (i : Nat) (g : Part → Part) (hg : ∀ p, (g p).keySig = p.keySig) : Framed s (s.modPart i g) := by
  refine ⟨rfl, rfl, fun j => ?_⟩
  simp only [Score.modPart, Score.setPart]
  split
  · rename_i h; rw [h]; exact hg _
  · rfl

/-- What notes and rests leave alone besides. -/
structure Timed (s t : Score) : Prop extends Framed s t where
  mode : t.chordMode = s.chordMode
  tempo : ∀ i, (t.heap i).tempo = (s.heap i).tempo
  scale : ∀ i, (t.heap i).timeScale = (s.heap i).timeScale
  octave : ∀ i, (t.heap i).octave = (s.heap i).octave
  rep : ∀ i, (t.heap i).repetition = (s.heap i).repetition

theorem Timed.refl (s : Score) : Timed s s := ⟨.refl s, rfl, fun _ => rfl, fun _ => rfl, fun _ => rfl, fun _ => rfl⟩
theorem Timed.trans {s t u : Score} (a : Timed s t) (b : Timed t u) : Timed s u :=
  ⟨a.toFramed.trans b.toFramed, b.mode.trans a.mode, fun i => (b.tempo i).trans (a.tempo i), fun i => (b.scale i).trans (a.scale i), fun i => (b.octave i).trans (a.octave i),
   fun i => (b.rep i).trans (a.rep i)⟩

theorem Timed.andThen {s : Score} {o : Out} {k : Score → Out} (h : Timed s o.s) (hk : ∀ t, Timed s t → Timed t (k t).s) : Timed s (o.andThen k).s := by
  rcases o with ⟨e, t⟩
  cases e with
  | none => exact h.trans (hk t h)
  | some e => exact h

theorem Timed.forIds {g : Nat → Score → Out} {s0 : Score} (hg : ∀ i t, Timed s0 t → Timed t (g i t).s) : ∀ (l : List Nat) (s : Score), Timed s0 s → Timed s (forIds g l s).s := by
  intro l
  induction l with
  | nil => intro s _; exact .refl s
  | cons i l ih => intro s h; exact (hg i s h).andThen (fun t ht => ih t (h.trans ht))

theorem Timed.mod (s : Score) (i : Nat) (g : Part → Part) (hg : ∀ p, (g p).keySig = p.keySig ∧ (g p).tempo = p.tempo ∧ (g p).timeScale = p.timeScale ∧ (g p).octave = p.octave ∧
    (g p).repetition = p.repetition) : Timed s (s.modPart i g) := by
  refine ⟨.mod s i g (fun p => (hg p).1), rfl, fun j => ?_, fun j => ?_, fun j => ?_, fun j => ?_⟩ <;>
  · simp only [Score.modPart, Score.setPart]
    split
    · rename_i h; rw [h]
      first | exact (hg _).2.1 | exact (hg _).2.2.1 | exact (hg _).2.2.2.1 | exact (hg _).2.2.2.2
    · rfl

theorem applyGlobals_timed {s : Score} (h : NothingGlobal s) : Timed s (applyGlobals s).s := by
  refine Timed.forIds (s0 := s) ?_ _ s (.refl s)
  intro i t ht
  have hn : NothingGlobal t := by unfold NothingGlobal; rw [ht.glob]; exact h
  unfold applyGlobalsPart
  simp only [inWindow_none hn, applyUpdates]
  exact Timed.mod t i (fun p => { p with override := none }) (fun _ => ⟨rfl, rfl, rfl, rfl, rfl⟩)

theorem emit_timed (pi : Pitch) (ms a : Rat) (i : Nat) (s : Score) : Timed s (emitNote pi ms a i s).s := by
  unfold emitNote
  simp only
  split
  · exact .refl s
  · unfold assignMidiChannel
    split
    · exact .refl s
    · rename_i x y ch t heq
      have ht : Timed s t := by
        split at heq
        · cases heq
        · split at heq
          · injection heq with heq
            injection heq with _ heq
            subst heq
            unfold recordUsage
            split <;> exact ⟨⟨rfl, rfl, fun _ => rfl⟩, rfl, fun _ => rfl, fun _ => rfl, fun _ => rfl, fun _ => rfl⟩
          · cases heq
      have h1 := Timed.mod t i (fun p => { p with midiChannel := ch }) (fun _ => ⟨rfl, rfl, rfl, rfl, rfl⟩)
      have h2 := Timed.mod (t.modPart i (fun p => { p with midiChannel := ch })) (s.heap i).origin (fun p => { p with midiChannel := ch }) (fun _ => ⟨rfl, rfl, rfl, rfl, rfl⟩)
      have h3 := ht.trans (h1.trans h2)
      exact ⟨⟨h3.cur, h3.glob, h3.key⟩, h3.mode, h3.tempo, h3.scale, h3.octave, h3.rep⟩

theorem advance_timed (s : Score) (i : Nat) (ms : Rat) (d : Dur) : Timed s (advancePart s i ms d) := by
  unfold advancePart
  refine Timed.mod s i _ ?_
  intro p
  cases s.chordMode <;> cases d <;> exact ⟨rfl, rfl, rfl, rfl, rfl⟩

theorem notePart_timed (pi : Pitch) (d : Dur) (sl : Bool) (i : Nat) (s : Score) : Timed s (notePart pi d sl i s).s := by
  unfold notePart
  simp only
  split
  · exact .refl s
  · refine Timed.andThen ?_ (fun t _ => advance_timed t i _ _)
    rename_i ms _
    generalize (if sl = true then ms * (s.heap i).timeScale else ms * (s.heap i).timeScale * (s.heap i).quant) = a
    split
    · exact emit_timed _ _ _ _ _
    · exact .refl s

theorem restPart_timed (d : Dur) (i : Nat) (s : Score) : Timed s (restPart d i s).s := by
  unfold restPart
  simp only
  split
  · exact .refl s
  · exact advance_timed _ _ _ _

theorem beforeNote_timed (d : Dur) {s : Score} (h : NothingGlobal s) : Timed s (beforeNote d s).s := by
  unfold beforeNote
  refine Timed.andThen ?_ ?_
  · split
    · exact .refl s
    · exact applyGlobals_timed h
  · intro t _
    split <;> exact .refl t

theorem noteUpd_timed (pi : Pitch) (d : Dur) (sl : Bool) {s : Score} (h : NothingGlobal s) : Timed s (noteUpd pi d sl s).s :=
  (beforeNote_timed d h).andThen (fun t _ => Timed.forIds (s0 := t) (fun i u _ => notePart_timed pi d sl i u) _ t (.refl t))

theorem restUpd_timed (d : Dur) {s : Score} (h : NothingGlobal s) : Timed s (restUpd d s).s :=
  (beforeNote_timed d h).andThen (fun t _ => Timed.forIds (s0 := t) (fun i u _ => restPart_timed d i u) _ t (.refl t))

/-! ### Durations before and after a note -/

theorem applyGlobals_same {c : List Nat} {s s' : Score} (h : DurRel s s') (hc : s.current = c) :
    DurOut c (applyGlobals s) (applyGlobals s') ∧ ((applyGlobals s').err = none → SameDurs s' (applyGlobals s').s) := by
  unfold applyGlobals
  rw [h.current, hc]
  refine DurOut.forIds (SameDurs s') ?_ c s s' (fun _ h => h) h hc (fun _ => rfl)
  intro i _ t t' h hc hI
  have h0 := h
  obtain ⟨hg, f, rfl, hf⟩ := h
  unfold applyGlobalsPart
  simp only [inWindow_none hg, inWindow_none (s := withDurs t f) hg, applyUpdates]
  refine ⟨⟨rfl, h0.set i { t.heap i with override := none } (f i) (hf i), hc⟩, fun _ j => ?_⟩
  have : SameDurs (withDurs t f) _ := setPart_sameDurs (s := withDurs t f) (id := i) (p := { (withDurs t f).heap i with override := none }) rfl
  exact (this j).trans (hI j)

theorem beforeNote_rel {c : List Nat} (d d' : Dur) (hv : d'.valid = d.valid) {s s' : Score} (h : DurRel s s') (hc : s.current = c) :
    DurOut c (beforeNote d s) (beforeNote d' s') ∧ ((beforeNote d' s').err = none → SameDurs s' (beforeNote d' s').s ∧ d'.valid = true) := by
  unfold beforeNote
  rw [h.chordMode, hv]
  have h1 : DurOut c (if s.chordMode then .ok s else applyGlobals s) (if s.chordMode then .ok s' else applyGlobals s') ∧
      ((if s.chordMode then Out.ok s' else applyGlobals s').err = none → SameDurs s' (if s.chordMode then Out.ok s' else applyGlobals s').s) := by
    split
    · exact ⟨⟨rfl, h, hc⟩, fun _ _ => rfl⟩
    · exact applyGlobals_same h hc
  obtain ⟨a, b⟩ := h1
  constructor
  · refine a.andThen ?_
    intro t t' ht htc _ _ _
    split
    · exact ⟨rfl, ht, htc⟩
    · exact ⟨rfl, ht, htc⟩
  · intro he
    rcases ho : (if s.chordMode then Out.ok s' else applyGlobals s') with ⟨e, t'⟩
    rw [ho] at he b
    cases e with
    | some e => simp [Out.andThen] at he
    | none =>
      simp only [Out.andThen] at he ⊢
      cases hd : d.valid with
      | false => rw [hd] at he; simp [Out.fail] at he
      | true => simp only [if_true, and_true]; exact b rfl

/-- After a note or rest, the active parts have its duration. -/
def After (d : Dur) (c : List Nat) (s t : Score) : Prop := ∀ i ∈ c, (t.heap i).dur = effectiveDuration d (s.heap i)

theorem loop_rel {c : List Nat} {g g' : Nat → Score → Out} {d d' : Dur}
    (hg : ∀ i s s', DurRel s s' → s.current = c → SameLength (effectiveDuration d' (s'.heap i)) (effectiveDuration d (s.heap i)) →
      DurOut c (g i s) (g' i s') ∧ ((g' i s').err = none → DursSet s' (g' i s').s i (effectiveDuration d' (s'.heap i)))) :
    ∀ (l : List Nat) (s s' : Score), (∀ i ∈ l, i ∈ c) → DurRel s s' → s.current = c → Fits d d' c s' →
      DurOut c (forIds g l s) (forIds g' l s') ∧
        ((forIds g' l s').err = none → ∀ i, ((forIds g' l s').s.heap i).dur = if i ∈ l then effectiveDuration d' (s'.heap i) else (s'.heap i).dur) := by
  intro l
  induction l with
  | nil => intro s s' _ h hc hf; exact ⟨⟨rfl, h, hc⟩, fun _ i => by simp [forIds, Out.ok]⟩
  | cons i l ih =>
    intro s s' hl h hc hf
    obtain ⟨h1, h2⟩ := hg i s s' h hc (hf.length h (hl i (by simp)))
    have hl' : ∀ j ∈ l, j ∈ c := fun j hj => hl j (by simp [hj])
    simp only [forIds]
    constructor
    · refine h1.andThen ?_
      intro t t' ht htc he e e'
      subst e e'
      exact (ih _ _ hl' ht htc (hf.set (h2 (h1.err.trans he)))).1
    · intro he j
      rcases ho : g' i s' with ⟨err, t'⟩
      rw [ho] at he h2
      cases err with
      | some e => simp [Out.andThen] at he
      | none =>
        have hd := h2 rfl
        simp only at hd
        have := (ih (g i s).s t' hl' (by have := h1.rel; rw [ho] at this; exact this) h1.cur (hf.set hd)).2
        simp only [Out.andThen] at he ⊢
        rw [this he j]
        by_cases hj : j = i
        · subst hj
          simp only [List.mem_cons, true_or, if_true]
          rw [show (t'.heap j).dur = effectiveDuration d' (s'.heap j) from by rw [hd j, if_pos rfl]]
          split
          · cases d' with
            | nil => show (t'.heap j).dur = _; rw [hd j, if_pos rfl]
            | cons x xs => rfl
          · rfl
        · have hjd : (t'.heap j).dur = (s'.heap j).dur := by rw [hd j, if_neg hj]
          simp only [List.mem_cons, hj, false_or]
          rw [hjd]
          split
          · cases d' with
            | nil => exact hjd
            | cons x xs => rfl
          · rfl

theorem eff_same {d : Dur} {p q : Part} (h : q.dur = p.dur) : effectiveDuration d q = effectiveDuration d p := by
  cases d with
  | nil => exact h
  | cons c cs => rfl

theorem beforeLoop_rel {c : List Nat} {g g' : Nat → Score → Out} {d d' : Dur} (hv : d'.valid = d.valid)
    (hg : ∀ i s s', DurRel s s' → s.current = c → SameLength (effectiveDuration d' (s'.heap i)) (effectiveDuration d (s.heap i)) →
      DurOut c (g i s) (g' i s') ∧ ((g' i s').err = none → DursSet s' (g' i s').s i (effectiveDuration d' (s'.heap i))))
    {s s' : Score} (h : DurRel s s') (hc : s.current = c) (hf : Fits d d' c s') :
    DurOut c ((beforeNote d s).andThen fun s => forIds g s.current s) ((beforeNote d' s').andThen fun s => forIds g' s.current s) ∧
      (((beforeNote d' s').andThen fun s => forIds g' s.current s).err = none →
        After d' c s' ((beforeNote d' s').andThen fun s => forIds g' s.current s).s ∧ d'.valid = true) := by
  obtain ⟨a, b⟩ := beforeNote_rel d d' hv h hc
  constructor
  · refine a.andThen ?_
    intro t t' ht htc he e e'
    subst e e'
    have hb := (b (a.err.trans he)).1
    rw [ht.current, htc]
    exact (loop_rel hg c _ _ (fun _ h => h) ht htc (hf.of_dur hb)).1
  · intro he
    rcases ho : beforeNote d' s' with ⟨err, t'⟩
    rw [ho] at he b a
    cases err with
    | some e => simp [Out.andThen] at he
    | none =>
      obtain ⟨b1, b2⟩ := b rfl
      simp only [Out.andThen] at he ⊢
      refine ⟨?_, b2⟩
      have hcur : t'.current = c := a.rel.current.trans a.cur
      rw [hcur] at he ⊢
      intro i hi
      rw [(loop_rel hg c _ _ (fun _ h => h) a.rel a.cur (hf.of_dur b1)).2 he i, if_pos hi]
      exact eff_same (b1 i)

theorem noteUpd_rel {c : List Nat} (pi : Pitch) (d d' : Dur) (sl : Bool) (hv : d'.valid = d.valid) {s s' : Score} (h : DurRel s s') (hc : s.current = c) (hf : Fits d d' c s') :
    DurOut c (noteUpd pi d sl s) (noteUpd pi d' sl s') ∧ ((noteUpd pi d' sl s').err = none → After d' c s' (noteUpd pi d' sl s').s ∧ d'.valid = true) :=
  beforeLoop_rel hv (fun i _ _ h hc hd => notePart_rel pi d d' sl i h hc hd) h hc hf

theorem restUpd_rel {c : List Nat} (d d' : Dur) (hv : d'.valid = d.valid) {s s' : Score} (h : DurRel s s') (hc : s.current = c) (hf : Fits d d' c s') :
    DurOut c (restUpd d s) (restUpd d' s') ∧ ((restUpd d' s').err = none → After d' c s' (restUpd d' s').s ∧ d'.valid = true) :=
  beforeLoop_rel hv (fun i _ _ h hc hd => restPart_rel d d' i h hc hd) h hc hf

end Alda
