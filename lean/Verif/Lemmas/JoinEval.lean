import Verif.Lemmas.ImportSim
/-!
Updates that differ only in how their durations are written do the same to scores that differ only in that.
-/
namespace Alda

/-! ### Updates -/

/-- The durations say the same: both are given or left out, both are valid or not, and they last equally long at every tempo. -/
structure SameDur (d e : Dur) : Prop where
  nil : d = [] ↔ e = []
  valid : d.valid = e.valid
  ms : ∀ T, d.toMs T = e.toMs T

theorem SameDur.refl (d : Dur) : SameDur d d := ⟨Iff.rfl, rfl, fun _ => rfl⟩

theorem SameDur.trans {a b c : Dur} (h : SameDur a b) (k : SameDur b c) : SameDur a c :=
  ⟨h.nil.trans k.nil, h.valid.trans k.valid, fun T => (h.ms T).trans (k.ms T)⟩

/-- The same note, rest or attribute, up to the writing of its duration. -/
inductive AkinLeaf : Leaf → Leaf → Prop where
  | note (p : Pitch) {d e : Dur} (sl : Bool) (h : SameDur d e) : AkinLeaf (.note p d sl) (.note p e sl)
  | rest {d e : Dur} (h : SameDur d e) : AkinLeaf (.rest d) (.rest e)
  | attr (u : PartUpd) : AkinLeaf (.attr u) (.attr u)
  | globalAttr (u : PartUpd) : AkinLeaf (.globalAttr u) (.globalAttr u)

mutual
/-- The same update, up to the writing of durations. -/
def Akin : Upd → Upd → Prop
  | .leaf l, u => ∃ l', u = .leaf l' ∧ AkinLeaf l l'
  | .lisp es, u => u = .lisp es
  | .lispNil, u => u = .lispNil
  | .barline, u => u = .barline
  | .chord es, u => ∃ es', u = .chord es' ∧ AkinL es es'
  | .cram es d, u => ∃ es' d', u = .cram es' d' ∧ AkinL es es' ∧ SameDur d d'
  | .seq es, u => ∃ es', u = .seq es' ∧ AkinL es es'
  | .rep e n, u => ∃ e', u = .rep e' n ∧ Akin e e'
  | .onReps rs e, u => ∃ e', u = .onReps rs e' ∧ Akin e e'
  | .voice n, u => u = .voice n
  | .voiceEnd, u => u = .voiceEnd
  | .marker n, u => u = .marker n
  | .atMarker n, u => u = .atMarker n
  | .varDef n es, u => ∃ es', u = .varDef n es' ∧ AkinL es es'
  | .varRef n, u => u = .varRef n
  | .partDecl ns a, u => u = .partDecl ns a
/-- The same updates, up to the writing of durations. -/
def AkinL : List Upd → List Upd → Prop
  | [], us => us = []
  | e :: es, us => ∃ e' es', us = e' :: es' ∧ Akin e e' ∧ AkinL es es'
end

theorem AkinLeaf.refl (l : Leaf) : AkinLeaf l l := by
  cases l
  · exact .note _ _ (.refl _)
  · exact .rest (.refl _)
  · exact .attr _
  · exact .globalAttr _

mutual
theorem Akin.refl : ∀ (u : Upd), Akin u u
  | .leaf l => by simp only [Akin]; exact ⟨l, rfl, .refl l⟩
  | .chord es => by simp only [Akin]; exact ⟨es, rfl, AkinL.refl es⟩
  | .cram es d => by simp only [Akin]; exact ⟨es, d, rfl, AkinL.refl es, .refl d⟩
  | .seq es => by simp only [Akin]; exact ⟨es, rfl, AkinL.refl es⟩
  | .rep e n => by simp only [Akin]; exact ⟨e, rfl, Akin.refl e⟩
  | .onReps rs e => by simp only [Akin]; exact ⟨e, rfl, Akin.refl e⟩
  | .varDef n es => by simp only [Akin]; exact ⟨es, rfl, AkinL.refl es⟩
  | .lisp _ | .lispNil | .barline | .voice _ | .voiceEnd | .marker _ | .atMarker _ | .varRef _ | .partDecl _ _ => by simp only [Akin]
theorem AkinL.refl : ∀ (us : List Upd), AkinL us us
  | [] => by simp only [AkinL]
  | e :: es => by simp only [AkinL]; exact ⟨e, es, rfl, Akin.refl e, AkinL.refl es⟩
end

theorem AkinLeaf.trans {a b c : Leaf} (h : AkinLeaf a b) (k : AkinLeaf b c) : AkinLeaf a c := by
  cases h with
  | note p sl h => cases k with | note _ _ k => exact .note p sl (h.trans k)
  | rest h => cases k with | rest k => exact .rest (h.trans k)
  | attr u => exact k
  | globalAttr u => exact k

mutual
theorem Akin.trans : ∀ (a : Upd) {b c : Upd}, Akin a b → Akin b c → Akin a c
  | .leaf l, b, c, h, k => by
    simp only [Akin] at h; obtain ⟨l', rfl, h⟩ := h; simp only [Akin] at k ⊢; obtain ⟨l'', rfl, k⟩ := k; exact ⟨l'', rfl, h.trans k⟩
  | .chord es, b, c, h, k => by
    simp only [Akin] at h; obtain ⟨l', rfl, h⟩ := h; simp only [Akin] at k ⊢; obtain ⟨l'', rfl, k⟩ := k; exact ⟨l'', rfl, AkinL.trans es h k⟩
  | .seq es, b, c, h, k => by
    simp only [Akin] at h; obtain ⟨l', rfl, h⟩ := h; simp only [Akin] at k ⊢; obtain ⟨l'', rfl, k⟩ := k; exact ⟨l'', rfl, AkinL.trans es h k⟩
  | .varDef n es, b, c, h, k => by
    simp only [Akin] at h; obtain ⟨l', rfl, h⟩ := h; simp only [Akin] at k ⊢; obtain ⟨l'', rfl, k⟩ := k; exact ⟨l'', rfl, AkinL.trans es h k⟩
  | .cram es d, b, c, h, k => by
    simp only [Akin] at h; obtain ⟨l', d', rfl, h, hd⟩ := h; simp only [Akin] at k ⊢; obtain ⟨l'', d'', rfl, k, kd⟩ := k
    exact ⟨l'', d'', rfl, AkinL.trans es h k, hd.trans kd⟩
  | .rep e n, b, c, h, k => by
    simp only [Akin] at h; obtain ⟨l', rfl, h⟩ := h; simp only [Akin] at k ⊢; obtain ⟨l'', rfl, k⟩ := k; exact ⟨l'', rfl, Akin.trans e h k⟩
  | .onReps rs e, b, c, h, k => by
    simp only [Akin] at h; obtain ⟨l', rfl, h⟩ := h; simp only [Akin] at k ⊢; obtain ⟨l'', rfl, k⟩ := k; exact ⟨l'', rfl, Akin.trans e h k⟩
  | .lisp _, b, c, h, k | .lispNil, b, c, h, k | .barline, b, c, h, k | .voice _, b, c, h, k | .voiceEnd, b, c, h, k | .marker _, b, c, h, k
  | .atMarker _, b, c, h, k | .varRef _, b, c, h, k | .partDecl _ _, b, c, h, k => by simp only [Akin] at h; subst h; exact k
theorem AkinL.trans : ∀ (a : List Upd) {b c : List Upd}, AkinL a b → AkinL b c → AkinL a c
  | [], b, c, h, k => by simp only [AkinL] at h; subst h; exact k
  | e :: es, b, c, h, k => by
    simp only [AkinL] at h; obtain ⟨e', es', rfl, h1, h2⟩ := h
    simp only [AkinL] at k ⊢; obtain ⟨e'', es'', rfl, k1, k2⟩ := k
    exact ⟨e'', es'', rfl, Akin.trans e h1 k1, AkinL.trans es h2 k2⟩
end

theorem AkinL.append : ∀ {a b c d : List Upd}, AkinL a c → AkinL b d → AkinL (a ++ b) (c ++ d) := by
  intro a
  induction a with
  | nil => intro b c d h k; simp only [AkinL] at h; subst h; exact k
  | cons e es ih =>
    intro b c d h k
    simp only [AkinL] at h; obtain ⟨e', es', rfl, h1, h2⟩ := h
    simp only [List.cons_append, AkinL]
    exact ⟨e', es' ++ d, rfl, h1, ih h2 k⟩

/-- The same value of a variable. -/
def AkinO : Option (List Upd) → Option (List Upd) → Prop
  | none, o => o = none
  | some es, o => ∃ es', o = some es' ∧ AkinL es es'

theorem AkinO.refl (o : Option (List Upd)) : AkinO o o := by cases o <;> simp only [AkinO]; exact ⟨_, rfl, .refl _⟩

theorem AkinO.trans {a b c : Option (List Upd)} (h : AkinO a b) (k : AkinO b c) : AkinO a c := by
  cases a with
  | none => simp only [AkinO] at h; subst h; exact k
  | some es =>
    simp only [AkinO] at h; obtain ⟨es', rfl, h⟩ := h
    simp only [AkinO] at k ⊢; obtain ⟨es'', rfl, k⟩ := k
    exact ⟨es'', rfl, AkinL.trans es h k⟩

/-! ### Scores -/

/-- A score with other default durations, variables and events. -/
def vary (s : Score) (f : Nat → Dur) (v : String → Option (List Upd)) (es : List NoteEvent) : Score :=
  { s with heap := fun i => { s.heap i with dur := f i }, vars := v, events := es }

/-- The scores differ in the writing of durations and in the order of the events only. -/
def Twin (s s' : Score) : Prop :=
  ∃ f v es, s' = vary s f v es ∧ (∀ i, SameDur (s.heap i).dur (f i)) ∧ (∀ n, AkinO (s.vars n) (v n)) ∧ es.Perm s.events

/-- The same for results. -/
structure TwinO (o o' : Out) : Prop where
  err : o'.err = o.err
  twin : Twin o.s o'.s

/-- The same for parts. -/
def TwinP (p p' : Part) : Prop := ∃ d, p' = p.lasting d ∧ SameDur p.dur d

theorem TwinP.refl (p : Part) : TwinP p p := ⟨p.dur, rfl, .refl _⟩

theorem Twin.refl (s : Score) : Twin s s := ⟨fun i => (s.heap i).dur, s.vars, s.events, rfl, fun _ => .refl _, fun _ => .refl _, .refl _⟩

theorem Twin.trans {a b c : Score} (h : Twin a b) (k : Twin b c) : Twin a c := by
  obtain ⟨f, v, es, rfl, h1, h2, h3⟩ := h
  obtain ⟨g, w, fs, rfl, k1, k2, k3⟩ := k
  exact ⟨g, w, fs, rfl, fun i => (h1 i).trans (k1 i), fun n => (h2 n).trans (k2 n), k3.trans h3⟩

theorem Twin.events {s s' : Score} (h : Twin s s') {es : List NoteEvent} (p : es.Perm s.events) : Twin { s with events := es } s' := by
  obtain ⟨f, v, fs, rfl, h1, h2, h3⟩ := h
  exact ⟨f, v, fs, rfl, h1, h2, h3.trans p.symm⟩

theorem TwinO.ok {s s' : Score} (h : Twin s s') : TwinO (.ok s) (.ok s') := ⟨rfl, h⟩
theorem TwinO.fail {s s' : Score} (h : Twin s s') (e : Err) : TwinO (.fail e s) (.fail e s') := ⟨rfl, h⟩

theorem TwinO.andThen {o o' : Out} {k k' : Score → Out} (h : TwinO o o') (hk : ∀ s s', Twin s s' → TwinO (k s) (k' s')) :
    TwinO (o.andThen k) (o'.andThen k') := by
  obtain ⟨e, s⟩ := o
  obtain ⟨e', s'⟩ := o'
  obtain ⟨h1, h2⟩ := h
  simp only at h1 h2
  subst h1
  cases e' with
  | none => exact hk s s' h2
  | some e => exact ⟨rfl, h2⟩

theorem TwinO.forIds {g g' : Nat → Score → Out} (hg : ∀ i s s', Twin s s' → TwinO (g i s) (g' i s')) :
    ∀ (l : List Nat) (s s' : Score), Twin s s' → TwinO (forIds g l s) (Alda.forIds g' l s') := by
  intro l
  induction l with
  | nil => intro s s' h; exact .ok h
  | cons i l ih => intro s s' h; exact (hg i s s' h).andThen ih

theorem Twin.current {s s' : Score} (h : Twin s s') : s'.current = s.current := by obtain ⟨f, v, es, rfl, _⟩ := h; rfl
theorem Twin.chord {s s' : Score} (h : Twin s s') : s'.chordMode = s.chordMode := by obtain ⟨f, v, es, rfl, _⟩ := h; rfl

theorem Twin.part {s s' : Score} (h : Twin s s') (i : Nat) : TwinP (s.heap i) (s'.heap i) := by
  obtain ⟨f, v, es, rfl, h, _⟩ := h; exact ⟨f i, rfl, h i⟩

theorem TwinO.forCurrent {g g' : Nat → Score → Out} (hg : ∀ i s s', Twin s s' → TwinO (g i s) (g' i s')) {s s' : Score} (h : Twin s s') :
    TwinO (Alda.forIds g s.current s) (Alda.forIds g' s'.current s') := by
  rw [h.current]; exact TwinO.forIds hg _ _ _ h

theorem vary_setPart (s : Score) (f : Nat → Dur) (v : String → Option (List Upd)) (es : List NoteEvent) (id : Nat) (p : Part) (d : Dur) :
    (vary s f v es).setPart id (p.lasting d) = vary (s.setPart id p) (fun i => if i = id then d else f i) v es := by
  simp only [vary, Score.setPart]
  congr 1
  funext i
  by_cases h : i = id
  · simp [h, Part.lasting]
  · simp [h]

/-- Writing parts that are twins. -/
theorem Twin.set {s s' : Score} (h : Twin s s') (id : Nat) {p p' : Part} (hp : TwinP p p') : Twin (s.setPart id p) (s'.setPart id p') := by
  obtain ⟨f, v, es, rfl, h1, h2, h3⟩ := h
  obtain ⟨d, rfl, hd⟩ := hp
  refine ⟨_, v, es, vary_setPart s f v es id p d, ?_, h2, h3⟩
  intro i
  simp only [Score.setPart]
  by_cases h : i = id
  · simp only [if_pos h]; exact hd
  · simp only [if_neg h]; exact h1 i

theorem Twin.mod {s s' : Score} (h : Twin s s') (id : Nat) {g g' : Part → Part} (hg : ∀ p p', TwinP p p' → TwinP (g p) (g' p')) :
    Twin (s.modPart id g) (s'.modPart id g') := h.set id (hg _ _ (h.part id))

theorem Twin.alloc {s s' : Score} (h : Twin s s') {p p' : Part} (hp : TwinP p p') : (s'.alloc p').1 = (s.alloc p).1 ∧ Twin (s.alloc p).2 (s'.alloc p').2 := by
  have e : s'.next = s.next := by obtain ⟨f, v, es, rfl, _⟩ := h; rfl
  refine ⟨e, ?_⟩
  have := h.set s.next hp
  simp only [Score.alloc]
  rw [e]
  obtain ⟨f, v, es, e2, h1, h2, h3⟩ := this
  exact ⟨f, v, es, by rw [e2]; rfl, h1, h2, h3⟩

/-! ### Attributes -/

theorem TwinP.mod {p p' : Part} (h : TwinP p p') (g : Part → Part) (hg : ∀ p d, g (p.lasting d) = (g p).lasting d) (hd : ∀ p, (g p).dur = p.dur) :
    TwinP (g p) (g p') := by
  obtain ⟨d, rfl, h⟩ := h
  exact ⟨d, hg p d, by rw [hd]; exact h⟩

/-- The results of updating a part. -/
inductive TwinE : Except Err Part → Except Err Part → Prop where
  | error (e : Err) : TwinE (.error e) (.error e)
  | ok {p p' : Part} (h : TwinP p p') : TwinE (.ok p) (.ok p')

theorem updatePart_twin (u : PartUpd) (g : Bool) {p p' : Part} (h : TwinP p p') : TwinE (updatePart u g p) (updatePart u g p') := by
  by_cases hu : u.kind = .duration
  · cases u <;> simp only [PartUpd.kind] at hu <;> try (exact absurd hu (by decide))
    rename_i d
    obtain ⟨e, rfl, h⟩ := h
    exact .ok ⟨d, rfl, .refl d⟩
  · obtain ⟨d, rfl, h⟩ := h
    rw [updatePart_lasting u hu]
    cases hq : updatePart u g p with
    | error e => exact .error e
    | ok q => exact .ok ⟨d, rfl, by rw [updatePart_dur hu hq]; exact h⟩

theorem attrPart_twin (u : PartUpd) (i : Nat) (s s' : Score) (h : Twin s s') : TwinO (attrPart u i s) (attrPart u i s') := by
  unfold attrPart
  have := updatePart_twin u false (h.part i)
  revert this
  generalize updatePart u false (s.heap i) = a, updatePart u false (s'.heap i) = b
  intro this
  cases this with
  | error e => exact .fail h e
  | ok hp => exact .ok (h.set i (hp.mod (fun p => { p with override := some u }) (fun _ _ => rfl) (fun _ => rfl)))

theorem attrUpd_twin (u : PartUpd) {s s' : Score} (h : Twin s s') : TwinO (attrUpd u s) (attrUpd u s') := TwinO.forCurrent (attrPart_twin u) h

theorem applyUpdates_twin (us : List PartUpd) : ∀ {p p' : Part}, TwinP p p' →
    (applyUpdates us p').1 = (applyUpdates us p).1 ∧ TwinP (applyUpdates us p).2 (applyUpdates us p').2 := by
  induction us with
  | nil => intro p p' h; exact ⟨rfl, h⟩
  | cons u us ih =>
    intro p p' h
    have ho : p'.override = p.override := by obtain ⟨d, rfl, _⟩ := h; rfl
    simp only [applyUpdates, ho]
    by_cases hk : p.override.map PartUpd.kind = some u.kind
    · rw [if_pos hk, if_pos hk]; exact ih h
    · rw [if_neg hk, if_neg hk]
      have := updatePart_twin u true h
      revert this
      generalize updatePart u true p = a, updatePart u true p' = b
      intro this
      cases this with
      | error e => exact ⟨rfl, h⟩
      | ok hp => exact ih hp

theorem applyGlobals_twin {s s' : Score} (h : Twin s s') : TwinO (applyGlobals s) (applyGlobals s') := by
  refine TwinO.forCurrent ?_ h
  intro i s s' h
  unfold applyGlobalsPart
  have hw : s'.globals.inWindow (s'.heap i).lastOffset (s'.heap i).offset = s.globals.inWindow (s.heap i).lastOffset (s.heap i).offset := by
    obtain ⟨f, v, es, rfl, _⟩ := h; rfl
  simp only [hw]
  have := applyUpdates_twin (s.globals.inWindow (s.heap i).lastOffset (s.heap i).offset) (h.part i)
  revert this
  generalize applyUpdates _ (s.heap i) = a, applyUpdates _ (s'.heap i) = b
  obtain ⟨a1, a2⟩ := a
  obtain ⟨b1, b2⟩ := b
  rintro ⟨e, hp⟩
  simp only at e hp
  subst e
  cases b1 with
  | some e => exact .fail (h.set i hp) e
  | none => exact .ok (h.set i (hp.mod (fun p => { p with override := none }) (fun _ _ => rfl) (fun _ => rfl)))

theorem commonOffset_twin {s s' : Score} (h : Twin s s') : ∀ l, commonOffset s' l = commonOffset s l := by
  obtain ⟨f, v, es, rfl, _⟩ := h
  intro l; cases l <;> rfl

theorem globalAttrUpd_twin (u : PartUpd) {s s' : Score} (h : Twin s s') : TwinO (globalAttrUpd u s) (globalAttrUpd u s') := by
  have hg : ∀ o, Twin { s with globals := s.globals.record o u } { s' with globals := s'.globals.record o u } := by
    intro o
    obtain ⟨f, v, es, rfl, h1, h2, h3⟩ := h
    exact ⟨f, v, es, rfl, h1, h2, h3⟩
  unfold globalAttrUpd
  rw [h.current]
  split
  · have := hg 0; rw [h.current] at this; exact .ok this
  · rw [commonOffset_twin h]
    split
    · rename_i o _; have := hg o; rw [h.current] at this; exact .ok this
    · exact .fail h _

/-! ### Notes -/

theorem simpleCheckFrom_vary (s : Score) (f : Nat → Dur) (v : String → Option (List Upd)) (es : List NoteEvent) (p : Part) (d : Dur) :
    ∀ l, simpleCheckFrom (vary s f v es) (p.lasting d) l = simpleCheckFrom s p l := by
  intro l
  induction l with
  | nil => rfl
  | cons c l ih => simp only [simpleCheckFrom, ih]; rfl

theorem any_perm {α : Type} {l l' : List α} (h : l.Perm l') (p : α → Bool) : l.any p = l'.any p := by
  rw [Bool.eq_iff_iff, List.any_eq_true, List.any_eq_true]
  constructor
  · rintro ⟨x, hx, hp⟩; exact ⟨x, h.mem_iff.mp hx, hp⟩
  · rintro ⟨x, hx, hp⟩; exact ⟨x, h.mem_iff.mpr hx, hp⟩

theorem channelUnavailable_vary (s : Score) (f : Nat → Dur) (v : String → Option (List Upd)) {es : List NoteEvent} (he : es.Perm s.events) (p : Part) (d : Dur)
    (a : Rat) (ch : Int) : channelUnavailable (vary s f v es) (p.lasting d) a ch = channelUnavailable s p a ch :=
  any_perm he _

theorem complexCheckFrom_vary (s : Score) (f : Nat → Dur) (v : String → Option (List Upd)) {es : List NoteEvent} (he : es.Perm s.events) (p : Part) (d : Dur)
    (a : Rat) : ∀ l, complexCheckFrom (vary s f v es) (p.lasting d) a l = complexCheckFrom s p a l := by
  intro l
  induction l with
  | nil => rfl
  | cons c l ih => simp only [complexCheckFrom, ih, channelUnavailable_vary s f v he]

theorem determineMidiChannel_twin {s s' : Score} (h : Twin s s') {p p' : Part} (hp : TwinP p p') (a : Rat) :
    determineMidiChannel s' p' a = determineMidiChannel s p a := by
  obtain ⟨f, v, es, rfl, h1, h2, h3⟩ := h
  obtain ⟨d, rfl, hd⟩ := hp
  unfold determineMidiChannel availableMidiChannel simpleCheck complexCheck
  rw [simpleCheckFrom_vary, complexCheckFrom_vary s f v h3]
  simp only [channelUnavailable_vary s f v h3]
  rfl

theorem recordUsage_twin {s s' : Score} (h : Twin s s') (ch o : Nat) : Twin (recordUsage s ch o) (recordUsage s' ch o) := by
  obtain ⟨f, v, es, rfl, h1, h2, h3⟩ := h
  unfold recordUsage
  rw [show (vary s f v es).usage = s.usage from rfl]
  split
  · exact ⟨f, v, es, rfl, h1, h2, h3⟩
  · exact ⟨f, v, es, rfl, h1, h2, h3⟩

theorem emitNote_twin (pi : Pitch) (ms a : Rat) (i : Nat) {s s' : Score} (h : Twin s s') : TwinO (emitNote pi ms a i s) (emitNote pi ms a i s') := by
  have hp := h.part i
  unfold emitNote
  simp only
  generalize s.heap i = p at *
  generalize s'.heap i = p' at *
  have e1 : calculateMidiNote pi p'.octave p'.keySig p'.transposition = calculateMidiNote pi p.octave p.keySig p.transposition := by
    obtain ⟨d, rfl, _⟩ := hp; rfl
  have eo : p'.origin = p.origin := by obtain ⟨d, rfl, _⟩ := hp; rfl
  have e2 : p'.offset = p.offset ∧ p'.volume = p.volume ∧ p'.trackVolume = p.trackVolume ∧ p'.panning = p.panning := by
    obtain ⟨d, rfl, _⟩ := hp; exact ⟨rfl, rfl, rfl, rfl⟩
  rw [e1]
  unfold assignMidiChannel
  rw [determineMidiChannel_twin h hp, eo, e2.1, e2.2.1, e2.2.2.1, e2.2.2.2]
  split
  · exact .fail h _
  · cases determineMidiChannel s p a with
    | error e => exact .fail h e
    | ok ch =>
      simp only
      by_cases hch : 0 ≤ ch ∧ ch < 16
      · simp only [if_pos hch]
        have hm : ∀ (t t' : Score) (j : Nat), Twin t t' → Twin (t.modPart j (fun p => { p with midiChannel := ch })) (t'.modPart j (fun p => { p with midiChannel := ch })) :=
          fun t t' j ht => ht.mod j (fun p p' hp => hp.mod (fun p => { p with midiChannel := ch }) (fun _ _ => rfl) (fun _ => rfl))
        have h2 := hm _ _ p.origin (hm _ _ i (recordUsage_twin h ch.toNat p.origin))
        revert h2
        generalize ((recordUsage s ch.toNat p.origin).modPart i _).modPart _ _ = t, ((recordUsage s' ch.toNat p.origin).modPart i _).modPart _ _ = t'
        intro h2
        obtain ⟨f, v, es, rfl, k1, k2, k3⟩ := h2
        exact .ok ⟨f, v, _, rfl, k1, k2, k3.append_right _⟩
      · simp only [if_neg hch]; exact .fail h _

theorem effectiveDuration_twin {d d' : Dur} (hd : SameDur d d') {p p' : Part} (hp : TwinP p p') : SameDur (effectiveDuration d p) (effectiveDuration d' p') := by
  obtain ⟨e, rfl, he⟩ := hp
  cases d with
  | nil => rw [hd.nil.mp rfl]; exact he
  | cons c cs =>
    cases d' with
    | nil => have := hd.nil.mpr rfl; simp at this
    | cons c' cs' => exact hd

theorem updateDefaultDuration_twin {d d' : Dur} (hd : SameDur d d') {p p' : Part} (hp : TwinP p p') : TwinP (updateDefaultDuration p d) (updateDefaultDuration p' d') := by
  cases d with
  | nil => rw [hd.nil.mp rfl]; exact hp
  | cons c cs =>
    cases d' with
    | nil => have := hd.nil.mpr rfl; simp at this
    | cons c' cs' => obtain ⟨e, rfl, he⟩ := hp; exact ⟨c' :: cs', rfl, hd⟩

theorem advancePart_twin (i : Nat) (ms : Rat) {d d' : Dur} (hd : SameDur d d') {s s' : Score} (h : Twin s s') :
    Twin (advancePart s i ms d) (advancePart s' i ms d') := by
  unfold advancePart
  rw [h.chord]
  refine h.mod i ?_
  intro p p' hp
  refine updateDefaultDuration_twin hd ?_
  split
  · exact hp
  · exact hp.mod (fun p => { p with lastOffset := p.offset, offset := p.offset + ms }) (fun _ _ => rfl) (fun _ => rfl)

theorem notePart_twin (pi : Pitch) {d d' : Dur} (hd : SameDur d d') (sl : Bool) (i : Nat) (s s' : Score) (h : Twin s s') :
    TwinO (notePart pi d sl i s) (notePart pi d' sl i s') := by
  have hp := h.part i
  have he := effectiveDuration_twin hd hp
  unfold notePart
  simp only
  generalize s.heap i = p at *
  generalize s'.heap i = p' at *
  have e2 : p'.tempo = p.tempo ∧ p'.timeScale = p.timeScale ∧ p'.quant = p.quant := by obtain ⟨d, rfl, _⟩ := hp; exact ⟨rfl, rfl, rfl⟩
  rw [e2.1, e2.2.1, e2.2.2, ← he.ms]
  split
  · exact .fail h _
  · refine TwinO.andThen ?_ (fun s s' h => .ok (advancePart_twin i _ he h))
    split
    · split
      · exact emitNote_twin _ _ _ _ h
      · exact .ok h
    · split
      · exact emitNote_twin _ _ _ _ h
      · exact .ok h

theorem restPart_twin {d d' : Dur} (hd : SameDur d d') (i : Nat) (s s' : Score) (h : Twin s s') : TwinO (restPart d i s) (restPart d' i s') := by
  have hp := h.part i
  have he := effectiveDuration_twin hd hp
  unfold restPart
  simp only
  generalize s.heap i = p at *
  generalize s'.heap i = p' at *
  have e2 : p'.tempo = p.tempo ∧ p'.timeScale = p.timeScale := by obtain ⟨d, rfl, _⟩ := hp; exact ⟨rfl, rfl⟩
  rw [e2.1, e2.2, ← he.ms]
  split
  · exact .fail h _
  · exact .ok (advancePart_twin i _ he h)

theorem beforeNote_twin {d d' : Dur} (hd : SameDur d d') {s s' : Score} (h : Twin s s') : TwinO (beforeNote d s) (beforeNote d' s') := by
  unfold beforeNote
  rw [h.chord, ← hd.valid]
  refine TwinO.andThen ?_ ?_
  · split
    · exact .ok h
    · exact applyGlobals_twin h
  · intro s s' h
    split
    · exact .ok h
    · exact .fail h _

theorem leafUpd_twin {l l' : Leaf} (hl : AkinLeaf l l') {s s' : Score} (h : Twin s s') : TwinO (leafUpd l s) (leafUpd l' s') := by
  cases hl with
  | note p sl hd => simp only [leafUpd, noteUpd]; exact (beforeNote_twin hd h).andThen (fun s s' h => TwinO.forCurrent (notePart_twin p hd sl) h)
  | rest hd => simp only [leafUpd, restUpd]; exact (beforeNote_twin hd h).andThen (fun s s' h => TwinO.forCurrent (restPart_twin hd) h)
  | attr u => exact attrUpd_twin u h
  | globalAttr u => exact globalAttrUpd_twin u h

/-! ### Voices -/

theorem Twin.vheap {s s' : Score} (h : Twin s s') : s'.vheap = s.vheap := by obtain ⟨f, v, es, rfl, _⟩ := h; rfl

/-- What a score says apart from durations, variables and events. -/
theorem TwinP.fields {p p' : Part} (h : TwinP p p') : p'.voices = p.voices ∧ p'.template = p.template ∧ p'.origin = p.origin ∧ p'.offset = p.offset ∧
    p'.name = p.name ∧ p'.instr = p.instr ∧ p'.repetition = p.repetition ∧ p'.timeScale = p.timeScale ∧ p'.tempo = p.tempo := by
  obtain ⟨d, rfl, _⟩ := h; exact ⟨rfl, rfl, rfl, rfl, rfl, rfl, rfl, rfl, rfl⟩

theorem clone_twin {p p' : Part} (h : TwinP p p') : TwinP p.clone p'.clone := h.mod Part.clone (fun _ _ => rfl) (fun _ => rfl)

theorem ensureTemplate_twin (i : Nat) {s s' : Score} (h : Twin s s') : TwinO (ensureTemplate i s) (ensureTemplate i s') := by
  have hp := h.part i
  unfold ensureTemplate
  simp only [hp.fields.1, hp.fields.2.1, h.vheap]
  split
  · exact .ok h
  · split
    · exact .fail h _
    · have hn : s'.next = s.next := by obtain ⟨f, v, es, rfl, _⟩ := h; rfl
      have := h.alloc (hp.mod (fun p => { p.clone with template := some s.next }) (fun _ _ => rfl) (fun _ => rfl))
      simp only [hn]
      rw [this.1]
      exact .ok (this.2.mod i (fun p p' hp => hp.mod (fun p => { p with template := some _ }) (fun _ _ => rfl) (fun _ => rfl)))

theorem addVoice_twin (i : Nat) (n : Int) {s s' : Score} (h : Twin s s') :
    TwinO (addVoice i n s).1 (addVoice i n s').1 ∧ (addVoice i n s').2 = (addVoice i n s).2 := by
  have hp := h.part i
  unfold addVoice
  simp only [hp.fields.1, hp.fields.2.1]
  split
  · exact ⟨.fail h _, rfl⟩
  · rename_i t _
    have := h.alloc (clone_twin (h.part t))
    revert this
    generalize s.alloc _ = x, s'.alloc _ = y
    obtain ⟨x1, x2⟩ := x
    obtain ⟨y1, y2⟩ := y
    rintro ⟨e, h2⟩
    simp only at e h2
    subst e
    obtain ⟨f, v, es, rfl, k1, k2, k3⟩ := h2
    exact ⟨.ok ⟨f, v, es, rfl, k1, k2, k3⟩, rfl⟩

theorem getVoice_twin (i : Nat) (n : Int) {s s' : Score} (h : Twin s s') :
    TwinO (getVoice i n s).1 (getVoice i n s').1 ∧ (getVoice i n s').2 = (getVoice i n s).2 := by
  unfold getVoice
  rw [(h.part i).fields.1, h.vheap]
  split
  · exact ⟨.ok h, rfl⟩
  · have := ensureTemplate_twin i h
    revert this
    generalize ensureTemplate i s = x, ensureTemplate i s' = y
    obtain ⟨x1, x2⟩ := x
    obtain ⟨y1, y2⟩ := y
    rintro ⟨e, h2⟩
    simp only at e h2
    subst e
    cases y1 with
    | some e => exact ⟨.fail h2 e, rfl⟩
    | none => exact addVoice_twin i n h2

theorem replaceByOrigin_twin {s s' : Score} (h : Twin s s') (o w : Nat) (l : List Nat) : replaceByOrigin s' o w l = replaceByOrigin s o w l := by
  obtain ⟨f, v, es, rfl, _⟩ := h; rfl

theorem voiceMarkerAt_twin (n : Int) (i : Nat) (s s' : Score) (h : Twin s s') : TwinO (voiceMarkerAt n i s) (voiceMarkerAt n i s') := by
  unfold voiceMarkerAt
  rw [h.current]
  split
  · exact .ok h
  · rename_i id _
    have := getVoice_twin id n h
    revert this
    generalize getVoice id n s = x, getVoice id n s' = y
    obtain ⟨⟨x1, x2⟩, x3⟩ := x
    obtain ⟨⟨y1, y2⟩, y3⟩ := y
    rintro ⟨⟨e, h2⟩, e3⟩
    simp only at e h2 e3
    subst e e3
    cases y1 with
    | some e => exact .fail h2 e
    | none =>
      simp only [(h2.part id).fields.2.2.1, h2.current, replaceByOrigin_twin h2]
      obtain ⟨f, v, es, rfl, k1, k2, k3⟩ := h2
      exact .ok ⟨f, v, es, rfl, k1, k2, k3⟩

theorem voiceUpd_twin (n : Int) {s s' : Score} (h : Twin s s') : TwinO (voiceUpd n s) (voiceUpd n s') := by
  unfold voiceUpd
  rw [h.current]
  exact TwinO.forIds (voiceMarkerAt_twin n) _ _ _ h

theorem lastToFinish_twin {s s' : Score} (h : Twin s s') : ∀ (l : List (Int × Nat)) (b : Nat), lastToFinish s' b l = lastToFinish s b l := by
  intro l
  induction l with
  | nil => intro b; rfl
  | cons x l ih => intro b; simp only [lastToFinish, (h.part _).fields.2.2.2.1, ih]

theorem voiceEndAt_twin (i : Nat) (s s' : Score) (h : Twin s s') : TwinO (voiceEndAt i s) (voiceEndAt i s') := by
  unfold voiceEndAt
  rw [h.current]
  split
  · exact .ok h
  · rename_i id _
    simp only [(h.part id).fields.1, h.vheap, lastToFinish_twin h]
    split
    · exact .ok h
    · rename_i last _
      generalize lastToFinish s last _ = w
      have hn : (s'.newVoices).1 = (s.newVoices).1 ∧ Twin (s.newVoices).2 (s'.newVoices).2 := by
        obtain ⟨f, v, es, rfl, k1, k2, k3⟩ := h
        exact ⟨rfl, f, v, es, rfl, k1, k2, k3⟩
      revert hn
      generalize s.newVoices = x, s'.newVoices = y
      obtain ⟨x1, x2⟩ := x
      obtain ⟨y1, y2⟩ := y
      rintro ⟨e, h2⟩
      simp only at e h2
      subst e
      have h3 := h2.mod w (fun p p' hp => hp.mod (fun p => { p with voices := y1, template := none }) (fun _ _ => rfl) (fun _ => rfl))
      simp only
      revert h3
      generalize x2.modPart w _ = t, y2.modPart w _ = t'
      intro h3
      simp only [(h3.part id).fields.2.2.1, h3.current, replaceByOrigin_twin h3]
      obtain ⟨f, v, es, rfl, k1, k2, k3⟩ := h3
      exact .ok ⟨f, v, es, rfl, k1, k2, k3⟩

theorem voiceEndUpd_twin {s s' : Score} (h : Twin s s') : TwinO (voiceEndUpd s) (voiceEndUpd s') := by
  unfold voiceEndUpd
  rw [h.current]
  exact TwinO.forIds voiceEndAt_twin _ _ _ h

/-! ### Markers -/

theorem markerUpd_twin (n : String) {s s' : Score} (h : Twin s s') : TwinO (markerUpd n s) (markerUpd n s') := by
  unfold markerUpd
  rw [h.current]
  split
  · exact .fail h _
  · rw [commonOffset_twin h]
    split
    · exact .fail h _
    · obtain ⟨f, v, es, rfl, k1, k2, k3⟩ := h
      exact .ok ⟨f, v, es, rfl, k1, k2, k3⟩

theorem atMarkerUpd_twin (n : String) {s s' : Score} (h : Twin s s') : TwinO (atMarkerUpd n s) (atMarkerUpd n s') := by
  refine (applyGlobals_twin h).andThen ?_
  intro s s' h
  have : s'.markers = s.markers := by obtain ⟨f, v, es, rfl, _⟩ := h; rfl
  simp only [this]
  split
  · exact .fail h _
  · refine TwinO.forCurrent ?_ h
    intro i s s' h
    exact .ok (h.mod i (fun p p' hp => hp.mod (fun p => { p with lastOffset := p.offset, offset := _ }) (fun _ _ => rfl) (fun _ => rfl)))

/-! ### Part declarations -/

theorem newPart_twin (n : String) {s s' : Score} (h : Twin s s') :
    (newPart n s = none ∧ newPart n s' = none) ∨ ∃ i t t', newPart n s = some (i, t) ∧ newPart n s' = some (i, t') ∧ Twin t t' := by
  unfold newPart
  cases stockInstrument n with
  | none => exact .inl ⟨rfl, rfl⟩
  | some instr =>
    right
    have hn : (s'.newVoices).1 = (s.newVoices).1 ∧ Twin (s.newVoices).2 (s'.newVoices).2 := by
      obtain ⟨f, v, es, rfl, k1, k2, k3⟩ := h
      exact ⟨rfl, f, v, es, rfl, k1, k2, k3⟩
    revert hn
    generalize s.newVoices = x, s'.newVoices = y
    obtain ⟨x1, x2⟩ := x
    obtain ⟨y1, y2⟩ := y
    rintro ⟨e, h2⟩
    simp only at e h2
    subst e
    have e2 : y2.next = x2.next := by obtain ⟨f, v, es, rfl, _⟩ := h2; rfl
    have := h2.alloc (TwinP.refl
      { name := n, instr := instr, tempoMaster := false, tempo := 120, keySig := KeySig.empty,
        transposition := 0, refPitch := 440, offset := 0, lastOffset := -1, octave := 4,
        volume := dynamicVolume "mf", trackVolume := 100 / 127, panning := 1 / 2, midiChannel := -1,
        explicitChannel := false, quant := 9 / 10, dur := [.length 4 0], timeScale := 1, tempoValues := [],
        override := none, repetition := 0, template := none, origin := x2.next, voices := y1 })
    simp only [e2]
    refine ⟨_, _, _, rfl, ?_, this.2⟩
    exact congrArg some (Prod.ext this.1 rfl)

/-- The results of choosing parts. -/
structure TwinR {α : Type} (r r' : Except Err α × Score) : Prop where
  res : r'.1 = r.1
  twin : Twin r.2 r'.2

theorem onlyNewPart_twin (n : String) {s s' : Score} (h : Twin s s') : TwinR (onlyNewPart n s) (onlyNewPart n s') := by
  unfold onlyNewPart
  rcases newPart_twin n h with ⟨e, e'⟩ | ⟨i, t, t', e, e', ht⟩
  · rw [e, e']; exact ⟨rfl, h⟩
  · rw [e, e']; exact ⟨rfl, ht⟩

theorem Twin.names {s s' : Score} (h : Twin s s') : s'.namedParts = s.namedParts ∧ s'.unnamedParts = s.unnamedParts ∧
    s'.aliasedStockInstruments = s.aliasedStockInstruments := by
  obtain ⟨f, v, es, rfl, _⟩ := h; exact ⟨rfl, rfl, rfl⟩

theorem determineSingle_twin (n a : String) {s s' : Score} (h : Twin s s') : TwinR (determineSingle n a s) (determineSingle n a s') := by
  unfold determineSingle
  simp only [h.names.1, h.names.2.1, h.names.2.2]
  have ho := onlyNewPart_twin n h
  split
  · exact ⟨rfl, h⟩
  split
  · exact ⟨rfl, h⟩
  split
  · exact ⟨rfl, h⟩
  split
  · exact ho
  split
  · exact ⟨rfl, h⟩
  split
  · exact ⟨rfl, h⟩
  · exact ho

theorem collectGroup_twin : ∀ (ns : List String) {s s' : Score} (a b : List Nat), Twin s s' → TwinR (collectGroup s a b ns) (collectGroup s' a b ns) := by
  intro ns
  induction ns with
  | nil => intro s s' a b h; exact ⟨rfl, h⟩
  | cons n ns ih =>
    intro s s' a b h
    simp only [collectGroup, h.names.1, h.names.2.1]
    split
    · exact ih _ _ h
    · split
      · exact ih _ _ h
      · rcases newPart_twin n h with ⟨e, e'⟩ | ⟨i, t, t', e, e', ht⟩
        · rw [e, e']; exact ⟨rfl, h⟩
        · rw [e, e']; exact ih _ _ ht

theorem newGroup_twin : ∀ (ns : List String) {s s' : Score} (a : List Nat), Twin s s' → TwinR (newGroup s a ns) (newGroup s' a ns) := by
  intro ns
  induction ns with
  | nil => intro s s' a h; exact ⟨rfl, h⟩
  | cons n ns ih =>
    intro s s' a h
    simp only [newGroup]
    rcases newPart_twin n h with ⟨e, e'⟩ | ⟨i, t, t', e, e', ht⟩
    · rw [e, e']; exact ⟨rfl, h⟩
    · rw [e, e']; exact ih _ ht

theorem determineParts_twin (ns : List String) (a : String) {s s' : Score} (h : Twin s s') : TwinR (determineParts ns a s) (determineParts ns a s') := by
  unfold determineParts
  split
  · exact determineSingle_twin _ a h
  · split
    · exact ⟨rfl, h⟩
    · have := collectGroup_twin ns [] [] h
      revert this
      generalize collectGroup s [] [] ns = x, collectGroup s' [] [] ns = y
      obtain ⟨x1, x2⟩ := x
      obtain ⟨y1, y2⟩ := y
      rintro ⟨e, h2⟩
      simp only at e h2
      subst e
      cases y1 with
      | error e => exact ⟨rfl, h2⟩
      | ok z =>
        simp only
        split
        · exact ⟨rfl, h2⟩
        · split
          · exact newGroup_twin ns _ h2
          · exact ⟨rfl, h2⟩

theorem partDeclUpd_twin (ns : List String) (a : String) {s s' : Score} (h : Twin s s') : TwinO (partDeclUpd ns a s) (partDeclUpd ns a s') := by
  refine (voiceEndUpd_twin h).andThen ?_
  intro s s' h
  have := determineParts_twin ns a h
  revert this
  generalize determineParts ns a s = x, determineParts ns a s' = y
  obtain ⟨x1, x2⟩ := x
  obtain ⟨y1, y2⟩ := y
  rintro ⟨e, h2⟩
  simp only at e h2
  subst e
  cases y1 with
  | error e => exact .fail h2 e
  | ok parts =>
    simp only
    have ep : y2.parts = x2.parts := by obtain ⟨f, v, es, rfl, _⟩ := h2; rfl
    rw [ep]
    split
    · exact .fail h2 _
    · unfold declareParts
      have hm : Twin (markMaster parts x2) (markMaster parts y2) := by
        unfold markMaster
        rw [ep]
        split
        · exact h2.mod _ (fun p p' hp => hp.mod (fun p => { p with tempoMaster := true }) (fun _ _ => rfl) (fun _ => rfl))
        · exact h2
      obtain ⟨f, v, es, e3, k1, k2, k3⟩ := hm
      rw [e3]
      exact .ok ⟨f, v, es, rfl, k1, k2, k3⟩

end Alda
