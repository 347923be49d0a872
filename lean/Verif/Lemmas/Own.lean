import Verif.Lemmas.Interp
import Verif.Spec.Json
/-!
Programs without voices: every part of the score stays its own origin, so that the events belong to the parts of the score.
-/
namespace Alda
open Spec

/-- Only musical state changes, and the new events belong to current parts. -/
structure Quietly (s t : Score) : Prop where
  shape : SameShape s t
  vars : t.vars = s.vars
  events : ∀ e ∈ t.events, e ∈ s.events ∨ ∃ c ∈ s.current, e.part = (s.heap c).origin

theorem Quietly.refl (s : Score) : Quietly s s := ⟨.refl s, rfl, fun _ h => .inl h⟩

theorem Quietly.trans {s t u : Score} (h : Quietly s t) (h' : Quietly t u) : Quietly s u := by
  refine ⟨h.shape.trans h'.shape, h'.vars.trans h.vars, fun e he => ?_⟩
  rcases h'.events e he with h1 | ⟨c, hc, h1⟩
  · exact h.events e h1
  · rw [h.shape.current] at hc
    exact .inr ⟨c, hc, by rw [h1, (h.shape.cells c).origin]⟩

theorem Out.andThen_quietly {s : Score} {o : Out} {k : Score → Out} (h1 : Quietly s o.s) (h2 : Quietly o.s (k o.s).s) : Quietly s (o.andThen k).s := by
  rcases Out.andThen_s o k with ⟨he, hs, _⟩ | ⟨e, _, hs, _⟩
  · rw [hs]; exact h1.trans h2
  · rw [hs]; exact h1

theorem forIds_quietly (f : Nat → Score → Out) (hf : ∀ i s, i ∈ s.current → Quietly s (f i s).s) :
    ∀ (ids : List Nat) (s : Score), (∀ i ∈ ids, i ∈ s.current) → Quietly s (forIds f ids s).s := by
  intro ids
  induction ids with
  | nil => intro s _; exact .refl s
  | cons i is ih =>
    intro s hi
    have h1 := hf i s (hi i (List.mem_cons_self ..))
    exact Out.andThen_quietly h1 (ih _ (fun j hj => by rw [h1.shape.current]; exact hi j (List.mem_cons_of_mem _ hj)))

theorem setPart_quietly {s : Score} {id : Nat} {p : Part} (h : SameIdentity (s.heap id) p) : Quietly s (s.setPart id p) :=
  ⟨.setPart h, rfl, fun _ h => .inl h⟩

theorem modPart_quietly (s : Score) (id : Nat) (f : Part → Part) (h : ∀ p, SameIdentity p (f p)) : Quietly s (s.modPart id f) :=
  setPart_quietly (h _)

theorem attrUpd_quietly (u : PartUpd) (s : Score) : Quietly s (attrUpd u s).s := by
  refine forIds_quietly (attrPart u) ?_ s.current s (fun _ h => h)
  intro i s _
  simp only [attrPart]
  split
  · exact .refl s
  · rename_i p hp; exact setPart_quietly ((updatePart_identity hp).override _)

theorem applyGlobals_quietly (s : Score) : Quietly s (applyGlobals s).s := by
  refine forIds_quietly applyGlobalsPart ?_ s.current s (fun _ h => h)
  intro i s _
  obtain ⟨p, h⟩ := applyGlobalsPart_rest i s
  exact ⟨applyGlobalsPart_shape i s, by rw [h]; rfl, fun e he => .inl (by rw [h] at he; exact he)⟩

theorem globalAttrUpd_quietly (u : PartUpd) (s : Score) : Quietly s (globalAttrUpd u s).s := by
  have h0 : ∀ o, Quietly s { s with globals := s.globals.record o u } := fun o => ⟨⟨fun _ => .refl _, rfl, rfl, rfl, rfl, rfl, rfl⟩, rfl, fun _ h => .inl h⟩
  simp only [globalAttrUpd]
  split
  · exact h0 0
  · split
    · exact h0 _
    · exact .refl s

theorem advancePart_quietly (s : Score) (id : Nat) (ms : Rat) (d : Dur) : Quietly s (advancePart s id ms d) := by
  apply modPart_quietly
  intro p
  cases d <;> by_cases h : s.chordMode = true <;> simp only [h, updateDefaultDuration] <;> exact ⟨rfl, rfl, rfl, rfl, rfl, rfl⟩

theorem emitNote_quietly (pitch : Pitch) (ms aud : Rat) (id : Nat) (s : Score) (hid : id ∈ s.current) : Quietly s (emitNote pitch ms aud id s).s := by
  simp only [emitNote]
  split
  · exact .refl s
  split
  · exact .refl s
  rename_i ch s' hs
  simp only [assignMidiChannel] at hs
  split at hs
  · simp at hs
  rename_i ch' hd
  split at hs
  · simp only [Except.ok.injEq, Prod.mk.injEq] at hs
    obtain ⟨rfl, rfl⟩ := hs
    have h1 := emitted_shape s id ch' (calculateMidiNote pitch (s.heap id).octave (s.heap id).keySig (s.heap id).transposition) ms aud
    obtain ⟨_, _, _, h⟩ := emitted_rest s id ch' (calculateMidiNote pitch (s.heap id).octave (s.heap id).keySig (s.heap id).transposition) ms aud
    refine ⟨h1, ?_, fun e he => ?_⟩
    · show (emitted s id ch' _ ms aud).vars = s.vars
      rw [h]
    · have he' : e ∈ (emitted s id ch' (calculateMidiNote pitch (s.heap id).octave (s.heap id).keySig (s.heap id).transposition) ms aud).events := he
      have hu : (recordUsage s ch'.toNat (s.heap id).origin).events = s.events := by
        rw [recordUsage_rest]
      simp only [emitted, Score.modPart, Score.setPart, hu, List.mem_append, List.mem_singleton] at he'
      rcases he' with he' | rfl
      · exact .inl he'
      · exact .inr ⟨id, hid, rfl⟩
  · simp at hs

theorem notePart_quietly (pitch : Pitch) (d : Dur) (sl : Bool) (id : Nat) (s : Score) (hid : id ∈ s.current) : Quietly s (notePart pitch d sl id s).s := by
  simp only [notePart]
  split
  · exact .refl s
  rename_i ms _
  refine Out.andThen_quietly ?_ (advancePart_quietly _ _ _ _)
  generalize (if sl = true then ms * (s.heap id).timeScale else ms * (s.heap id).timeScale * (s.heap id).quant) = a
  split
  · exact emitNote_quietly _ _ _ id s hid
  · exact .refl s

theorem restPart_quietly (d : Dur) (id : Nat) (s : Score) : Quietly s (restPart d id s).s := by
  simp only [restPart]
  split
  · exact .refl s
  · exact advancePart_quietly s id _ _

theorem beforeNote_quietly (d : Dur) (s : Score) : Quietly s (beforeNote d s).s := by
  simp only [beforeNote]
  refine Out.andThen_quietly ?_ ?_
  · split
    · exact .refl s
    · exact applyGlobals_quietly s
  · generalize (if s.chordMode = true then Out.ok s else applyGlobals s).s = s
    split <;> exact .refl _

theorem leafUpd_quietly (l : Leaf) (s : Score) : Quietly s (leafUpd l s).s := by
  cases l with
  | note p d sl =>
    exact Out.andThen_quietly (beforeNote_quietly d s) (forIds_quietly _ (fun i s hi => notePart_quietly p d sl i s hi) _ _ (fun _ h => h))
  | rest d =>
    exact Out.andThen_quietly (beforeNote_quietly d s) (forIds_quietly _ (fun i s _ => restPart_quietly d i s) _ _ (fun _ h => h))
  | attr u => exact attrUpd_quietly u s
  | globalAttr u => exact globalAttrUpd_quietly u s

theorem markerUpd_quietly (n : String) (s : Score) : Quietly s (markerUpd n s).s := by
  simp only [markerUpd]
  split
  · exact .refl s
  · split
    · exact .refl s
    · exact ⟨⟨fun _ => .refl _, rfl, rfl, rfl, rfl, rfl, rfl⟩, rfl, fun _ h => .inl h⟩

theorem atMarkerUpd_quietly (n : String) (s : Score) : Quietly s (atMarkerUpd n s).s := by
  refine Out.andThen_quietly (applyGlobals_quietly s) ?_
  generalize (applyGlobals s).s = s
  split
  · exact .refl s
  · exact forIds_quietly _ (fun i s _ => by first | exact setPart_quietly (p := { s.heap i with lastOffset := _, offset := _ }) ⟨rfl, rfl, rfl, rfl, rfl, rfl⟩ | exact setPart_quietly (p := { s.heap i with dur := _, timeScale := _ }) ⟨rfl, rfl, rfl, rfl, rfl, rfl⟩ | exact setPart_quietly (p := { s.heap i with repetition := _ }) ⟨rfl, rfl, rfl, rfl, rfl, rfl⟩) _ _ (fun _ h => h)

theorem cramScale_quietly (vars : String → Option (List Upd)) (es : List Upd) (d : Dur) (s : Score) :
    Quietly s (forIds (cramScalePart vars es d) s.current s).s := by
  refine forIds_quietly _ ?_ _ _ (fun _ h => h)
  intro i s hi
  simp only [cramScalePart]
  split
  · exact .refl s
  · exact setPart_quietly ⟨rfl, rfl, rfl, rfl, rfl, rfl⟩

theorem cramRestore_quietly (old : Nat → Part) (ids : List Nat) (d : Dur) (s : Score) :
    Quietly s (forIds (cramRestorePart old ids d) s.current s).s :=
  forIds_quietly _ (fun i s _ => by first | exact setPart_quietly (p := { s.heap i with lastOffset := _, offset := _ }) ⟨rfl, rfl, rfl, rfl, rfl, rfl⟩ | exact setPart_quietly (p := { s.heap i with dur := _, timeScale := _ }) ⟨rfl, rfl, rfl, rfl, rfl, rfl⟩ | exact setPart_quietly (p := { s.heap i with repetition := _ }) ⟨rfl, rfl, rfl, rfl, rfl, rfl⟩) _ _ (fun _ h => h)

theorem chordAdvance_quietly (m : Shortest) (s : Score) : Quietly s (forIds (chordAdvance m) s.current s).s :=
  forIds_quietly _ (fun i s _ => by first | exact setPart_quietly (p := { s.heap i with lastOffset := _, offset := _ }) ⟨rfl, rfl, rfl, rfl, rfl, rfl⟩ | exact setPart_quietly (p := { s.heap i with dur := _, timeScale := _ }) ⟨rfl, rfl, rfl, rfl, rfl, rfl⟩ | exact setPart_quietly (p := { s.heap i with repetition := _ }) ⟨rfl, rfl, rfl, rfl, rfl, rfl⟩) _ _ (fun _ h => h)

/-- A score in which there never was a voice. -/
structure Own (s : Score) : Prop where
  wf : WF s
  quiet : ∀ i, s.vheap i = []
  own : ∀ i ∈ s.parts, (s.heap i).origin = i
  vars : ∀ n es, s.vars n = some es → CalmL es
  events : ∀ e ∈ s.events, e.part ∈ s.parts

theorem Quietly.own {s t : Score} (h : Quietly s t) (o : Own s) : Own t := by
  refine ⟨h.shape.wf o.wf, ?_, ?_, ?_, ?_⟩
  · rw [h.shape.vheap]; exact o.quiet
  · intro i hi
    rw [h.shape.parts] at hi
    rw [(h.shape.cells i).origin]
    exact o.own i hi
  · rw [h.vars]; exact o.vars
  · intro e he
    rw [h.shape.parts]
    rcases h.events e he with h1 | ⟨c, hc, h1⟩
    · exact o.events e h1
    · obtain ⟨q, hq, hqc⟩ := o.wf.cur_parts c hc
      rw [h1, ← hqc, o.own q hq]
      exact hq

theorem voiceEndAt_own {s : Score} (o : Own s) (i : Nat) : (voiceEndAt i s).s = s := by
  rcases voiceEndAt_cases i s with h | ⟨id, v, num, e⟩
  · exact h
  · have := e.mem
    rw [o.quiet] at this
    simp at this

theorem voiceEndUpd_own {s : Score} (o : Own s) : (voiceEndUpd s).s = s := by
  have key : ∀ is : List Nat, (forIds voiceEndAt is s).s = s := by
    intro is
    induction is with
    | nil => rfl
    | cons i is ih =>
      simp only [forIds]
      rcases Out.andThen_s (voiceEndAt i s) (forIds voiceEndAt is) with ⟨_, hs, _⟩ | ⟨_, _, hs, _⟩
      · rw [hs, voiceEndAt_own o, ih]
      · rw [hs, voiceEndAt_own o]
  exact key _

theorem newPart_own {name : String} {s : Score} {id : Nat} {s' : Score} (o : Own s) (h : newPart name s = some (id, s')) : Own s' := by
  have hw := newPart_wf o.wf h
  obtain ⟨instr, _, _, p, ho, hv, _, _, ht, _, _, _, _, _, _, _, _, _, _, _, _, _, _, _, rfl⟩ := newPart_eq h
  refine ⟨hw, ?_, ?_, o.vars, o.events⟩
  · intro i
    simp only
    split
    · rfl
    · exact o.quiet i
  · intro i hi
    simp only at hi ⊢
    rw [if_neg (by have := o.wf.parts_lt i hi; omega)]
    exact o.own i hi

theorem partDeclUpd_own (names : List String) (alias : String) {s : Score} (o : Own s) : Own (partDeclUpd names alias s).s := by
  unfold partDeclUpd
  rcases Out.andThen_s (voiceEndUpd s) (fun s => _) with ⟨_, hs, _⟩ | ⟨_, _, hs, _⟩
  · rw [hs, voiceEndUpd_own o]
    have hf := determineParts_found (L := fun _ => True) names alias s o.wf
    have ho := determineParts_inv (P := Own) (fun name s id s' h hn => newPart_own h hn) names alias s o
    split
    · rename_i e s' he
      rw [he] at ho; exact ho
    · rename_i parts s' he
      rw [he] at hf ho
      obtain ⟨_, _, h3⟩ := hf
      simp only at h3 ho
      split
      · exact ho
      · rename_i hne
        obtain ⟨h4, h5⟩ := h3 parts rfl
        have hw : WF (declareParts parts alias s') := Step.wf (L := fun _ => True) (D := True)
          (.declare trivial parts alias h5 h4 (fun a b => hne ⟨a, b⟩) (fun q _ => ho.quiet _)) ho.wf
        obtain ⟨hh, hp, ha, hr⟩ := declareParts_rest parts alias s'
        have hparts : (declareParts parts alias s').parts = dedup s'.parts parts := declareParts_parts parts alias s'
        show Own (declareParts parts alias s')
        refine ⟨hw, ?_, ?_, ?_, ?_⟩
        · rw [declareParts_vheap]; exact ho.quiet
        · intro i hi
          rw [hparts, dedup_mem] at hi
          have hsame : ((declareParts parts alias s').heap i).origin = (s'.heap i).origin := by
            rw [declareParts_heap]
            rcases markMaster_heap parts s' i with h | ⟨_, _, h⟩ <;> rw [h]
          rw [hsame]
          rcases hi with hi | hi
          · exact ho.own i hi
          · rcases h5 i hi with h | h
            · exact ho.own i h
            · exact h.org
        · show ∀ n es, (declareParts parts alias s').vars n = some es → CalmL es
          rw [hr]; exact ho.vars
        · intro e he
          rw [hparts, dedup_mem]
          rw [hr] at he
          exact .inl (ho.events e he)
  · rw [hs, voiceEndUpd_own o]; exact o

mutual
theorem varValue_calm (vars : String → Option (List Upd)) (hv : ∀ n es, vars n = some es → CalmL es) :
    ∀ (e v : Upd), Calm e → varValue vars e = .ok v → Calm v
  | .leaf l, v, h, he => by simp only [varValue, Except.ok.injEq] at he; subst he; exact h
  | .lisp es, v, h, he => by
    simp only [varValue] at he
    split at he
    · simp at he
    · simp only [Except.ok.injEq] at he; subst he; exact trivial
    · simp only [Except.ok.injEq] at he; subst he; exact trivial
  | .lispNil, v, h, he => by simp only [varValue, Except.ok.injEq] at he; subst he; exact h
  | .barline, v, h, he => by simp only [varValue, Except.ok.injEq] at he; subst he; exact h
  | .chord es, v, h, he => by
    simp only [varValue] at he
    split at he
    · simp at he
    · rename_i vs hvs
      simp only [Except.ok.injEq] at he; subst he; exact varValues_calm vars hv es vs h hvs
  | .cram es d, v, h, he => by
    simp only [varValue] at he
    split at he
    · simp at he
    · rename_i vs hvs
      simp only [Except.ok.injEq] at he; subst he; exact varValues_calm vars hv es vs h hvs
  | .seq es, v, h, he => by
    simp only [varValue] at he
    split at he
    · simp at he
    · rename_i vs hvs
      simp only [Except.ok.injEq] at he; subst he; exact varValues_calm vars hv es vs h hvs
  | .rep e n, v, h, he => by
    simp only [varValue] at he
    split at he
    · simp at he
    · rename_i w hw
      simp only [Except.ok.injEq] at he; subst he; exact varValue_calm vars hv e w h hw
  | .onReps rs e, v, h, he => by
    simp only [varValue] at he
    split at he
    · simp at he
    · rename_i w hw
      simp only [Except.ok.injEq] at he; subst he; exact varValue_calm vars hv e w h hw
  | .voice n, v, h, he => h.elim
  | .voiceEnd, v, h, he => by simp only [varValue, Except.ok.injEq] at he; subst he; exact h
  | .marker n, v, h, he => by simp only [varValue, Except.ok.injEq] at he; subst he; exact h
  | .atMarker n, v, h, he => by simp only [varValue, Except.ok.injEq] at he; subst he; exact h
  | .varDef n es, v, h, he => by
    simp only [varValue] at he
    split at he
    · simp at he
    · rename_i vs hvs
      simp only [Except.ok.injEq] at he; subst he; exact varValues_calm vars hv es vs h hvs
  | .varRef n, v, h, he => by
    simp only [varValue] at he
    split at he
    · simp at he
    · rename_i es hes
      simp only [Except.ok.injEq] at he; subst he; exact hv n es hes
  | .partDecl ns a, v, h, he => by simp [varValue] at he
theorem varValues_calm (vars : String → Option (List Upd)) (hv : ∀ n es, vars n = some es → CalmL es) :
    ∀ (es vs : List Upd), CalmL es → varValues vars es = .ok vs → CalmL vs
  | [], vs, h, he => by simp only [varValues, Except.ok.injEq] at he; subst he; exact trivial
  | e :: es, vs, h, he => by
    simp only [varValues] at he
    split at he
    · simp at he
    · rename_i w hw
      split at he
      · simp at he
      · rename_i ws hws
        simp only [Except.ok.injEq] at he; subst he
        exact ⟨varValue_calm vars hv e w h.1 hw, varValues_calm vars hv es ws h.2 hws⟩
end

theorem varDefUpd_own (n : String) (es : List Upd) {s : Score} (o : Own s) (h : CalmL es) : Own (varDefUpd n es s).s := by
  simp only [varDefUpd]
  split
  · exact o
  · rename_i vs hvs
    have h1 := varValues_calm s.vars o.vars es vs h hvs
    have hw : WF { s with vars := fun m => if m = n then some vs else s.vars m } :=
      SameShape.wf (s := s) ⟨fun _ => .refl _, rfl, rfl, rfl, rfl, rfl, rfl⟩ o.wf
    refine ⟨hw, o.quiet, o.own, ?_, o.events⟩
    intro m fs hm
    simp only [Out.ok] at hm
    split at hm
    · cases hm; exact h1
    · exact o.vars m fs hm

theorem Out.andThen_own {o : Out} {k : Score → Out} (h1 : Own o.s) (h2 : Own o.s → Own (k o.s).s) : Own (o.andThen k).s := by
  rcases Out.andThen_s o k with ⟨he, hs, _⟩ | ⟨e, _, hs, _⟩
  · rw [hs]; exact h2 h1
  · rw [hs]; exact h1

theorem repLoop_own (body : Score → Out) (hb : ∀ s, Own s → Own (body s).s) : ∀ (k : Nat) (r : Int) (s : Score), Own s → Own (repLoop body k r s).s := by
  intro k
  induction k with
  | zero => intro r s o; exact o
  | succ k ih =>
    intro r s o
    simp only [repLoop]
    have h1 : Own (forIds (setRepetition r) s.current s).s :=
      (forIds_quietly _ (fun i s _ => by first | exact setPart_quietly (p := { s.heap i with lastOffset := _, offset := _ }) ⟨rfl, rfl, rfl, rfl, rfl, rfl⟩ | exact setPart_quietly (p := { s.heap i with dur := _, timeScale := _ }) ⟨rfl, rfl, rfl, rfl, rfl, rfl⟩ | exact setPart_quietly (p := { s.heap i with repetition := _ }) ⟨rfl, rfl, rfl, rfl, rfl, rfl⟩) _ _ (fun _ h => h)).own o
    exact Out.andThen_own h1 (fun h => Out.andThen_own (hb _ h) (fun h => ih _ _ h))

theorem onReps_own (rs : List (Int × Int)) (body : Score → Out) (hb : ∀ s, Own s → Own (body s).s) :
    ∀ (is : List Nat) (s : Score), Own s → Own (forIds (onRepsAt rs body) is s).s := by
  intro is
  induction is with
  | nil => intro s o; exact o
  | cons i is ih =>
    intro s o
    have h1 : Own (onRepsAt rs body i s).s := by
      simp only [onRepsAt]
      split
      · exact o
      · split
        · exact hb s o
        · exact o
    exact Out.andThen_own h1 (fun h => ih _ h)

theorem chordMode_quietly (s : Score) (b : Bool) : Quietly s { s with chordMode := b } :=
  ⟨⟨fun _ => .refl _, rfl, rfl, rfl, rfl, rfl, rfl⟩, rfl, fun _ h => .inl h⟩

mutual
theorem updWith_own (deref : List Upd → Score → Out) (hderef : ∀ es s, CalmL es → Own s → Own (deref es s).s) :
    ∀ (e : Upd) (s : Score), Calm e → Own s → Own (updWith deref e s).s
  | .leaf l, s, _, o => by simp only [updWith]; exact (leafUpd_quietly l s).own o
  | .lisp es, s, _, o => by
    simp only [updWith]
    split
    · exact o
    · exact o
    · exact (leafUpd_quietly _ s).own o
  | .lispNil, s, _, o => by simp only [updWith]; exact o
  | .barline, s, _, o => by simp only [updWith]; exact o
  | .chord es, s, h, o => by
    simp only [updWith]
    refine Out.andThen_own ((applyGlobals_quietly s).own o) (fun o => ?_)
    generalize (applyGlobals s).s = s at o
    have h2 := chordEvents_own deref hderef es (fun i => if s.current.contains i then none else some 0)
      { s with chordMode := true } h ((chordMode_quietly s true).own o)
    refine Out.andThen_own h2 (fun o => ?_)
    generalize (chordEvents deref es (fun i => if s.current.contains i then none else some 0) { s with chordMode := true }) = r at o
    exact (chordAdvance_quietly r.shortest { r.out.s with chordMode := false }).own ((chordMode_quietly r.out.s false).own o)
  | .cram es d, s, h, o => by
    simp only [updWith]
    refine Out.andThen_own ((cramScale_quietly s.vars es d s).own o) (fun o => ?_)
    exact Out.andThen_own (updListWith_own deref hderef es _ h o) (fun o => (cramRestore_quietly _ _ d _).own o)
  | .seq es, s, h, o => by simp only [updWith]; exact updListWith_own deref hderef es s h o
  | .rep e n, s, h, o => by
    simp only [updWith]
    exact repLoop_own _ (fun s o => updWith_own deref hderef e s h o) _ _ s o
  | .onReps rs e, s, h, o => by
    simp only [updWith]
    exact onReps_own rs _ (fun s o => updWith_own deref hderef e s h o) _ s o
  | .voice n, s, h, _ => h.elim
  | .voiceEnd, s, _, o => by simp only [updWith]; rw [voiceEndUpd_own o]; exact o
  | .marker n, s, _, o => by simp only [updWith]; exact (markerUpd_quietly n s).own o
  | .atMarker n, s, _, o => by simp only [updWith]; exact (atMarkerUpd_quietly n s).own o
  | .varDef n es, s, h, o => by simp only [updWith]; exact varDefUpd_own n es o h
  | .varRef n, s, _, o => by
    simp only [updWith]
    split
    · exact o
    · rename_i es hes
      exact hderef es s (o.vars n es hes) o
  | .partDecl ns a, s, _, o => by simp only [updWith]; exact partDeclUpd_own ns a o
theorem updListWith_own (deref : List Upd → Score → Out) (hderef : ∀ es s, CalmL es → Own s → Own (deref es s).s) :
    ∀ (es : List Upd) (s : Score), CalmL es → Own s → Own (updListWith deref es s).s
  | [], s, _, o => by simp only [updListWith]; exact o
  | e :: es, s, h, o => by
    simp only [updListWith]
    exact Out.andThen_own (updWith_own deref hderef e s h.1 o) (fun o => updListWith_own deref hderef es _ h.2 o)
theorem chordEvents_own (deref : List Upd → Score → Out) (hderef : ∀ es s, CalmL es → Own s → Own (deref es s).s) :
    ∀ (es : List Upd) (m : Shortest) (s : Score), CalmL es → Own s → Own (chordEvents deref es m s).out.s
  | [], m, s, _, o => by simp only [chordEvents]; exact o
  | e :: es, m, s, h, o => by
    simp only [chordEvents]
    split
    · exact o
    · have h1 := updWith_own deref hderef e s h.1 o
      split
      · rename_i err s' he; rw [he] at h1; exact h1
      · rename_i s' he; rw [he] at h1
        exact chordEvents_own deref hderef es _ s' h.2 h1
end

theorem newScore_own : Own newScore := by
  refine ⟨newScore_wf, fun _ => rfl, ?_, ?_, ?_⟩ <;> simp [newScore]

/-- A program without voices. -/
theorem update_own (es : List Upd) (h : CalmL es) : Own (update es newScore).s :=
  updListWith_own derefUpd (fun es s h o => updListWith_own _ (fun _ _ _ o => o) es s h o) es newScore h newScore_own

end Alda
