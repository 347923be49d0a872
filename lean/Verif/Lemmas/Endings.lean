import Verif.Lemmas.Repeat
/-!
Numbered endings: without repeats, voices and part declarations the repetition number does not change.
-/
namespace Alda
open Spec

/-- The same active parts, repetition numbers and kind of variables. -/
structure Kept (s s' : Score) : Prop where
  current : s'.current = s.current
  rep : ∀ i, (s'.heap i).repetition = (s.heap i).repetition
  vars : VarsSteady s → VarsSteady s'

/-- An operation that keeps them. -/
def Keeps (g : Score → Out) : Prop := ∀ s, VarsSteady s → Kept s (g s).s

theorem Kept.refl (s : Score) : Kept s s := ⟨rfl, fun _ => rfl, id⟩

theorem Kept.trans {a b c : Score} (h : Kept a b) (h' : Kept b c) : Kept a c :=
  ⟨h'.current.trans h.current, fun i => (h'.rep i).trans (h.rep i), fun hv => h'.vars (h.vars hv)⟩

theorem Kept.of {s s' : Score} (hc : s'.current = s.current) (hh : s'.heap = s.heap) (hv : s'.vars = s.vars) : Kept s s' :=
  ⟨hc, fun i => by rw [hh], fun h n es he => h n es (by rw [← hv]; exact he)⟩

theorem Kept.set {s : Score} {i : Nat} {p : Part} (h : p.repetition = (s.heap i).repetition) : Kept s (s.setPart i p) := by
  refine ⟨rfl, ?_, id⟩
  intro j
  simp only [Score.setPart]
  by_cases hj : j = i
  · simp only [hj, if_true]; exact h
  · simp only [hj, if_false]

theorem Kept.mod {s : Score} {i : Nat} {g : Part → Part} (h : ∀ p, (g p).repetition = p.repetition) : Kept s (s.modPart i g) := Kept.set (h _)

theorem Kept.modOk {s : Score} {i : Nat} {g : Part → Part} (h : ∀ p, (g p).repetition = p.repetition) : Kept s (Out.ok (s.modPart i g)).s := Kept.set (h _)

theorem Keeps.andThen {s : Score} {o : Out} {k : Score → Out} (h : Kept s o.s) (hv : VarsSteady s) (hk : Keeps k) : Kept s (o.andThen k).s := by
  obtain ⟨e, t⟩ := o
  cases e with
  | none => exact h.trans (hk t (h.vars hv))
  | some e => exact h

theorem Keeps.forIds {g : Nat → Score → Out} (hg : ∀ i, Keeps (g i)) : ∀ l, Keeps (forIds g l) := by
  intro l
  induction l with
  | nil => intro s _; exact .refl s
  | cons i l ih => intro s hv; exact Keeps.andThen (hg i s hv) hv ih

theorem updatePart_rep {u : PartUpd} {b : Bool} {p q : Part} (h : updatePart u b p = .ok q) : q.repetition = p.repetition := by
  cases u <;> simp only [updatePart] at h <;>
    first
    | (cases h; rfl)
    | (cases b <;> (cases h; rfl))
    | (split at h <;> cases h; rfl)

theorem applyUpdates_rep : ∀ (us : List PartUpd) (p : Part), (applyUpdates us p).2.repetition = p.repetition := by
  intro us
  induction us with
  | nil => intro p; rfl
  | cons u us ih =>
    intro p
    simp only [applyUpdates]
    split
    · exact ih p
    · cases h : updatePart u true p with
      | error e => rfl
      | ok q => simp only; rw [ih q]; exact updatePart_rep h

theorem applyGlobals_keeps : Keeps applyGlobals := by
  intro s hv
  refine Keeps.forIds ?_ _ s hv
  intro i s _
  unfold applyGlobalsPart
  simp only
  have h := applyUpdates_rep (s.globals.inWindow (s.heap i).lastOffset (s.heap i).offset) (s.heap i)
  generalize applyUpdates (s.globals.inWindow (s.heap i).lastOffset (s.heap i).offset) (s.heap i) = x at h
  obtain ⟨e, p⟩ := x
  cases e
  · exact Kept.set (p := { p with override := none }) h
  · exact Kept.set (p := p) h

theorem emit_keeps (pi : Pitch) (ms a : Rat) (i : Nat) : Keeps (emitNote pi ms a i) := by
  intro s _
  unfold emitNote
  simp only
  split
  · exact .refl s
  · unfold assignMidiChannel
    split
    · exact .refl s
    · rename_i ch s1 h1
      have hk : Kept s s1 := by
        revert h1
        split
        · intro h; cases h
        · split
          · intro h
            cases h
            unfold recordUsage
            split <;> exact Kept.of rfl rfl rfl
          · intro h; cases h
      refine hk.trans ?_
      refine Kept.trans (Kept.mod (i := i) (g := fun p => { p with midiChannel := ch }) (fun p => rfl)) ?_
      refine Kept.trans (Kept.mod (i := (s.heap i).origin) (g := fun p => { p with midiChannel := ch }) (fun p => rfl)) ?_
      exact Kept.of rfl rfl rfl

theorem advancePart_keeps (s : Score) (i : Nat) (ms : Rat) (d : Dur) : Kept s (advancePart s i ms d) := by
  unfold advancePart
  refine Kept.mod ?_
  intro p
  cases s.chordMode <;> cases d <;> rfl

theorem beforeNote_keeps (d : Dur) : Keeps (beforeNote d) := by
  intro s hv
  unfold beforeNote
  refine Keeps.andThen ?_ hv ?_
  · split
    · exact .refl s
    · exact applyGlobals_keeps s hv
  · intro s _
    split <;> exact .refl s

theorem leaf_keeps (l : Leaf) : Keeps (leafUpd l) := by
  intro s hv
  cases l with
  | note pi d sl =>
    refine Keeps.andThen (beforeNote_keeps d s hv) hv ?_
    intro s hv
    refine Keeps.forIds ?_ _ s hv
    intro i s hv
    unfold notePart
    simp only
    cases (effectiveDuration d (s.heap i)).toMs (s.heap i).tempo with
    | none => exact .refl s
    | some ms =>
      simp only
      generalize (if sl = true then _ else _) = a
      refine Keeps.andThen ?_ hv (fun s _ => advancePart_keeps s i _ _)
      split
      · exact emit_keeps _ _ _ _ s hv
      · exact .refl s
  | rest d =>
    refine Keeps.andThen (beforeNote_keeps d s hv) hv ?_
    intro s hv
    refine Keeps.forIds ?_ _ s hv
    intro i s hv
    unfold restPart
    simp only
    cases (effectiveDuration d (s.heap i)).toMs (s.heap i).tempo with
    | none => exact .refl s
    | some ms => exact advancePart_keeps s i _ _
  | attr u =>
    refine Keeps.forIds ?_ _ s hv
    intro i s _
    unfold attrPart
    cases h : updatePart u false (s.heap i) with
    | error e => exact .refl s
    | ok p => exact Kept.set (p := { p with override := some u }) (updatePart_rep h :)
  | globalAttr u =>
    show Kept s (globalAttrUpd u s).s
    unfold globalAttrUpd
    split
    · exact Kept.of rfl rfl rfl
    · split
      · exact Kept.of rfl rfl rfl
      · exact Kept.of rfl rfl rfl

theorem marker_keeps (n : String) : Keeps (markerUpd n) := by
  intro s _
  unfold markerUpd
  split
  · exact .refl s
  · split
    · exact .refl s
    · exact Kept.of rfl rfl rfl

theorem atMarker_keeps (n : String) : Keeps (atMarkerUpd n) := by
  intro s hv
  refine Keeps.andThen (applyGlobals_keeps s hv) hv ?_
  intro s hv
  show Kept s (match s.markers n with | none => Out.fail (.user "Marker undefined") s | some o => forIds (jumpPart o) s.current s).s
  split
  · exact .refl s
  · rename_i o _
    exact Keeps.forIds (fun i s _ => Kept.mod (g := fun p => { p with lastOffset := p.offset, offset := o }) (fun p => rfl)) _ s hv

mutual
theorem varValue_steady {vars : String → Option (List Upd)} (hv : ∀ n es, vars n = some es → SteadyL es) : ∀ (e v : Upd), Steady e →
    varValue vars e = .ok v → Steady v
  | .leaf l, v, _, h => by simp only [varValue, Except.ok.injEq] at h; subst h; simp only [Steady]
  | .lisp es, v, _, h => by
    simp only [varValue] at h
    split at h
    · cases h
    · cases h; simp only [Steady]
    · cases h; simp only [Steady]
  | .lispNil, v, _, h => by simp only [varValue, Except.ok.injEq] at h; subst h; simp only [Steady]
  | .barline, v, _, h => by simp only [varValue, Except.ok.injEq] at h; subst h; simp only [Steady]
  | .chord es, v, hn, h => by
    simp only [varValue] at h
    split at h
    · cases h
    · rename_i vs hvs; cases h; simp only [Steady] at hn ⊢; exact varValues_steady hv es vs hn hvs
  | .cram es d, v, hn, h => by
    simp only [varValue] at h
    split at h
    · cases h
    · rename_i vs hvs; cases h; simp only [Steady] at hn ⊢; exact varValues_steady hv es vs hn hvs
  | .seq es, v, hn, h => by
    simp only [varValue] at h
    split at h
    · cases h
    · rename_i vs hvs; cases h; simp only [Steady] at hn ⊢; exact varValues_steady hv es vs hn hvs
  | .rep e n, v, hn, h => by simp only [Steady] at hn
  | .onReps rs e, v, hn, h => by
    simp only [varValue] at h
    split at h
    · cases h
    · rename_i w hw; cases h; simp only [Steady] at hn ⊢; exact varValue_steady hv e w hn hw
  | .voice n, v, hn, h => by simp only [Steady] at hn
  | .voiceEnd, v, hn, h => by simp only [Steady] at hn
  | .marker n, v, _, h => by simp only [varValue, Except.ok.injEq] at h; subst h; simp only [Steady]
  | .atMarker n, v, _, h => by simp only [varValue, Except.ok.injEq] at h; subst h; simp only [Steady]
  | .varDef n es, v, hn, h => by
    simp only [varValue] at h
    split at h
    · cases h
    · rename_i vs hvs; cases h; simp only [Steady] at hn ⊢; exact varValues_steady hv es vs hn hvs
  | .varRef n, v, _, h => by
    simp only [varValue] at h
    split at h
    · cases h
    · rename_i es hes; cases h; simp only [Steady]; exact hv n es hes
  | .partDecl ns a, v, _, h => by simp only [varValue] at h; cases h
theorem varValues_steady {vars : String → Option (List Upd)} (hv : ∀ n es, vars n = some es → SteadyL es) : ∀ (es vs : List Upd), SteadyL es →
    varValues vars es = .ok vs → SteadyL vs
  | [], vs, _, h => by simp only [varValues, Except.ok.injEq] at h; subst h; simp only [SteadyL]
  | e :: es, vs, hn, h => by
    simp only [SteadyL] at hn
    simp only [varValues] at h
    split at h
    · cases h
    · rename_i w hw
      split at h
      · cases h
      · rename_i ws hws
        cases h
        simp only [SteadyL]
        exact ⟨varValue_steady hv e w hn.1 hw, varValues_steady hv es ws hn.2 hws⟩
end

section
variable {deref : List Upd → Score → Out} (hd : ∀ es, SteadyL es → Keeps (deref es))
include hd

mutual
theorem upd_keeps : ∀ (e : Upd), Steady e → Keeps (updWith deref e)
  | .leaf l, _ => by intro s hv; simp only [updWith]; exact leaf_keeps l s hv
  | .lisp es, _ => by
    intro s hv
    simp only [updWith]
    cases lispUpdate es with
    | error e => exact .refl s
    | ok o => cases o with
      | none => exact .refl s
      | some l => exact leaf_keeps l s hv
  | .lispNil, _ => by intro s hv; simp only [updWith]; exact .refl s
  | .barline, _ => by intro s hv; simp only [updWith]; exact .refl s
  | .chord es, hn => by
    intro s hv
    simp only [Steady] at hn
    simp only [updWith]
    refine Keeps.andThen (applyGlobals_keeps s hv) hv ?_
    intro s hv
    have k1 : Kept s { s with chordMode := true } := Kept.of rfl rfl rfl
    refine Keeps.andThen (k1.trans (chord_keeps es hn _ { s with chordMode := true } hv)) hv ?_
    intro s hv
    have k2 : Kept s { s with chordMode := false } := Kept.of rfl rfl rfl
    refine k2.trans (Keeps.forIds ?_ _ { s with chordMode := false } hv)
    intro i s _
    unfold chordAdvance
    refine Kept.modOk ?_
    intro p; rfl
  | .cram es d, hn => by
    intro s hv
    simp only [Steady] at hn
    simp only [updWith]
    refine Keeps.andThen ?_ hv ?_
    · refine Keeps.forIds ?_ _ s hv
      intro i s _
      unfold cramScalePart
      split
      · exact .refl _
      · refine Kept.modOk ?_
        intro p; rfl
    · intro s' hv'
      refine Keeps.andThen (upd_keepsL es hn s' hv') hv' ?_
      intro s'' hv''
      refine Keeps.forIds ?_ _ s'' hv''
      intro i s3 _
      unfold cramRestorePart
      refine Kept.modOk ?_
      intro p; rfl
  | .seq es, hn => by intro s hv; simp only [updWith]; exact upd_keepsL es (by simpa only [Steady] using hn) s hv
  | .rep e n, hn => by simp only [Steady] at hn
  | .onReps rs e, hn => by
    intro s hv
    simp only [Steady] at hn
    simp only [updWith]
    refine Keeps.forIds ?_ _ s hv
    intro i s hv
    unfold onRepsAt
    split
    · exact .refl s
    · split
      · exact upd_keeps e hn s hv
      · exact .refl s
  | .voice n, hn => by simp only [Steady] at hn
  | .voiceEnd, hn => by simp only [Steady] at hn
  | .marker n, _ => by intro s hv; simp only [updWith]; exact marker_keeps n s hv
  | .atMarker n, _ => by intro s hv; simp only [updWith]; exact atMarker_keeps n s hv
  | .varDef n es, hn => by
    intro s hv
    simp only [Steady] at hn
    simp only [updWith, varDefUpd]
    cases h : varValues s.vars es with
    | error e => exact .refl s
    | ok vs =>
      refine ⟨rfl, fun _ => rfl, ?_⟩
      intro _ m us hu
      by_cases hm : m = n
      · simp only [Out.ok, hm, if_true, Option.some.injEq] at hu; subst hu; exact varValues_steady hv es vs hn h
      · simp only [Out.ok, if_neg hm] at hu; exact hv m us hu
  | .varRef n, _ => by
    intro s hv
    simp only [updWith]
    cases hn : s.vars n with
    | none => exact .refl s
    | some es => exact hd es (hv n es hn) s hv
  | .partDecl ns a, hn => by simp only [Steady] at hn
theorem upd_keepsL : ∀ (es : List Upd), SteadyL es → Keeps (updListWith deref es)
  | [], _ => by intro s _; simp only [updListWith]; exact .refl s
  | e :: es, hn => by
    intro s hv
    simp only [SteadyL] at hn
    simp only [updListWith]
    exact Keeps.andThen (upd_keeps e hn.1 s hv) hv (upd_keepsL es hn.2)
theorem chord_keeps : ∀ (es : List Upd), SteadyL es → ∀ (m : Shortest) (s : Score), VarsSteady s → Kept s (chordEvents deref es m s).out.s
  | [], _ => by intro m s _; simp only [chordEvents]; exact .refl s
  | e :: es, hn => by
    intro m s hv
    simp only [SteadyL] at hn
    simp only [chordEvents]
    cases shortestLoop s (specifiedDuration e) s.current m with
    | none => exact .refl s
    | some m =>
      simp only
      have e1 := upd_keeps e hn.1 s hv
      rcases ho : updWith deref e s with ⟨err, s1⟩
      rw [ho] at e1
      cases err with
      | some e => exact e1
      | none => exact e1.trans (chord_keeps es hn.2 m s1 (e1.vars hv))
end
end

theorem deref_keeps (es : List Upd) (h : SteadyL es) : Keeps (derefUpd es) := upd_keepsL (fun _ _ s _ => .refl s) es h

/-! ### Durations -/

/-- A duration that leaves the repetition number as it is. -/
def DKeeps {α : Type} (g : Part → Option (α × Part)) : Prop := ∀ p a q, g p = some (a, q) → q.repetition = p.repetition

theorem leafDur_keeps (l : Leaf) : DKeeps (leafDurMs l) := by
  intro p a q h
  have hu : ∀ d, (updateDefaultDuration p d).repetition = p.repetition := by intro d; cases d <;> rfl
  cases l with
  | note x d y =>
    simp only [leafDurMs] at h
    split at h
    · cases h
    · cases h; exact hu d
  | rest d =>
    simp only [leafDurMs] at h
    split at h
    · cases h
    · cases h; exact hu d
  | attr u => simp only [leafDurMs] at h; cases h; rfl
  | globalAttr u => simp only [leafDurMs] at h; cases h; rfl

section
variable {vars : String → Option (List Upd)} {deref : List Upd → Part → Option (Rat × Part)} (hv : ∀ n es, vars n = some es → SteadyL es)
  (hd : ∀ es, SteadyL es → DKeeps (deref es))
include hv hd

mutual
theorem dur_keeps : ∀ (e : Upd), Steady e → DKeeps (durMsWith vars deref e)
  | .leaf l, _ => by intro p a q h; simp only [durMsWith] at h; exact leafDur_keeps l p a q h
  | .lisp es, _ => by
    intro p a q h
    simp only [durMsWith] at h
    split at h
    · cases h; rfl
    · cases h; rfl
    · exact leafDur_keeps _ p a q h
  | .lispNil, _ => by intro p a q h; simp only [durMsWith] at h; cases h; rfl
  | .barline, _ => by intro p a q h; simp only [durMsWith] at h; cases h; rfl
  | .chord es, hn => by
    intro p a q h
    simp only [Steady] at hn
    simp only [durMsWith] at h
    split at h
    · cases h
    · rename_i m p' h1
      cases h
      exact dur_keepsC es hn none p m _ h1
  | .cram es d, _ => by
    intro p a q h
    simp only [durMsWith] at h
    split at h
    · cases h
    · cases h; rfl
  | .seq es, hn => by
    intro p a q h
    simp only [Steady] at hn
    simp only [durMsWith] at h
    exact dur_keepsL es hn 0 p a q h
  | .rep e n, hn => by simp only [Steady] at hn
  | .onReps rs e, hn => by
    intro p a q h
    simp only [Steady] at hn
    simp only [durMsWith] at h
    split at h
    · exact dur_keeps e hn p a q h
    · cases h; rfl
  | .voice n, hn => by simp only [Steady] at hn
  | .voiceEnd, hn => by simp only [Steady] at hn
  | .marker n, _ => by intro p a q h; simp only [durMsWith] at h; cases h; rfl
  | .atMarker n, _ => by intro p a q h; simp only [durMsWith] at h; cases h; rfl
  | .varDef n es, _ => by intro p a q h; simp only [durMsWith] at h; cases h; rfl
  | .varRef n, _ => by
    intro p a q h
    simp only [durMsWith] at h
    cases hn : vars n with
    | none => rw [hn] at h; cases h; rfl
    | some es => rw [hn] at h; exact hd es (hv n es hn) p a q h
  | .partDecl ns a, hn => by simp only [Steady] at hn
theorem dur_keepsL : ∀ (es : List Upd), SteadyL es → ∀ b, DKeeps (listDurMs vars deref b es)
  | [], _ => by intro b p a q h; simp only [listDurMs] at h; cases h; rfl
  | e :: es, hn => by
    intro b p a q h
    simp only [SteadyL] at hn
    simp only [listDurMs] at h
    split at h
    · cases h
    · rename_i x p' h1
      exact (dur_keepsL es hn.2 _ p' a q h).trans (dur_keeps e hn.1 p x p' h1)
theorem dur_keepsC : ∀ (es : List Upd), SteadyL es → ∀ b, DKeeps (chordDurMs vars deref b es)
  | [], _ => by intro b p a q h; simp only [chordDurMs] at h; cases h; rfl
  | e :: es, hn => by
    intro b p a q h
    simp only [SteadyL] at hn
    simp only [chordDurMs] at h
    split at h
    · cases h
    · rename_i x p' h1
      exact (dur_keepsC es hn.2 _ p' a q h).trans (dur_keeps e hn.1 p x p' h1)
end

theorem listDur_append : ∀ (es fs : List Upd) (a : Rat) (p : Part), listDurMs vars deref a (es ++ fs) p =
    match listDurMs vars deref a es p with
    | none => none
    | some (ms, q) => listDurMs vars deref ms fs q := by
  intro es fs
  induction es with
  | nil => intro a p; rfl
  | cons e es ih =>
    intro a p
    simp only [List.cons_append, listDurMs]
    cases durMsWith vars deref e p with
    | none => rfl
    | some x => exact ih _ _

mutual
theorem dur_resolve : ∀ (e : Upd), Steady e → ∀ (a : Rat) (p : Part), listDurMs vars deref a (resolve p.repetition e) p = listDurMs vars deref a [e] p
  | .onReps rs e, hn => by
    intro a p
    simp only [Steady] at hn
    simp only [resolve]
    have hr : (appliesTo rs p.repetition = true) ↔ InRanges rs p.repetition := by simp [appliesTo, InRanges]
    by_cases h : InRanges rs p.repetition
    · rw [if_pos h, dur_resolve e hn a p]
      simp only [listDurMs, durMsWith, hr.2 h, if_true]
    · rw [if_neg h]
      have h' : ¬ appliesTo rs p.repetition = true := fun x => h (hr.1 x)
      simp only [listDurMs, durMsWith, h']
      simp only [Bool.false_eq_true, if_false, Rat.add_zero]
  | .seq es, hn => by
    intro a p
    simp only [Steady] at hn
    simp only [resolve, listDurMs, durMsWith]
    rw [dur_resolveL es hn 0 p]
  | .cram es d, hn => by
    intro a p
    simp only [resolve, listDurMs, durMsWith]
  | .leaf _, _ | .lisp _, _ | .lispNil, _ | .barline, _ | .chord _, _ | .marker _, _ | .atMarker _, _ | .varDef _ _, _ | .varRef _, _ => by
    intro a p; simp only [resolve]
  | .rep _ _, hn | .voice _, hn | .voiceEnd, hn | .partDecl _ _, hn => by simp only [Steady] at hn
theorem dur_resolveL : ∀ (es : List Upd), SteadyL es → ∀ (a : Rat) (p : Part), listDurMs vars deref a (resolveL p.repetition es) p = listDurMs vars deref a es p
  | [], _ => by intro a p; simp only [resolveL]
  | e :: es, hn => by
    intro a p
    simp only [SteadyL] at hn
    simp only [resolveL]
    rw [listDur_append hv hd, dur_resolve e hn.1 a p]
    simp only [listDurMs]
    cases h : durMsWith vars deref e p with
    | none => rfl
    | some x =>
      simp only
      have := dur_keeps hv hd e hn.1 p x.1 x.2 h
      rw [← this]
      exact dur_resolveL es hn.2 _ _
end
end

theorem cramTimeScale_resolve {vars : String → Option (List Upd)} (hv : ∀ n es, vars n = some es → SteadyL es) (es : List Upd) (h : SteadyL es) (d : Dur)
    (p : Part) : cramTimeScale vars (resolveL p.repetition es) d p = cramTimeScale vars es d p := by
  unfold cramTimeScale eventsDurMs
  have := dur_resolveL (deref := durMs0 vars) hv (fun es h => dur_keepsL hv (fun _ _ p a q h => by cases h) es h 0) es h 0 p.clone
  rw [show p.clone.repetition = p.repetition from rfl] at this
  rw [this]

/-! ### Resolving endings -/

/-- One active part, on repetition `r`. -/
def OnRep (r : Int) (s : Score) : Prop := ∃ id, s.current = [id] ∧ (s.heap id).repetition = r

theorem OnRep.kept {r : Int} {s s' : Score} (h : OnRep r s) (k : Kept s s') : OnRep r s' := by
  obtain ⟨id, h1, h2⟩ := h
  exact ⟨id, k.current.trans h1, (k.rep id).trans h2⟩

theorem updListWith_append (deref : List Upd → Score → Out) (es fs : List Upd) (s : Score) :
    updListWith deref (es ++ fs) s = (updListWith deref es s).andThen (updListWith deref fs) := by
  induction es generalizing s with
  | nil => rfl
  | cons e es ih =>
    simp only [List.cons_append, updListWith]
    unfold Out.andThen
    cases h : (updWith deref e s).err with
    | none => simp only; exact ih _
    | some x => rfl

theorem andThen_ok (o : Out) : o.andThen Out.ok = o := by
  obtain ⟨e, s⟩ := o
  cases e <;> rfl

theorem andThen_ok' (o : Out) : (o.andThen fun x => Out.ok x) = o := andThen_ok o

theorem andThen_congr {o : Out} {k k' : Score → Out} (h : o.err = none → k o.s = k' o.s) : o.andThen k = o.andThen k' := by
  obtain ⟨e, s⟩ := o
  cases e with
  | none => exact h rfl
  | some e => rfl

section
variable {deref : List Upd → Score → Out} (hd : ∀ es, SteadyL es → Keeps (deref es))
include hd

mutual
theorem upd_resolve (r : Int) : ∀ (e : Upd), Steady e → ∀ s, VarsSteady s → OnRep r s → updListWith deref (resolve r e) s = updWith deref e s
  | .onReps rs e, hn => by
    intro s hv ho
    simp only [Steady] at hn
    obtain ⟨id, h1, h2⟩ := ho
    have hr : (appliesTo rs r = true) ↔ InRanges rs r := by simp [appliesTo, InRanges]
    have e1 : updWith deref (.onReps rs e) s = (onRepsAt rs (updWith deref e) 0 s).andThen Out.ok := by
      simp only [updWith]
      rw [h1]
      rfl
    rw [e1, andThen_ok]
    simp only [resolve, onRepsAt, h1, List.getElem?_cons_zero, h2]
    by_cases h : InRanges rs r
    · rw [if_pos h, hr.2 h, if_pos rfl]
      exact upd_resolve r e hn s hv ⟨id, h1, h2⟩
    · rw [if_neg h, if_neg (fun x => h (hr.1 x))]; rfl
  | .seq es, hn => by
    intro s hv ho
    simp only [Steady] at hn
    simp only [resolve, updListWith, updWith]
    rw [andThen_ok']
    exact upd_resolveL r es hn s hv ho
  | .cram es d, hn => by
    intro s hv ho
    simp only [Steady] at hn
    obtain ⟨id, h1, h2⟩ := ho
    simp only [resolve, updListWith, updWith]
    rw [andThen_ok', h1]
    have hs : forIds (cramScalePart s.vars (resolveL r es) d) [id] s = forIds (cramScalePart s.vars es d) [id] s := by
      simp only [forIds, cramScalePart]
      have := cramTimeScale_resolve (vars := s.vars) hv es hn d (s.heap id)
      rw [h2] at this
      rw [this]
    rw [hs]
    refine andThen_congr (fun _ => ?_)
    have hk : Kept s (forIds (cramScalePart s.vars es d) [id] s).s := by
      refine Keeps.forIds ?_ [id] s hv
      intro i s' _
      unfold cramScalePart
      split
      · exact .refl _
      · refine Kept.modOk ?_
        intro p; rfl
    rw [upd_resolveL r es hn _ (hk.vars hv) (OnRep.kept ⟨id, h1, h2⟩ hk)]
  | .leaf _, _ | .lisp _, _ | .lispNil, _ | .barline, _ | .chord _, _ | .marker _, _ | .atMarker _, _ | .varDef _ _, _ | .varRef _, _ => by
    intro s _ _
    simp only [resolve, updListWith]
    exact andThen_ok _
  | .rep _ _, hn | .voice _, hn | .voiceEnd, hn | .partDecl _ _, hn => by simp only [Steady] at hn
theorem upd_resolveL (r : Int) : ∀ (es : List Upd), SteadyL es → ∀ s, VarsSteady s → OnRep r s → updListWith deref (resolveL r es) s = updListWith deref es s
  | [], _ => by intro s _ _; simp only [resolveL]
  | e :: es, hn => by
    intro s hv ho
    simp only [SteadyL] at hn
    simp only [resolveL]
    rw [updListWith_append, upd_resolve r e hn.1 s hv ho]
    simp only [updListWith]
    refine andThen_congr (fun _ => ?_)
    have hk := upd_keeps hd e hn.1 s hv
    exact upd_resolveL r es hn.2 _ (hk.vars hv) (ho.kept hk)
end
end

mutual
theorem noEndings_resolve (r : Int) : ∀ (e : Upd), Endings e → NoEndingsL (resolve r e)
  | .onReps rs e, h => by
    simp only [Endings] at h
    simp only [resolve]
    split
    · exact noEndings_resolve r e h
    · simp only [NoEndingsL]
  | .seq es, h => by
    simp only [Endings] at h
    simp only [resolve, NoEndingsL, NoEndings, and_true]
    exact noEndings_resolveL r es h
  | .cram es d, h => by
    simp only [Endings] at h
    simp only [resolve, NoEndingsL, NoEndings, and_true]
    exact noEndings_resolveL r es h
  | .chord es, h => by simp only [Endings] at h; simp only [resolve, NoEndingsL, NoEndings, and_true]; exact h
  | .varDef n es, h => by simp only [Endings] at h; simp only [resolve, NoEndingsL, NoEndings, and_true]; exact h
  | .rep e n, h => by simp only [Endings] at h; simp only [resolve, NoEndingsL, NoEndings, and_true]; exact h
  | .leaf _, _ | .lisp _, _ | .lispNil, _ | .barline, _ | .marker _, _ | .atMarker _, _ | .varRef _, _ | .voice _, _ | .voiceEnd, _ | .partDecl _ _, _ => by
    simp only [resolve, NoEndingsL, NoEndings, and_true]
theorem noEndings_resolveL (r : Int) : ∀ (es : List Upd), EndingsL es → NoEndingsL (resolveL r es)
  | [], _ => by simp only [resolveL, NoEndingsL]
  | e :: es, h => by
    simp only [EndingsL] at h
    simp only [resolveL]
    exact noEndingsL_append _ _ (noEndings_resolve r e h.1) (noEndings_resolveL r es h.2)
theorem noEndingsL_append : ∀ (es fs : List Upd), NoEndingsL es → NoEndingsL fs → NoEndingsL (es ++ fs)
  | [], fs, _, h => by simpa using h
  | e :: es, fs, h, h' => by
    simp only [NoEndingsL] at h
    simp only [List.cons_append, NoEndingsL]
    exact ⟨h.1, noEndingsL_append es fs h.2 h'⟩
end

theorem steadyL_append : ∀ (es fs : List Upd), SteadyL es → SteadyL fs → SteadyL (es ++ fs)
  | [], fs, _, h => by simpa using h
  | e :: es, fs, h, h' => by
    simp only [SteadyL] at h
    simp only [List.cons_append, SteadyL]
    exact ⟨h.1, steadyL_append es fs h.2 h'⟩

/-- A repeat with numbered endings is the same as writing out each repetition with the endings that belong to it. -/
theorem rep_resolved {deref : List Upd → Score → Out} (hb : ∀ es, NoEndingsL es → Blind (deref es)) (hd : ∀ es, SteadyL es → Keeps (deref es)) (e : Upd)
    (he : Endings e) (hs : Steady e) : ∀ (k : Nat) (r : Int) (s : Score) (f : Nat → Int), RepVars s → VarsSteady s → s.current.length = 1 →
    RepSim (updListWith deref (unroll e k r) s) (repLoop (updWith deref e) k r (withRepetitions s f)) := by
  intro k
  induction k with
  | zero => intro r s f h _ _; simp only [unroll, updListWith, repLoop]; exact .refl f h
  | succ k ih =>
    intro r s f h hv hc
    simp only [unroll, repLoop]
    rw [updListWith_append]
    obtain ⟨id, hid⟩ := List.length_eq_one_iff.1 hc
    have e1 : (forIds (setRepetition r) (withRepetitions s f).current (withRepetitions s f)) = .ok (withRepetitions s (fun j => if j = id then r else f j)) := by
      rw [show (withRepetitions s f).current = s.current from rfl, hid]
      simp only [forIds, setRepetition]
      rw [withRepetitions_repetition]
      rfl
    rw [e1]
    show RepSim _ ((updWith deref e (withRepetitions s _)).andThen _)
    have ho : OnRep r (withRepetitions s (fun j => if j = id then r else f j)) := ⟨id, hid, by simp [withRepetitions]⟩
    rw [← upd_resolve hd r e hs (withRepetitions s (fun j => if j = id then r else f j)) hv ho]
    have hk := upd_keeps hd e hs (withRepetitions s (fun j => if j = id then r else f j)) hv
    rw [← upd_resolve hd r e hs (withRepetitions s (fun j => if j = id then r else f j)) hv ho] at hk
    have hb1 := upd_blindL hb (resolve r e) (noEndings_resolve r e he) s (fun j => if j = id then r else f j) h
    rcases h1 : updListWith deref (resolve r e) s with ⟨err, t⟩
    rcases h2 : updListWith deref (resolve r e) (withRepetitions s (fun j => if j = id then r else f j)) with ⟨err', t'⟩
    rw [h1, h2] at hb1
    rw [h2] at hk
    obtain ⟨b1, ⟨g, b2⟩, b3⟩ := hb1
    simp only at b1 b2
    subst b1; subst b2
    cases err' with
    | some x => exact ⟨rfl, ⟨g, rfl⟩, b3⟩
    | none =>
      refine ih (r + 1) t g b3 ?_ ?_
      · exact hk.vars hv
      · rw [show t.current = (withRepetitions t g).current from rfl, hk.current]; exact hc

end Alda
