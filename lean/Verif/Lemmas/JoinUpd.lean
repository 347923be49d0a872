import Verif.Lemmas.JoinEval
/-!
Updates that differ only in how their durations are written do the same to scores that differ only in that: compound events.
-/
namespace Alda

/-! ### Durations -/

/-- The results of asking for a duration. -/
inductive TwinD {α : Type} : Option (α × Part) → Option (α × Part) → Prop where
  | none : TwinD none none
  | some (x : α) {p p' : Part} (h : TwinP p p') : TwinD (some (x, p)) (some (x, p'))

/-- The variables have the same values. -/
def AkinV (v v' : String → Option (List Upd)) : Prop := ∀ n, AkinO (v n) (v' n)

theorem leafDurMs_twin {l l' : Leaf} (hl : AkinLeaf l l') {p p' : Part} (hp : TwinP p p') : TwinD (leafDurMs l p) (leafDurMs l' p') := by
  have ht := hp.fields.2.2.2.2.2.2.2.2
  cases hl with
  | note _ _ hd =>
    simp only [leafDurMs]
    rw [ht, ← (effectiveDuration_twin hd hp).ms]
    split
    · exact .none
    · exact .some _ (updateDefaultDuration_twin hd hp)
  | rest hd =>
    simp only [leafDurMs]
    rw [ht, ← (effectiveDuration_twin hd hp).ms]
    split
    · exact .none
    · exact .some _ (updateDefaultDuration_twin hd hp)
  | attr u => exact .some _ hp
  | globalAttr u => exact .some _ hp

theorem repDurMs_twin {f f' : Part → Option (Rat × Part)} (hf : ∀ p p', TwinP p p' → TwinD (f p) (f' p')) :
    ∀ (k : Nat) (r : Int) (acc : Rat) (p p' : Part), TwinP p p' → TwinD (repDurMs f k r acc p) (repDurMs f' k r acc p') := by
  intro k
  induction k with
  | zero => intro r acc p p' hp; exact .some _ hp
  | succ k ih =>
    intro r acc p p' hp
    simp only [repDurMs]
    have := hf _ _ (hp.mod (fun p => { p with repetition := r }) (fun _ _ => rfl) (fun _ => rfl))
    revert this
    generalize f _ = x, f' _ = y
    intro this
    cases this with
    | none => exact .none
    | some x h => exact ih _ _ _ _ h

mutual
theorem durMsWith_twin {v v' : String → Option (List Upd)} (hv : AkinV v v') {deref deref' : List Upd → Part → Option (Rat × Part)}
    (hd : ∀ es es' p p', AkinL es es' → TwinP p p' → TwinD (deref es p) (deref' es' p')) :
    ∀ (u u' : Upd) (p p' : Part), Akin u u' → TwinP p p' → TwinD (durMsWith v deref u p) (durMsWith v' deref' u' p')
  | .leaf l, u', p, p', h, hp => by
    simp only [Akin] at h; obtain ⟨l', rfl, h⟩ := h
    simp only [durMsWith]; exact leafDurMs_twin h hp
  | .lisp es, u', p, p', h, hp => by
    simp only [Akin] at h; subst h
    simp only [durMsWith]
    split
    · exact .some _ hp
    · exact .some _ hp
    · exact leafDurMs_twin (.refl _) hp
  | .chord es, u', p, p', h, hp => by
    simp only [Akin] at h; obtain ⟨es', rfl, h⟩ := h
    simp only [durMsWith]
    have := chordDurMs_twin hv hd none es es' p p' h hp
    revert this
    generalize chordDurMs v deref none es p = x, chordDurMs v' deref' none es' p' = y
    intro this
    cases this with
    | none => exact .none
    | some x h => exact .some _ h
  | .cram es d, u', p, p', h, hp => by
    simp only [Akin] at h; obtain ⟨es', d', rfl, h, hdd⟩ := h
    simp only [durMsWith]
    rw [hp.fields.2.2.2.2.2.2.2.2, ← (effectiveDuration_twin hdd hp).ms]
    split
    · exact .none
    · exact .some _ hp
  | .seq es, u', p, p', h, hp => by
    simp only [Akin] at h; obtain ⟨es', rfl, h⟩ := h
    simp only [durMsWith]; exact listDurMs_twin hv hd 0 es es' p p' h hp
  | .rep e n, u', p, p', h, hp => by
    simp only [Akin] at h; obtain ⟨e', rfl, h⟩ := h
    simp only [durMsWith]
    exact repDurMs_twin (fun p p' hp => durMsWith_twin hv hd e e' p p' h hp) _ _ _ _ _ hp
  | .onReps rs e, u', p, p', h, hp => by
    simp only [Akin] at h; obtain ⟨e', rfl, h⟩ := h
    simp only [durMsWith, hp.fields.2.2.2.2.2.2.1]
    split
    · exact durMsWith_twin hv hd e e' p p' h hp
    · exact .some _ hp
  | .varRef n, u', p, p', h, hp => by
    simp only [Akin] at h; subst h
    simp only [durMsWith]
    have := hv n
    revert this
    generalize v n = x, v' n = y
    intro this
    cases x with
    | none => simp only [AkinO] at this; subst this; exact .some _ hp
    | some es => simp only [AkinO] at this; obtain ⟨es', rfl, h⟩ := this; exact hd _ _ _ _ h hp
  | .varDef n es, u', p, p', h, hp => by
    simp only [Akin] at h; obtain ⟨es', rfl, h⟩ := h
    simp only [durMsWith]; exact .some _ hp
  | .lispNil, u', p, p', h, hp | .barline, u', p, p', h, hp | .voice _, u', p, p', h, hp | .voiceEnd, u', p, p', h, hp | .marker _, u', p, p', h, hp
  | .atMarker _, u', p, p', h, hp | .partDecl _ _, u', p, p', h, hp => by simp only [Akin] at h; subst h; simp only [durMsWith]; exact .some _ hp
theorem listDurMs_twin {v v' : String → Option (List Upd)} (hv : AkinV v v') {deref deref' : List Upd → Part → Option (Rat × Part)}
    (hd : ∀ es es' p p', AkinL es es' → TwinP p p' → TwinD (deref es p) (deref' es' p')) (acc : Rat) :
    ∀ (us us' : List Upd) (p p' : Part), AkinL us us' → TwinP p p' → TwinD (listDurMs v deref acc us p) (listDurMs v' deref' acc us' p')
  | [], us', p, p', h, hp => by simp only [AkinL] at h; subst h; simp only [listDurMs]; exact .some _ hp
  | e :: es, us', p, p', h, hp => by
    simp only [AkinL] at h; obtain ⟨e', es', rfl, h1, h2⟩ := h
    simp only [listDurMs]
    have := durMsWith_twin hv hd e e' p p' h1 hp
    revert this
    generalize durMsWith v deref e p = x, durMsWith v' deref' e' p' = y
    intro this
    cases this with
    | none => exact .none
    | some x h => exact listDurMs_twin hv hd _ es es' _ _ h2 h
theorem chordDurMs_twin {v v' : String → Option (List Upd)} (hv : AkinV v v') {deref deref' : List Upd → Part → Option (Rat × Part)}
    (hd : ∀ es es' p p', AkinL es es' → TwinP p p' → TwinD (deref es p) (deref' es' p')) (m : Option Rat) :
    ∀ (us us' : List Upd) (p p' : Part), AkinL us us' → TwinP p p' → TwinD (chordDurMs v deref m us p) (chordDurMs v' deref' m us' p')
  | [], us', p, p', h, hp => by simp only [AkinL] at h; subst h; simp only [chordDurMs]; exact .some _ hp
  | e :: es, us', p, p', h, hp => by
    simp only [AkinL] at h; obtain ⟨e', es', rfl, h1, h2⟩ := h
    simp only [chordDurMs]
    have := durMsWith_twin hv hd e e' p p' h1 hp
    revert this
    generalize durMsWith v deref e p = x, durMsWith v' deref' e' p' = y
    intro this
    cases this with
    | none => exact .none
    | some x h => exact chordDurMs_twin hv hd _ es es' _ _ h2 h
end

theorem eventsDurMs_twin {v v' : String → Option (List Upd)} (hv : AkinV v v') {es es' : List Upd} (h : AkinL es es') {p p' : Part} (hp : TwinP p p') :
    TwinD (eventsDurMs v es p) (eventsDurMs v' es' p') := by
  refine listDurMs_twin hv ?_ 0 es es' p p' h hp
  intro es es' p p' h hp
  exact listDurMs_twin hv (fun _ _ _ _ _ _ => .none) 0 es es' p p' h hp

/-! ### Variables -/

/-- The results of evaluating for a variable. -/
inductive TwinV {α : Type} (R : α → α → Prop) : Except Err α → Except Err α → Prop where
  | error (e : Err) : TwinV R (.error e) (.error e)
  | ok {x y : α} (h : R x y) : TwinV R (.ok x) (.ok y)

mutual
theorem varValue_twin {v v' : String → Option (List Upd)} (hv : AkinV v v') : ∀ (u u' : Upd), Akin u u' → TwinV Akin (varValue v u) (varValue v' u')
  | .leaf l, u', h => by
    have h0 := h
    simp only [Akin] at h; obtain ⟨l', rfl, h⟩ := h
    simp only [varValue]; exact .ok h0
  | .lisp es, u', h => by
    simp only [Akin] at h; subst h
    simp only [varValue]
    split
    · exact .error _
    · exact .ok (.refl _)
    · exact .ok (.refl _)
  | .chord es, u', h => by
    simp only [Akin] at h; obtain ⟨es', rfl, h⟩ := h
    simp only [varValue]
    have := varValues_twin hv es es' h
    revert this
    generalize varValues v es = x, varValues v' es' = y
    intro this
    cases this with
    | error e => exact .error e
    | ok h => refine .ok ?_; simp only [Akin]; exact ⟨_, rfl, h⟩
  | .cram es d, u', h => by
    simp only [Akin] at h; obtain ⟨es', d', rfl, h, hd⟩ := h
    simp only [varValue]
    have := varValues_twin hv es es' h
    revert this
    generalize varValues v es = x, varValues v' es' = y
    intro this
    cases this with
    | error e => exact .error e
    | ok h => refine .ok ?_; simp only [Akin]; exact ⟨_, _, rfl, h, hd⟩
  | .seq es, u', h => by
    simp only [Akin] at h; obtain ⟨es', rfl, h⟩ := h
    simp only [varValue]
    have := varValues_twin hv es es' h
    revert this
    generalize varValues v es = x, varValues v' es' = y
    intro this
    cases this with
    | error e => exact .error e
    | ok h => refine .ok ?_; simp only [Akin]; exact ⟨_, rfl, h⟩
  | .varDef n es, u', h => by
    simp only [Akin] at h; obtain ⟨es', rfl, h⟩ := h
    simp only [varValue]
    have := varValues_twin hv es es' h
    revert this
    generalize varValues v es = x, varValues v' es' = y
    intro this
    cases this with
    | error e => exact .error e
    | ok h => refine .ok ?_; simp only [Akin]; exact ⟨_, rfl, h⟩
  | .rep e n, u', h => by
    simp only [Akin] at h; obtain ⟨e', rfl, h⟩ := h
    simp only [varValue]
    have := varValue_twin hv e e' h
    revert this
    generalize varValue v e = x, varValue v' e' = y
    intro this
    cases this with
    | error e => exact .error e
    | ok h => refine .ok ?_; simp only [Akin]; exact ⟨_, rfl, h⟩
  | .onReps rs e, u', h => by
    simp only [Akin] at h; obtain ⟨e', rfl, h⟩ := h
    simp only [varValue]
    have := varValue_twin hv e e' h
    revert this
    generalize varValue v e = x, varValue v' e' = y
    intro this
    cases this with
    | error e => exact .error e
    | ok h => refine .ok ?_; simp only [Akin]; exact ⟨_, rfl, h⟩
  | .varRef n, u', h => by
    simp only [Akin] at h; subst h
    simp only [varValue]
    have := hv n
    revert this
    generalize v n = x, v' n = y
    intro this
    cases x with
    | none => simp only [AkinO] at this; subst this; exact .error _
    | some es => simp only [AkinO] at this; obtain ⟨es', rfl, h⟩ := this; refine .ok ?_; simp only [Akin]; exact ⟨_, rfl, h⟩
  | .partDecl _ _, u', h => by simp only [Akin] at h; subst h; simp only [varValue]; exact .error _
  | .lispNil, u', h | .barline, u', h | .voice _, u', h | .voiceEnd, u', h | .marker _, u', h
  | .atMarker _, u', h => by simp only [Akin] at h; subst h; simp only [varValue]; exact .ok (.refl _)
theorem varValues_twin {v v' : String → Option (List Upd)} (hv : AkinV v v') : ∀ (us us' : List Upd), AkinL us us' → TwinV AkinL (varValues v us) (varValues v' us')
  | [], us', h => by simp only [AkinL] at h; subst h; simp only [varValues]; exact .ok (.refl _)
  | e :: es, us', h => by
    simp only [AkinL] at h; obtain ⟨e', es', rfl, h1, h2⟩ := h
    simp only [varValues]
    have k1 := varValue_twin hv e e' h1
    have k2 := varValues_twin hv es es' h2
    revert k1 k2
    generalize varValue v e = x, varValue v' e' = y, varValues v es = z, varValues v' es' = w
    intro k1 k2
    cases k1 with
    | error e => exact .error e
    | ok h =>
      cases k2 with
      | error e => exact .error e
      | ok k => refine .ok ?_; simp only [AkinL]; exact ⟨_, _, rfl, h, k⟩
end

theorem Twin.vars {s s' : Score} (h : Twin s s') : AkinV s.vars s'.vars := by
  obtain ⟨f, v, es, rfl, _, h, _⟩ := h; exact h

theorem varDefUpd_twin (n : String) {es es' : List Upd} (he : AkinL es es') {s s' : Score} (h : Twin s s') : TwinO (varDefUpd n es s) (varDefUpd n es' s') := by
  unfold varDefUpd
  have := varValues_twin h.vars es es' he
  revert this
  generalize varValues s.vars es = x, varValues s'.vars es' = y
  intro this
  cases this with
  | error e => exact .fail h e
  | ok k =>
    obtain ⟨f, v, es, rfl, k1, k2, k3⟩ := h
    refine .ok ⟨f, _, es, rfl, k1, ?_, k3⟩
    intro m
    simp only
    split
    · simp only [AkinO]; exact ⟨_, rfl, k⟩
    · exact k2 m

/-! ### Compound events -/

theorem shortestLoop_twin {s s' : Score} (h : Twin s s') {d d' : Dur} (hd : SameDur d d') : ∀ (l : List Nat) (m : Shortest), shortestLoop s' d' l m = shortestLoop s d l m := by
  intro l
  induction l with
  | nil => intro m; rfl
  | cons i l ih =>
    intro m
    have hp := h.part i
    simp only [shortestLoop]
    rw [hp.fields.2.2.2.2.2.2.2.2, hp.fields.2.2.2.2.2.2.2.1, ← (effectiveDuration_twin hd hp).ms]
    split
    · rfl
    · exact ih _

theorem specifiedDuration_twin {u u' : Upd} (h : Akin u u') : SameDur (specifiedDuration u) (specifiedDuration u') := by
  cases u with
  | leaf l =>
    simp only [Akin] at h; obtain ⟨l', rfl, h⟩ := h
    cases h with
    | note _ _ h => exact h
    | rest h => exact h
    | attr u => exact .refl _
    | globalAttr u => exact .refl _
  | chord es => simp only [Akin] at h; obtain ⟨_, rfl, _⟩ := h; exact .refl _
  | cram es d => simp only [Akin] at h; obtain ⟨_, _, rfl, _⟩ := h; exact .refl _
  | seq es => simp only [Akin] at h; obtain ⟨_, rfl, _⟩ := h; exact .refl _
  | rep e n => simp only [Akin] at h; obtain ⟨_, rfl, _⟩ := h; exact .refl _
  | onReps rs e => simp only [Akin] at h; obtain ⟨_, rfl, _⟩ := h; exact .refl _
  | varDef n es => simp only [Akin] at h; obtain ⟨_, rfl, _⟩ := h; exact .refl _
  | _ => simp only [Akin] at h; subst h; exact .refl _

theorem chordAdvance_twin (m : Shortest) (i : Nat) (s s' : Score) (h : Twin s s') : TwinO (chordAdvance m i s) (chordAdvance m i s') :=
  .ok (h.mod i (fun _ _ hp => hp.mod (fun p => { p with lastOffset := p.offset, offset := p.offset + _ }) (fun _ _ => rfl) (fun _ => rfl)))

theorem cramTimeScale_twin {v v' : String → Option (List Upd)} (hv : AkinV v v') {es es' : List Upd} (he : AkinL es es') {d d' : Dur} (hd : SameDur d d')
    {p p' : Part} (hp : TwinP p p') : cramTimeScale v' es' d' p' = cramTimeScale v es d p := by
  unfold cramTimeScale
  rw [hp.fields.2.2.2.2.2.2.2.2, hp.fields.2.2.2.2.2.2.2.1, ← (effectiveDuration_twin hd hp).ms]
  split
  · rfl
  · have := eventsDurMs_twin hv he (clone_twin hp)
    revert this
    generalize eventsDurMs v es _ = x, eventsDurMs v' es' _ = y
    intro this
    cases this with
    | none => rfl
    | some x h => rfl

theorem cramScalePart_twin {v v' : String → Option (List Upd)} (hv : AkinV v v') {es es' : List Upd} (he : AkinL es es') {d d' : Dur} (hd : SameDur d d')
    (i : Nat) (s s' : Score) (h : Twin s s') : TwinO (cramScalePart v es d i s) (cramScalePart v' es' d' i s') := by
  unfold cramScalePart
  rw [cramTimeScale_twin hv he hd (h.part i)]
  split
  · exact .fail h _
  · exact .ok (h.mod i (fun p p' hp => hp.mod (fun p => { p with timeScale := _ })  (fun _ _ => rfl) (fun _ => rfl)))

theorem cramRestorePart_twin {old old' : Nat → Part} (ho : ∀ i, TwinP (old i) (old' i)) (ids : List Nat) {d d' : Dur} (hd : SameDur d d')
    (i : Nat) (s s' : Score) (h : Twin s s') : TwinO (cramRestorePart old ids d i s) (cramRestorePart old' ids d' i s') := by
  unfold cramRestorePart
  refine .ok (h.mod i ?_)
  intro p p' hp
  obtain ⟨e, rfl, _⟩ := hp
  have ht := (ho i).fields.2.2.2.2.2.2.2.1
  rw [ht]
  cases d with
  | nil =>
    have e' := hd.nil.mp rfl
    clear hd
    subst e'
    refine ⟨_, rfl, ?_⟩
    simp only
    split
    · obtain ⟨e, h1, h2⟩ := ho i; rw [h1]; exact h2
    · exact .refl _
  | cons c cs =>
    cases d' with
    | nil => have := hd.nil.mpr rfl; simp at this
    | cons c' cs' => exact ⟨c' :: cs', rfl, hd⟩

theorem repLoop_twin {b b' : Score → Out} (hb : ∀ s s', Twin s s' → TwinO (b s) (b' s')) : ∀ (k : Nat) (r : Int) (s s' : Score), Twin s s' →
    TwinO (repLoop b k r s) (repLoop b' k r s') := by
  intro k
  induction k with
  | zero => intro r s s' h; exact .ok h
  | succ k ih =>
    intro r s s' h
    simp only [repLoop]
    refine TwinO.andThen (TwinO.forCurrent (fun i s s' h => ?_) h) (fun s s' h => (hb s s' h).andThen (ih (r + 1)))
    exact .ok (h.mod i (fun p p' hp => hp.mod (fun p => { p with repetition := r }) (fun _ _ => rfl) (fun _ => rfl)))

theorem onRepsAt_twin (rs : List (Int × Int)) {b b' : Score → Out} (hb : ∀ s s', Twin s s' → TwinO (b s) (b' s')) (i : Nat) (s s' : Score) (h : Twin s s') :
    TwinO (onRepsAt rs b i s) (onRepsAt rs b' i s') := by
  unfold onRepsAt
  rw [h.current]
  split
  · exact .ok h
  · rw [(h.part _).fields.2.2.2.2.2.2.1]
    split
    · exact hb s s' h
    · exact .ok h

theorem Twin.setChord {s s' : Score} (h : Twin s s') (b : Bool) : Twin { s with chordMode := b } { s' with chordMode := b } := by
  obtain ⟨f, v, es, rfl, k1, k2, k3⟩ := h
  exact ⟨f, v, es, rfl, k1, k2, k3⟩

mutual
theorem updWith_twin {deref deref' : List Upd → Score → Out} (hd : ∀ es es' s s', AkinL es es' → Twin s s' → TwinO (deref es s) (deref' es' s')) :
    ∀ (u u' : Upd) (s s' : Score), Akin u u' → Twin s s' → TwinO (updWith deref u s) (updWith deref' u' s')
  | .leaf l, u', s, s', h, hs => by
    simp only [Akin] at h; obtain ⟨l', rfl, h⟩ := h
    simp only [updWith]; exact leafUpd_twin h hs
  | .lisp es, u', s, s', h, hs => by
    simp only [Akin] at h; subst h
    simp only [updWith]
    split
    · exact .fail hs _
    · exact .ok hs
    · exact leafUpd_twin (.refl _) hs
  | .lispNil, u', s, s', h, hs => by simp only [Akin] at h; subst h; simp only [updWith]; exact .ok hs
  | .barline, u', s, s', h, hs => by simp only [Akin] at h; subst h; simp only [updWith]; exact .ok hs
  | .chord es, u', s, s', h, hs => by
    simp only [Akin] at h; obtain ⟨es', rfl, h⟩ := h
    simp only [updWith]
    refine (applyGlobals_twin hs).andThen ?_
    intro s s' hs
    have hm : (fun i => if s'.current.contains i then none else some 0 : Shortest) = (fun i => if s.current.contains i then none else some 0) := by rw [hs.current]
    rw [hm]
    generalize (fun i => if s.current.contains i then none else some 0 : Shortest) = m0
    have hc := chordEvents_twin hd es es' m0 _ _ h (hs.setChord true)
    rw [hc.2]
    refine TwinO.andThen hc.1 ?_
    intro t t' ht
    have := TwinO.forCurrent (chordAdvance_twin (chordEvents deref es m0 { s with chordMode := true }).shortest) (ht.setChord false)
    exact this
  | .cram es d, u', s, s', h, hs => by
    simp only [Akin] at h; obtain ⟨es', d', rfl, h, hdd⟩ := h
    simp only [updWith]
    refine TwinO.andThen (TwinO.forCurrent (cramScalePart_twin hs.vars h hdd) hs) ?_
    intro t t' ht
    refine (updListWith_twin hd es es' t t' h ht).andThen ?_
    intro t t' ht
    rw [hs.current]
    exact TwinO.forCurrent (cramRestorePart_twin hs.part _ hdd) ht
  | .seq es, u', s, s', h, hs => by
    simp only [Akin] at h; obtain ⟨es', rfl, h⟩ := h
    simp only [updWith]; exact updListWith_twin hd es es' s s' h hs
  | .rep e n, u', s, s', h, hs => by
    simp only [Akin] at h; obtain ⟨e', rfl, h⟩ := h
    simp only [updWith]
    exact repLoop_twin (fun s s' hs => updWith_twin hd e e' s s' h hs) _ _ _ _ hs
  | .onReps rs e, u', s, s', h, hs => by
    simp only [Akin] at h; obtain ⟨e', rfl, h⟩ := h
    simp only [updWith, hs.current]
    exact TwinO.forIds (onRepsAt_twin rs (fun s s' hs => updWith_twin hd e e' s s' h hs)) _ _ _ hs
  | .voice n, u', s, s', h, hs => by simp only [Akin] at h; subst h; simp only [updWith]; exact voiceUpd_twin n hs
  | .voiceEnd, u', s, s', h, hs => by simp only [Akin] at h; subst h; simp only [updWith]; exact voiceEndUpd_twin hs
  | .marker n, u', s, s', h, hs => by simp only [Akin] at h; subst h; simp only [updWith]; exact markerUpd_twin n hs
  | .atMarker n, u', s, s', h, hs => by simp only [Akin] at h; subst h; simp only [updWith]; exact atMarkerUpd_twin n hs
  | .varDef n es, u', s, s', h, hs => by
    simp only [Akin] at h; obtain ⟨es', rfl, h⟩ := h
    simp only [updWith]; exact varDefUpd_twin n h hs
  | .varRef n, u', s, s', h, hs => by
    simp only [Akin] at h; subst h
    simp only [updWith]
    have := hs.vars n
    revert this
    generalize s.vars n = x, s'.vars n = y
    intro this
    cases x with
    | none => simp only [AkinO] at this; subst this; exact .fail hs _
    | some es => simp only [AkinO] at this; obtain ⟨es', rfl, h⟩ := this; exact hd _ _ _ _ h hs
  | .partDecl ns a, u', s, s', h, hs => by simp only [Akin] at h; subst h; simp only [updWith]; exact partDeclUpd_twin ns a hs
theorem updListWith_twin {deref deref' : List Upd → Score → Out} (hd : ∀ es es' s s', AkinL es es' → Twin s s' → TwinO (deref es s) (deref' es' s')) :
    ∀ (us us' : List Upd) (s s' : Score), AkinL us us' → Twin s s' → TwinO (updListWith deref us s) (updListWith deref' us' s')
  | [], us', s, s', h, hs => by simp only [AkinL] at h; subst h; simp only [updListWith]; exact .ok hs
  | e :: es, us', s, s', h, hs => by
    simp only [AkinL] at h; obtain ⟨e', es', rfl, h1, h2⟩ := h
    simp only [updListWith]
    exact (updWith_twin hd e e' s s' h1 hs).andThen (fun s s' hs => updListWith_twin hd es es' s s' h2 hs)
theorem chordEvents_twin {deref deref' : List Upd → Score → Out} (hd : ∀ es es' s s', AkinL es es' → Twin s s' → TwinO (deref es s) (deref' es' s')) :
    ∀ (us us' : List Upd) (m : Shortest) (s s' : Score), AkinL us us' → Twin s s' →
      TwinO (chordEvents deref us m s).out (chordEvents deref' us' m s').out ∧ (chordEvents deref' us' m s').shortest = (chordEvents deref us m s).shortest
  | [], us', m, s, s', h, hs => by simp only [AkinL] at h; subst h; simp only [chordEvents]; exact ⟨.ok hs, trivial⟩
  | e :: es, us', m, s, s', h, hs => by
    simp only [AkinL] at h; obtain ⟨e', es', rfl, h1, h2⟩ := h
    simp only [chordEvents]
    rw [hs.current, shortestLoop_twin hs (specifiedDuration_twin h1)]
    split
    · exact ⟨.fail hs _, rfl⟩
    · rename_i m1 _
      have k := updWith_twin hd e e' s s' h1 hs
      revert k
      generalize updWith deref e s = x, updWith deref' e' s' = y
      obtain ⟨x1, x2⟩ := x
      obtain ⟨y1, y2⟩ := y
      rintro ⟨e, ht⟩
      simp only at e ht
      subst e
      cases y1 with
      | some e => exact ⟨.fail ht e, rfl⟩
      | none => exact chordEvents_twin hd es es' m1 x2 y2 h2 ht
end

/-- Updates that differ in the writing of durations do the same. -/
theorem update_twin {us us' : List Upd} (h : AkinL us us') {s s' : Score} (hs : Twin s s') : TwinO (update us s) (update us' s') := by
  refine updListWith_twin ?_ us us' s s' h hs
  intro es es' s s' h hs
  exact updListWith_twin (fun _ _ s s' _ hs => .fail hs _) es es' s s' h hs

end Alda
