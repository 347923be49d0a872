import Verif.Lemmas.Interp
import Verif.Spec.Variables
/-!
Events without references do not depend on the variables; stored values behave like the events with references replaced.
-/
namespace Alda
open Spec

/-! ### Events without references -/

theorem repDurMs_congr {f g : Part → Option (Rat × Part)} (h : f = g) : repDurMs f = repDurMs g := by rw [h]

section
variable (v1 v2 : String → Option (List Upd)) (d1 d2 : List Upd → Part → Option (Rat × Part))

mutual
theorem plain_dur : ∀ (e : Upd), Plain e → ∀ p, durMsWith v1 d1 e p = durMsWith v2 d2 e p
  | .leaf l, _, p => by simp only [durMsWith]
  | .lisp es, h, p => h.elim
  | .lispNil, _, p => by simp only [durMsWith]
  | .barline, _, p => by simp only [durMsWith]
  | .chord es, h, p => by simp only [durMsWith]; rw [plain_durC es h]
  | .cram es d, _, p => by simp only [durMsWith]
  | .seq es, h, p => by simp only [durMsWith]; exact plain_durL es h 0 p
  | .rep e n, h, p => by
    simp only [durMsWith]
    rw [show durMsWith v1 d1 e = durMsWith v2 d2 e from funext (plain_dur e h)]
  | .onReps rs e, h, p => by simp only [durMsWith]; rw [plain_dur e h]
  | .voice n, _, p => by simp only [durMsWith]
  | .voiceEnd, _, p => by simp only [durMsWith]
  | .marker n, _, p => by simp only [durMsWith]
  | .atMarker n, _, p => by simp only [durMsWith]
  | .varDef n es, _, p => by simp only [durMsWith]
  | .varRef n, h, p => h.elim
  | .partDecl ns a, h, p => h.elim
theorem plain_durL : ∀ (es : List Upd), PlainL es → ∀ a p, listDurMs v1 d1 a es p = listDurMs v2 d2 a es p
  | [], _, a, p => by simp only [listDurMs]
  | e :: es, h, a, p => by
    simp only [listDurMs]
    rw [plain_dur e h.1]
    cases durMsWith v2 d2 e p with
    | none => rfl
    | some x => exact plain_durL es h.2 _ _
theorem plain_durC : ∀ (es : List Upd), PlainL es → ∀ a p, chordDurMs v1 d1 a es p = chordDurMs v2 d2 a es p
  | [], _, a, p => by simp only [chordDurMs]
  | e :: es, h, a, p => by
    simp only [chordDurMs]
    rw [plain_dur e h.1]
    cases durMsWith v2 d2 e p with
    | none => rfl
    | some x => exact plain_durC es h.2 _ _
end
end

theorem plain_timeScale (v1 v2 : String → Option (List Upd)) (es : List Upd) (h : PlainL es) (d : Dur) (p : Part) :
    cramTimeScale v1 es d p = cramTimeScale v2 es d p := by
  unfold cramTimeScale eventsDurMs
  rw [plain_durL v1 v2 (durMs0 v1) (durMs0 v2) es h]

section
variable (v1 v2 : String → Option (List Upd))

mutual
theorem plain_value : ∀ (e : Upd), Plain e → varValue v1 e = varValue v2 e
  | .leaf l, _ => by simp only [varValue]
  | .lisp es, h => h.elim
  | .lispNil, _ => by simp only [varValue]
  | .barline, _ => by simp only [varValue]
  | .chord es, h => by simp only [varValue]; rw [plain_values es h]
  | .cram es d, h => by simp only [varValue]; rw [plain_values es h]
  | .seq es, h => by simp only [varValue]; rw [plain_values es h]
  | .rep e n, h => by simp only [varValue]; rw [plain_value e h]
  | .onReps rs e, h => by simp only [varValue]; rw [plain_value e h]
  | .voice n, _ => by simp only [varValue]
  | .voiceEnd, _ => by simp only [varValue]
  | .marker n, _ => by simp only [varValue]
  | .atMarker n, _ => by simp only [varValue]
  | .varDef n es, h => by simp only [varValue]; rw [plain_values es h]
  | .varRef n, h => h.elim
  | .partDecl ns a, h => h.elim
theorem plain_values : ∀ (es : List Upd), PlainL es → varValues v1 es = varValues v2 es
  | [], _ => by simp only [varValues]
  | e :: es, h => by simp only [varValues]; rw [plain_value e h.1, plain_values es h.2]
end
end

section
variable (d1 d2 : List Upd → Score → Out)

mutual
theorem plain_deref : ∀ (e : Upd), Plain e → ∀ s, updWith d1 e s = updWith d2 e s
  | .leaf l, _, s => by simp only [updWith]
  | .lisp es, h, s => h.elim
  | .lispNil, _, s => by simp only [updWith]
  | .barline, _, s => by simp only [updWith]
  | .chord es, h, s => by
    simp only [updWith]
    congr 1
    funext s
    rw [plain_derefC es h]
  | .cram es d, h, s => by
    simp only [updWith]
    congr 1
    funext s
    rw [plain_derefL es h]
  | .seq es, h, s => by simp only [updWith]; exact plain_derefL es h s
  | .rep e n, h, s => by
    simp only [updWith]
    rw [show updWith d1 e = updWith d2 e from funext (plain_deref e h)]
  | .onReps rs e, h, s => by
    simp only [updWith]
    rw [show updWith d1 e = updWith d2 e from funext (plain_deref e h)]
  | .voice n, _, s => by simp only [updWith]
  | .voiceEnd, _, s => by simp only [updWith]
  | .marker n, _, s => by simp only [updWith]
  | .atMarker n, _, s => by simp only [updWith]
  | .varDef n es, _, s => by simp only [updWith]
  | .varRef n, h, s => h.elim
  | .partDecl ns a, h, s => h.elim
theorem plain_derefL : ∀ (es : List Upd), PlainL es → ∀ s, updListWith d1 es s = updListWith d2 es s
  | [], _, s => by simp only [updListWith]
  | e :: es, h, s => by
    simp only [updListWith]
    rw [plain_deref e h.1, show updListWith d1 es = updListWith d2 es from funext (plain_derefL es h.2)]
theorem plain_derefC : ∀ (es : List Upd), PlainL es → ∀ m s, chordEvents d1 es m s = chordEvents d2 es m s
  | [], _, m, s => by simp only [chordEvents]
  | e :: es, h, m, s => by
    simp only [chordEvents]
    rw [plain_deref e h.1]
    split
    · rfl
    · split
      · rfl
      · exact plain_derefC es h.2 _ _
end
end

/-! ### References are followed only once -/

section
variable {d1 d2 : List Upd → Score → Out} (hd : ∀ es, PlainL es → d1 es = d2 es) (hs : ∀ es s, PlainL es → Good (fun _ => True) True s → Good (fun _ => True) True (d2 es s).s)
include hd hs

/-- If two interpreters agree on scores with plain variables. -/
def AgreeOn (g1 g2 : Score → Out) : Prop := ∀ s, Good (fun _ => True) True s → g1 s = g2 s ∧ Good (fun _ => True) True (g2 s).s

omit hd hs in
theorem AgreeOn.andThen {o : Out} {k1 k2 : Score → Out} (ho : Good (fun _ => True) True o.s) (h : AgreeOn k1 k2) :
    o.andThen k1 = o.andThen k2 ∧ Good (fun _ => True) True (o.andThen k2).s := by
  obtain ⟨e, s⟩ := o
  cases e with
  | none => exact h s ho
  | some e => exact ⟨rfl, ho⟩

omit hd hs in
theorem AgreeOn.forIds {g1 g2 : Nat → Score → Out} (h : ∀ i, AgreeOn (g1 i) (g2 i)) : ∀ l, AgreeOn (forIds g1 l) (forIds g2 l) := by
  intro l
  induction l with
  | nil => intro s hs; exact ⟨rfl, hs⟩
  | cons i l ih =>
    intro s hs
    simp only [Alda.forIds]
    rw [(h i s hs).1]
    exact AgreeOn.andThen (h i s hs).2 ih

omit hd hs in
theorem AgreeOn.rep {g1 g2 : Score → Out} (h : AgreeOn g1 g2) : ∀ k r, AgreeOn (repLoop g1 k r) (repLoop g2 k r) := by
  intro k
  induction k with
  | zero => intro r s hs; exact ⟨rfl, hs⟩
  | succ k ih =>
    intro r s hs
    simp only [repLoop]
    refine AgreeOn.andThen ?_ ?_
    · refine (repLoop_steps (L := fun _ => True) (D := True) (fun s => .ok s) (fun s _ => .refl s) 1 r s hs).good hs |> fun x => ?_
      have : repLoop (fun s => .ok s) 1 r s = (Alda.forIds (setRepetition r) s.current s) := by
        simp only [repLoop]
        rw [show (fun s => (Out.ok s).andThen fun s => Out.ok s) = Out.ok from rfl]
        generalize Alda.forIds (setRepetition r) s.current s = o
        obtain ⟨e, t⟩ := o
        cases e <;> rfl
      rw [this] at x
      exact x
    · intro t ht
      simp only
      rw [(h t ht).1]
      exact AgreeOn.andThen (h t ht).2 (ih (r + 1))

omit hd hs in
theorem Good.chord {s : Score} (b : Bool) (h : Good (fun _ => True) True s) : Good (fun _ => True) True { s with chordMode := b } :=
  (Step.chordMode (L := fun _ => True) (D := True) b).good h

mutual
theorem agree : ∀ (e : Upd), AgreeOn (updWith d1 e) (updWith d2 e)
  | .leaf l => by intro s g; simp only [updWith]; exact ⟨trivial, (leafUpd_steps l trivial s).good g⟩
  | .lisp es => by
    intro s g
    simp only [updWith]
    refine ⟨trivial, ?_⟩
    split
    · exact g
    · exact g
    · exact (leafUpd_steps _ trivial s).good g
  | .lispNil => by intro s g; simp only [updWith]; exact ⟨trivial, g⟩
  | .barline => by intro s g; simp only [updWith]; exact ⟨trivial, g⟩
  | .chord es => by
    intro s g
    simp only [updWith]
    refine AgreeOn.andThen ((applyGlobals_steps s).good g) ?_
    intro s g
    have h := agreeC es (fun i => if s.current.contains i then none else some 0) _ (g.chord true)
    simp only
    rw [h.1]
    refine AgreeOn.andThen h.2 ?_
    intro s g
    exact ⟨rfl, (chordAdvance_steps _ { s with chordMode := false }).good (g.chord false)⟩
  | .cram es d => by
    intro s g
    simp only [updWith]
    refine AgreeOn.andThen ((cramScale_steps _ es d s).good g) ?_
    intro t g
    simp only
    rw [(agreeL es t g).1]
    refine AgreeOn.andThen (agreeL es t g).2 ?_
    intro u g
    exact ⟨rfl, (cramRestore_steps _ _ d u).good g⟩
  | .seq es => by intro s g; simp only [updWith]; exact agreeL es s g
  | .rep e n => by intro s g; simp only [updWith]; exact AgreeOn.rep (agree e) _ _ s g
  | .onReps rs e => by
    intro s g
    simp only [updWith]
    refine AgreeOn.forIds ?_ _ s g
    intro i s g
    unfold onRepsAt
    split
    · exact ⟨rfl, g⟩
    · split
      · exact agree e s g
      · exact ⟨rfl, g⟩
  | .voice n => by intro s g; simp only [updWith]; exact ⟨trivial, (voiceUpd_steps n s g).good g⟩
  | .voiceEnd => by intro s g; simp only [updWith]; exact ⟨trivial, (voiceEndUpd_steps s).good g⟩
  | .marker n => by intro s g; simp only [updWith]; exact ⟨trivial, (markerUpd_steps n s).good g⟩
  | .atMarker n => by intro s g; simp only [updWith]; exact ⟨trivial, (atMarkerUpd_steps n s).good g⟩
  | .varDef n es => by intro s g; simp only [updWith]; exact ⟨trivial, (varDefUpd_steps n es s g (allLeavesL_true es)).good g⟩
  | .varRef n => by
    intro s g
    simp only [updWith]
    cases h : s.vars n with
    | none => exact ⟨rfl, g⟩
    | some es =>
      have hp := (g.vars n es h).2
      simp only [hd es hp]
      exact ⟨trivial, hs es s hp g⟩
  | .partDecl ns a => by intro s g; simp only [updWith]; exact ⟨trivial, (partDeclUpd_steps trivial ns a s g).good g⟩
theorem agreeL : ∀ (es : List Upd), AgreeOn (updListWith d1 es) (updListWith d2 es)
  | [] => by intro s g; simp only [updListWith]; exact ⟨trivial, g⟩
  | e :: es => by
    intro s g
    simp only [updListWith]
    rw [(agree e s g).1]
    exact AgreeOn.andThen (agree e s g).2 (agreeL es)
theorem agreeC : ∀ (es : List Upd) (m : Shortest) (s : Score), Good (fun _ => True) True s →
    chordEvents d1 es m s = chordEvents d2 es m s ∧ Good (fun _ => True) True (chordEvents d2 es m s).out.s
  | [], m, s, g => by simp only [chordEvents]; exact ⟨trivial, g⟩
  | e :: es, m, s, g => by
    simp only [chordEvents]
    rw [(agree e s g).1]
    cases shortestLoop s (specifiedDuration e) s.current m with
    | none => exact ⟨rfl, g⟩
    | some m =>
      simp only
      have h1 := (agree e s g).2
      rcases h : updWith d2 e s with ⟨err, t⟩
      rw [h] at h1
      cases err with
      | some err => exact ⟨rfl, h1⟩
      | none => exact agreeC es m t h1
end
end

/-! ### Stored values -/

theorem specified_expand {vars : String → Option (List Upd)} {e v : Upd} (hn : notLisp e) (h : varValue vars e = .ok v) :
    specifiedDuration (expand vars e) = specifiedDuration v := by
  cases e with
  | leaf l => simp only [varValue, Except.ok.injEq] at h; subst h; simp only [expand]
  | lisp es => exact hn.elim
  | lispNil => simp only [varValue, Except.ok.injEq] at h; subst h; simp only [expand]
  | barline => simp only [varValue, Except.ok.injEq] at h; subst h; simp only [expand]
  | chord es => simp only [varValue] at h; split at h <;> cases h; rfl
  | cram es d => simp only [varValue] at h; split at h <;> cases h; rfl
  | seq es => simp only [varValue] at h; split at h <;> cases h; rfl
  | rep e n => simp only [varValue] at h; split at h <;> cases h; rfl
  | onReps rs e => simp only [varValue] at h; split at h <;> cases h; rfl
  | voice n => simp only [varValue, Except.ok.injEq] at h; subst h; simp only [expand]
  | voiceEnd => simp only [varValue, Except.ok.injEq] at h; subst h; simp only [expand]
  | marker n => simp only [varValue, Except.ok.injEq] at h; subst h; simp only [expand]
  | atMarker n => simp only [varValue, Except.ok.injEq] at h; subst h; simp only [expand]
  | varDef n es => simp only [varValue] at h; split at h <;> cases h; rfl
  | varRef n => simp only [varValue] at h; split at h <;> cases h; rename_i es hes; simp only [expand, hes]
  | partDecl ns a => simp only [varValue] at h; cases h

section
variable (vars : String → Option (List Upd)) (v1 : String → Option (List Upd)) (d1 : List Upd → Part → Option (Rat × Part))

mutual
theorem value_dur : ∀ (e v : Upd), varValue vars e = .ok v → ∀ p, durMsWith v1 d1 (expand vars e) p = durMsWith v1 d1 v p
  | .leaf l, v, h, p => by simp only [varValue, Except.ok.injEq] at h; subst h; simp only [expand]
  | .lisp es, v, h, p => by
    simp only [varValue] at h
    simp only [expand, durMsWith]
    cases hl : lispUpdate es with
    | error e => rw [hl] at h; cases h
    | ok o => cases o <;> (rw [hl] at h; cases h; simp only [durMsWith])
  | .lispNil, v, h, p => by simp only [varValue, Except.ok.injEq] at h; subst h; simp only [expand]
  | .barline, v, h, p => by simp only [varValue, Except.ok.injEq] at h; subst h; simp only [expand]
  | .chord es, v, h, p => by
    simp only [varValue] at h
    split at h
    · cases h
    · rename_i vs hvs; cases h; simp only [expand, durMsWith]; rw [value_durC es vs hvs]
  | .cram es d, v, h, p => by
    simp only [varValue] at h
    split at h
    · cases h
    · cases h; simp only [expand, durMsWith]
  | .seq es, v, h, p => by
    simp only [varValue] at h
    split at h
    · cases h
    · rename_i vs hvs; cases h; simp only [expand, durMsWith]; exact value_durL es vs hvs 0 p
  | .rep e n, v, h, p => by
    simp only [varValue] at h
    split at h
    · cases h
    · rename_i w hw; cases h; simp only [expand, durMsWith]
      rw [show durMsWith v1 d1 (expand vars e) = durMsWith v1 d1 w from funext (value_dur e w hw)]
  | .onReps rs e, v, h, p => by
    simp only [varValue] at h
    split at h
    · cases h
    · rename_i w hw; cases h; simp only [expand, durMsWith]; rw [value_dur e w hw]
  | .voice n, v, h, p => by simp only [varValue, Except.ok.injEq] at h; subst h; simp only [expand]
  | .voiceEnd, v, h, p => by simp only [varValue, Except.ok.injEq] at h; subst h; simp only [expand]
  | .marker n, v, h, p => by simp only [varValue, Except.ok.injEq] at h; subst h; simp only [expand]
  | .atMarker n, v, h, p => by simp only [varValue, Except.ok.injEq] at h; subst h; simp only [expand]
  | .varDef n es, v, h, p => by
    simp only [varValue] at h
    split at h
    · cases h
    · cases h; simp only [expand, durMsWith]
  | .varRef n, v, h, p => by
    simp only [varValue] at h
    split at h
    · cases h
    · rename_i es hes; cases h; simp only [expand, hes]
  | .partDecl ns a, v, h, p => by simp only [varValue] at h; cases h
theorem value_durL : ∀ (es vs : List Upd), varValues vars es = .ok vs → ∀ a p, listDurMs v1 d1 a (expandL vars es) p = listDurMs v1 d1 a vs p
  | [], vs, h, a, p => by simp only [varValues, Except.ok.injEq] at h; subst h; simp only [expandL]
  | e :: es, vs, h, a, p => by
    simp only [varValues] at h
    split at h
    · cases h
    · rename_i w hw
      split at h
      · cases h
      · rename_i ws hws
        cases h
        simp only [expandL, listDurMs]
        rw [value_dur e w hw]
        cases durMsWith v1 d1 w p with
        | none => rfl
        | some x => exact value_durL es ws hws _ _
theorem value_durC : ∀ (es vs : List Upd), varValues vars es = .ok vs → ∀ a p, chordDurMs v1 d1 a (expandL vars es) p = chordDurMs v1 d1 a vs p
  | [], vs, h, a, p => by simp only [varValues, Except.ok.injEq] at h; subst h; simp only [expandL]
  | e :: es, vs, h, a, p => by
    simp only [varValues] at h
    split at h
    · cases h
    · rename_i w hw
      split at h
      · cases h
      · rename_i ws hws
        cases h
        simp only [expandL, chordDurMs]
        rw [value_dur e w hw]
        cases durMsWith v1 d1 w p with
        | none => rfl
        | some x => exact value_durC es ws hws _ _
end

mutual
/-- The value of a value is the value itself, in any context. -/
theorem value_value (hv : ∀ n es, vars n = some es → PlainL es) : ∀ (e v : Upd), varValue vars e = .ok v →
    varValue v1 (expand vars e) = varValue v1 v
  | .leaf l, v, h => by simp only [varValue, Except.ok.injEq] at h; subst h; simp only [expand]
  | .lisp es, v, h => by
    simp only [varValue] at h
    simp only [expand, varValue]
    cases hl : lispUpdate es with
    | error e => rw [hl] at h; cases h
    | ok o => cases o <;> (rw [hl] at h; cases h; simp only [varValue])
  | .lispNil, v, h => by simp only [varValue, Except.ok.injEq] at h; subst h; simp only [expand]
  | .barline, v, h => by simp only [varValue, Except.ok.injEq] at h; subst h; simp only [expand]
  | .chord es, v, h => by
    simp only [varValue] at h
    split at h
    · cases h
    · rename_i vs hvs; cases h; simp only [expand, varValue]; rw [value_values hv es vs hvs]
  | .cram es d, v, h => by
    simp only [varValue] at h
    split at h
    · cases h
    · rename_i vs hvs; cases h; simp only [expand, varValue]; rw [value_values hv es vs hvs]
  | .seq es, v, h => by
    simp only [varValue] at h
    split at h
    · cases h
    · rename_i vs hvs; cases h; simp only [expand, varValue]; rw [value_values hv es vs hvs]
  | .rep e n, v, h => by
    simp only [varValue] at h
    split at h
    · cases h
    · rename_i w hw; cases h; simp only [expand, varValue]; rw [value_value hv e w hw]
  | .onReps rs e, v, h => by
    simp only [varValue] at h
    split at h
    · cases h
    · rename_i w hw; cases h; simp only [expand, varValue]; rw [value_value hv e w hw]
  | .voice n, v, h => by simp only [varValue, Except.ok.injEq] at h; subst h; simp only [expand]
  | .voiceEnd, v, h => by simp only [varValue, Except.ok.injEq] at h; subst h; simp only [expand]
  | .marker n, v, h => by simp only [varValue, Except.ok.injEq] at h; subst h; simp only [expand]
  | .atMarker n, v, h => by simp only [varValue, Except.ok.injEq] at h; subst h; simp only [expand]
  | .varDef n es, v, h => by
    simp only [varValue] at h
    split at h
    · cases h
    · rename_i vs hvs; cases h; simp only [expand, varValue]; rw [value_values hv es vs hvs]
  | .varRef n, v, h => by
    simp only [varValue] at h
    split at h
    · cases h
    · rename_i es hes; cases h; simp only [expand, hes]
  | .partDecl ns a, v, h => by simp only [varValue] at h; cases h
theorem value_values (hv : ∀ n es, vars n = some es → PlainL es) : ∀ (es vs : List Upd), varValues vars es = .ok vs →
    varValues v1 (expandL vars es) = varValues v1 vs
  | [], vs, h => by simp only [varValues, Except.ok.injEq] at h; subst h; simp only [expandL]
  | e :: es, vs, h => by
    simp only [varValues] at h
    split at h
    · cases h
    · rename_i w hw
      split at h
      · cases h
      · rename_i ws hws
        cases h
        simp only [expandL, varValues]
        rw [value_value hv e w hw, value_values hv es ws hws]
end
end

section
variable (vars : String → Option (List Upd)) (hv : ∀ n es, vars n = some es → PlainL es) (d1 : List Upd → Score → Out)
include hv

mutual
theorem value_upd : ∀ (e v : Upd), varValue vars e = .ok v → ChordsPlain e → ∀ s, updWith d1 (expand vars e) s = updWith d1 v s
  | .leaf l, v, h, _, s => by simp only [varValue, Except.ok.injEq] at h; subst h; simp only [expand]
  | .lisp es, v, h, _, s => by
    simp only [varValue] at h
    simp only [expand, updWith]
    cases hl : lispUpdate es with
    | error e => rw [hl] at h; cases h
    | ok o => cases o <;> (rw [hl] at h; cases h; simp only [updWith])
  | .lispNil, v, h, _, s => by simp only [varValue, Except.ok.injEq] at h; subst h; simp only [expand]
  | .barline, v, h, _, s => by simp only [varValue, Except.ok.injEq] at h; subst h; simp only [expand]
  | .chord es, v, h, hc, s => by
    simp only [varValue] at h
    simp only [ChordsPlain] at hc
    split at h
    · cases h
    · rename_i vs hvs
      cases h
      simp only [expand, updWith]
      congr 1
      funext t
      rw [value_updC es vs hvs hc.1 hc.2]
  | .cram es d, v, h, hc, s => by
    simp only [varValue] at h
    simp only [ChordsPlain] at hc
    split at h
    · cases h
    · rename_i vs hvs
      cases h
      simp only [expand, updWith]
      have : cramScalePart s.vars (expandL vars es) d = cramScalePart s.vars vs d := by
        funext i t
        unfold cramScalePart cramTimeScale eventsDurMs
        rw [value_durL vars s.vars _ es vs hvs]
      rw [this]
      congr 1
      funext t
      rw [value_updL es vs hvs hc]
  | .seq es, v, h, hc, s => by
    simp only [varValue] at h
    simp only [ChordsPlain] at hc
    split at h
    · cases h
    · rename_i vs hvs; cases h; simp only [expand, updWith]; exact value_updL es vs hvs hc s
  | .rep e n, v, h, hc, s => by
    simp only [varValue] at h
    simp only [ChordsPlain] at hc
    split at h
    · cases h
    · rename_i w hw; cases h; simp only [expand, updWith]
      rw [show updWith d1 (expand vars e) = updWith d1 w from funext (value_upd e w hw hc)]
  | .onReps rs e, v, h, hc, s => by
    simp only [varValue] at h
    simp only [ChordsPlain] at hc
    split at h
    · cases h
    · rename_i w hw; cases h; simp only [expand, updWith]
      rw [show updWith d1 (expand vars e) = updWith d1 w from funext (value_upd e w hw hc)]
  | .voice n, v, h, _, s => by simp only [varValue, Except.ok.injEq] at h; subst h; simp only [expand]
  | .voiceEnd, v, h, _, s => by simp only [varValue, Except.ok.injEq] at h; subst h; simp only [expand]
  | .marker n, v, h, _, s => by simp only [varValue, Except.ok.injEq] at h; subst h; simp only [expand]
  | .atMarker n, v, h, _, s => by simp only [varValue, Except.ok.injEq] at h; subst h; simp only [expand]
  | .varDef n es, v, h, _, s => by
    simp only [varValue] at h
    split at h
    · cases h
    · rename_i vs hvs
      cases h
      simp only [expand, updWith, varDefUpd]
      rw [value_values vars s.vars hv es vs hvs]
  | .varRef n, v, h, _, s => by
    simp only [varValue] at h
    split at h
    · cases h
    · rename_i es hes; cases h; simp only [expand, hes]
  | .partDecl ns a, v, h, _, s => by simp only [varValue] at h; cases h
theorem value_updL : ∀ (es vs : List Upd), varValues vars es = .ok vs → ChordsPlainL es → ∀ s, updListWith d1 (expandL vars es) s = updListWith d1 vs s
  | [], vs, h, _, s => by simp only [varValues, Except.ok.injEq] at h; subst h; simp only [expandL]
  | e :: es, vs, h, hc, s => by
    simp only [varValues] at h
    simp only [ChordsPlainL] at hc
    split at h
    · cases h
    · rename_i w hw
      split at h
      · cases h
      · rename_i ws hws
        cases h
        simp only [expandL, updListWith]
        rw [value_upd e w hw hc.1, show updListWith d1 (expandL vars es) = updListWith d1 ws from funext (value_updL es ws hws hc.2)]
theorem value_updC : ∀ (es vs : List Upd), varValues vars es = .ok vs → (∀ e ∈ es, notLisp e) → ChordsPlainL es → ∀ m s,
    chordEvents d1 (expandL vars es) m s = chordEvents d1 vs m s
  | [], vs, h, _, _, m, s => by simp only [varValues, Except.ok.injEq] at h; subst h; simp only [expandL]
  | e :: es, vs, h, hl, hc, m, s => by
    simp only [varValues] at h
    simp only [ChordsPlainL] at hc
    split at h
    · cases h
    · rename_i w hw
      split at h
      · cases h
      · rename_i ws hws
        cases h
        simp only [expandL, chordEvents]
        rw [value_upd e w hw hc.1, specified_expand (hl e (List.mem_cons_self ..)) hw]
        split
        · rfl
        · split
          · rfl
          · exact value_updC es ws hws (fun e he => hl e (List.mem_cons_of_mem _ he)) hc.2 _ _
end
end

end Alda
