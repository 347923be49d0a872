import Verif.Lemmas.VarComm
import Verif.Spec.Markers
/-!
Only placing a marker changes markers, and only global attribute changes change the global attributes.
-/
namespace Alda
open Spec

/-- The same markers and global attributes. -/
def SameBoard (s t : Score) : Prop := t.markers = s.markers ∧ t.globals = s.globals

theorem SameBoard.refl (s : Score) : SameBoard s s := ⟨rfl, rfl⟩
theorem SameBoard.trans {s t u : Score} (h : SameBoard s t) (h' : SameBoard t u) : SameBoard s u := ⟨h'.1.trans h.1, h'.2.trans h.2⟩

/-- The operation changes neither markers nor global attributes. -/
def Still (g : Score → Out) : Prop := ∀ s, SameBoard s (g s).s

theorem Still.andThen {g k : Score → Out} (h : Still g) (hk : Still k) : Still (fun s => (g s).andThen k) := by
  intro s
  have h1 := h s
  simp only
  rcases hg : g s with ⟨e, t⟩
  rw [hg] at h1
  cases e with
  | none => exact h1.trans (hk t)
  | some e => exact h1

theorem Still.forIds {g : Nat → Score → Out} (h : ∀ i, Still (g i)) : ∀ l, Still (Alda.forIds g l) := by
  intro l
  induction l with
  | nil => intro s; exact .refl s
  | cons i l ih => exact (h i).andThen ih

theorem Still.forCurrent {g : Nat → Score → Out} (h : ∀ i, Still (g i)) : Still (fun s => Alda.forIds g s.current s) := fun s => Still.forIds h s.current s

theorem attr_still (u : PartUpd) (i : Nat) : Still (attrPart u i) := by
  intro s; unfold attrPart; split <;> exact ⟨rfl, rfl⟩

theorem applyGlobals_still : Still applyGlobals := by
  refine Still.forCurrent (fun i s => ?_)
  unfold applyGlobalsPart; simp only; split <;> exact ⟨rfl, rfl⟩

theorem emit_still (pi : Pitch) (ms a : Rat) (i : Nat) : Still (emitNote pi ms a i) := by
  intro s
  unfold emitNote
  simp only
  split
  · exact ⟨rfl, rfl⟩
  · unfold assignMidiChannel
    cases determineMidiChannel s (s.heap i) a with
    | error e => exact ⟨rfl, rfl⟩
    | ok ch =>
      simp only
      by_cases hch : 0 ≤ ch ∧ ch < 16
      · simp only [if_pos hch]
        have hu := recordUsage_rest s ch.toNat (s.heap i).origin
        rw [hu]
        exact ⟨rfl, rfl⟩
      · simp only [if_neg hch]; exact ⟨rfl, rfl⟩

theorem note_still (pi : Pitch) (d : Dur) (sl : Bool) (i : Nat) : Still (notePart pi d sl i) := by
  intro s
  unfold notePart
  simp only
  cases (effectiveDuration d (s.heap i)).toMs (s.heap i).tempo with
  | none => exact ⟨rfl, rfl⟩
  | some ms =>
    simp only
    generalize (if sl = true then _ else _) = a
    refine Still.andThen (g := fun s => if a > 0 then emitNote pi (ms * (s.heap i).timeScale) a i s else .ok s) ?_ ?_ s
    · intro s
      simp only
      split
      · exact emit_still pi _ a i s
      · exact .refl s
    · intro s; exact ⟨rfl, rfl⟩

theorem rest_still (d : Dur) (i : Nat) : Still (restPart d i) := by
  intro s
  unfold restPart
  simp only
  cases (effectiveDuration d (s.heap i)).toMs (s.heap i).tempo with
  | none => exact ⟨rfl, rfl⟩
  | some ms => exact ⟨rfl, rfl⟩

theorem beforeNote_still (d : Dur) : Still (beforeNote d) := by
  refine Still.andThen ?_ ?_
  · intro s
    simp only
    split
    · exact .refl s
    · exact applyGlobals_still s
  · intro s
    simp only
    split <;> exact .refl s

/-- A leaf event that is not a global change. -/
def localLeaf : Leaf → Prop
  | .globalAttr _ => False
  | _ => True

theorem leaf_still : ∀ (l : Leaf), localLeaf l → Still (leafUpd l)
  | .note pi d sl, _ => Still.andThen (beforeNote_still d) (Still.forCurrent (note_still pi d sl))
  | .rest d, _ => Still.andThen (beforeNote_still d) (Still.forCurrent (rest_still d))
  | .attr u, _ => Still.forCurrent (attr_still u)
  | .globalAttr _, h => h.elim

theorem globalAttr_markers (u : PartUpd) (s : Score) : (globalAttrUpd u s).s.markers = s.markers := by
  unfold globalAttrUpd
  split
  · rfl
  · split <;> rfl

theorem leaf_markers (l : Leaf) (s : Score) : (leafUpd l s).s.markers = s.markers := by
  match l with
  | .note pi d sl => exact (leaf_still (.note pi d sl) trivial s).1
  | .rest d => exact (leaf_still (.rest d) trivial s).1
  | .attr u => exact (leaf_still (.attr u) trivial s).1
  | .globalAttr u => exact globalAttr_markers u s

theorem ensureTemplate_still (i : Nat) : Still (ensureTemplate i) := by
  intro s
  unfold ensureTemplate
  simp only
  split
  · exact ⟨rfl, rfl⟩
  · split <;> exact ⟨rfl, rfl⟩

theorem getVoice_still (i : Nat) (n : Int) (s : Score) : SameBoard s (getVoice i n s).1.s := by
  unfold getVoice
  split
  · exact .refl s
  · have h := ensureTemplate_still i s
    rcases hg : ensureTemplate i s with ⟨e, t⟩
    rw [hg] at h
    cases e with
    | some e => exact h
    | none =>
      refine h.trans ?_
      simp only [addVoice]
      split <;> exact ⟨rfl, rfl⟩

theorem voice_still (n : Int) : Still (voiceUpd n) := by
  intro s
  refine Still.forIds ?_ (List.range s.current.length) s
  intro i s
  unfold voiceMarkerAt
  cases s.current[i]? with
  | none => exact .refl s
  | some id =>
    simp only
    have h := getVoice_still id n s
    rcases hg : getVoice id n s with ⟨⟨e, t⟩, w⟩
    rw [hg] at h
    cases e <;> exact h

theorem voiceEnd_still : Still voiceEndUpd := by
  intro s
  refine Still.forIds ?_ (List.range s.current.length) s
  intro i s
  unfold voiceEndAt
  cases s.current[i]? with
  | none => exact .refl s
  | some id =>
    simp only
    cases (s.vheap (s.heap id).voices).getLast? with
    | none => exact .refl s
    | some x => exact ⟨rfl, rfl⟩

theorem atMarker_still (n : String) : Still (atMarkerUpd n) := by
  refine Still.andThen applyGlobals_still ?_
  intro s
  simp only
  split
  · exact .refl s
  · rename_i o _
    exact Still.forCurrent (g := jumpPart o) (fun _ _ => ⟨rfl, rfl⟩) s

theorem newPart_still {n : String} {s t : Score} {i : Nat} (h : newPart n s = some (i, t)) : SameBoard s t := by
  unfold newPart at h
  cases hs : stockInstrument n with
  | none => rw [hs] at h; cases h
  | some x =>
    rw [hs] at h
    simp only [Option.some.injEq] at h
    have h2 := congrArg Prod.snd h
    simp only at h2
    rw [← h2]
    exact ⟨rfl, rfl⟩

theorem onlyNewPart_still (n : String) (s : Score) : SameBoard s (onlyNewPart n s).2 := by
  unfold onlyNewPart
  cases h : newPart n s with
  | none => exact .refl s
  | some x => exact newPart_still (i := x.1) (t := x.2) h

theorem determineSingle_still (n a : String) (s : Score) : SameBoard s (determineSingle n a s).2 := by
  unfold determineSingle
  simp only
  repeat (split; · first | exact onlyNewPart_still n s | exact .refl s)
  first | exact onlyNewPart_still n s | exact .refl s

theorem collectGroup_still : ∀ (ns : List String) (s : Score) (a b : List Nat), SameBoard s (collectGroup s a b ns).2 := by
  intro ns
  induction ns with
  | nil => intro s a b; exact .refl s
  | cons n ns ih =>
    intro s a b
    simp only [collectGroup]
    split
    · exact ih s _ _
    · split
      · exact ih s _ _
      · cases h : newPart n s with
        | none => exact .refl s
        | some x => exact (newPart_still (i := x.1) (t := x.2) h).trans (ih _ _ _)

theorem newGroup_still : ∀ (ns : List String) (s : Score) (a : List Nat), SameBoard s (newGroup s a ns).2 := by
  intro ns
  induction ns with
  | nil => intro s a; exact .refl s
  | cons n ns ih =>
    intro s a
    simp only [newGroup]
    cases h : newPart n s with
    | none => exact .refl s
    | some x => exact (newPart_still (i := x.1) (t := x.2) h).trans (ih _ _)

theorem determineParts_still (ns : List String) (a : String) (s : Score) : SameBoard s (determineParts ns a s).2 := by
  unfold determineParts
  split
  · exact determineSingle_still _ a s
  · split
    · exact .refl s
    · have h := collectGroup_still ns s [] []
      rcases hg : collectGroup s [] [] ns with ⟨x, t⟩
      rw [hg] at h
      cases x with
      | error e => exact h
      | ok y =>
        simp only
        split
        · exact h
        · split
          · exact h.trans (newGroup_still ns t _)
          · exact h

theorem partDecl_still (ns : List String) (a : String) : Still (partDeclUpd ns a) := by
  refine Still.andThen voiceEnd_still ?_
  intro s
  have h := determineParts_still ns a s
  rcases hx : determineParts ns a s with ⟨x, t⟩
  rw [hx] at h
  simp only
  rw [hx]
  cases x with
  | error e => exact h
  | ok parts =>
    simp only
    split
    · exact h
    · refine h.trans ?_
      unfold declareParts
      have : SameBoard t (markMaster parts t) := by
        unfold markMaster
        split <;> exact ⟨rfl, rfl⟩
      exact this.trans ⟨rfl, rfl⟩

theorem cramRestore_still (old : Nat → Part) (ids : List Nat) (d : Dur) : Still (fun s => Alda.forIds (cramRestorePart old ids d) s.current s) :=
  Still.forCurrent (fun _ _ => ⟨rfl, rfl⟩)

theorem setRepetition_still (r : Int) : Still (fun s => Alda.forIds (setRepetition r) s.current s) := Still.forCurrent (fun _ _ => ⟨rfl, rfl⟩)

theorem cramScale_still (vars : String → Option (List Upd)) (es : List Upd) (d : Dur) : Still (fun s => Alda.forIds (cramScalePart vars es d) s.current s) := by
  refine Still.forCurrent (fun i s => ?_)
  unfold cramScalePart
  split <;> exact ⟨rfl, rfl⟩

theorem chordAdvance_still (m : Shortest) : Still (fun s => Alda.forIds (chordAdvance m) s.current { s with chordMode := false }) := by
  intro s
  have : SameBoard s { s with chordMode := false } := ⟨rfl, rfl⟩
  exact this.trans (Still.forIds (g := chordAdvance m) (fun _ _ => ⟨rfl, rfl⟩) s.current _)

/-! ### Programs that do not place a marker -/

/-- An operation that leaves the marker `m` alone. -/
def KeepsMarker (m : String) (g : Score → Out) : Prop := ∀ s, NoPlace m s.vars → (g s).s.markers m = s.markers m ∧ NoPlace m (g s).s.vars

theorem KeepsMarker.of {g : Score → Out} (m : String) (h : Comm g) (hs : ∀ s, (g s).s.markers = s.markers) : KeepsMarker m g := by
  intro s hn
  rw [h.vars s, hs s]
  exact ⟨rfl, hn⟩

theorem KeepsMarker.andThen {m : String} {s : Score} {o : Out} {k : Score → Out} (h : o.s.markers m = s.markers m ∧ NoPlace m o.s.vars) (hk : KeepsMarker m k) :
    (o.andThen k).s.markers m = s.markers m ∧ NoPlace m (o.andThen k).s.vars := by
  obtain ⟨e, t⟩ := o
  cases e with
  | none => exact ⟨(hk t h.2).1.trans h.1, (hk t h.2).2⟩
  | some e => exact h

theorem KeepsMarker.forIds {m : String} {g : Nat → Score → Out} (h : ∀ i, KeepsMarker m (g i)) : ∀ l, KeepsMarker m (Alda.forIds g l) := by
  intro l
  induction l with
  | nil => intro s hn; exact ⟨rfl, hn⟩
  | cons i l ih => intro s hn; exact KeepsMarker.andThen (h i s hn) ih

theorem KeepsMarker.rep {m : String} {body : Score → Out} (h : KeepsMarker m body) : ∀ k r, KeepsMarker m (repLoop body k r) := by
  intro k
  induction k with
  | zero => intro r s hn; exact ⟨rfl, hn⟩
  | succ k ih =>
    intro r s hn
    simp only [repLoop]
    refine KeepsMarker.andThen (KeepsMarker.of m (setRepetition_comm r) (fun s => (setRepetition_still r s).1) s hn) ?_
    intro s hn
    exact KeepsMarker.andThen (h s hn) (ih (r + 1))

mutual
theorem value_noPlace {m : String} {vars : String → Option (List Upd)} (hv : NoPlace m vars) : ∀ (e w : Upd), ¬ Places m e → varValue vars e = .ok w → ¬ Places m w
  | .leaf l, w, _, h => by simp only [varValue, Except.ok.injEq] at h; subst h; simp only [Places, not_false_eq_true]
  | .lisp es, w, _, h => by
    simp only [varValue] at h
    cases hl : lispUpdate es with
    | error e => rw [hl] at h; cases h
    | ok o => cases o <;> (rw [hl] at h; cases h; simp only [Places, not_false_eq_true])
  | .lispNil, w, _, h => by simp only [varValue, Except.ok.injEq] at h; subst h; simp only [Places, not_false_eq_true]
  | .barline, w, _, h => by simp only [varValue, Except.ok.injEq] at h; subst h; simp only [Places, not_false_eq_true]
  | .chord es, w, hn, h => by
    simp only [varValue] at h
    split at h
    · cases h
    · rename_i vs hvs; cases h; simp only [Places] at hn ⊢; exact values_noPlace hv es vs hn hvs
  | .cram es d, w, hn, h => by
    simp only [varValue] at h
    split at h
    · cases h
    · rename_i vs hvs; cases h; simp only [Places] at hn ⊢; exact values_noPlace hv es vs hn hvs
  | .seq es, w, hn, h => by
    simp only [varValue] at h
    split at h
    · cases h
    · rename_i vs hvs; cases h; simp only [Places] at hn ⊢; exact values_noPlace hv es vs hn hvs
  | .rep e n, w, hn, h => by
    simp only [varValue] at h
    split at h
    · cases h
    · rename_i x hx; cases h; simp only [Places] at hn ⊢; exact value_noPlace hv e x hn hx
  | .onReps rs e, w, hn, h => by
    simp only [varValue] at h
    split at h
    · cases h
    · rename_i x hx; cases h; simp only [Places] at hn ⊢; exact value_noPlace hv e x hn hx
  | .voice n, w, _, h => by simp only [varValue, Except.ok.injEq] at h; subst h; simp only [Places, not_false_eq_true]
  | .voiceEnd, w, _, h => by simp only [varValue, Except.ok.injEq] at h; subst h; simp only [Places, not_false_eq_true]
  | .marker n, w, hn, h => by simp only [varValue, Except.ok.injEq] at h; subst h; exact hn
  | .atMarker n, w, _, h => by simp only [varValue, Except.ok.injEq] at h; subst h; simp only [Places, not_false_eq_true]
  | .varDef n es, w, hn, h => by
    simp only [varValue] at h
    split at h
    · cases h
    · rename_i vs hvs
      cases h
      simp only [Places] at hn ⊢
      exact values_noPlace hv es vs hn hvs
  | .varRef n, w, _, h => by
    simp only [varValue] at h
    split at h
    · cases h
    · rename_i es hes; cases h; simp only [Places]; exact hv n es hes
  | .partDecl ns a, w, _, h => by simp only [varValue] at h; cases h
theorem values_noPlace {m : String} {vars : String → Option (List Upd)} (hv : NoPlace m vars) : ∀ (es ws : List Upd), ¬ PlacesL m es → varValues vars es = .ok ws →
    ¬ PlacesL m ws
  | [], ws, _, h => by simp only [varValues, Except.ok.injEq] at h; subst h; simp only [PlacesL, not_false_eq_true]
  | e :: es, ws, hn, h => by
    simp only [PlacesL, not_or] at hn
    simp only [varValues] at h
    split at h
    · cases h
    · rename_i x hx
      split at h
      · cases h
      · rename_i xs hxs
        cases h
        simp only [PlacesL, not_or]
        exact ⟨value_noPlace hv e x hn.1 hx, values_noPlace hv es xs hn.2 hxs⟩
end

section
variable {m : String} {d : List Upd → Score → Out} (hd : ∀ es, ¬ PlacesL m es → KeepsMarker m (d es))
include hd

mutual
theorem keeps_marker : ∀ (e : Upd), ¬ Places m e → KeepsMarker m (updWith d e)
  | .leaf l, _ => by intro s hn; simp only [updWith]; exact KeepsMarker.of m (leaf_comm l) (leaf_markers l) s hn
  | .lisp es, _ => by
    intro s hn
    simp only [updWith]
    split
    · exact ⟨rfl, hn⟩
    · exact ⟨rfl, hn⟩
    · exact KeepsMarker.of m (leaf_comm _) (leaf_markers _) s hn
  | .lispNil, _ => by intro s hn; simp only [updWith]; exact ⟨rfl, hn⟩
  | .barline, _ => by intro s hn; simp only [updWith]; exact ⟨rfl, hn⟩
  | .chord es, h => by
    intro s hn
    simp only [Places] at h
    simp only [updWith]
    refine KeepsMarker.andThen (KeepsMarker.of m applyGlobals_comm (fun s => (applyGlobals_still s).1) s hn) ?_
    intro s hn
    refine KeepsMarker.andThen (keeps_markerC es h _ { s with chordMode := true } hn) ?_
    intro s hn
    exact KeepsMarker.of m (chordAdvance_comm _) (fun s => (chordAdvance_still _ s).1) s hn
  | .cram es dur, h => by
    intro s hn
    simp only [Places] at h
    simp only [updWith]
    refine KeepsMarker.andThen (KeepsMarker.of m (cramScale_comm s.vars es dur) (fun t => (cramScale_still s.vars es dur t).1) s hn) ?_
    intro t hn
    refine KeepsMarker.andThen (keeps_markerL es h t hn) ?_
    intro u hn
    exact KeepsMarker.of m (cramRestore_comm s.heap s.current dur) (fun t => (cramRestore_still s.heap s.current dur t).1) u hn
  | .seq es, h => by intro s hn; simp only [updWith]; exact keeps_markerL es (by simpa only [Places] using h) s hn
  | .rep e n, h => by intro s hn; simp only [updWith]; exact KeepsMarker.rep (keeps_marker e (by simpa only [Places] using h)) _ _ s hn
  | .onReps rs e, h => by
    intro s hn
    simp only [Places] at h
    simp only [updWith]
    refine KeepsMarker.forIds ?_ _ s hn
    intro i s hn
    unfold onRepsAt
    split
    · exact ⟨rfl, hn⟩
    · split
      · exact keeps_marker e h s hn
      · exact ⟨rfl, hn⟩
  | .voice n, _ => by intro s hn; simp only [updWith]; exact KeepsMarker.of m (voice_comm n) (fun s => (voice_still n s).1) s hn
  | .voiceEnd, _ => by intro s hn; simp only [updWith]; exact KeepsMarker.of m voiceEnd_comm (fun s => (voiceEnd_still s).1) s hn
  | .marker n, h => by
    intro s hn
    simp only [Places] at h
    simp only [updWith]
    refine ⟨?_, by rw [(marker_comm n).vars s]; exact hn⟩
    unfold markerUpd
    split
    · rfl
    · split
      · rfl
      · simp only [Out.ok]; rw [if_neg (Ne.symm h)]
  | .atMarker n, _ => by intro s hn; simp only [updWith]; exact KeepsMarker.of m (atMarker_comm n) (fun s => (atMarker_still n s).1) s hn
  | .varDef n es, h => by
    intro s hn
    simp only [Places] at h
    simp only [updWith, varDefUpd]
    cases hw : varValues s.vars es with
    | error e => exact ⟨rfl, hn⟩
    | ok ws =>
      refine ⟨rfl, ?_⟩
      intro k us hu
      simp only [Out.ok] at hu
      by_cases hm : k = n
      · rw [if_pos hm, Option.some.injEq] at hu; subst hu; exact values_noPlace hn es ws h hw
      · rw [if_neg hm] at hu; exact hn k us hu
  | .varRef n, _ => by
    intro s hn
    simp only [updWith]
    cases h : s.vars n with
    | none => exact ⟨rfl, hn⟩
    | some es => exact hd es (hn n es h) s hn
  | .partDecl ns a, _ => by intro s hn; simp only [updWith]; exact KeepsMarker.of m (partDecl_comm ns a) (fun s => (partDecl_still ns a s).1) s hn
theorem keeps_markerL : ∀ (es : List Upd), ¬ PlacesL m es → KeepsMarker m (updListWith d es)
  | [], _ => by intro s hn; simp only [updListWith]; exact ⟨rfl, hn⟩
  | e :: es, h => by
    intro s hn
    simp only [PlacesL, not_or] at h
    simp only [updListWith]
    exact KeepsMarker.andThen (keeps_marker e h.1 s hn) (keeps_markerL es h.2)
theorem keeps_markerC : ∀ (es : List Upd), ¬ PlacesL m es → ∀ (sh : Shortest) (s : Score), NoPlace m s.vars →
    (chordEvents d es sh s).out.s.markers m = s.markers m ∧ NoPlace m (chordEvents d es sh s).out.s.vars
  | [], _, sh, s, hn => by simp only [chordEvents]; exact ⟨rfl, hn⟩
  | e :: es, h, sh, s, hn => by
    simp only [PlacesL, not_or] at h
    simp only [chordEvents]
    cases shortestLoop s (specifiedDuration e) s.current sh with
    | none => exact ⟨rfl, hn⟩
    | some sh =>
      simp only
      have h1 := keeps_marker e h.1 s hn
      rcases ho : updWith d e s with ⟨err, t⟩
      rw [ho] at h1
      cases err with
      | some err => exact h1
      | none =>
        have h2 := keeps_markerC es h.2 sh t h1.2
        exact ⟨h2.1.trans h1.1, h2.2⟩
end
end

theorem update_keepsMarker (m : String) (es : List Upd) (h : ¬ PlacesL m es) : KeepsMarker m (update es) := by
  refine keeps_markerL ?_ es h
  intro us hu
  exact keeps_markerL (fun _ _ _ hn => ⟨rfl, hn⟩) us hu

end Alda
