import Verif.Lemmas.Variables
/-!
Most operations have nothing to do with variables.
-/
namespace Alda
open Spec

/-- An outcome with other variables. -/
def Out.withVars (o : Out) (v : String → Option (List Upd)) : Out := ⟨o.err, Spec.withVars o.s v⟩

/-- The operation neither uses nor changes variables. -/
def Comm (g : Score → Out) : Prop := ∀ s v, g (withVars s v) = (g s).withVars v

theorem Comm.vars {g : Score → Out} (h : Comm g) (s : Score) : (g s).s.vars = s.vars := by
  have := h s s.vars
  rw [show withVars s s.vars = s from rfl] at this
  exact congrArg (fun o => o.s.vars) this

theorem Comm.andThen {g k : Score → Out} (h : Comm g) (hk : Comm k) : Comm (fun s => (g s).andThen k) := by
  intro s v
  simp only
  rw [h s v]
  rcases g s with ⟨e, t⟩
  cases e with
  | none => exact hk t v
  | some e => rfl

theorem Comm.forIds {g : Nat → Score → Out} (h : ∀ i, Comm (g i)) : ∀ l, Comm (forIds g l) := by
  intro l
  induction l with
  | nil => intro s v; rfl
  | cons i l ih => exact (h i).andThen ih

/-- A loop over the active parts. -/
theorem Comm.forCurrent {g : Nat → Score → Out} (h : ∀ i, Comm (g i)) : Comm (fun s => Alda.forIds g s.current s) :=
  fun s v => Comm.forIds h s.current s v

theorem Comm.ite {c : Prop} [Decidable c] {g k : Score → Out} (h : Comm g) (hk : Comm k) : Comm (fun s => if c then g s else k s) := by
  intro s v
  by_cases hc : c
  · simp only [if_pos hc]; exact h s v
  · simp only [if_neg hc]; exact hk s v

theorem attr_comm (u : PartUpd) (i : Nat) : Comm (attrPart u i) := by
  intro s v
  unfold attrPart
  rw [show (withVars s v).heap i = s.heap i from rfl]
  split <;> rfl

theorem applyGlobals_comm : Comm applyGlobals := by
  refine Comm.forCurrent ?_
  intro i s v
  unfold applyGlobalsPart
  simp only
  rw [show (withVars s v).heap i = s.heap i from rfl, show (withVars s v).globals = s.globals from rfl]
  split <;> rfl

theorem globalAttr_comm (u : PartUpd) : Comm (globalAttrUpd u) := by
  intro s v
  unfold globalAttrUpd
  rw [show (withVars s v).current = s.current from rfl]
  split
  · rfl
  · rename_i i is _
    rw [show commonOffset (withVars s v) (i :: is) = commonOffset s (i :: is) from rfl]
    split <;> rfl

theorem simpleCheckFrom_comm (s : Score) (v : String → Option (List Upd)) (p : Part) : ∀ l, simpleCheckFrom (withVars s v) p l = simpleCheckFrom s p l := by
  intro l
  induction l with
  | nil => rfl
  | cons c l ih => simp only [simpleCheckFrom, ih]; rfl

theorem complexCheckFrom_comm (s : Score) (v : String → Option (List Upd)) (p : Part) (a : Rat) : ∀ l,
    complexCheckFrom (withVars s v) p a l = complexCheckFrom s p a l := by
  intro l
  induction l with
  | nil => rfl
  | cons c l ih =>
    simp only [complexCheckFrom, ih, show channelUnavailable (withVars s v) p a c = channelUnavailable s p a c from rfl]

theorem complexCheck_comm (s : Score) (v : String → Option (List Upd)) (p : Part) (a : Rat) : complexCheck (withVars s v) p a = complexCheck s p a := by
  unfold complexCheck
  rw [complexCheckFrom_comm]
  rfl

theorem determine_comm (s : Score) (v : String → Option (List Upd)) (p : Part) (a : Rat) : determineMidiChannel (withVars s v) p a = determineMidiChannel s p a := by
  unfold determineMidiChannel availableMidiChannel simpleCheck
  rw [complexCheck_comm, simpleCheckFrom_comm]
  rfl

theorem emit_comm (pi : Pitch) (ms a : Rat) (i : Nat) : Comm (emitNote pi ms a i) := by
  intro s v
  unfold emitNote
  simp only
  rw [show (withVars s v).heap i = s.heap i from rfl]
  split
  · rfl
  · unfold assignMidiChannel
    rw [determine_comm]
    cases determineMidiChannel s (s.heap i) a with
    | error e => rfl
    | ok ch =>
      simp only
      by_cases hch : 0 ≤ ch ∧ ch < 16
      · simp only [if_pos hch]
        have hu : recordUsage (withVars s v) ch.toNat (s.heap i).origin = withVars (recordUsage s ch.toNat (s.heap i).origin) v := by
          unfold recordUsage
          rw [show (withVars s v).usage = s.usage from rfl]
          split <;> rfl
        rw [hu]
        rfl
      · simp only [if_neg hch]; rfl

theorem note_comm (pi : Pitch) (d : Dur) (sl : Bool) (i : Nat) : Comm (notePart pi d sl i) := by
  intro s v
  unfold notePart
  simp only
  rw [show (withVars s v).heap i = s.heap i from rfl]
  cases (effectiveDuration d (s.heap i)).toMs (s.heap i).tempo with
  | none => rfl
  | some ms =>
    simp only
    generalize (if sl = true then _ else _) = a
    exact Comm.andThen (Comm.ite (emit_comm pi _ a i) (fun _ _ => rfl)) (fun _ _ => rfl) s v

theorem rest_comm (d : Dur) (i : Nat) : Comm (restPart d i) := by
  intro s v
  unfold restPart
  simp only
  rw [show (withVars s v).heap i = s.heap i from rfl]
  cases (effectiveDuration d (s.heap i)).toMs (s.heap i).tempo with
  | none => rfl
  | some ms => rfl

theorem beforeNote_comm (d : Dur) : Comm (beforeNote d) := by
  refine Comm.andThen ?_ ?_
  · intro s v
    simp only
    rw [show (withVars s v).chordMode = s.chordMode from rfl]
    split
    · rfl
    · exact applyGlobals_comm s v
  · intro s v
    split <;> rfl

theorem leaf_comm : ∀ (l : Leaf), Comm (leafUpd l)
  | .note pi d sl => Comm.andThen (beforeNote_comm d) (Comm.forCurrent (note_comm pi d sl))
  | .rest d => Comm.andThen (beforeNote_comm d) (Comm.forCurrent (rest_comm d))
  | .attr u => Comm.forCurrent (attr_comm u)
  | .globalAttr u => globalAttr_comm u

theorem ensureTemplate_comm (i : Nat) : Comm (ensureTemplate i) := by
  intro s v
  unfold ensureTemplate
  simp only
  rw [show (withVars s v).heap i = s.heap i from rfl, show (withVars s v).vheap = s.vheap from rfl]
  split
  · rfl
  · split <;> rfl

theorem addVoice_comm (i : Nat) (n : Int) (s : Score) (v : String → Option (List Upd)) :
    addVoice i n (withVars s v) = ((addVoice i n s).1.withVars v, (addVoice i n s).2) := by
  unfold addVoice
  simp only
  rw [show (withVars s v).heap i = s.heap i from rfl]
  split <;> rfl

theorem getVoice_comm (i : Nat) (n : Int) (s : Score) (v : String → Option (List Upd)) :
    getVoice i n (withVars s v) = ((getVoice i n s).1.withVars v, (getVoice i n s).2) := by
  unfold getVoice
  rw [ensureTemplate_comm]
  rw [show (withVars s v).heap i = s.heap i from rfl, show (withVars s v).vheap = s.vheap from rfl]
  split
  · rfl
  · rcases ensureTemplate i s with ⟨e, t⟩
    cases e with
    | some e => rfl
    | none => exact addVoice_comm i n t v

theorem voice_comm (n : Int) : Comm (voiceUpd n) := by
  intro s v
  refine Comm.forIds ?_ (List.range s.current.length) s v
  intro i s v
  unfold voiceMarkerAt
  rw [show (withVars s v).current = s.current from rfl]
  cases s.current[i]? with
  | none => rfl
  | some id =>
    simp only
    rw [getVoice_comm]
    rcases getVoice id n s with ⟨⟨e, t⟩, w⟩
    cases e <;> rfl

theorem lastToFinish_comm (s : Score) (v : String → Option (List Upd)) : ∀ (l : List (Int × Nat)) (b : Nat), lastToFinish (withVars s v) b l = lastToFinish s b l := by
  intro l
  induction l with
  | nil => intro b; rfl
  | cons x l ih => intro b; exact ih _

theorem voiceEnd_comm : Comm voiceEndUpd := by
  intro s v
  refine Comm.forIds ?_ (List.range s.current.length) s v
  intro i s v
  unfold voiceEndAt
  rw [show (withVars s v).current = s.current from rfl]
  cases s.current[i]? with
  | none => rfl
  | some id =>
    simp only
    rw [show (withVars s v).vheap ((withVars s v).heap id).voices = s.vheap (s.heap id).voices from rfl]
    cases (s.vheap (s.heap id).voices).getLast? with
    | none => rfl
    | some x =>
      simp only
      rw [lastToFinish_comm]
      rfl

theorem marker_comm (n : String) : Comm (markerUpd n) := by
  intro s v
  unfold markerUpd
  rw [show (withVars s v).current = s.current from rfl]
  split
  · rfl
  · rename_i i is _
    rw [show commonOffset (withVars s v) (i :: is) = commonOffset s (i :: is) from rfl]
    split <;> rfl

theorem atMarker_comm (n : String) : Comm (atMarkerUpd n) := by
  refine Comm.andThen applyGlobals_comm ?_
  intro s v
  simp only
  rw [show (withVars s v).markers = s.markers from rfl]
  split
  · rfl
  · rename_i o _
    exact Comm.forCurrent (g := jumpPart o) (fun _ _ _ => rfl) s v

theorem newPart_comm (n : String) (s : Score) (v : String → Option (List Upd)) : newPart n (withVars s v) = (newPart n s).map (fun x => (x.1, withVars x.2 v)) := by
  unfold newPart
  cases stockInstrument n <;> rfl

theorem onlyNewPart_comm (n : String) (s : Score) (v : String → Option (List Upd)) :
    onlyNewPart n (withVars s v) = ((onlyNewPart n s).1, withVars (onlyNewPart n s).2 v) := by
  unfold onlyNewPart
  rw [newPart_comm]
  cases newPart n s <;> rfl

theorem determineSingle_comm (n a : String) (s : Score) (v : String → Option (List Upd)) :
    determineSingle n a (withVars s v) = ((determineSingle n a s).1, withVars (determineSingle n a s).2 v) := by
  unfold determineSingle
  simp only [onlyNewPart_comm, show (withVars s v).namedParts = s.namedParts from rfl, show (withVars s v).unnamedParts = s.unnamedParts from rfl,
    show (withVars s v).aliasedStockInstruments = s.aliasedStockInstruments from rfl]
  repeat (split; · rfl)
  rfl

theorem collectGroup_comm : ∀ (ns : List String) (s : Score) (v : String → Option (List Upd)) (a b : List Nat),
    collectGroup (withVars s v) a b ns = ((collectGroup s a b ns).1, withVars (collectGroup s a b ns).2 v) := by
  intro ns
  induction ns with
  | nil => intro s v a b; rfl
  | cons n ns ih =>
    intro s v a b
    simp only [collectGroup, show (withVars s v).namedParts = s.namedParts from rfl, show (withVars s v).unnamedParts = s.unnamedParts from rfl]
    split
    · exact ih s v _ _
    · split
      · exact ih s v _ _
      · rw [newPart_comm]
        cases newPart n s with
        | none => rfl
        | some x => exact ih _ v _ _

theorem newGroup_comm : ∀ (ns : List String) (s : Score) (v : String → Option (List Upd)) (a : List Nat),
    newGroup (withVars s v) a ns = ((newGroup s a ns).1, withVars (newGroup s a ns).2 v) := by
  intro ns
  induction ns with
  | nil => intro s v a; rfl
  | cons n ns ih =>
    intro s v a
    simp only [newGroup]
    rw [newPart_comm]
    cases newPart n s with
    | none => rfl
    | some x => exact ih _ v _

theorem determineParts_comm (ns : List String) (a : String) (s : Score) (v : String → Option (List Upd)) :
    determineParts ns a (withVars s v) = ((determineParts ns a s).1, withVars (determineParts ns a s).2 v) := by
  unfold determineParts
  split
  · exact determineSingle_comm _ a s v
  · split
    · rfl
    · rw [collectGroup_comm]
      rcases collectGroup s [] [] ns with ⟨x, t⟩
      cases x with
      | error e => rfl
      | ok y =>
        simp only
        split
        · rfl
        · split
          · exact newGroup_comm ns t v _
          · rfl

theorem partDecl_comm (ns : List String) (a : String) : Comm (partDeclUpd ns a) := by
  refine Comm.andThen voiceEnd_comm ?_
  intro s v
  simp only
  rw [determineParts_comm]
  rcases determineParts ns a s with ⟨x, t⟩
  cases x with
  | error e => rfl
  | ok parts =>
    simp only
    rw [show (withVars t v).parts = t.parts from rfl]
    split
    · rfl
    · unfold declareParts
      have : markMaster parts (withVars t v) = withVars (markMaster parts t) v := by
        unfold markMaster
        rw [show (withVars t v).parts = t.parts from rfl]
        split <;> rfl
      rw [this]
      rfl

theorem cramRestore_comm (old : Nat → Part) (ids : List Nat) (d : Dur) : Comm (fun s => forIds (cramRestorePart old ids d) s.current s) :=
  Comm.forCurrent (fun _ _ _ => rfl)

theorem setRepetition_comm (r : Int) : Comm (fun s => forIds (setRepetition r) s.current s) := Comm.forCurrent (fun _ _ _ => rfl)

theorem cramScale_comm (vars : String → Option (List Upd)) (es : List Upd) (d : Dur) : Comm (fun s => forIds (cramScalePart vars es d) s.current s) := by
  refine Comm.forCurrent ?_
  intro i s v
  unfold cramScalePart
  rw [show (withVars s v).heap i = s.heap i from rfl]
  split <;> rfl

theorem chordAdvance_comm (m : Shortest) : Comm (fun s => forIds (chordAdvance m) s.current { s with chordMode := false }) :=
  fun s v => Comm.forIds (g := chordAdvance m) (fun _ _ _ => rfl) s.current { s with chordMode := false } v

theorem shortestLoop_comm (s : Score) (v : String → Option (List Upd)) (d : Dur) : ∀ (l : List Nat) (m : Shortest), shortestLoop (withVars s v) d l m = shortestLoop s d l m := by
  intro l
  induction l with
  | nil => intro m; rfl
  | cons i l ih =>
    intro m
    simp only [shortestLoop]
    rw [show (withVars s v).heap i = s.heap i from rfl]
    split
    · rfl
    · exact ih _

/-! ### Events without references -/

/-- The same result up to the variables. -/
structure VSim (o o' : Out) : Prop where
  err : o'.err = o.err
  same : ∃ v, o'.s = withVars o.s v

/-- An operation that does not depend on the variables. -/
def VBlind (g : Score → Out) : Prop := ∀ s v, VSim (g s) (g (withVars s v))

theorem Comm.blind {g : Score → Out} (h : Comm g) : VBlind g := by
  intro s v
  rw [h s v]
  exact ⟨rfl, v, rfl⟩

theorem VSim.andThen {o o' : Out} {k k' : Score → Out} (h : VSim o o') (hk : ∀ s v, VSim (k s) (k' (withVars s v))) : VSim (o.andThen k) (o'.andThen k') := by
  obtain ⟨e, s⟩ := o
  obtain ⟨e', s'⟩ := o'
  obtain ⟨h1, v, h2⟩ := h
  simp only at h1 h2
  subst h1; subst h2
  cases e' with
  | none => exact hk s v
  | some e => exact ⟨rfl, v, rfl⟩

theorem VSim.forIds {g : Nat → Score → Out} (h : ∀ i, VBlind (g i)) : ∀ l, VBlind (forIds g l) := by
  intro l
  induction l with
  | nil => intro s v; exact ⟨rfl, v, rfl⟩
  | cons i l ih => intro s v; exact (h i s v).andThen ih

theorem VSim.rep {body : Score → Out} (h : VBlind body) : ∀ k r, VBlind (repLoop body k r) := by
  intro k
  induction k with
  | zero => intro r s v; exact ⟨rfl, v, rfl⟩
  | succ k ih =>
    intro r s v
    simp only [repLoop]
    refine VSim.andThen ((setRepetition_comm r).blind s v) ?_
    intro s v
    exact (h s v).andThen (ih (r + 1))

section
variable (d : List Upd → Score → Out)

mutual
theorem plain_blind : ∀ (e : Upd), Plain e → VBlind (updWith d e)
  | .leaf l, _ => by intro s v; simp only [updWith]; exact (leaf_comm l).blind s v
  | .lisp es, h => h.elim
  | .lispNil, _ => by intro s v; simp only [updWith]; exact ⟨rfl, v, rfl⟩
  | .barline, _ => by intro s v; simp only [updWith]; exact ⟨rfl, v, rfl⟩
  | .chord es, h => by
    intro s v
    simp only [updWith]
    refine VSim.andThen (applyGlobals_comm.blind s v) ?_
    intro s v
    have hc := plain_blindC es h (fun i => if s.current.contains i then none else some 0) { s with chordMode := true } v
    have e1 : ({ withVars s v with chordMode := true } : Score) = withVars { s with chordMode := true } v := rfl
    rw [e1, show (withVars s v).current = s.current from rfl]
    simp only [hc.2]
    exact VSim.andThen hc.1 (fun s v => (chordAdvance_comm _).blind s v)
  | .cram es dur, h => by
    intro s v
    simp only [updWith]
    have e : cramScalePart (withVars s v).vars es dur = cramScalePart s.vars es dur := by
      funext i t
      unfold cramScalePart
      rw [plain_timeScale (withVars s v).vars s.vars es h]
    rw [e]
    refine VSim.andThen ((cramScale_comm s.vars es dur).blind s v) ?_
    intro t v'
    refine VSim.andThen (plain_blindL es h t v') ?_
    intro u v''
    exact (cramRestore_comm s.heap s.current dur).blind u v''
  | .seq es, h => by intro s v; simp only [updWith]; exact plain_blindL es h s v
  | .rep e n, h => by intro s v; simp only [updWith]; exact VSim.rep (plain_blind e h) _ _ s v
  | .onReps rs e, h => by
    intro s v
    simp only [updWith]
    refine VSim.forIds ?_ (List.range s.current.length) s v
    intro i s v
    unfold onRepsAt
    rw [show (withVars s v).current = s.current from rfl]
    split
    · exact ⟨rfl, v, rfl⟩
    · rename_i id _
      rw [show (withVars s v).heap id = s.heap id from rfl]
      split
      · exact plain_blind e h s v
      · exact ⟨rfl, v, rfl⟩
  | .voice n, _ => by intro s v; simp only [updWith]; exact (voice_comm n).blind s v
  | .voiceEnd, _ => by intro s v; simp only [updWith]; exact voiceEnd_comm.blind s v
  | .marker n, _ => by intro s v; simp only [updWith]; exact (marker_comm n).blind s v
  | .atMarker n, _ => by intro s v; simp only [updWith]; exact (atMarker_comm n).blind s v
  | .varDef n es, h => by
    intro s v
    simp only [updWith, varDefUpd]
    rw [plain_values (withVars s v).vars s.vars es h]
    split
    · exact ⟨rfl, v, rfl⟩
    · exact ⟨rfl, _, rfl⟩
  | .varRef n, h => h.elim
  | .partDecl ns a, h => h.elim
theorem plain_blindL : ∀ (es : List Upd), PlainL es → VBlind (updListWith d es)
  | [], _ => by intro s v; simp only [updListWith]; exact ⟨rfl, v, rfl⟩
  | e :: es, h => by intro s v; simp only [updListWith]; exact (plain_blind e h.1 s v).andThen (plain_blindL es h.2)
theorem plain_blindC : ∀ (es : List Upd), PlainL es → ∀ (m : Shortest) (s : Score) (v : String → Option (List Upd)),
    VSim (chordEvents d es m s).out (chordEvents d es m (withVars s v)).out ∧ (chordEvents d es m (withVars s v)).shortest = (chordEvents d es m s).shortest
  | [], _, m, s, v => by simp only [chordEvents]; exact ⟨⟨rfl, v, rfl⟩, trivial⟩
  | e :: es, h, m, s, v => by
    simp only [chordEvents, shortestLoop_comm, show (withVars s v).current = s.current from rfl]
    cases shortestLoop s (specifiedDuration e) s.current m with
    | none => exact ⟨⟨rfl, v, rfl⟩, rfl⟩
    | some m =>
      simp only
      have e1 := plain_blind e h.1 s v
      rcases ho : updWith d e s with ⟨err, s1⟩
      rcases ho' : updWith d e (withVars s v) with ⟨err', s1'⟩
      rw [ho, ho'] at e1
      obtain ⟨h1, v1, h2⟩ := e1
      simp only at h1 h2
      subst h1; subst h2
      cases err' with
      | some e => exact ⟨⟨rfl, v1, rfl⟩, rfl⟩
      | none => exact plain_blindC es h.2 m s1 v1
end
end

/-! ### Programs that do not define a variable -/

/-- An operation that leaves the value of `v` alone. -/
def KeepsVar (v : String) (g : Score → Out) : Prop := ∀ s, NoDef v s.vars → (g s).s.vars v = s.vars v ∧ NoDef v (g s).s.vars

theorem Comm.keepsVar {g : Score → Out} (h : Comm g) (v : String) : KeepsVar v g := by
  intro s hn
  rw [h.vars s]
  exact ⟨rfl, hn⟩

theorem KeepsVar.andThen {v : String} {s : Score} {o : Out} {k : Score → Out} (h : o.s.vars v = s.vars v ∧ NoDef v o.s.vars) (hk : KeepsVar v k) :
    (o.andThen k).s.vars v = s.vars v ∧ NoDef v (o.andThen k).s.vars := by
  obtain ⟨e, t⟩ := o
  cases e with
  | none => exact ⟨(hk t h.2).1.trans h.1, (hk t h.2).2⟩
  | some e => exact h

theorem KeepsVar.forIds {v : String} {g : Nat → Score → Out} (h : ∀ i, KeepsVar v (g i)) : ∀ l, KeepsVar v (forIds g l) := by
  intro l
  induction l with
  | nil => intro s hn; exact ⟨rfl, hn⟩
  | cons i l ih => intro s hn; exact KeepsVar.andThen (h i s hn) ih

theorem KeepsVar.rep {v : String} {body : Score → Out} (h : KeepsVar v body) : ∀ k r, KeepsVar v (repLoop body k r) := by
  intro k
  induction k with
  | zero => intro r s hn; exact ⟨rfl, hn⟩
  | succ k ih =>
    intro r s hn
    simp only [repLoop]
    refine KeepsVar.andThen ((setRepetition_comm r).keepsVar v s hn) ?_
    intro s hn
    exact KeepsVar.andThen (h s hn) (ih (r + 1))

mutual
theorem value_noDef {v : String} {vars : String → Option (List Upd)} (hv : NoDef v vars) : ∀ (e w : Upd), ¬ Defines v e → varValue vars e = .ok w → ¬ Defines v w
  | .leaf l, w, _, h => by simp only [varValue, Except.ok.injEq] at h; subst h; simp only [Defines, not_false_eq_true]
  | .lisp es, w, _, h => by
    simp only [varValue] at h
    cases hl : lispUpdate es with
    | error e => rw [hl] at h; cases h
    | ok o => cases o <;> (rw [hl] at h; cases h; simp only [Defines, not_false_eq_true])
  | .lispNil, w, _, h => by simp only [varValue, Except.ok.injEq] at h; subst h; simp only [Defines, not_false_eq_true]
  | .barline, w, _, h => by simp only [varValue, Except.ok.injEq] at h; subst h; simp only [Defines, not_false_eq_true]
  | .chord es, w, hn, h => by
    simp only [varValue] at h
    split at h
    · cases h
    · rename_i vs hvs; cases h; simp only [Defines] at hn ⊢; exact values_noDef hv es vs hn hvs
  | .cram es d, w, hn, h => by
    simp only [varValue] at h
    split at h
    · cases h
    · rename_i vs hvs; cases h; simp only [Defines] at hn ⊢; exact values_noDef hv es vs hn hvs
  | .seq es, w, hn, h => by
    simp only [varValue] at h
    split at h
    · cases h
    · rename_i vs hvs; cases h; simp only [Defines] at hn ⊢; exact values_noDef hv es vs hn hvs
  | .rep e n, w, hn, h => by
    simp only [varValue] at h
    split at h
    · cases h
    · rename_i x hx; cases h; simp only [Defines] at hn ⊢; exact value_noDef hv e x hn hx
  | .onReps rs e, w, hn, h => by
    simp only [varValue] at h
    split at h
    · cases h
    · rename_i x hx; cases h; simp only [Defines] at hn ⊢; exact value_noDef hv e x hn hx
  | .voice n, w, _, h => by simp only [varValue, Except.ok.injEq] at h; subst h; simp only [Defines, not_false_eq_true]
  | .voiceEnd, w, _, h => by simp only [varValue, Except.ok.injEq] at h; subst h; simp only [Defines, not_false_eq_true]
  | .marker n, w, _, h => by simp only [varValue, Except.ok.injEq] at h; subst h; simp only [Defines, not_false_eq_true]
  | .atMarker n, w, _, h => by simp only [varValue, Except.ok.injEq] at h; subst h; simp only [Defines, not_false_eq_true]
  | .varDef n es, w, hn, h => by
    simp only [varValue] at h
    split at h
    · cases h
    · rename_i vs hvs
      cases h
      simp only [Defines, not_or] at hn ⊢
      exact ⟨hn.1, values_noDef hv es vs hn.2 hvs⟩
  | .varRef n, w, _, h => by
    simp only [varValue] at h
    split at h
    · cases h
    · rename_i es hes; cases h; simp only [Defines]; exact hv n es hes
  | .partDecl ns a, w, _, h => by simp only [varValue] at h; cases h
theorem values_noDef {v : String} {vars : String → Option (List Upd)} (hv : NoDef v vars) : ∀ (es ws : List Upd), ¬ DefinesL v es → varValues vars es = .ok ws →
    ¬ DefinesL v ws
  | [], ws, _, h => by simp only [varValues, Except.ok.injEq] at h; subst h; simp only [DefinesL, not_false_eq_true]
  | e :: es, ws, hn, h => by
    simp only [DefinesL, not_or] at hn
    simp only [varValues] at h
    split at h
    · cases h
    · rename_i x hx
      split at h
      · cases h
      · rename_i xs hxs
        cases h
        simp only [DefinesL, not_or]
        exact ⟨value_noDef hv e x hn.1 hx, values_noDef hv es xs hn.2 hxs⟩
end

section
variable {v : String} {d : List Upd → Score → Out} (hd : ∀ es, ¬ DefinesL v es → KeepsVar v (d es))
include hd

mutual
theorem keeps_var : ∀ (e : Upd), ¬ Defines v e → KeepsVar v (updWith d e)
  | .leaf l, _ => by intro s hn; simp only [updWith]; exact (leaf_comm l).keepsVar v s hn
  | .lisp es, _ => by
    intro s hn
    simp only [updWith]
    split
    · exact ⟨rfl, hn⟩
    · exact ⟨rfl, hn⟩
    · exact (leaf_comm _).keepsVar v s hn
  | .lispNil, _ => by intro s hn; simp only [updWith]; exact ⟨rfl, hn⟩
  | .barline, _ => by intro s hn; simp only [updWith]; exact ⟨rfl, hn⟩
  | .chord es, h => by
    intro s hn
    simp only [Defines] at h
    simp only [updWith]
    refine KeepsVar.andThen (applyGlobals_comm.keepsVar v s hn) ?_
    intro s hn
    refine KeepsVar.andThen (keeps_varC es h _ { s with chordMode := true } hn) ?_
    intro s hn
    exact (chordAdvance_comm _).keepsVar v s hn
  | .cram es dur, h => by
    intro s hn
    simp only [Defines] at h
    simp only [updWith]
    refine KeepsVar.andThen ((cramScale_comm s.vars es dur).keepsVar v s hn) ?_
    intro t hn
    refine KeepsVar.andThen (keeps_varL es h t hn) ?_
    intro u hn
    exact (cramRestore_comm s.heap s.current dur).keepsVar v u hn
  | .seq es, h => by intro s hn; simp only [updWith]; exact keeps_varL es (by simpa only [Defines] using h) s hn
  | .rep e n, h => by intro s hn; simp only [updWith]; exact KeepsVar.rep (keeps_var e (by simpa only [Defines] using h)) _ _ s hn
  | .onReps rs e, h => by
    intro s hn
    simp only [Defines] at h
    simp only [updWith]
    refine KeepsVar.forIds ?_ _ s hn
    intro i s hn
    unfold onRepsAt
    split
    · exact ⟨rfl, hn⟩
    · split
      · exact keeps_var e h s hn
      · exact ⟨rfl, hn⟩
  | .voice n, _ => by intro s hn; simp only [updWith]; exact (voice_comm n).keepsVar v s hn
  | .voiceEnd, _ => by intro s hn; simp only [updWith]; exact voiceEnd_comm.keepsVar v s hn
  | .marker n, _ => by intro s hn; simp only [updWith]; exact (marker_comm n).keepsVar v s hn
  | .atMarker n, _ => by intro s hn; simp only [updWith]; exact (atMarker_comm n).keepsVar v s hn
  | .varDef n es, h => by
    intro s hn
    simp only [Defines, not_or] at h
    simp only [updWith, varDefUpd]
    cases hw : varValues s.vars es with
    | error e => exact ⟨rfl, hn⟩
    | ok ws =>
      refine ⟨by simp only [Out.ok]; rw [if_neg (Ne.symm h.1)], ?_⟩
      intro m us hu
      simp only [Out.ok] at hu
      by_cases hm : m = n
      · rw [if_pos hm, Option.some.injEq] at hu; subst hu; exact values_noDef hn es ws h.2 hw
      · rw [if_neg hm] at hu; exact hn m us hu
  | .varRef n, _ => by
    intro s hn
    simp only [updWith]
    cases h : s.vars n with
    | none => exact ⟨rfl, hn⟩
    | some es => exact hd es (hn n es h) s hn
  | .partDecl ns a, _ => by intro s hn; simp only [updWith]; exact (partDecl_comm ns a).keepsVar v s hn
theorem keeps_varL : ∀ (es : List Upd), ¬ DefinesL v es → KeepsVar v (updListWith d es)
  | [], _ => by intro s hn; simp only [updListWith]; exact ⟨rfl, hn⟩
  | e :: es, h => by
    intro s hn
    simp only [DefinesL, not_or] at h
    simp only [updListWith]
    exact KeepsVar.andThen (keeps_var e h.1 s hn) (keeps_varL es h.2)
theorem keeps_varC : ∀ (es : List Upd), ¬ DefinesL v es → ∀ (m : Shortest) (s : Score), NoDef v s.vars →
    (chordEvents d es m s).out.s.vars v = s.vars v ∧ NoDef v (chordEvents d es m s).out.s.vars
  | [], _, m, s, hn => by simp only [chordEvents]; exact ⟨rfl, hn⟩
  | e :: es, h, m, s, hn => by
    simp only [DefinesL, not_or] at h
    simp only [chordEvents]
    cases shortestLoop s (specifiedDuration e) s.current m with
    | none => exact ⟨rfl, hn⟩
    | some m =>
      simp only
      have h1 := keeps_var e h.1 s hn
      rcases ho : updWith d e s with ⟨err, t⟩
      rw [ho] at h1
      cases err with
      | some err => exact h1
      | none =>
        have h2 := keeps_varC es h.2 m t h1.2
        exact ⟨h2.1.trans h1.1, h2.2⟩
end
end

theorem deref_keepsVar (v : String) (es : List Upd) (h : ¬ DefinesL v es) : KeepsVar v (derefUpd es) :=
  keeps_varL (fun _ _ _ hn => ⟨rfl, hn⟩) es h

end Alda
