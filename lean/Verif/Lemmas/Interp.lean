import Verif.Lemmas.Voices
/-!
The interpreter only performs elementary changes (`Step`).
-/
namespace Alda

/-- Stored variable values only contain allowed events. -/
def VarsOk (L : Leaf → Prop) (s : Score) : Prop :=
  ∀ n es, s.vars n = some es → AllLeavesL L es ∧ PlainL es

/-- The invariant used to follow the interpreter. -/
structure Good (L : Leaf → Prop) (D : Prop) (s : Score) : Prop where
  wf : WF s
  vars : VarsOk L s
  voices : VoicesOk s
  idle : D → IdleOk s

theorem applyGlobalsPart_rest (id : Nat) (s : Score) : ∃ p, (applyGlobalsPart id s).s = s.setPart id p := by
  simp only [applyGlobalsPart]
  split <;> exact ⟨_, rfl⟩

theorem recordUsage_rest (s : Score) (c o : Nat) : recordUsage s c o = { s with usage := (recordUsage s c o).usage } := by
  unfold recordUsage; split <;> rfl

theorem emitted_rest (s : Score) (id : Nat) (ch note : Int) (d a : Rat) :
    ∃ h u e, emitted s id ch note d a = { s with heap := h, events := e, usage := u } := by
  simp only [emitted]
  rw [recordUsage_rest]
  exact ⟨_, _, _, rfl⟩

theorem addVoice_rest (id : Nat) (n : Int) (s : Score) : ∃ h nx vh, (addVoice id n s).1.s = { s with heap := h, next := nx, vheap := vh } := by
  simp only [addVoice]
  split
  · exact ⟨s.heap, s.next, s.vheap, rfl⟩
  · exact ⟨_, _, _, rfl⟩

theorem voiceEndAt_rest (i : Nat) (s : Score) : ∃ h vh vn p c a, (voiceEndAt i s).s =
    { s with heap := h, vheap := vh, vnext := vn, parts := p, current := c, aliases := a } := by
  simp only [voiceEndAt]
  split
  · exact ⟨s.heap, s.vheap, s.vnext, s.parts, s.current, s.aliases, rfl⟩
  · split
    · exact ⟨s.heap, s.vheap, s.vnext, s.parts, s.current, s.aliases, rfl⟩
    · exact ⟨_, _, _, _, _, _, rfl⟩

theorem newPart_rest {name : String} {s : Score} {id : Nat} {s' : Score} (h : newPart name s = some (id, s')) :
    ∃ h nx vh vn, s' = { s with heap := h, next := nx, vheap := vh, vnext := vn } := by
  obtain ⟨_, _, _, _, _, _, _, _, _, _, _, _, _, _, _, _, _, _, _, _, _, _, _, _, rfl⟩ := newPart_eq h
  exact ⟨_, _, _, _, rfl⟩

theorem declareParts_rest (parts : List Nat) (alias : String) (s : Score) : ∃ h p a,
    declareParts parts alias s = { s with heap := h, parts := p, aliases := a, current := parts } := by
  simp only [declareParts]
  rw [markMaster_rest]
  exact ⟨_, _, _, rfl⟩

/-- The variables change only by definitions. -/
theorem Step.vars {L D} {s t : Score} (h : Step L D s t) : t.vars = s.vars ∨
    ∃ n es, AllLeavesL L es ∧ PlainL es ∧ t.vars = fun m => if m = n then some es else s.vars m := by
  cases h with
  | globals hid => obtain ⟨p, h⟩ := applyGlobalsPart_rest _ s; rw [h]; exact Or.inl rfl
  | emit d a hid ha hn hd hc => obtain ⟨_, _, _, h⟩ := emitted_rest s _ _ _ d a; rw [h]; exact Or.inl rfl
  | setVar n es hes hpl => exact Or.inr ⟨n, es, hes, hpl, rfl⟩
  | newVoice n hid ht hn => obtain ⟨_, _, _, h⟩ := addVoice_rest _ n s; rw [h]; exact Or.inl rfl
  | endVoices i => obtain ⟨_, _, _, _, _, _, h⟩ := voiceEndAt_rest i s; rw [h]; exact Or.inl rfl
  | newPart hD name h => obtain ⟨_, _, _, _, h⟩ := newPart_rest h; rw [h]; exact Or.inl rfl
  | declare hD parts alias hp hn hne hg => obtain ⟨_, _, _, h⟩ := declareParts_rest parts alias s; rw [h]; exact Or.inl rfl
  | _ => exact Or.inl rfl

theorem Step.good {L D} {s t : Score} (h : Step L D s t) (g : Good L D s) : Good L D t := by
  refine ⟨h.wf g.wf, ?_, h.voicesOk g.wf g.voices g.idle, fun d => h.idleOk g.wf g.voices (g.idle d)⟩
  intro n es he
  rcases h.vars with hv | ⟨m, vs, h1, h2, hv⟩
  · rw [hv] at he; exact g.vars n es he
  · rw [hv] at he
    simp only at he
    split at he
    · simp only [Option.some.injEq] at he; subst he; exact ⟨h1, h2⟩
    · exact g.vars n es he

theorem Steps.good {L D} {s t : Score} (h : Steps L D s t) (g : Good L D s) : Good L D t :=
  h.invariant (fun _ _ hs => hs.good) g

theorem newScore_good (L D) : Good L D newScore :=
  ⟨newScore_wf, fun n es h => by simp [newScore] at h, newScore_voicesOk, fun _ => newScore_idleOk⟩

section
variable {L : Leaf → Prop} {D : Prop}

/-! ### Leaves -/

theorem attrUpd_steps (u : PartUpd) (hL : L (.attr u)) (s : Score) : Steps L D s (attrUpd u s).s := by
  refine (forIds_steps_current (attrPart u) ?_ s.current s (fun _ h => h)).1
  intro i s hi
  simp only [attrPart]
  split
  · exact ⟨.refl s, rfl⟩
  · rename_i p hp; exact ⟨.one (.attr hi hL hp), rfl⟩

theorem applyGlobals_steps_cur (s : Score) : Steps L D s (applyGlobals s).s ∧ (applyGlobals s).s.current = s.current := by
  refine forIds_steps_current applyGlobalsPart ?_ s.current s (fun _ h => h)
  intro i s hi
  obtain ⟨p, h⟩ := applyGlobalsPart_rest i s
  exact ⟨.one (.globals hi), by rw [h]; rfl⟩

theorem applyGlobals_steps (s : Score) : Steps L D s (applyGlobals s).s := (applyGlobals_steps_cur s).1

theorem globalAttrUpd_steps (u : PartUpd) (hL : L (.globalAttr u)) (s : Score) : Steps L D s (globalAttrUpd u s).s := by
  simp only [globalAttrUpd]
  split
  · exact .one (.record 0 u hL)
  · split
    · exact .one (.record _ u hL)
    · exact .refl s

theorem timing_step (s : Score) (id : Nat) (hid : id ∈ s.current) (f : Part → Part)
    (hf : ∀ p : Part, f p = { p with offset := (f p).offset, lastOffset := (f p).lastOffset, timeScale := (f p).timeScale,
                                     dur := (f p).dur, repetition := (f p).repetition }) :
    Step L D s (s.modPart id f) := by
  have : s.modPart id f = s.modPart id (fun p => { p with
      offset := (f (s.heap id)).offset, lastOffset := (f (s.heap id)).lastOffset,
      timeScale := (f (s.heap id)).timeScale, dur := (f (s.heap id)).dur, repetition := (f (s.heap id)).repetition }) := by
    unfold Score.modPart
    congr 1
    exact hf _
  rw [this]
  exact .timing _ _ _ _ _ hid

theorem advancePart_step (s : Score) (id : Nat) (hid : id ∈ s.current) (ms : Rat) (d : Dur) : Step L D s (advancePart s id ms d) := by
  apply timing_step s id hid
  intro p
  simp only
  split <;> cases d <;> rfl

theorem advancePart_current (s : Score) (id : Nat) (ms : Rat) (d : Dur) : (advancePart s id ms d).current = s.current := rfl

theorem emitNote_step (pitch : Pitch) (ms aud : Rat) (ha : 0 < aud) (id : Nat) (s : Score) (hid : id ∈ s.current) :
    Steps L D s (emitNote pitch ms aud id s).s ∧ (emitNote pitch ms aud id s).s.current = s.current := by
  simp only [emitNote]
  split
  · exact ⟨.refl s, rfl⟩
  rename_i hr
  split
  · exact ⟨.refl s, rfl⟩
  rename_i ch s' hs
  simp only [assignMidiChannel] at hs
  split at hs
  · simp at hs
  rename_i ch' hd
  split at hs
  · rename_i hc
    simp only [Except.ok.injEq, Prod.mk.injEq] at hs
    obtain ⟨rfl, rfl⟩ := hs
    have hst := Step.emit (L := L) (D := D) ms aud hid ha (note := calculateMidiNote pitch (s.heap id).octave (s.heap id).keySig (s.heap id).transposition)
      (by omega) hd hc
    refine ⟨.one hst, ?_⟩
    obtain ⟨_, _, _, h⟩ := emitted_rest s id ch'
      (calculateMidiNote pitch (s.heap id).octave (s.heap id).keySig (s.heap id).transposition) ms aud
    show (emitted s id ch' _ ms aud).current = s.current
    rw [h]
  · simp at hs

theorem notePart_steps (pitch : Pitch) (d : Dur) (sl : Bool) (id : Nat) (s : Score) (hid : id ∈ s.current) :
    Steps L D s (notePart pitch d sl id s).s ∧ (notePart pitch d sl id s).s.current = s.current := by
  simp only [notePart]
  split
  · exact ⟨.refl s, rfl⟩
  rename_i ms _
  generalize ms * (s.heap id).timeScale = dms
  generalize (if sl = true then dms else dms * (s.heap id).quant) = aud
  have h1 : Steps L D s (if aud > 0 then emitNote pitch dms aud id s else Out.ok s).s ∧
      (if aud > 0 then emitNote pitch dms aud id s else Out.ok s).s.current = s.current := by
    split
    · rename_i ha; exact emitNote_step pitch dms aud ha id s hid
    · exact ⟨.refl s, rfl⟩
  generalize (if aud > 0 then emitNote pitch dms aud id s else Out.ok s) = o at h1
  rcases Out.andThen_s o (fun s' => .ok (advancePart s' id dms (effectiveDuration d (s.heap id)))) with ⟨_, hs, _⟩ | ⟨_, _, hs, _⟩
  · rw [hs]
    exact ⟨h1.1.tail (advancePart_step _ id (by rw [h1.2]; exact hid) _ _), h1.2⟩
  · rw [hs]; exact h1

theorem restPart_steps (d : Dur) (id : Nat) (s : Score) (hid : id ∈ s.current) :
    Steps L D s (restPart d id s).s ∧ (restPart d id s).s.current = s.current := by
  simp only [restPart]
  split
  · exact ⟨.refl s, rfl⟩
  · exact ⟨.one (advancePart_step s id hid _ _), rfl⟩

theorem beforeNote_steps (d : Dur) (s : Score) : Steps L D s (beforeNote d s).s := by
  simp only [beforeNote]
  refine Out.andThen_steps ?_ (fun _ => ?_)
  · split
    · exact .refl s
    · exact applyGlobals_steps s
  · generalize (if s.chordMode = true then Out.ok s else applyGlobals s).s = s
    split <;> exact .refl _

theorem noteUpd_steps (pitch : Pitch) (d : Dur) (sl : Bool) (s : Score) : Steps L D s (noteUpd pitch d sl s).s :=
  Out.andThen_steps (beforeNote_steps d s) (fun _ =>
    (forIds_steps_current _ (fun i s hi => notePart_steps pitch d sl i s hi) _ _ (fun _ h => h)).1)

theorem restUpd_steps (d : Dur) (s : Score) : Steps L D s (restUpd d s).s :=
  Out.andThen_steps (beforeNote_steps d s) (fun _ =>
    (forIds_steps_current _ (fun i s hi => restPart_steps d i s hi) _ _ (fun _ h => h)).1)

theorem leafUpd_steps (l : Leaf) (hL : L l) (s : Score) : Steps L D s (leafUpd l s).s := by
  cases l with
  | note p d sl => exact noteUpd_steps p d sl s
  | rest d => exact restUpd_steps d s
  | attr u => exact attrUpd_steps u hL s
  | globalAttr u => exact globalAttrUpd_steps u hL s

/-! ### Voices -/

theorem lookup_mem {β : Type} : ∀ (l : List (Int × β)) (n : Int) (v : β), l.lookup n = some v → (n, v) ∈ l := by
  intro l
  induction l with
  | nil => intro n v h; simp at h
  | cons x l ih =>
    intro n v h
    obtain ⟨m, w⟩ := x
    by_cases hm : n == m
    · simp only [List.lookup, hm, Option.some.injEq] at h
      have : n = m := by simpa using hm
      subst this; subst h; exact List.mem_cons_self ..
    · simp only [List.lookup, hm] at h
      exact List.mem_cons_of_mem _ (ih n v h)

theorem getVoice_steps (id : Nat) (n : Int) (s : Score) (g : Good L D s) (hid : id ∈ s.current) :
    Steps L D s (getVoice id n s).1.s ∧ (getVoice id n s).1.s.current = s.current ∧
    ((getVoice id n s).1.err = none → (n, (getVoice id n s).2) ∈
      (getVoice id n s).1.s.vheap ((getVoice id n s).1.s.heap id).voices) := by
  have hlt := g.wf.cur_lt id hid
  simp only [getVoice]
  split
  · rename_i v hv
    exact ⟨.refl s, rfl, fun _ => lookup_mem _ _ _ hv⟩
  rename_i hv
  have h1 : Steps L D s (ensureTemplate id s).s ∧ (ensureTemplate id s).s.current = s.current ∧
      (ensureTemplate id s).s.vheap = s.vheap ∧ ((ensureTemplate id s).s.heap id).voices = (s.heap id).voices := by
    simp only [ensureTemplate]
    split
    · exact ⟨.refl s, rfl, rfl, rfl⟩
    · rename_i hvo
      split
      · exact ⟨.refl s, rfl, rfl, rfl⟩
      · rename_i ht
        refine ⟨.one (.template hid hvo ht), rfl, rfl, ?_⟩
        have hne : id ≠ s.next := by omega
        simp [Score.alloc, Score.modPart, Score.setPart, Out.ok, hne]
  split
  · rename_i e s' he
    rw [he] at h1
    exact ⟨h1.1, h1.2.1, fun h => by simp [Out.fail] at h⟩
  · rename_i s' he
    rw [he] at h1
    obtain ⟨h1, h2, h3, h4⟩ := h1
    simp only at h1 h2 h3 h4
    have g' := h1.good g
    have hid' : id ∈ s'.current := by rw [h2]; exact hid
    have hlt' := g'.wf.cur_lt id hid'
    have hne : id ≠ s'.next := by omega
    cases ht : (s'.heap id).template with
    | none =>
      have e : addVoice id n s' = (.fail (.panic "nil pointer dereference") s', 0) := by simp only [addVoice, ht]
      rw [e]
      exact ⟨h1, h2, fun h => by simp [Out.fail] at h⟩
    | some t =>
      have hst : Step L D s' (addVoice id n s').1.s := .newVoice n hid' ht (by rw [h3, h4]; exact hv)
      refine ⟨h1.tail hst, ?_, fun _ => ?_⟩
      · obtain ⟨_, _, _, h⟩ := addVoice_rest id n s'; rw [h]; exact h2
      · simp [addVoice, ht, Score.alloc, Score.setPart, Out.ok, hne]

theorem voiceUpd_steps (n : Int) (s : Score) (g : Good L D s) : Steps L D s (voiceUpd n s).s := by
  have key : ∀ (is : List Nat) (s : Score), Good L D s → Steps L D s (forIds (voiceMarkerAt n) is s).s := by
    intro is
    induction is with
    | nil => intro s _; exact .refl s
    | cons i is ih =>
      intro s g
      have h1 : Steps L D s (voiceMarkerAt n i s).s := by
        simp only [voiceMarkerAt]
        split
        · exact .refl s
        · rename_i id hid
          have hm : id ∈ s.current := List.mem_of_getElem? hid
          have hg := getVoice_steps (D := D) id n s g hm
          split
          · rename_i e s' v he
            rw [he] at hg; exact hg.1
          · rename_i s' v he
            rw [he] at hg
            obtain ⟨a, b, c⟩ := hg
            exact a.tail (.enterVoice (by simp only at b; rw [b]; exact hm) (c rfl))
      exact Out.andThen_steps h1 (fun _ => ih _ (h1.good g))
  exact key _ s g

theorem voiceEndUpd_steps (s : Score) : Steps L D s (voiceEndUpd s).s :=
  forIds_steps _ (fun i _ => .one (.endVoices i)) _ s

/-! ### Markers -/

theorem markerUpd_steps (n : String) (s : Score) : Steps L D s (markerUpd n s).s := by
  simp only [markerUpd]
  split
  · exact .refl s
  · split
    · exact .refl s
    · exact .one (.marker n _)

theorem atMarkerUpd_steps (n : String) (s : Score) : Steps L D s (atMarkerUpd n s).s := by
  refine Out.andThen_steps (applyGlobals_steps s) (fun _ => ?_)
  generalize (applyGlobals s).s = s
  split
  · exact .refl s
  · rename_i o _
    refine (forIds_steps_current _ ?_ _ _ (fun _ h => h)).1
    intro i s hi
    exact ⟨.one (timing_step s i hi (fun p => { p with lastOffset := p.offset, offset := o }) (fun p => rfl)), rfl⟩

/-! ### Part declarations -/

/-- What holds of the parts found by a declaration. -/
structure PartsFound (L : Leaf → Prop) (s : Score) (r : PartsResult) : Prop where
  steps : Steps L True s r.2
  parts : r.2.parts = s.parts
  ok : ∀ ids, r.1 = .ok ids → ids.Nodup ∧ ∀ id ∈ ids, id ∈ r.2.parts ∨ Fresh r.2 id

theorem onlyNewPart_found (name : String) (s : Score) (w : WF s) : PartsFound L s (onlyNewPart name s) := by
  simp only [onlyNewPart]
  split
  · exact ⟨.refl s, rfl, fun ids h => by simp at h⟩
  · rename_i id s' h
    refine ⟨.one (.newPart trivial name h), ?_, ?_⟩
    · obtain ⟨_, _, _, _, e⟩ := newPart_rest h; rw [e]
    · intro ids he
      simp only [Except.ok.injEq] at he
      subst he
      refine ⟨by simp, fun i hi => ?_⟩
      simp only [List.mem_singleton] at hi
      subst hi
      exact Or.inr (newPart_fresh w h)

theorem alias_lookup_mem : ∀ (l : List (String × List Nat)) (n : String) (v), l.lookup n = some v → (n, v) ∈ l := by
  intro l
  induction l with
  | nil => intro n v h; simp at h
  | cons x l ih =>
    intro n v h
    obtain ⟨m, w⟩ := x
    by_cases hm : n == m
    · simp only [List.lookup, hm, Option.some.injEq] at h
      have : n = m := by simpa using hm
      subst this; subst h; exact List.mem_cons_self ..
    · simp only [List.lookup, hm] at h
      exact List.mem_cons_of_mem _ (ih n v h)

theorem namedParts_ok (s : Score) (w : WF s) (n : String) : (s.namedParts n).Nodup ∧ ∀ i ∈ s.namedParts n, i ∈ s.parts := by
  unfold Score.namedParts
  cases h : s.aliases.lookup n with
  | none => simp
  | some v =>
    have := alias_lookup_mem _ _ _ h
    exact ⟨w.alias_nodup _ this, w.alias_parts _ this⟩

theorem parts_nodup_ids (s : Score) (w : WF s) : s.parts.Nodup :=
  List.Pairwise.of_map _ (fun _ _ h h' => h (by rw [h'])) w.parts_nodup

theorem unnamedParts_ok (s : Score) (w : WF s) (n : String) : (s.unnamedParts n).Nodup ∧ ∀ i ∈ s.unnamedParts n, i ∈ s.parts := by
  unfold Score.unnamedParts
  exact ⟨(parts_nodup_ids s w).filter _, fun i hi => (List.mem_filter.1 hi).1⟩

theorem determineSingle_found (name alias : String) (s : Score) (w : WF s) : PartsFound L s (determineSingle name alias s) := by
  have err : ∀ e, PartsFound L s (.error e, s) := fun e => ⟨.refl s, rfl, fun ids h => by simp at h⟩
  simp only [determineSingle]
  split
  · exact err _
  split
  · exact err _
  split
  · exact err _
  split
  · exact onlyNewPart_found name s w
  split
  · refine ⟨.refl s, rfl, ?_⟩
    intro ids h
    simp only [Except.ok.injEq] at h
    subst h
    exact ⟨(namedParts_ok s w name).1, fun i hi => Or.inl ((namedParts_ok s w name).2 i hi)⟩
  split
  · refine ⟨.refl s, rfl, ?_⟩
    intro ids h
    simp only [Except.ok.injEq] at h
    subst h
    exact ⟨(unnamedParts_ok s w name).1, fun i hi => Or.inl ((unnamedParts_ok s w name).2 i hi)⟩
  · exact onlyNewPart_found name s w

/-- Steps made by `newPart`, and what they keep. -/
theorem newPart_step {name : String} {s : Score} {id : Nat} {s' : Score} (w : WF s) (h : newPart name s = some (id, s')) :
    Steps L True s s' ∧ WF s' ∧ s'.parts = s.parts ∧ Fresh s' id ∧ (∀ j, Fresh s j → Fresh s' j) := by
  refine ⟨.one (.newPart trivial name h), newPart_wf w h, ?_, newPart_fresh w h, fun j hj => newPart_keeps_fresh w h hj⟩
  obtain ⟨_, _, _, _, e⟩ := newPart_rest h; rw [e]

theorem collectGroup_found (ns : List String) : ∀ (named stock : List Nat) (s : Score), WF s →
    (∀ i ∈ named ++ stock, i ∈ s.parts ∨ Fresh s i) →
    Steps L True s (collectGroup s named stock ns).2 ∧ (collectGroup s named stock ns).2.parts = s.parts ∧
    ∀ r, (collectGroup s named stock ns).1 = .ok r →
      ∀ i ∈ r.1 ++ r.2, i ∈ s.parts ∨ Fresh (collectGroup s named stock ns).2 i := by
  induction ns with
  | nil =>
    intro named stock s w h
    refine ⟨.refl s, rfl, ?_⟩
    intro r hr
    simp only [collectGroup, Except.ok.injEq] at hr
    subst hr
    exact h
  | cons n ns ih =>
    intro named stock s w h
    simp only [collectGroup]
    split
    · apply ih _ _ s w
      intro i hi
      simp only [List.mem_append] at hi h
      rcases hi with (hi | hi) | hi
      · exact h i (Or.inl hi)
      · exact Or.inl ((namedParts_ok s w n).2 i hi)
      · exact h i (Or.inr hi)
    · split
      · apply ih _ _ s w
        intro i hi
        simp only [List.mem_append] at hi h
        rcases hi with hi | hi | hi
        · exact h i (Or.inl hi)
        · exact h i (Or.inr hi)
        · exact Or.inl ((unnamedParts_ok s w n).2 i hi)
      · split
        · exact ⟨.refl s, rfl, fun r hr => by simp at hr⟩
        · rename_i id s' hn
          obtain ⟨h1, h2, h3, h4, h5⟩ := newPart_step (L := L) w hn
          obtain ⟨a, b, c⟩ := ih named (stock ++ [id]) s' h2 (by
            intro i hi
            rw [h3]
            simp only [List.mem_append, List.mem_singleton] at hi h
            rcases hi with hi | hi | hi
            · exact (h i (Or.inl hi)).imp (fun h => h) (h5 i)
            · exact (h i (Or.inr hi)).imp (fun h => h) (h5 i)
            · subst hi; exact Or.inr h4)
          refine ⟨h1.trans a, b.trans h3, ?_⟩
          intro r hr i hi
          rw [← h3]; exact c r hr i hi

theorem newGroup_found (ns : List String) : ∀ (acc : List Nat) (s : Score), WF s → acc.Nodup → (∀ i ∈ acc, Fresh s i) →
    PartsFound L s (newGroup s acc ns) := by
  induction ns with
  | nil =>
    intro acc s w hn h
    refine ⟨.refl s, rfl, ?_⟩
    intro ids he
    simp only [newGroup, Except.ok.injEq] at he
    subst he
    exact ⟨hn, fun i hi => Or.inr (h i hi)⟩
  | cons n ns ih =>
    intro acc s w hn h
    simp only [newGroup]
    split
    · exact ⟨.refl s, rfl, fun r hr => by simp at hr⟩
    · rename_i id s' hnp
      obtain ⟨h1, h2, h3, h4, h5⟩ := newPart_step (L := L) w hnp
      have := ih (if acc.contains id then acc else acc ++ [id]) s' h2 (by
          split
          · exact hn
          · rename_i hc
            refine List.nodup_append.2 ⟨hn, by simp, ?_⟩
            intro a ha b hb hab
            simp only [List.mem_singleton] at hb
            subst hb; subst hab
            exact hc (by simpa using ha)) (by
          intro i hi
          split at hi
          · exact h5 i (h i hi)
          · simp only [List.mem_append, List.mem_singleton] at hi
            rcases hi with hi | hi
            · exact h5 i (h i hi)
            · subst hi; exact h4)
      exact ⟨h1.trans this.steps, this.parts.trans h3, this.ok⟩

theorem determineParts_found (names : List String) (alias : String) (s : Score) (w : WF s) :
    PartsFound L s (determineParts names alias s) := by
  simp only [determineParts]
  split
  · exact determineSingle_found _ alias s w
  split
  · exact ⟨.refl s, rfl, fun ids h => by simp at h⟩
  obtain ⟨a, b, c⟩ := collectGroup_found (L := L) names [] [] s w (by simp)
  split
  · rename_i e s' he
    rw [he] at a b
    exact ⟨a, b, fun ids h => by simp at h⟩
  · rename_i named stock s' he
    rw [he] at a b c
    simp only at a b c
    split
    · exact ⟨a, b, fun ids h => by simp at h⟩
    split
    · have w' : WF s' := a.invariant (fun _ _ h => h.wf) w
      have := newGroup_found (L := L) names [] s' w' (by simp) (by simp)
      exact ⟨a.trans this.steps, this.parts.trans b, this.ok⟩
    · refine ⟨a, b, ?_⟩
      intro ids h
      simp only [Except.ok.injEq] at h
      subst h
      refine ⟨dedup_nodup _ _ (dedup_nodup _ _ (by simp)), ?_⟩
      intro i hi
      simp only [dedup_mem, List.not_mem_nil, false_or] at hi
      rw [show s'.parts = s.parts from b]
      exact c _ rfl i (List.mem_append.2 hi)

/-- What `newPart` preserves, looking up the parts of a declaration preserves. -/
theorem onlyNewPart_inv {P : Score → Prop} (hP : ∀ name s id s', P s → newPart name s = some (id, s') → P s') (name : String)
    (s : Score) (h : P s) : P (onlyNewPart name s).2 := by
  simp only [onlyNewPart]
  split
  · exact h
  · rename_i id s' hn; exact hP _ _ _ _ h hn

theorem collectGroup_inv {P : Score → Prop} (hP : ∀ name s id s', P s → newPart name s = some (id, s') → P s') (ns : List String) :
    ∀ named stock s, P s → P (collectGroup s named stock ns).2 := by
  induction ns with
  | nil => intro _ _ s h; exact h
  | cons n ns ih =>
    intro named stock s h
    simp only [collectGroup]
    split
    · exact ih _ _ s h
    split
    · exact ih _ _ s h
    split
    · exact h
    · rename_i id s' hn; exact ih _ _ s' (hP _ _ _ _ h hn)

theorem newGroup_inv {P : Score → Prop} (hP : ∀ name s id s', P s → newPart name s = some (id, s') → P s') (ns : List String) :
    ∀ acc s, P s → P (newGroup s acc ns).2 := by
  induction ns with
  | nil => intro _ s h; exact h
  | cons n ns ih =>
    intro acc s h
    simp only [newGroup]
    split
    · exact h
    · rename_i id s' hn; exact ih _ s' (hP _ _ _ _ h hn)

theorem determineParts_inv {P : Score → Prop} (hP : ∀ name s id s', P s → newPart name s = some (id, s') → P s')
    (names : List String) (alias : String) (s : Score) (h : P s) : P (determineParts names alias s).2 := by
  simp only [determineParts]
  split
  · simp only [determineSingle]
    split
    · exact h
    split
    · exact h
    split
    · exact h
    split
    · exact onlyNewPart_inv hP _ s h
    split
    · exact h
    split
    · exact h
    · exact onlyNewPart_inv hP _ s h
  split
  · exact h
  have hc := collectGroup_inv hP names [] [] s h
  split
  · rename_i e s' he; rw [he] at hc; exact hc
  · rename_i named stock s' he
    rw [he] at hc
    split
    · exact hc
    split
    · exact newGroup_inv hP _ _ s' hc
    · exact hc

/-- After the end of the voice groups no current part is in one. -/
theorem voiceEndAt_empty (i : Nat) (s : Score) (w : WF s) :
    (∀ c, (voiceEndAt i s).s.current[i]? = some c → (voiceEndAt i s).s.vheap ((voiceEndAt i s).s.heap c).voices = []) ∧
    ∀ j : Nat, (∀ c, s.current[j]? = some c → s.vheap (s.heap c).voices = []) →
      ∀ c, (voiceEndAt i s).s.current[j]? = some c → (voiceEndAt i s).s.vheap ((voiceEndAt i s).s.heap c).voices = [] := by
  rcases voiceEndAt_cases i s with h | ⟨id, v, num, e⟩
  · rw [h]
    refine ⟨?_, fun j hj => hj⟩
    intro c hc
    unfold voiceEndAt at h
    rw [hc] at h
    simp only at h
    cases hl : (s.vheap (s.heap c).voices).getLast? with
    | none => exact List.getLast?_eq_none_iff.1 hl
    | some x =>
      rw [hl] at h
      have := congrArg Score.vnext h
      simp [Out.ok, Score.newVoices, Score.modPart, Score.setPart] at this
  · generalize (voiceEndAt i s).s = t at e
    obtain ⟨hm, hlt, vlt, vor⟩ := e.lt w
    have hi : i < s.current.length := (List.getElem?_eq_some_iff.1 e.cur).1
    have self : ∀ c, t.current[i]? = some c → t.vheap (t.heap c).voices = [] := by
      intro c hc
      rw [e.current, List.getElem?_set_self hi, Option.some.injEq] at hc
      subst hc
      rw [e.heap, if_pos rfl, e.vheap, if_pos rfl]
    refine ⟨self, ?_⟩
    intro j hj c hc
    by_cases hij : i = j
    · subst hij; exact self c hc
    · rw [e.current, List.getElem?_set_ne hij] at hc
      have hcm := List.mem_of_getElem? hc
      have hne : c ≠ v := by
        intro h
        have : c = id := w.cur_inj hcm hm (by rw [h, vor])
        have nd : s.current.Nodup := List.Pairwise.of_map _ (fun _ _ h h' => h (by rw [h'])) w.cur_nodup
        exact hij ((List.getElem?_inj hi nd).1 (by rw [e.cur, hc, this]))
      rw [e.heap, if_neg hne, e.vheap, if_neg]
      · exact hj c hc
      · have := w.vo_lt c (w.cur_lt c hcm); omega

theorem voiceEndUpd_empty (s : Score) (w : WF s) (c : Nat) (hc : c ∈ (voiceEndUpd s).s.current) :
    (voiceEndUpd s).s.vheap ((voiceEndUpd s).s.heap c).voices = [] := by
  have key : ∀ (is : List Nat) (s : Score), WF s → ∀ j : Nat, (j ∈ is ∨ ∀ c, s.current[j]? = some c → s.vheap (s.heap c).voices = []) →
      (forIds voiceEndAt is s).s.current.length = s.current.length ∧
      ∀ c, (forIds voiceEndAt is s).s.current[j]? = some c →
        (forIds voiceEndAt is s).s.vheap ((forIds voiceEndAt is s).s.heap c).voices = [] := by
    intro is
    induction is with
    | nil =>
      intro s w j h
      rcases h with h | h
      · simp at h
      · exact ⟨rfl, h⟩
    | cons i is ih =>
      intro s w j h
      have hok : (voiceEndAt i s).err = none := by
        simp only [voiceEndAt]
        split
        · rfl
        · split <;> rfl
      have hlen : (voiceEndAt i s).s.current.length = s.current.length := by
        rcases voiceEndAt_cases i s with h | ⟨id, v, num, e⟩
        · rw [h]
        · rw [e.current, List.length_set]
      have e1 : (forIds voiceEndAt (i :: is) s).s = (forIds voiceEndAt is (voiceEndAt i s).s).s := by
        simp only [forIds, Out.andThen, hok]
      rw [e1]
      obtain ⟨h1, h2⟩ := voiceEndAt_empty i s w
      have := ih (voiceEndAt i s).s (endVoices_wf i w) j (by
        rcases h with h | h
        · rcases List.mem_cons.1 h with h | h
          · subst h; exact Or.inr h1
          · exact Or.inl h
        · exact Or.inr (h2 j h))
      exact ⟨this.1.trans hlen, this.2⟩
  obtain ⟨j, hj, he⟩ := List.mem_iff_getElem.1 hc
  have hl := (key (List.range s.current.length) s w s.current.length
    (Or.inr (fun c h => by simp at h))).1
  have hjl : j < s.current.length := by
    have : (voiceEndUpd s).s.current.length = s.current.length := hl
    omega
  exact (key (List.range s.current.length) s w j (Or.inl (List.mem_range.2 hjl))).2 c
    (by show (voiceEndUpd s).s.current[j]? = some c; rw [List.getElem?_eq_getElem hj, he])

theorem partDeclUpd_steps (hD : D) (names : List String) (alias : String) (s : Score) (g : Good L D s) :
    Steps L D s (partDeclUpd names alias s).s := by
  have hDT : D = True := eq_true hD
  subst hDT
  refine Out.andThen_steps (voiceEndUpd_steps s) (fun _ => ?_)
  have g' := (voiceEndUpd_steps (L := L) (D := True) s).good g
  have hg : ∀ q ∈ (voiceEndUpd s).s.parts, (voiceEndUpd s).s.vheap ((voiceEndUpd s).s.heap q).voices = [] := by
    intro q hq
    apply Classical.byContradiction
    intro hne
    obtain ⟨c, hc, h⟩ := (g'.idle trivial).busy q hq hne
    rw [← h] at hne
    exact hne (voiceEndUpd_empty s g.wf c hc)
  generalize (voiceEndUpd s).s = s at g' hg
  have hg' := (determineParts_inv (P := fun s => WF s ∧ ∀ q ∈ s.parts, s.vheap (s.heap q).voices = [])
    (fun name s id s' h hn => ⟨newPart_wf h.1 hn, newPart_groups h.1 hn h.2⟩) names alias s ⟨g'.wf, hg⟩).2
  have hf := determineParts_found (L := L) names alias s g'.wf
  split
  · rename_i e s' he
    rw [he] at hf; exact hf.steps
  · rename_i parts s' he
    rw [he] at hf hg'
    obtain ⟨h1, h2, h3⟩ := hf
    simp only at h1 h2 h3
    split
    · exact h1
    · rename_i hne
      obtain ⟨h4, h5⟩ := h3 parts rfl
      exact h1.tail (.declare trivial parts alias h5 h4 (fun a b => hne ⟨a, b⟩) hg')

/-! ### Variables -/

mutual
theorem varValue_ok (vars : String → Option (List Upd))
    (hv : ∀ n es, vars n = some es → AllLeavesL L es ∧ PlainL es) :
    ∀ (e v : Upd), AllLeaves L e → varValue vars e = .ok v → AllLeaves L v ∧ Plain v
  | .leaf l, v, h, he => by simp only [varValue, Except.ok.injEq] at he; subst he; exact ⟨h, trivial⟩
  | .lisp es, v, h, he => by
    simp only [varValue] at he
    split at he
    · simp at he
    · simp only [Except.ok.injEq] at he; subst he; exact ⟨trivial, trivial⟩
    · rename_i l hl
      simp only [Except.ok.injEq] at he; subst he; exact ⟨h l hl, trivial⟩
  | .lispNil, v, h, he => by simp only [varValue, Except.ok.injEq] at he; subst he; exact ⟨h, trivial⟩
  | .barline, v, h, he => by simp only [varValue, Except.ok.injEq] at he; subst he; exact ⟨h, trivial⟩
  | .chord es, v, h, he => by
    simp only [varValue] at he
    split at he
    · simp at he
    · rename_i vs hvs
      simp only [Except.ok.injEq] at he; subst he; exact varValues_ok vars hv es vs h hvs
  | .cram es d, v, h, he => by
    simp only [varValue] at he
    split at he
    · simp at he
    · rename_i vs hvs
      simp only [Except.ok.injEq] at he; subst he; exact varValues_ok vars hv es vs h hvs
  | .seq es, v, h, he => by
    simp only [varValue] at he
    split at he
    · simp at he
    · rename_i vs hvs
      simp only [Except.ok.injEq] at he; subst he; exact varValues_ok vars hv es vs h hvs
  | .rep e n, v, h, he => by
    simp only [varValue] at he
    split at he
    · simp at he
    · rename_i w hw
      simp only [Except.ok.injEq] at he; subst he; exact varValue_ok vars hv e w h hw
  | .onReps rs e, v, h, he => by
    simp only [varValue] at he
    split at he
    · simp at he
    · rename_i w hw
      simp only [Except.ok.injEq] at he; subst he; exact varValue_ok vars hv e w h hw
  | .voice n, v, h, he => by simp only [varValue, Except.ok.injEq] at he; subst he; exact ⟨h, trivial⟩
  | .voiceEnd, v, h, he => by simp only [varValue, Except.ok.injEq] at he; subst he; exact ⟨h, trivial⟩
  | .marker n, v, h, he => by simp only [varValue, Except.ok.injEq] at he; subst he; exact ⟨h, trivial⟩
  | .atMarker n, v, h, he => by simp only [varValue, Except.ok.injEq] at he; subst he; exact ⟨h, trivial⟩
  | .varDef n es, v, h, he => by
    simp only [varValue] at he
    split at he
    · simp at he
    · rename_i vs hvs
      simp only [Except.ok.injEq] at he; subst he; exact varValues_ok vars hv es vs h hvs
  | .varRef n, v, h, he => by
    simp only [varValue] at he
    split at he
    · simp at he
    · rename_i es hes
      simp only [Except.ok.injEq] at he; subst he; exact hv n es hes
  | .partDecl ns a, v, h, he => by simp [varValue] at he
theorem varValues_ok (vars : String → Option (List Upd))
    (hv : ∀ n es, vars n = some es → AllLeavesL L es ∧ PlainL es) :
    ∀ (es vs : List Upd), AllLeavesL L es → varValues vars es = .ok vs → AllLeavesL L vs ∧ PlainL vs
  | [], vs, h, he => by simp only [varValues, Except.ok.injEq] at he; subst he; exact ⟨trivial, trivial⟩
  | e :: es, vs, h, he => by
    simp only [varValues] at he
    split at he
    · simp at he
    · rename_i w hw
      split at he
      · simp at he
      · rename_i ws hws
        simp only [Except.ok.injEq] at he; subst he
        have h1 := varValue_ok vars hv e w h.1 hw
        have h2 := varValues_ok vars hv es ws h.2 hws
        exact ⟨⟨h1.1, h2.1⟩, ⟨h1.2, h2.2⟩⟩
end

theorem varDefUpd_steps (n : String) (es : List Upd) (s : Score)
    (g : Good L D s) (h : AllLeavesL L es) : Steps L D s (varDefUpd n es s).s := by
  simp only [varDefUpd]
  split
  · exact .refl s
  · rename_i vs hvs
    obtain ⟨h1, h2⟩ := varValues_ok s.vars g.vars es vs h hvs
    exact .one (.setVar n vs h1 h2)

/-! ### Compound events -/

theorem repLoop_steps (body : Score → Out) (hb : ∀ s, Good L D s → Steps L D s (body s).s) :
    ∀ (k : Nat) (r : Int) (s : Score), Good L D s → Steps L D s (repLoop body k r s).s := by
  intro k
  induction k with
  | zero => intro r s _; exact .refl s
  | succ k ih =>
    intro r s g
    simp only [repLoop]
    have h1 : Steps L D s (forIds (setRepetition r) s.current s).s := by
      refine (forIds_steps_current _ ?_ _ _ (fun _ h => h)).1
      intro i s hi
      exact ⟨.one (timing_step s i hi (fun p => { p with repetition := r }) (fun p => rfl)), rfl⟩
    refine Out.andThen_steps h1 (fun _ => ?_)
    have g1 := h1.good g
    have h2 := hb _ g1
    exact Out.andThen_steps h2 (fun _ => ih _ _ (h2.good g1))

theorem onReps_steps (rs : List (Int × Int)) (body : Score → Out) (hb : ∀ s, Good L D s → Steps L D s (body s).s) :
    ∀ (is : List Nat) (s : Score), Good L D s → Steps L D s (forIds (onRepsAt rs body) is s).s := by
  intro is
  induction is with
  | nil => intro s _; exact .refl s
  | cons i is ih =>
    intro s g
    have h1 : Steps L D s (onRepsAt rs body i s).s := by
      simp only [onRepsAt]
      split
      · exact .refl s
      · split
        · exact hb s g
        · exact .refl s
    exact Out.andThen_steps h1 (fun _ => ih _ (h1.good g))

theorem cramScale_steps (vars : String → Option (List Upd)) (es : List Upd) (d : Dur) (s : Score) :
    Steps L D s (forIds (cramScalePart vars es d) s.current s).s := by
  refine (forIds_steps_current _ ?_ _ _ (fun _ h => h)).1
  intro i s hi
  simp only [cramScalePart]
  split
  · exact ⟨.refl s, rfl⟩
  · rename_i t _
    exact ⟨.one (timing_step s i hi (fun p => { p with timeScale := t }) (fun p => rfl)), rfl⟩

theorem cramRestore_steps (old : Nat → Part) (ids : List Nat) (d : Dur) (s : Score) :
    Steps L D s (forIds (cramRestorePart old ids d) s.current s).s := by
  refine (forIds_steps_current _ ?_ _ _ (fun _ h => h)).1
  intro i s hi
  exact ⟨.one (timing_step s i hi (fun p => { p with
    dur := match d with | [] => (if ids.contains i then (old i).dur else []) | _ :: _ => d
    timeScale := (if ids.contains i then (old i).timeScale else 0) }) (fun p => rfl)), rfl⟩

theorem chordAdvance_steps (m : Shortest) (s : Score) : Steps L D s (forIds (chordAdvance m) s.current s).s := by
  refine (forIds_steps_current _ ?_ _ _ (fun _ h => h)).1
  intro i s hi
  exact ⟨.one (timing_step s i hi (fun p => { p with lastOffset := p.offset, offset := p.offset + (m i).getD maxFloat }) (fun p => rfl)), rfl⟩

/-! ### The interpreter -/

mutual
theorem updWith_steps (deref : List Upd → Score → Out)
    (hderef : ∀ es s, AllLeavesL L es → PlainL es → Good L D s → Steps L D s (deref es s).s) :
    ∀ (e : Upd) (s : Score), AllLeaves L e → (D ∨ NoDecl e) → Good L D s → Steps L D s (updWith deref e s).s
  | .leaf l, s, h, _, _ => by simp only [updWith]; exact leafUpd_steps l h s
  | .lisp es, s, h, _, _ => by
    simp only [updWith]
    split
    · exact .refl s
    · exact .refl s
    · rename_i l hl; exact leafUpd_steps l (h l hl) s
  | .lispNil, s, _, _, _ => by simp only [updWith]; exact .refl s
  | .barline, s, _, _, _ => by simp only [updWith]; exact .refl s
  | .chord es, s, h, hd, g => by
    simp only [updWith]
    have h1 := applyGlobals_steps (L := L) (D := D) s
    refine Out.andThen_steps h1 (fun _ => ?_)
    have g1 := h1.good g
    generalize (applyGlobals s).s = s at g1
    have hc : Step L D s { s with chordMode := true } := .chordMode true
    have h2 := chordEvents_steps deref hderef es (fun i => if s.current.contains i then none else some 0)
      { s with chordMode := true } h hd (hc.good g1)
    refine Out.andThen_steps ((Steps.one hc).trans h2) (fun _ => ?_)
    generalize (chordEvents deref es (fun i => if s.current.contains i then none else some 0) { s with chordMode := true }) = r
    exact (Steps.one (.chordMode false)).trans (chordAdvance_steps (s := { r.out.s with chordMode := false }) r.shortest)
  | .cram es d, s, h, hd, g => by
    simp only [updWith]
    have h1 := cramScale_steps (L := L) (D := D) s.vars es d s
    refine Out.andThen_steps h1 (fun _ => ?_)
    have g1 := h1.good g
    have h2 := updListWith_steps deref hderef es _ h hd g1
    exact Out.andThen_steps h2 (fun _ => cramRestore_steps _ _ d _)
  | .seq es, s, h, hd, g => by simp only [updWith]; exact updListWith_steps deref hderef es s h hd g
  | .rep e n, s, h, hd, g => by
    simp only [updWith]
    exact repLoop_steps _ (fun s g => updWith_steps deref hderef e s h hd g) _ _ s g
  | .onReps rs e, s, h, hd, g => by
    simp only [updWith]
    exact onReps_steps rs _ (fun s g => updWith_steps deref hderef e s h hd g) _ s g
  | .voice n, s, _, _, g => by simp only [updWith]; exact voiceUpd_steps n s g
  | .voiceEnd, s, _, _, _ => by simp only [updWith]; exact voiceEndUpd_steps s
  | .marker n, s, _, _, _ => by simp only [updWith]; exact markerUpd_steps n s
  | .atMarker n, s, _, _, _ => by simp only [updWith]; exact atMarkerUpd_steps n s
  | .varDef n es, s, h, hd, g => by simp only [updWith]; exact varDefUpd_steps n es s g h
  | .varRef n, s, _, _, g => by
    simp only [updWith]
    split
    · exact .refl s
    · rename_i es hes
      exact hderef es s (g.vars n es hes).1 (g.vars n es hes).2 g
  | .partDecl ns a, s, _, hd, g => by
    simp only [updWith]
    rcases hd with hd | hd
    · exact partDeclUpd_steps hd ns a s g
    · exact hd.elim
theorem updListWith_steps (deref : List Upd → Score → Out)
    (hderef : ∀ es s, AllLeavesL L es → PlainL es → Good L D s → Steps L D s (deref es s).s) :
    ∀ (es : List Upd) (s : Score), AllLeavesL L es → (D ∨ NoDeclL es) → Good L D s → Steps L D s (updListWith deref es s).s
  | [], s, _, _, _ => by simp only [updListWith]; exact .refl s
  | e :: es, s, h, hd, g => by
    simp only [updListWith]
    have h1 := updWith_steps deref hderef e s h.1 (hd.imp id (·.1)) g
    exact Out.andThen_steps h1 (fun _ => updListWith_steps deref hderef es _ h.2 (hd.imp id (·.2)) (h1.good g))
theorem chordEvents_steps (deref : List Upd → Score → Out)
    (hderef : ∀ es s, AllLeavesL L es → PlainL es → Good L D s → Steps L D s (deref es s).s) :
    ∀ (es : List Upd) (m : Shortest) (s : Score), AllLeavesL L es → (D ∨ NoDeclL es) → Good L D s →
      Steps L D s (chordEvents deref es m s).out.s
  | [], m, s, _, _, _ => by simp only [chordEvents]; exact .refl s
  | e :: es, m, s, h, hd, g => by
    simp only [chordEvents]
    split
    · exact .refl s
    · have h1 := updWith_steps deref hderef e s h.1 (hd.imp id (·.1)) g
      split
      · rename_i err s' he; rw [he] at h1; exact h1
      · rename_i s' he; rw [he] at h1
        exact h1.trans (chordEvents_steps deref hderef es _ s' h.2 (hd.imp id (·.2)) (h1.good g))
end

/-- Every program only performs elementary changes. -/
theorem update_steps (es : List Upd) (s : Score)
    (h : AllLeavesL L es) (hd : D ∨ NoDeclL es) (g : Good L D s) : Steps L D s (update es s).s := by
  have h0 : ∀ es s, AllLeavesL L es → PlainL es → Good L D s → Steps L D s (derefUpd es s).s := by
    intro es s h hd g
    exact updListWith_steps _ (fun _ s _ _ _ => .refl s) es s h (Or.inr hd.noDecl) g
  exact updListWith_steps derefUpd h0 es s h hd g

theorem upd_steps (e : Upd) (s : Score)
    (h : AllLeaves L e) (hd : D ∨ NoDecl e) (g : Good L D s) : Steps L D s (upd e s).s := by
  have h0 : ∀ es s, AllLeavesL L es → PlainL es → Good L D s → Steps L D s (derefUpd es s).s := by
    intro es s h hd g
    exact updListWith_steps _ (fun _ s _ _ _ => .refl s) es s h (Or.inr hd.noDecl) g
  exact updWith_steps derefUpd h0 e s h hd g

end

/-- Every program, applied to any well-formed score. -/
theorem update_all_steps (es : List Upd) (s : Score) (g : Good (fun _ => True) True s) :
    Steps (fun _ => True) True s (update es s).s :=
  update_steps es s (allLeavesL_true es) (Or.inl trivial) g

theorem update_all_good (es : List Upd) : Good (fun _ => True) True (update es newScore).s :=
  (update_all_steps es newScore (newScore_good _ _)).good (newScore_good _ _)

/-- Without declarations less is needed. -/
theorem Good.weaken {L : Leaf → Prop} {s : Score} (g : Good L True s) (D : Prop) : Good L D s :=
  ⟨g.wf, g.vars, g.voices, fun _ => g.idle trivial⟩

/-- Some program, run from the start, leads to this score. -/
def Reachable (s : Score) : Prop := ∃ program, s = (update program newScore).s

theorem Reachable.good {s : Score} (h : Reachable s) : Good (fun _ => True) True s := by
  obtain ⟨p, rfl⟩ := h; exact update_all_good p

theorem Reachable.wf {s : Score} (h : Reachable s) : WF s := h.good.wf

theorem Reachable.steps {s : Score} (h : Reachable s) : Steps (fun _ => True) True newScore s := by
  obtain ⟨p, rfl⟩ := h; exact update_all_steps p newScore (newScore_good _ _)

end Alda
