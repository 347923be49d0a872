import Verif.Lemmas.Track
/-!
The interpreter does to every active instrument what the functions of `Verif.Lemmas.Track` do to its track.
-/
namespace Alda

/-! ### Parts without pointers -/

theorem bare_bare (p : Part) : p.bare.bare = p.bare := rfl

theorem bare_eq {p q : Part} (h : q.bare = p.bare) :
    q = { p with midiChannel := q.midiChannel, explicitChannel := q.explicitChannel, template := q.template,
                 origin := q.origin, voices := q.voices } := by
  cases p; cases q
  simp only [Part.bare, Part.mk.injEq] at h
  simp only [Part.mk.injEq]
  simp [h]

theorem updatePart_bare {u : PartUpd} {g : Bool} {p q r : Part} (h : q.bare = p.bare) (hu : updatePart u g p = .ok r) :
    ∃ r', updatePart u g q = .ok r' ∧ r'.bare = r.bare := by
  rw [bare_eq h]
  generalize q.midiChannel = a, q.explicitChannel = b, q.template = c, q.origin = d, q.voices = e
  cases u with
  | tempo t => cases g <;> simp only [updatePart, Except.ok.injEq, Bool.false_eq_true, if_false, if_true] at hu ⊢ <;> subst hu <;> exact ⟨_, rfl, rfl⟩
  | metricModulation t => cases g <;> simp only [updatePart, Except.ok.injEq, Bool.false_eq_true, if_false, if_true] at hu ⊢ <;> subst hu <;> exact ⟨_, rfl, rfl⟩
  | midiChannel n =>
    simp only [updatePart] at hu ⊢
    split at hu
    · simp at hu
    · rename_i hne
      rw [if_neg hne]
      simp only [Except.ok.injEq] at hu; subst hu; exact ⟨_, rfl, rfl⟩
  | _ => simp only [updatePart, Except.ok.injEq] at hu ⊢; subst hu; exact ⟨_, rfl, rfl⟩

theorem bare_override {p q : Part} (h : q.bare = p.bare) (o : Option PartUpd) : ({ q with override := o } : Part).bare = ({ p with override := o } : Part).bare := by
  rw [bare_eq h]; rfl

theorem applyUpdates_bare (us : List PartUpd) : ∀ {p q r : Part}, q.bare = p.bare → applyUpdates us p = (none, r) →
    ∃ r', applyUpdates us q = (none, r') ∧ r'.bare = r.bare := by
  induction us with
  | nil => intro p q r h hu; simp only [applyUpdates, Prod.mk.injEq, true_and] at hu; subst hu; exact ⟨q, rfl, h⟩
  | cons u us ih =>
    intro p q r h hu
    have ho : q.override = p.override := by rw [bare_eq h]
    simp only [applyUpdates] at hu ⊢
    rw [ho]
    split at hu
    · rename_i hk; rw [if_pos hk]; exact ih h hu
    · rename_i hk; rw [if_neg hk]
      split at hu
      · simp at hu
      · rename_i p' hp'
        obtain ⟨q', hq', hb⟩ := updatePart_bare h hp'
        rw [hq']; exact ih hb hu

theorem bare_clone (p : Part) : p.clone.bare = p.bare.clone := rfl

mutual
theorem durMsWith_bare (vars : String → Option (List Upd)) (deref : List Upd → Part → Option (Rat × Part))
    (hd : ∀ es p q, q.bare = p.bare → (deref es q).map (fun r => (r.1, r.2.bare)) = (deref es p).map (fun r => (r.1, r.2.bare))) :
    ∀ (e : Upd) (p q : Part), q.bare = p.bare →
      (durMsWith vars deref e q).map (fun r => (r.1, r.2.bare)) = (durMsWith vars deref e p).map (fun r => (r.1, r.2.bare))
  | .leaf l, p, q, h => by simp only [durMsWith]; exact leafDurMs_bare l p q h
  | .lisp es, p, q, h => by
    simp only [durMsWith]
    split
    · simp [h]
    · simp [h]
    · exact leafDurMs_bare _ p q h
  | .chord es, p, q, h => by
    have := chordDurMs_bare vars deref hd none es p q h
    simp only [durMsWith]
    cases h1 : chordDurMs vars deref none es q <;> cases h2 : chordDurMs vars deref none es p <;> rw [h1, h2] at this <;> simp_all
  | .cram _ d, p, q, h => by
    simp only [durMsWith]
    have h1 : (effectiveDuration d q).toMs q.tempo = (effectiveDuration d p).toMs p.tempo := by
      rw [bare_eq h]; cases d <;> rfl
    rw [h1]
    split <;> simp [h]
  | .seq es, p, q, h => by simp only [durMsWith]; exact listDurMs_bare vars deref hd 0 es p q h
  | .rep e n, p, q, h => by
    simp only [durMsWith]
    exact repDurMs_bare (durMsWith vars deref e) (fun p q h => durMsWith_bare vars deref hd e p q h) n.toNat 1 0 p q h
  | .onReps rs e, p, q, h => by
    simp only [durMsWith]
    have : q.repetition = p.repetition := by rw [bare_eq h]
    rw [this]
    split
    · exact durMsWith_bare vars deref hd e p q h
    · simp [h]
  | .varRef n, p, q, h => by
    simp only [durMsWith]
    split
    · simp [h]
    · exact hd _ p q h
  | .lispNil, p, q, h | .barline, p, q, h | .voice _, p, q, h | .voiceEnd, p, q, h | .marker _, p, q, h | .atMarker _, p, q, h
  | .varDef _ _, p, q, h | .partDecl _ _, p, q, h => by simp [durMsWith, h]
theorem listDurMs_bare (vars : String → Option (List Upd)) (deref : List Upd → Part → Option (Rat × Part))
    (hd : ∀ es p q, q.bare = p.bare → (deref es q).map (fun r => (r.1, r.2.bare)) = (deref es p).map (fun r => (r.1, r.2.bare))) :
    ∀ (acc : Rat) (es : List Upd) (p q : Part), q.bare = p.bare →
      (listDurMs vars deref acc es q).map (fun r => (r.1, r.2.bare)) = (listDurMs vars deref acc es p).map (fun r => (r.1, r.2.bare))
  | acc, [], p, q, h => by simp [listDurMs, h]
  | acc, e :: es, p, q, h => by
    have := durMsWith_bare vars deref hd e p q h
    simp only [listDurMs]
    cases h1 : durMsWith vars deref e q with
    | none =>
      cases h2 : durMsWith vars deref e p with
      | none => rfl
      | some y => rw [h1, h2] at this; simp at this
    | some x =>
      cases h2 : durMsWith vars deref e p with
      | none => rw [h1, h2] at this; simp at this
      | some y =>
        rw [h1, h2] at this
        simp only [Option.map_some, Option.some.injEq, Prod.mk.injEq] at this
        simp only [this.1]
        exact listDurMs_bare vars deref hd _ es _ _ this.2
theorem chordDurMs_bare (vars : String → Option (List Upd)) (deref : List Upd → Part → Option (Rat × Part))
    (hd : ∀ es p q, q.bare = p.bare → (deref es q).map (fun r => (r.1, r.2.bare)) = (deref es p).map (fun r => (r.1, r.2.bare))) :
    ∀ (m : Option Rat) (es : List Upd) (p q : Part), q.bare = p.bare →
      (chordDurMs vars deref m es q).map (fun r => (r.1, r.2.bare)) = (chordDurMs vars deref m es p).map (fun r => (r.1, r.2.bare))
  | m, [], p, q, h => by simp [chordDurMs, h]
  | m, e :: es, p, q, h => by
    have := durMsWith_bare vars deref hd e p q h
    simp only [chordDurMs]
    cases h1 : durMsWith vars deref e q with
    | none =>
      cases h2 : durMsWith vars deref e p with
      | none => rfl
      | some y => rw [h1, h2] at this; simp at this
    | some x =>
      cases h2 : durMsWith vars deref e p with
      | none => rw [h1, h2] at this; simp at this
      | some y =>
        rw [h1, h2] at this
        simp only [Option.map_some, Option.some.injEq, Prod.mk.injEq] at this
        simp only [this.1]
        exact chordDurMs_bare vars deref hd _ es _ _ this.2
theorem leafDurMs_bare : ∀ (l : Leaf) (p q : Part), q.bare = p.bare →
    (leafDurMs l q).map (fun r => (r.1, r.2.bare)) = (leafDurMs l p).map (fun r => (r.1, r.2.bare))
  | .note _ d _, p, q, h | .rest d, p, q, h => by
    simp only [leafDurMs]
    have h1 : (effectiveDuration d q).toMs q.tempo = (effectiveDuration d p).toMs p.tempo := by
      rw [bare_eq h]; cases d <;> rfl
    rw [h1]
    split
    · rfl
    · have : (updateDefaultDuration q d).bare = (updateDefaultDuration p d).bare := by
        rw [bare_eq h]; cases d <;> rfl
      simp [this]
  | .attr _, p, q, h | .globalAttr _, p, q, h => by simp [leafDurMs, h]
theorem repDurMs_bare (f : Part → Option (Rat × Part))
    (hf : ∀ p q, q.bare = p.bare → (f q).map (fun r => (r.1, r.2.bare)) = (f p).map (fun r => (r.1, r.2.bare))) :
    ∀ (k : Nat) (r : Int) (acc : Rat) (p q : Part), q.bare = p.bare →
      (repDurMs f k r acc q).map (fun r => (r.1, r.2.bare)) = (repDurMs f k r acc p).map (fun r => (r.1, r.2.bare))
  | 0, _, acc, p, q, h => by simp [repDurMs, h]
  | k + 1, r, acc, p, q, h => by
    have hb : ({ q with repetition := r } : Part).bare = ({ p with repetition := r } : Part).bare := by rw [bare_eq h]; rfl
    have := hf _ _ hb
    simp only [repDurMs]
    cases h1 : f { q with repetition := r } with
    | none =>
      cases h2 : f { p with repetition := r } with
      | none => rfl
      | some y => rw [h1, h2] at this; simp at this
    | some x =>
      cases h2 : f { p with repetition := r } with
      | none => rw [h1, h2] at this; simp at this
      | some y =>
        rw [h1, h2] at this
        simp only [Option.map_some, Option.some.injEq, Prod.mk.injEq] at this
        simp only [this.1]
        exact repDurMs_bare f hf k _ _ _ _ this.2
end

theorem eventsDurMs_bare (vars : String → Option (List Upd)) (es : List Upd) (p q : Part) (h : q.bare = p.bare) :
    (eventsDurMs vars es q).map (fun r => (r.1, r.2.bare)) = (eventsDurMs vars es p).map (fun r => (r.1, r.2.bare)) := by
  refine listDurMs_bare vars _ ?_ 0 es p q h
  intro es p q h
  exact listDurMs_bare vars _ (fun _ _ _ _ => rfl) 0 es p q h

theorem cramTimeScale_bare (vars : String → Option (List Upd)) (es : List Upd) (d : Dur) (p : Part) :
    cramTimeScale vars es d p.bare = cramTimeScale vars es d p := by
  unfold cramTimeScale
  have h1 : (effectiveDuration d p.bare).toMs p.bare.tempo = (effectiveDuration d p).toMs p.tempo := by cases d <;> rfl
  have h2 := eventsDurMs_bare vars es p.clone p.bare.clone rfl
  rw [h1]
  split
  · rfl
  · cases h3 : eventsDurMs vars es p.bare.clone with
    | none =>
      cases h4 : eventsDurMs vars es p.clone with
      | none => rfl
      | some y => rw [h3, h4] at h2; simp at h2
    | some x =>
      cases h4 : eventsDurMs vars es p.clone with
      | none => rw [h3, h4] at h2; simp at h2
      | some y =>
        rw [h3, h4] at h2
        simp only [Option.map_some, Option.some.injEq, Prod.mk.injEq] at h2
        simp only [h2.1]
        rfl

/-! ### Tracks of other parts -/

theorem groupOf_congr {s s' : Score} {j : Nat} (w : WF s) (hj : j < s.next) (hv : (s'.heap j).voices = (s.heap j).voices)
    (hvh : s'.vheap (s.heap j).voices = s.vheap (s.heap j).voices)
    (hc : ∀ k < s.next, k ≠ j → (s.heap k).origin = (s.heap j).origin → (s'.heap k).bare = (s.heap k).bare) :
    groupOf s' j = groupOf s j := by
  unfold groupOf
  rw [hv, hvh]
  apply List.map_congr_left
  intro x hx
  obtain ⟨h1, h2⟩ := w.vo_mem j hj x hx
  by_cases h : x.2 = j
  · simp only [if_pos h]
  · simp only [if_neg h, hc x.2 h1 h h2]

theorem templateOf_congr {s s' : Score} {j : Nat} (w : WF s) (hj : j < s.next) (hne : (s.heap j).template ≠ some j)
    (ht : (s'.heap j).template = (s.heap j).template)
    (hc : ∀ k < s.next, k ≠ j → (s.heap k).origin = (s.heap j).origin → (s'.heap k).bare = (s.heap k).bare) :
    templateOf s' j = templateOf s j := by
  unfold templateOf
  rw [ht]
  cases hh : (s.heap j).template with
  | none => rfl
  | some t =>
    obtain ⟨h1, h2⟩ := w.tmpl j hj t hh
    have : t ≠ j := fun e => hne (by rw [hh, e])
    simp only [Option.map_some, hc t h1 this h2]

theorem VoicesOk.template_ne {s : Score} (v : VoicesOk s) {j : Nat} (hj : j ∈ s.current) : (s.heap j).template ≠ some j :=
  fun h => (v.tmpl j hj j h).2.2.1 rfl

/-- Changing musical state of one part. -/
theorem trackOf_setPart {s : Score} (w : WF s) (v : VoicesOk s) {id : Nat} (hid : id ∈ s.current) {p : Part}
    (h : SameIdentity (s.heap id) p) :
    trackOf (s.setPart id p) id = (trackOf s id).set p ∧ ∀ j ∈ s.current, j ≠ id → trackOf (s.setPart id p) j = trackOf s j := by
  have sh := SameShape.setPart h
  have hself : (s.setPart id p).heap id = p := if_pos rfl
  have hoth : ∀ k, k ≠ id → (s.setPart id p).heap k = s.heap k := fun k hk => if_neg hk
  constructor
  · have h1 := groupOf_congr (s' := s.setPart id p) w (w.cur_lt id hid) (sh.cells id).voices rfl (fun k _ hk _ => by rw [hoth k hk])
    have h2 := templateOf_congr (s' := s.setPart id p) w (w.cur_lt id hid) (v.template_ne hid) (sh.cells id).template (fun k _ hk _ => by rw [hoth k hk])
    have h3 : notesOf (s.setPart id p) ((s.setPart id p).heap id).origin = notesOf s (s.heap id).origin := by
      rw [(sh.cells id).origin]; rfl
    unfold trackOf Track.set
    rw [h1, h2, h3, hself]; rfl
  · intro j hj hne
    have hk : ∀ k < s.next, k ≠ j → (s.heap k).origin = (s.heap j).origin → ((s.setPart id p).heap k).bare = (s.heap k).bare := by
      intro k _ _ ho
      rw [hoth]
      intro e; subst e; exact hne (w.cur_inj hj hid ho.symm)
    have h1 := groupOf_congr (s' := s.setPart id p) w (w.cur_lt j hj) (sh.cells j).voices rfl hk
    have h2 := templateOf_congr (s' := s.setPart id p) w (w.cur_lt j hj) (v.template_ne hj) (sh.cells j).template hk
    have h3 : notesOf (s.setPart id p) ((s.setPart id p).heap j).origin = notesOf s (s.heap j).origin := by
      rw [(sh.cells j).origin]; rfl
    unfold trackOf
    rw [h1, h2, h3, hoth j hne]; rfl

/-- Nothing of an instrument's cells changed. -/
theorem trackOf_frame {s s' : Score} (w : WF s) {j : Nat} (hj : j < s.next)
    (hc : ∀ k < s.next, (s.heap k).origin = (s.heap j).origin → s'.heap k = s.heap k)
    (hvh : s'.vheap (s.heap j).voices = s.vheap (s.heap j).voices) (he : s'.events = s.events) (hg : s'.globals = s.globals)
    (hm : s'.markers = s.markers) (hv : s'.vars = s.vars) (hcm : s'.chordMode = s.chordMode) : trackOf s' j = trackOf s j := by
  have self := hc j hj rfl
  have h1 : groupOf s' j = groupOf s j :=
    groupOf_congr w hj (by rw [self]) hvh (fun k hk _ ho => by rw [hc k hk ho])
  have h2 : templateOf s' j = templateOf s j := by
    unfold templateOf
    rw [self]
    cases hh : (s.heap j).template with
    | none => rfl
    | some t =>
      obtain ⟨h1, h2⟩ := w.tmpl j hj t hh
      simp only [Option.map_some, hc t h1 h2]
  unfold trackOf
  rw [h1, h2, self, hg, hm, hv, hcm]
  unfold notesOf; rw [he]

/-! ### Loops over the current parts -/

/-- The states the interpreter is followed from (without part declarations). -/
abbrev G (s : Score) : Prop := Good (fun _ => True) False s

/-- A change of one part only, described by `g`. -/
structure LocalStep (s s' : Score) (id : Nat) (g : Track → Option Track) : Prop where
  steps : Steps (fun _ => True) False s s'
  cur : s'.current = s.current
  vars : s'.vars = s.vars
  self : g (trackOf s id) = some (trackOf s' id)
  others : ∀ j ∈ s.current, j ≠ id → trackOf s' j = trackOf s j

theorem LocalStep.refl {s : Score} {id : Nat} {g : Track → Option Track} (h : g (trackOf s id) = some (trackOf s id)) : LocalStep s s id g :=
  ⟨.refl s, rfl, rfl, h, fun _ _ _ => rfl⟩

theorem LocalStep.trans {s t u : Score} {id : Nat} {g h : Track → Option Track} (a : LocalStep s t id g) (b : LocalStep t u id h) :
    LocalStep s u id (fun x => (g x).bind h) :=
  ⟨a.steps.trans b.steps, b.cur.trans a.cur, b.vars.trans a.vars, by simp only [a.self, Option.bind_some, b.self],
   fun j hj hne => (b.others j (by rw [a.cur]; exact hj) hne).trans (a.others j hj hne)⟩

theorem LocalStep.setPart {s : Score} (good : G s) {id : Nat} (hid : id ∈ s.current) {p : Part} {g : Track → Option Track}
    (h : SameIdentity (s.heap id) p) (hs : Steps (fun _ => True) False s (s.setPart id p))
    (hg : g (trackOf s id) = some ((trackOf s id).set p)) : LocalStep s (s.setPart id p) id g := by
  obtain ⟨h1, h2⟩ := trackOf_setPart good.wf good.voices hid h
  exact ⟨hs, rfl, rfl, by rw [hg, h1], h2⟩

/-- The result of a loop over the current parts. -/
structure LoopOk (s s' : Score) (ids : List Nat) (g : Nat → Track → Option Track) : Prop where
  steps : Steps (fun _ => True) False s s'
  cur : s'.current = s.current
  vars : s'.vars = s.vars
  done : ∀ i ∈ ids, g i (trackOf s i) = some (trackOf s' i)
  others : ∀ j ∈ s.current, j ∉ ids → trackOf s' j = trackOf s j

theorem forIds_local (f : Nat → Score → Out) (g : Nat → Track → Option Track) (I : Score → Prop)
    (hf : ∀ s id, G s → I s → id ∈ s.current → (f id s).err = none → LocalStep s (f id s).s id (g id) ∧ I (f id s).s) :
    ∀ (ids : List Nat) (s : Score), G s → I s → ids.Nodup → (∀ i ∈ ids, i ∈ s.current) → (forIds f ids s).err = none →
      LoopOk s (forIds f ids s).s ids g := by
  intro ids
  induction ids with
  | nil => intro s _ _ _ _ _; exact ⟨.refl s, rfl, rfl, by simp, fun _ _ _ => rfl⟩
  | cons i is ih =>
    intro s good hI hnd hmem he
    obtain ⟨hni, hnd⟩ := List.nodup_cons.1 hnd
    have himem := hmem i (List.mem_cons_self ..)
    simp only [forIds] at he ⊢
    rcases Out.andThen_s (f i s) (forIds f is) with ⟨h0, h1, h2⟩ | ⟨e, h0, h1, h2⟩
    · rw [h2] at he
      obtain ⟨hl, hI'⟩ := hf s i good hI himem h0
      have hr := ih (f i s).s (hl.steps.good good) hI' hnd
        (fun j hj => by rw [hl.cur]; exact hmem j (List.mem_cons_of_mem _ hj)) he
      rw [h1]
      refine ⟨hl.steps.trans hr.steps, hr.cur.trans hl.cur, hr.vars.trans hl.vars, ?_, ?_⟩
      · intro j hj
        rcases List.mem_cons.1 hj with rfl | hj
        · rw [hl.self, hr.others j (by rw [hl.cur]; exact himem) hni]
        · have hne : j ≠ i := fun e => hni (e ▸ hj)
          rw [← hl.others j (hmem j (List.mem_cons_of_mem _ hj)) hne]
          exact hr.done j hj
      · intro j hj hnm
        simp only [List.mem_cons, not_or] at hnm
        rw [hr.others j (by rw [hl.cur]; exact hj) hnm.2, hl.others j hj hnm.1]
    · rw [h2] at he; simp at he

theorem WF.cur_ids_nodup {s : Score} (w : WF s) : s.current.Nodup :=
  List.Pairwise.of_map _ (fun _ _ h h' => h (by rw [h'])) w.cur_nodup

/-- A loop over all current parts. -/
theorem forCurrent_local (f : Nat → Score → Out) (g : Nat → Track → Option Track) (I : Score → Prop)
    (hf : ∀ s id, G s → I s → id ∈ s.current → (f id s).err = none → LocalStep s (f id s).s id (g id) ∧ I (f id s).s)
    (s : Score) (good : G s) (hI : I s) (he : (forIds f s.current s).err = none) : LoopOk s (forIds f s.current s).s s.current g :=
  forIds_local f g I hf s.current s good hI good.wf.cur_ids_nodup (fun _ h => h) he

/-! ### The elementary changes -/

theorem attrPart_local (u : PartUpd) (s : Score) (id : Nat) (good : G s) (hid : id ∈ s.current) (he : (attrPart u id s).err = none) :
    LocalStep s (attrPart u id s).s id (Track.attr u) := by
  unfold attrPart at he ⊢
  split
  · rename_i e h; rw [h] at he; simp [Out.fail] at he
  · rename_i p h
    refine LocalStep.setPart good hid ((updatePart_identity h).override _) (.one (.attr hid trivial h)) ?_
    obtain ⟨r', h1, h2⟩ := updatePart_bare (q := (s.heap id).bare) (bare_bare _) h
    have : updatePart u false (trackOf s id).cell = .ok r' := h1
    simp only [Track.attr, this, Track.set]
    rw [bare_override h2]

theorem applyGlobalsPart_local (s : Score) (id : Nat) (good : G s) (hid : id ∈ s.current) (he : (applyGlobalsPart id s).err = none) :
    LocalStep s (applyGlobalsPart id s).s id Track.applyGlobals := by
  have hst : Steps (fun _ => True) False s (applyGlobalsPart id s).s := .one (.globals hid)
  unfold applyGlobalsPart at he hst ⊢
  simp only at he hst ⊢
  split
  · rename_i e p h; rw [h] at he; simp [Out.fail] at he
  · rename_i p h
    rw [h] at hst
    have hid' := applyUpdates_identity (s.globals.inWindow (s.heap id).lastOffset (s.heap id).offset) (s.heap id)
    rw [h] at hid'
    refine LocalStep.setPart good hid (hid'.override _) hst ?_
    obtain ⟨r', h1, h2⟩ := applyUpdates_bare _ (q := (s.heap id).bare) (bare_bare _) h
    have : applyUpdates ((trackOf s id).globals.inWindow (trackOf s id).cell.lastOffset (trackOf s id).cell.offset) (trackOf s id).cell = (none, r') := h1
    simp only [Track.applyGlobals, this, Track.set]
    rw [bare_override h2]

theorem advancePart_local (s : Score) (id : Nat) (good : G s) (hid : id ∈ s.current) (ms : Rat) (d : Dur) :
    LocalStep s (advancePart s id ms d) id (fun t => some (Track.advance ms d t)) := by
  refine LocalStep.setPart good hid ?_ (.one (advancePart_step s id hid ms d)) ?_
  · simp only
    split <;> cases d <;> exact ⟨rfl, rfl, rfl, rfl, rfl, rfl⟩
  · simp only [Track.advance, Option.some.injEq]
    show (trackOf s id).set (updateDefaultDuration (if s.chordMode then _ else _) d) = (trackOf s id).set (updateDefaultDuration (if s.chordMode then _ else _) d)
    unfold Track.set
    split <;> cases d <;> rfl

theorem emitNote_ok {pitch : Pitch} {ms aud : Rat} {id : Nat} {s : Score} (h : (emitNote pitch ms aud id s).err = none) :
    let note := calculateMidiNote pitch (s.heap id).octave (s.heap id).keySig (s.heap id).transposition
    ¬ (note < 0 ∨ note > 127) ∧ ∃ ch, (emitNote pitch ms aud id s).s = emitted s id ch note ms aud := by
  simp only [emitNote] at h ⊢
  split
  · rename_i hr; rw [if_pos hr] at h; simp [Out.fail] at h
  · rename_i hr
    rw [if_neg hr] at h
    refine ⟨hr, ?_⟩
    split
    · rename_i e he; rw [he] at h; simp [Out.fail] at h
    · rename_i ch s' he
      unfold assignMidiChannel at he
      split at he
      · simp at he
      · split at he
        · simp only [Except.ok.injEq, Prod.mk.injEq] at he
          obtain ⟨rfl, rfl⟩ := he
          exact ⟨_, rfl⟩
        · simp at he

theorem emitted_bare (s : Score) (id : Nat) (ch note : Int) (d a : Rat) (i : Nat) : ((emitted s id ch note d a).heap i).bare = (s.heap i).bare := by
  rw [emitted_heap]; split <;> rfl

theorem emitted_env (s : Score) (id : Nat) (ch note : Int) (d a : Rat) :
    (emitted s id ch note d a).globals = s.globals ∧ (emitted s id ch note d a).markers = s.markers ∧
    (emitted s id ch note d a).vars = s.vars ∧ (emitted s id ch note d a).chordMode = s.chordMode := by
  obtain ⟨_, _, _, h⟩ := emitted_rest s id ch note d a
  rw [h]; exact ⟨rfl, rfl, rfl, rfl⟩

theorem emitNote_local (pitch : Pitch) (ms aud : Rat) (ha : 0 < aud) (s : Score) (id : Nat) (good : G s) (hid : id ∈ s.current)
    (he : (emitNote pitch ms aud id s).err = none) : LocalStep s (emitNote pitch ms aud id s).s id (Track.emit pitch ms aud) := by
  obtain ⟨hst, hcur⟩ := emitNote_step (L := fun _ => True) (D := False) pitch ms aud ha id s hid
  obtain ⟨hr, ch, hs⟩ := emitNote_ok he
  rw [hs] at hst hcur ⊢
  have w := good.wf
  have sh := emitted_shape s id ch (calculateMidiNote pitch (s.heap id).octave (s.heap id).keySig (s.heap id).transposition) ms aud
  obtain ⟨e1, e2, e3, e4⟩ := emitted_env s id ch (calculateMidiNote pitch (s.heap id).octave (s.heap id).keySig (s.heap id).transposition) ms aud
  have eb := emitted_bare s id ch (calculateMidiNote pitch (s.heap id).octave (s.heap id).keySig (s.heap id).transposition) ms aud
  have ee := emitted_events s id ch (calculateMidiNote pitch (s.heap id).octave (s.heap id).keySig (s.heap id).transposition) ms aud
  generalize emitted s id ch (calculateMidiNote pitch (s.heap id).octave (s.heap id).keySig (s.heap id).transposition) ms aud = s' at hst hcur sh e1 e2 e3 e4 eb ee ⊢
  have tr : ∀ j ∈ s.current, trackOf s' j = { trackOf s j with notes := notesOf s' (s.heap j).origin } := by
    intro j hj
    have h1 := groupOf_congr (s' := s') w (w.cur_lt j hj) (sh.cells j).voices (by rw [sh.vheap]) (fun k _ _ _ => eb k)
    have h2 := templateOf_congr (s' := s') w (w.cur_lt j hj) (good.voices.template_ne hj) (sh.cells j).template (fun k _ _ _ => eb k)
    unfold trackOf
    rw [h1, h2, eb, e1, e2, e3, e4, (sh.cells j).origin]
  have nt : ∀ o, notesOf s' o = notesOf s o ++ (if o = (s.heap id).origin then [(emittedNote s id ch (calculateMidiNote pitch (s.heap id).octave (s.heap id).keySig (s.heap id).transposition) ms aud).bare] else []) := by
    intro o
    unfold notesOf
    rw [ee, List.filter_append, List.map_append]
    congr 1
    by_cases ho : o = (s.heap id).origin
    · subst ho; simp [emittedNote]
    · have : ¬ ((s.heap id).origin = o) := fun h => ho h.symm
      simp [emittedNote, ho, this]
  refine ⟨hst, hcur, e3, ?_, ?_⟩
  · rw [tr id hid, nt, if_pos rfl]
    unfold Track.emit
    exact (if_neg hr).trans rfl
  · intro j hj hne
    rw [tr j hj, nt, if_neg (fun h => hne (w.cur_inj hj hid h)), List.append_nil]
    rfl

theorem notePart_local (pitch : Pitch) (d : Dur) (sl : Bool) (s : Score) (id : Nat) (good : G s) (hid : id ∈ s.current)
    (he : (notePart pitch d sl id s).err = none) : LocalStep s (notePart pitch d sl id s).s id (Track.note pitch d sl) := by
  unfold notePart at he ⊢
  simp only at he ⊢
  have hdur : effectiveDuration d (trackOf s id).cell = effectiveDuration d (s.heap id) := by cases d <;> rfl
  have htempo : (trackOf s id).cell.tempo = (s.heap id).tempo := rfl
  split
  · rename_i h; rw [h] at he; simp [Out.fail] at he
  · rename_i ms h
    rw [h] at he
    simp only at he
    generalize hau : (if sl = true then ms * (s.heap id).timeScale else ms * (s.heap id).timeScale * (s.heap id).quant) = aud at he ⊢
    have hau' : (if sl = true then ms * (trackOf s id).cell.timeScale else ms * (trackOf s id).cell.timeScale * (trackOf s id).cell.quant) = aud := hau
    have hg : Track.note pitch d sl (trackOf s id) = (if aud > 0 then Track.emit pitch (ms * (s.heap id).timeScale) aud (trackOf s id) else some (trackOf s id)).bind
        (fun t => some (Track.advance (ms * (s.heap id).timeScale) (effectiveDuration d (s.heap id)) t)) := by
      unfold Track.note
      simp only [hdur, htempo, h, hau']
      rfl
    rcases Out.andThen_s (if aud > 0 then emitNote pitch (ms * (s.heap id).timeScale) aud id s else .ok s)
      (fun s' => .ok (advancePart s' id (ms * (s.heap id).timeScale) (effectiveDuration d (s.heap id)))) with ⟨h0, h1, h2⟩ | ⟨e, h0, h1, h2⟩
    · rw [h1]
      split at h0
      · rename_i ha
        rw [if_pos ha] at hg ⊢
        have l1 := emitNote_local pitch _ aud ha s id good hid h0
        have l2 := advancePart_local _ id (l1.steps.good good) (by rw [l1.cur]; exact hid) (ms * (s.heap id).timeScale) (effectiveDuration d (s.heap id))
        have l3 := l1.trans l2
        refine ⟨l3.steps, l3.cur, l3.vars, ?_, l3.others⟩
        rw [hg]; exact l3.self
      · rename_i ha
        rw [if_neg ha] at hg ⊢
        have l2 := advancePart_local s id good hid (ms * (s.heap id).timeScale) (effectiveDuration d (s.heap id))
        refine ⟨l2.steps, l2.cur, l2.vars, ?_, l2.others⟩
        rw [hg]; exact l2.self
    · rw [h2] at he; simp at he

theorem restPart_local (d : Dur) (s : Score) (id : Nat) (good : G s) (hid : id ∈ s.current)
    (he : (restPart d id s).err = none) : LocalStep s (restPart d id s).s id (Track.rest d) := by
  unfold restPart at he ⊢
  simp only at he ⊢
  have hdur : effectiveDuration d (trackOf s id).cell = effectiveDuration d (s.heap id) := by cases d <;> rfl
  have htempo : (trackOf s id).cell.tempo = (s.heap id).tempo := rfl
  split
  · rename_i h; rw [h] at he; simp [Out.fail] at he
  · rename_i ms h
    have l2 := advancePart_local s id good hid (ms * (s.heap id).timeScale) (effectiveDuration d (s.heap id))
    refine ⟨l2.steps, l2.cur, l2.vars, ?_, l2.others⟩
    refine Eq.trans ?_ l2.self
    unfold Track.rest
    simp only [hdur, htempo, h]
    rfl

/-- A change of timing of one part. -/
theorem timing_local (s : Score) (id : Nat) (good : G s) (hid : id ∈ s.current) (f : Part → Part)
    (hf : ∀ p : Part, f p = { p with offset := (f p).offset, lastOffset := (f p).lastOffset, timeScale := (f p).timeScale,
                                     dur := (f p).dur, repetition := (f p).repetition })
    (g : Track → Option Track) (hg : g (trackOf s id) = some ((trackOf s id).set (f (s.heap id)))) :
    LocalStep s (s.modPart id f) id g := by
  refine LocalStep.setPart good hid ?_ (.one (timing_step s id hid f hf)) hg
  rw [hf]; exact ⟨rfl, rfl, rfl, rfl, rfl, rfl⟩

end Alda
