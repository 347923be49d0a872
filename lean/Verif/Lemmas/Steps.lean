import Verif.Model.Update
/-!
The interpreter only performs a small set of elementary changes (`Step`). Invariants are then checked once per kind of change.
-/
namespace Alda

mutual
/-- Every leaf update written in an event, or produced by lisp code in it, satisfies `L`. -/
def AllLeaves (L : Leaf → Prop) : Upd → Prop
  | .leaf l => L l
  | .chord es => AllLeavesL L es
  | .cram es _ => AllLeavesL L es
  | .seq es => AllLeavesL L es
  | .rep e _ => AllLeaves L e
  | .onReps _ e => AllLeaves L e
  | .varDef _ es => AllLeavesL L es
  | .lisp es => ∀ l, lispUpdate es = .ok (some l) → L l
  | _ => True
/-- The same for lists. -/
def AllLeavesL (L : Leaf → Prop) : List Upd → Prop
  | [] => True
  | e :: es => AllLeaves L e ∧ AllLeavesL L es
end

mutual
/-- No part declaration occurs in an event. -/
def NoDecl : Upd → Prop
  | .partDecl _ _ => False
  | .chord es => NoDeclL es
  | .cram es _ => NoDeclL es
  | .seq es => NoDeclL es
  | .rep e _ => NoDecl e
  | .onReps _ e => NoDecl e
  | .varDef _ es => NoDeclL es
  | _ => True
/-- The same for lists. -/
def NoDeclL : List Upd → Prop
  | [] => True
  | e :: es => NoDecl e ∧ NoDeclL es
end

mutual
/-- No variable reference, lisp code or part declaration occurs in an event. -/
def Plain : Upd → Prop
  | .partDecl _ _ => False
  | .varRef _ => False
  | .lisp _ => False
  | .chord es => PlainL es
  | .cram es _ => PlainL es
  | .seq es => PlainL es
  | .rep e _ => Plain e
  | .onReps _ e => Plain e
  | .varDef _ es => PlainL es
  | _ => True
/-- The same for lists. -/
def PlainL : List Upd → Prop
  | [] => True
  | e :: es => Plain e ∧ PlainL es
end

mutual
theorem Plain.noDecl : ∀ e, Plain e → NoDecl e
  | .leaf _, _ => trivial
  | .chord es, h => PlainL.noDecl es h
  | .cram es _, h => PlainL.noDecl es h
  | .seq es, h => PlainL.noDecl es h
  | .rep e _, h => Plain.noDecl e h
  | .onReps _ e, h => Plain.noDecl e h
  | .varDef _ es, h => PlainL.noDecl es h
  | .lisp _, h => h.elim
  | .varRef _, h => h.elim
  | .partDecl _ _, h => h
  | .lispNil, _ | .barline, _ | .voice _, _ | .voiceEnd, _ | .marker _, _ | .atMarker _, _ => trivial
theorem PlainL.noDecl : ∀ es, PlainL es → NoDeclL es
  | [], _ => trivial
  | e :: es, h => ⟨Plain.noDecl e h.1, PlainL.noDecl es h.2⟩
end

mutual
theorem allLeaves_true : ∀ e, AllLeaves (fun _ => True) e
  | .leaf _ => trivial
  | .chord es => allLeavesL_true es
  | .cram es _ => allLeavesL_true es
  | .seq es => allLeavesL_true es
  | .rep e _ => allLeaves_true e
  | .onReps _ e => allLeaves_true e
  | .varDef _ es => allLeavesL_true es
  | .lisp _ => fun _ _ => trivial
  | .lispNil | .barline | .voice _ | .voiceEnd | .marker _ | .atMarker _ | .varRef _ | .partDecl _ _ => trivial
theorem allLeavesL_true : ∀ es, AllLeavesL (fun _ => True) es
  | [] => trivial
  | e :: es => ⟨allLeaves_true e, allLeavesL_true es⟩
end

/-- The part after the channel of a note was chosen, and the event was added. -/
def emitted (s : Score) (id : Nat) (ch note : Int) (durationMs audible : Rat) : Score :=
  let p := s.heap id
  let s := recordUsage s ch.toNat p.origin
  let s := s.modPart id (fun p => { p with midiChannel := ch })
  let s := s.modPart p.origin (fun p => { p with midiChannel := ch })
  { s with events := s.events ++
      [{ part := p.origin, channel := ch, note := note, offset := p.offset, duration := durationMs,
         audible := audible, volume := p.volume, trackVolume := p.trackVolume, panning := p.panning }] }

/-- A part just made by a declaration. -/
structure Fresh (s : Score) (id : Nat) : Prop where
  lt : id < s.next
  org : (s.heap id).origin = id
  only : ∀ j < s.next, (s.heap j).origin = id → j = id
  master : (s.heap id).tempoMaster = false
  noVoices : s.vheap (s.heap id).voices = []
  onlyVoices : ∀ j < s.next, (s.heap j).voices = (s.heap id).voices → j = id
  noTemplate : (s.heap id).template = none
  notPart : id ∉ s.parts

/-- Elementary changes of the score. `L` holds of all leaf updates that can occur; the changes made by part declarations are only allowed if
`D` holds. -/
inductive Step (L : Leaf → Prop) (D : Prop) : Score → Score → Prop where
  | attr {s id u p} (hid : id ∈ s.current) (hL : L (.attr u)) (hu : updatePart u false (s.heap id) = .ok p) :
      Step L D s (s.setPart id { p with override := some u })
  | globals {s id} (hid : id ∈ s.current) : Step L D s (applyGlobalsPart id s).s
  | record {s} (o : Rat) (u : PartUpd) (hL : L (.globalAttr u)) : Step L D s { s with globals := s.globals.record o u }
  | emit {s id ch note} (durationMs audible : Rat) (hid : id ∈ s.current) (ha : 0 < audible) (hn : 0 ≤ note ∧ note ≤ 127)
      (hd : determineMidiChannel s (s.heap id) audible = .ok ch) (hc : 0 ≤ ch ∧ ch < 16) :
      Step L D s (emitted s id ch note durationMs audible)
  | timing {s id} (o l t : Rat) (d : Dur) (r : Int) (hid : id ∈ s.current) :
      Step L D s (s.modPart id (fun p => { p with offset := o, lastOffset := l, timeScale := t, dur := d, repetition := r }))
  | chordMode {s} (b : Bool) : Step L D s { s with chordMode := b }
  | marker {s} (n : String) (o : Rat) : Step L D s { s with markers := fun m => if m = n then some o else s.markers m }
  | setVar {s} (n : String) (es : List Upd) (hes : AllLeavesL L es) (hpl : PlainL es) :
      Step L D s { s with vars := fun m => if m = n then some es else s.vars m }
  | template {s id} (hid : id ∈ s.current) (hv : s.vheap (s.heap id).voices = []) (ht : (s.heap id).template = none) :
      Step L D s ((s.alloc { (s.heap id).clone with template := some s.next }).2.modPart id
        (fun p => { p with template := some s.next }))
  | newVoice {s id t} (n : Int) (hid : id ∈ s.current) (ht : (s.heap id).template = some t)
      (hn : (s.vheap (s.heap id).voices).lookup n = none) :
      Step L D s (addVoice id n s).1.s
  | enterVoice {s id n v} (hid : id ∈ s.current) (hv : (n, v) ∈ s.vheap (s.heap id).voices) :
      Step L D s { s with current := replaceByOrigin s (s.heap id).origin v s.current }
  | endVoices {s} (i : Nat) : Step L D s (voiceEndAt i s).s
  | newPart {s id s'} (hD : D) (name : String) (h : newPart name s = some (id, s')) : Step L D s s'
  | declare {s} (hD : D) (parts : List Nat) (alias : String) (hp : ∀ id ∈ parts, id ∈ s.parts ∨ Fresh s id)
      (hn : parts.Nodup) (hne : s.parts = [] → parts ≠ [])
      (hg : ∀ q ∈ s.parts, s.vheap (s.heap q).voices = []) :
      Step L D s (declareParts parts alias s)

/-- Any number of elementary changes. -/
inductive Steps (L : Leaf → Prop) (D : Prop) : Score → Score → Prop where
  | refl (s) : Steps L D s s
  | tail {s t u} : Steps L D s t → Step L D t u → Steps L D s u

theorem Steps.one {L D s t} (h : Step L D s t) : Steps L D s t := .tail (.refl s) h

theorem Steps.trans {L D s t u} (h : Steps L D s t) (h' : Steps L D t u) : Steps L D s u := by
  induction h' with
  | refl => exact h
  | tail _ hs ih => exact .tail ih hs

/-- A property preserved by elementary changes is preserved by any number of them. -/
theorem Steps.invariant {L D} {I : Score → Prop} (hI : ∀ s t, Step L D s t → I s → I t) {s t} (h : Steps L D s t) (hs : I s) :
    I t := by
  induction h with
  | refl => exact hs
  | tail _ hst ih => exact hI _ _ hst ih

/-- A reflexive and transitive relation between states that holds for elementary changes. -/
theorem Steps.relation {L D} {R : Score → Score → Prop} (hr : ∀ s, R s s) (ht : ∀ s t u, R s t → R t u → R s u)
    (h1 : ∀ s t, Step L D s t → R s t) {s t} (h : Steps L D s t) : R s t := by
  induction h with
  | refl => exact hr _
  | tail _ hst ih => exact ht _ _ _ ih (h1 _ _ hst)

/-! ### `Out` -/

theorem Out.andThen_s (o : Out) (k : Score → Out) :
    (o.err = none ∧ (o.andThen k).s = (k o.s).s ∧ (o.andThen k).err = (k o.s).err) ∨
    (∃ e, o.err = some e ∧ (o.andThen k).s = o.s ∧ (o.andThen k).err = some e) := by
  unfold Out.andThen
  cases h : o.err with
  | none => exact Or.inl ⟨rfl, rfl, rfl⟩
  | some e => exact Or.inr ⟨e, rfl, rfl, rfl⟩

/-- Sequencing: if the first part preserves `R` and so does the second, the whole does. -/
theorem Out.andThen_steps {L D} {s : Score} {o : Out} {k : Score → Out} (h1 : Steps L D s o.s)
    (h2 : o.err = none → Steps L D o.s (k o.s).s) : Steps L D s (o.andThen k).s := by
  rcases Out.andThen_s o k with ⟨he, hs, _⟩ | ⟨e, _, hs, _⟩
  · rw [hs]; exact h1.trans (h2 he)
  · rw [hs]; exact h1

/-- A loop over part addresses whose body keeps the current parts. -/
theorem forIds_steps_current {L D} (f : Nat → Score → Out)
    (hf : ∀ i s, i ∈ s.current → Steps L D s (f i s).s ∧ (f i s).s.current = s.current) :
    ∀ (ids : List Nat) (s : Score), (∀ i ∈ ids, i ∈ s.current) →
      Steps L D s (forIds f ids s).s ∧ (forIds f ids s).s.current = s.current := by
  intro ids
  induction ids with
  | nil => intro s _; exact ⟨.refl s, rfl⟩
  | cons i is ih =>
    intro s hi
    have h1 := hf i s (hi i (List.mem_cons_self ..))
    simp only [forIds]
    rcases Out.andThen_s (f i s) (forIds f is) with ⟨he, hs, _⟩ | ⟨e, _, hs, _⟩
    · rw [hs]
      have h2 := ih (f i s).s (fun j hj => by rw [h1.2]; exact hi j (List.mem_cons_of_mem _ hj))
      exact ⟨h1.1.trans h2.1, h2.2.trans h1.2⟩
    · rw [hs]; exact h1

/-- A loop whose body performs steps. -/
theorem forIds_steps {L D} (f : Nat → Score → Out) (hf : ∀ i s, Steps L D s (f i s).s) :
    ∀ (ids : List Nat) (s : Score), Steps L D s (forIds f ids s).s := by
  intro ids
  induction ids with
  | nil => intro s; exact .refl s
  | cons i is ih =>
    intro s
    exact Out.andThen_steps (hf i s) (fun _ => ih _)

end Alda
