import Verif.Lemmas.Interp
/-!
Invariants that speak about one part at a time.
-/
namespace Alda

/-- Every recorded global attribute change satisfies `L`. -/
def GlobalsOk (L : Leaf → Prop) (s : Score) : Prop :=
  ∀ o us, s.globals.itinerary o = some us → ∀ u ∈ us, L (.globalAttr u)

theorem record_ok {L : Leaf → Prop} {g : GlobalAttributes} {o : Rat} {u : PartUpd} (hu : L (.globalAttr u))
    (h : ∀ o us, g.itinerary o = some us → ∀ u ∈ us, L (.globalAttr u)) :
    ∀ o' us, (g.record o u).itinerary o' = some us → ∀ v ∈ us, L (.globalAttr v) := by
  intro o' us hus v hv
  unfold GlobalAttributes.record at hus
  split at hus
  · rename_i ws hws
    simp only at hus
    split at hus
    · simp only [Option.some.injEq] at hus
      subst hus
      simp only [List.mem_append, List.mem_singleton] at hv
      rcases hv with hv | hv
      · exact h o ws hws v hv
      · subst hv; exact hu
    · exact h o' us hus v hv
  · simp only at hus
    split at hus
    · simp only [Option.some.injEq] at hus
      subst hus
      simp only [List.mem_singleton] at hv
      subst hv; exact hu
    · exact h o' us hus v hv

/-- The global attributes change only by recording. -/
theorem Step.globals_eq {L D} {s t : Score} (h : Step L D s t) : t.globals = s.globals ∨
    ∃ o u, L (.globalAttr u) ∧ t.globals = s.globals.record o u := by
  cases h with
  | globals hid => obtain ⟨p, h⟩ := applyGlobalsPart_rest _ s; rw [h]; exact Or.inl rfl
  | record o u hL => exact Or.inr ⟨o, u, hL, rfl⟩
  | emit d a hid ha hn hd hc => obtain ⟨_, _, _, h⟩ := emitted_rest s _ _ _ d a; rw [h]; exact Or.inl rfl
  | newVoice n hid ht hn => obtain ⟨_, _, _, h⟩ := addVoice_rest _ n s; rw [h]; exact Or.inl rfl
  | endVoices i => obtain ⟨_, _, _, _, _, _, h⟩ := voiceEndAt_rest i s; rw [h]; exact Or.inl rfl
  | newPart hD name h => obtain ⟨_, _, _, _, h⟩ := newPart_rest h; rw [h]; exact Or.inl rfl
  | declare hD parts alias hp hn hne hg => obtain ⟨_, _, _, h⟩ := declareParts_rest parts alias s; rw [h]; exact Or.inl rfl
  | _ => exact Or.inl rfl

theorem Step.globalsOk {L D} {s t : Score} (h : Step L D s t) (g : GlobalsOk L s) : GlobalsOk L t := by
  rcases h.globals_eq with h | ⟨o, u, hu, h⟩
  · unfold GlobalsOk; rw [h]; exact g
  · unfold GlobalsOk; rw [h]; exact record_ok hu g

theorem inWindowFrom_mem {g : GlobalAttributes} {a b : Rat} {u : PartUpd} : ∀ (os : List Rat), u ∈ inWindowFrom g a b os →
    ∃ o us, g.itinerary o = some us ∧ u ∈ us := by
  intro os
  induction os with
  | nil => intro h; simp [inWindowFrom] at h
  | cons o os ih =>
    intro h
    simp only [inWindowFrom] at h
    split at h
    · simp at h
    split at h
    · rcases List.mem_append.1 h with h | h
      · cases hi : g.itinerary o with
        | none => simp [hi] at h
        | some us => exact ⟨o, us, hi, by simpa [hi] using h⟩
      · exact ih h
    · exact ih h

/-- A property of single parts that every change of a part keeps. -/
structure CellInv (L : Leaf → Prop) (P : Part → Prop) : Prop where
  upd : ∀ u g p q, (g = false ∧ L (.attr u)) ∨ (g = true ∧ L (.globalAttr u)) → P p → updatePart u g p = .ok q → P q
  override : ∀ p o, P p → P { p with override := o }
  timing : ∀ p (o l t : Rat) (d : Dur) (r : Int), P p →
    P { p with offset := o, lastOffset := l, timeScale := t, dur := d, repetition := r }
  chan : ∀ s p q a ch, determineMidiChannel s p a = .ok ch → P p → P q → q.instr = p.instr → P { q with midiChannel := ch }
  struct : ∀ p tm v m, P p → P { p with template := tm, voices := v, tempoMaster := m }
  new : ∀ (p : Part), (∃ n, stockInstrument n = some p.instr) →
    p.tempo = 120 → p.volume = dynamicVolume "mf" → p.trackVolume = 100 / 127 → p.panning = 1 / 2 → p.quant = 9 / 10 →
    p.midiChannel = -1 → p.explicitChannel = false → p.timeScale = 1 → p.offset = 0 → p.lastOffset = -1 →
    p.dur = [.length 4 0] → p.tempoValues = [] → P p

theorem applyUpdates_inv {L P} (c : CellInv L P) (us : List PartUpd) (hus : ∀ u ∈ us, L (.globalAttr u)) :
    ∀ p, P p → P (applyUpdates us p).2 := by
  induction us with
  | nil => intro p h; exact h
  | cons u us ih =>
    intro p h
    have ih := ih (fun v hv => hus v (List.mem_cons_of_mem _ hv))
    simp only [applyUpdates]
    split
    · exact ih p h
    · split
      · exact h
      · rename_i p' hp'
        exact ih p' (c.upd u true p p' (Or.inr ⟨rfl, hus u (List.mem_cons_self ..)⟩) h hp')

theorem applyGlobalsPart_heap (id : Nat) (s : Score) (j : Nat) :
    (applyGlobalsPart id s).s.heap j = if j = id then
      (match applyUpdates (s.globals.inWindow (s.heap id).lastOffset (s.heap id).offset) (s.heap id) with
       | (some _, p') => p'
       | (none, p') => { p' with override := none }) else s.heap j := by
  simp only [applyGlobalsPart]
  cases applyUpdates (s.globals.inWindow (s.heap id).lastOffset (s.heap id).offset) (s.heap id) with
  | mk e p' => cases e <;> rfl

theorem mod_twice (s : Score) (id o : Nat) (f : Part → Part) (hf : ∀ p, f (f p) = f p) (j : Nat) :
    ((s.modPart id f).modPart o f).heap j = if j = id ∨ j = o then f (s.heap j) else s.heap j := by
  simp only [Score.modPart, Score.setPart]
  by_cases h1 : j = o <;> by_cases h2 : j = id
  · subst h1; subst h2; simp only [if_true, or_self, hf]
  · subst h1; simp only [if_true, or_true, h2, if_false]
  · subst h2; simp only [if_true, true_or, h1, if_false]
  · simp only [h1, h2, if_false, or_self]

theorem emitted_heap (s : Score) (id : Nat) (ch note : Int) (d a : Rat) (j : Nat) :
    (emitted s id ch note d a).heap j =
      if j = id ∨ j = (s.heap id).origin then { s.heap j with midiChannel := ch } else s.heap j := by
  have hr : (recordUsage s ch.toNat (s.heap id).origin).heap = s.heap := by rw [recordUsage_rest]
  have := mod_twice (recordUsage s ch.toNat (s.heap id).origin) id (s.heap id).origin (fun p => { p with midiChannel := ch })
    (fun _ => rfl) j
  rw [hr] at this
  exact this

/-- Cell invariants are preserved by elementary changes. -/
theorem CellInv.step {L D P} (c : CellInv L P) {s t : Score} (h : Step L D s t) (w : WF s) (hg : GlobalsOk L s)
    (hs : ∀ i < s.next, P (s.heap i)) : ∀ i < t.next, P (t.heap i) := by
  cases h with
  | @attr id u p hid hL hu =>
    intro i hi
    simp only [Score.setPart] at hi ⊢
    split
    · exact c.override _ _ (c.upd u false _ p (Or.inl ⟨rfl, hL⟩) (hs id (w.cur_lt id hid)) hu)
    · exact hs i hi
  | @globals id hid =>
    intro i hi
    have hn : (applyGlobalsPart id s).s.next = s.next := by obtain ⟨p, h⟩ := applyGlobalsPart_rest id s; rw [h]; rfl
    rw [hn] at hi
    rw [applyGlobalsPart_heap]
    split
    · have := applyUpdates_inv c (s.globals.inWindow (s.heap id).lastOffset (s.heap id).offset)
        (fun u hu => by obtain ⟨o, us, h1, h2⟩ := inWindowFrom_mem _ hu; exact hg o us h1 u h2) _ (hs id (w.cur_lt id hid))
      split
      · rename_i he; rw [he] at this; exact this
      · rename_i he; rw [he] at this; exact c.override _ _ this
    · exact hs i hi
  | record o u hL => exact hs
  | @emit id ch note d a hid ha hn hd hc =>
    intro i hi
    have hlt := w.cur_lt id hid
    have hnx : (emitted s id ch note d a).next = s.next := by obtain ⟨_, _, _, h⟩ := emitted_rest s id ch note d a; rw [h]
    rw [hnx] at hi
    rw [emitted_heap]
    split
    · rename_i hor
      refine c.chan s (s.heap id) _ a ch hd (hs id hlt) (hs i hi) ?_
      rcases hor with h | h
      · rw [h]
      · rw [h]; exact w.org_instr id hlt
    · exact hs i hi
  | @timing id o l t d r hid =>
    intro i hi
    simp only [Score.modPart, Score.setPart] at hi ⊢
    split
    · exact c.timing _ _ _ _ _ _ (hs id (w.cur_lt id hid))
    · exact hs i hi
  | chordMode b => exact hs
  | marker n o => exact hs
  | setVar n es hes => exact hs
  | @template id hid hv ht =>
    intro i hi
    have hlt := w.cur_lt id hid
    have hne : id ≠ s.next := by omega
    have hi' : i < s.next + 1 := hi
    simp only [Score.modPart, Score.setPart, Score.alloc, hne, if_false]
    split
    · exact c.struct _ _ (s.heap id).voices (s.heap id).tempoMaster (hs id hlt)
    · split
      · exact c.struct _ _ (s.heap id).voices (s.heap id).tempoMaster (c.override _ none (hs id hlt))
      · exact hs i (by omega)
  | @newVoice id t n hid ht hn =>
    intro i hi
    have hlt := w.cur_lt id hid
    have e1 : (addVoice id n s).1.s.next = s.next + 1 := by simp [addVoice, ht, Score.alloc, Out.ok]
    have e2 : (addVoice id n s).1.s.heap i = if i = s.next then (s.heap t).clone else s.heap i := by
      simp only [addVoice, ht, Score.alloc, Score.setPart, Out.ok]
    rw [e1] at hi
    rw [e2]
    split
    · exact c.override _ none (hs t (w.tmpl id hlt t ht).1)
    · exact hs i (by omega)
  | enterVoice hid hv => exact hs
  | endVoices i =>
    intro j hj
    have hj' : j < s.next := by
      obtain ⟨_, _, _, _, _, _, h⟩ := voiceEndAt_rest i s; rw [h] at hj; exact hj
    simp only [voiceEndAt]
    split
    · exact hs j hj'
    · split
      · exact hs j hj'
      · simp only [Score.newVoices, Score.modPart, Score.setPart, Out.ok]
        split
        · rename_i he
          exact c.struct _ none s.vnext (s.heap _).tempoMaster (hs _ (by rw [← he]; exact hj'))
        · exact hs j hj'
  | newPart hD name h =>
    obtain ⟨instr, hi, _, p, _, _, h2, _, h3, _, h5, h6, h7, h8, h9, h10, h11, _, h13, h14, h15, h16, _, h17, rfl⟩ := newPart_eq h
    intro i hi'
    simp only at hi' ⊢
    split
    · exact c.new p ⟨name, by rw [hi, h2]⟩ h5 h6 h7 h8 h9 h10 h11 h13 h14 h15 h16 h17
    · exact hs i (by omega)
  | declare hD parts alias hp hn hne hg =>
    intro i hi
    have hi' : i < s.next := by
      obtain ⟨_, _, _, h⟩ := declareParts_rest parts alias s; rw [h] at hi; exact hi
    rw [declareParts_heap]
    rcases markMaster_heap parts s i with h | ⟨_, _, h⟩
    · rw [h]; exact hs i hi'
    · rw [h]; exact c.struct _ (s.heap i).template (s.heap i).voices true (hs i hi')

/-- What a step never changes: who a part belongs to and its instrument. -/
theorem Step.stable {L D} {s t : Score} (h : Step L D s t) (w : WF s) :
    s.next ≤ t.next ∧ ∀ i < s.next, (t.heap i).origin = (s.heap i).origin ∧ (t.heap i).instr = (s.heap i).instr ∧
      (t.heap i).name = (s.heap i).name := by
  have shape : ∀ {u : Score}, SameShape s u → s.next ≤ u.next ∧ ∀ i < s.next, (u.heap i).origin = (s.heap i).origin ∧
      (u.heap i).instr = (s.heap i).instr ∧ (u.heap i).name = (s.heap i).name :=
    fun hh => ⟨by rw [hh.next]; omega, fun i _ => ⟨(hh.cells i).origin, (hh.cells i).instr, (hh.cells i).name⟩⟩
  cases h with
  | attr hid hL hu => exact shape (SameShape.setPart ((updatePart_identity hu).override _))
  | globals hid => exact shape (applyGlobalsPart_shape _ s)
  | record o u hL => exact shape ⟨fun _ => .refl _, rfl, rfl, rfl, rfl, rfl, rfl⟩
  | emit d a hid ha hn hd hc => exact shape (emitted_shape _ _ _ _ _ _)
  | timing o l t d r hid => exact shape (SameShape.setPart ⟨rfl, rfl, rfl, rfl, rfl, rfl⟩)
  | chordMode b => exact shape ⟨fun _ => .refl _, rfl, rfl, rfl, rfl, rfl, rfl⟩
  | marker n o => exact shape ⟨fun _ => .refl _, rfl, rfl, rfl, rfl, rfl, rfl⟩
  | setVar n es hes => exact shape ⟨fun _ => .refl _, rfl, rfl, rfl, rfl, rfl, rfl⟩
  | @template id hid hv ht =>
    have hlt := w.cur_lt id hid
    have hne : id ≠ s.next := by omega
    refine ⟨by simp [Score.modPart, Score.setPart, Score.alloc], fun i hi => ?_⟩
    simp only [Score.modPart, Score.setPart, Score.alloc, hne, if_false]
    split
    · rename_i h; rw [h]; exact ⟨rfl, rfl, rfl⟩
    · rw [if_neg (by omega)]; exact ⟨rfl, rfl, rfl⟩
  | @newVoice id t n hid ht hn =>
    refine ⟨by simp [addVoice, ht, Score.alloc, Out.ok], fun i hi => ?_⟩
    have : (addVoice id n s).1.s.heap i = if i = s.next then (s.heap t).clone else s.heap i := by
      simp only [addVoice, ht, Score.alloc, Score.setPart, Out.ok]
    rw [this, if_neg (by omega)]; exact ⟨rfl, rfl, rfl⟩
  | enterVoice hid hv => exact ⟨Nat.le_refl _, fun i hi => ⟨rfl, rfl, rfl⟩⟩
  | endVoices i =>
    refine ⟨?_, fun j hj => ?_⟩
    · obtain ⟨_, _, _, _, _, _, h⟩ := voiceEndAt_rest i s; rw [h]; exact Nat.le_refl _
    · simp only [voiceEndAt]
      split
      · exact ⟨rfl, rfl, rfl⟩
      · split
        · exact ⟨rfl, rfl, rfl⟩
        · simp only [Score.newVoices, Score.modPart, Score.setPart, Out.ok]
          split
          · rename_i he; rw [he]; exact ⟨rfl, rfl, rfl⟩
          · exact ⟨rfl, rfl, rfl⟩
  | newPart hD name h =>
    obtain ⟨instr, hi, _, p, _, _, h2, _, h3, _, h5, h6, h7, h8, h9, h10, h11, _, h13, h14, h15, h16, _, _, rfl⟩ := newPart_eq h
    exact ⟨by simp, fun i hi => by simp only; rw [if_neg (by omega)]; exact ⟨rfl, rfl, rfl⟩⟩
  | declare hD parts alias hp hn hne hg =>
    refine ⟨?_, fun i hi => ?_⟩
    · obtain ⟨_, _, _, h⟩ := declareParts_rest parts alias s; rw [h]; exact Nat.le_refl _
    · rw [declareParts_heap]
      rcases markMaster_heap parts s i with h | ⟨_, _, h⟩ <;> rw [h] <;> exact ⟨rfl, rfl, rfl⟩

/-- What happens to the notes and the channel table in one step. -/
theorem Step.notes {L D} {s t : Score} (h : Step L D s t) : (t.events = s.events ∧ t.usage = s.usage) ∨
    ∃ id ch note d a, id ∈ s.current ∧ 0 < a ∧ (0 ≤ note ∧ note ≤ 127) ∧ determineMidiChannel s (s.heap id) a = .ok ch ∧
      (0 ≤ ch ∧ ch < 16) ∧ t = emitted s id ch note d a := by
  cases h with
  | globals hid => obtain ⟨p, h⟩ := applyGlobalsPart_rest _ s; rw [h]; exact Or.inl ⟨rfl, rfl⟩
  | emit d a hid ha hn hd hc => exact Or.inr ⟨_, _, _, d, a, hid, ha, hn, hd, hc, rfl⟩
  | newVoice n hid ht hn => obtain ⟨_, _, _, h⟩ := addVoice_rest _ n s; rw [h]; exact Or.inl ⟨rfl, rfl⟩
  | endVoices i => obtain ⟨_, _, _, _, _, _, h⟩ := voiceEndAt_rest i s; rw [h]; exact Or.inl ⟨rfl, rfl⟩
  | newPart hD name h => obtain ⟨_, _, _, _, h⟩ := newPart_rest h; rw [h]; exact Or.inl ⟨rfl, rfl⟩
  | declare hD parts alias hp hn hne hg => obtain ⟨_, _, _, h⟩ := declareParts_rest parts alias s; rw [h]; exact Or.inl ⟨rfl, rfl⟩
  | _ => exact Or.inl ⟨rfl, rfl⟩

/-- The note added by `emitted`. -/
def emittedNote (s : Score) (id : Nat) (ch note : Int) (d a : Rat) : NoteEvent :=
  { part := (s.heap id).origin, channel := ch, note := note, offset := (s.heap id).offset, duration := d, audible := a,
    volume := (s.heap id).volume, trackVolume := (s.heap id).trackVolume, panning := (s.heap id).panning }

theorem emitted_events (s : Score) (id : Nat) (ch note : Int) (d a : Rat) :
    (emitted s id ch note d a).events = s.events ++ [emittedNote s id ch note d a] := by
  simp only [emitted, emittedNote, Score.modPart, Score.setPart]
  rw [recordUsage_rest]

theorem emitted_usage (s : Score) (id : Nat) (ch note : Int) (d a : Rat) :
    (∀ c, ∀ o ∈ s.usage c, o ∈ (emitted s id ch note d a).usage c) ∧ (s.heap id).origin ∈ (emitted s id ch note d a).usage ch.toNat := by
  have e : (emitted s id ch note d a).usage = (recordUsage s ch.toNat (s.heap id).origin).usage := by
    simp only [emitted, Score.modPart, Score.setPart]
  rw [e]
  unfold recordUsage
  split
  · rename_i h; exact ⟨fun _ _ h => h, by simpa using h⟩
  · refine ⟨fun c o ho => ?_, by simp⟩
    simp only
    split
    · rename_i h; rw [h] at ho; exact List.mem_append_left _ ho
    · exact ho

end Alda
