import Verif.Lemmas.ImportKeys
/-!
The passes of the clean-up keep the kinds of events.
-/
namespace Alda
open Spec Importer

theorem importedL_append : ∀ {xs ys : List Upd}, ImportedL xs → ImportedL ys → ImportedL (xs ++ ys)
  | [], _, _, h => h
  | _ :: _, _, h, h' => ⟨h.1, importedL_append h.2 h'⟩

theorem letteredL_append : ∀ {xs ys : List Upd}, LetteredL xs → LetteredL ys → LetteredL (xs ++ ys)
  | [], _, _, h => h
  | _ :: _, _, h, h' => ⟨h.1, letteredL_append h.2 h'⟩

theorem percussiveL_append : ∀ {xs ys : List Upd}, PercussiveL xs → PercussiveL ys → PercussiveL (xs ++ ys)
  | [], _, _, h => h
  | _ :: _, _, h, h' => ⟨h.1, percussiveL_append h.2 h'⟩

/-! ### Barlines -/

theorem std_members : ∀ (es : List Upd), (∀ e ∈ es, Member e) → ∀ e ∈ standardizeBarlines es, Member e := by
  intro es
  induction es with
  | nil => intro _ e he; cases he
  | cons x es ih =>
    intro h e he
    simp only [standardizeBarlines] at he
    rcases List.mem_append.1 he with he | he
    · have hx := h x (by simp)
      match x, hx with
      | .leaf (.note p d sl), hx =>
        simp only [stdUpd, List.mem_cons] at he
        rcases he with rfl | he
        · exact std_only hx
        · split at he
          · simp only [List.mem_singleton] at he; subst he; trivial
          · cases he
      | .leaf (.rest d), hx =>
        simp only [stdUpd, List.mem_cons] at he
        rcases he with rfl | he
        · exact std_only hx
        · split at he
          · simp only [List.mem_singleton] at he; subst he; trivial
          · cases he
      | .leaf (.attr u), hx => simp only [stdUpd, List.mem_singleton] at he; subst he; exact hx
      | .barline, hx => simp only [stdUpd, List.mem_singleton] at he; subst he; trivial
    · exact ih (fun e he => h e (by simp [he])) e he

mutual
theorem std_imported : ∀ (e : Upd), Imported e → ImportedL (stdUpd e)
  | .leaf (.note p d sl), h => by
    simp only [stdUpd]
    refine ⟨std_only h, ?_⟩
    split
    · exact ⟨trivial, trivial⟩
    · trivial
  | .leaf (.rest d), h => by
    simp only [stdUpd]
    refine ⟨std_only h, ?_⟩
    split
    · exact ⟨trivial, trivial⟩
    · trivial
  | .leaf (.attr u), h => ⟨h, trivial⟩
  | .barline, _ => ⟨trivial, trivial⟩
  | .chord es, h => by simp only [stdUpd]; exact ⟨std_members es h, trivial⟩
  | .seq es, h => by simp only [stdUpd]; exact ⟨std_importedL es h, trivial⟩
  | .rep (.seq es) n, h => by simp only [stdUpd]; exact ⟨⟨h.1, std_importedL es h.2⟩, trivial⟩
  | .onReps rs (.seq es), h => by simp only [stdUpd]; exact ⟨std_importedL es h, trivial⟩
theorem std_importedL : ∀ (es : List Upd), ImportedL es → ImportedL (standardizeBarlines es)
  | [], _ => trivial
  | e :: es, h => by simp only [standardizeBarlines]; exact importedL_append (std_imported e h.1) (std_importedL es h.2)
end

theorem std_letteredC (es : List Upd) : (∀ e ∈ es, Member e) → LetteredL es → LetteredL (standardizeBarlines es) := by
  induction es with
  | nil => intro _ _; trivial
  | cons x es ih =>
    intro h hl
    simp only [standardizeBarlines]
    refine letteredL_append ?_ (ih (fun e he => h e (by simp [he])) hl.2)
    match x, h x (by simp), hl.1 with
    | .leaf (.note (.letter l a) d sl), _, _ =>
      simp only [stdUpd]
      refine ⟨trivial, ?_⟩
      split
      · exact ⟨trivial, trivial⟩
      · trivial
    | .leaf (.rest d), _, _ =>
      simp only [stdUpd]
      refine ⟨trivial, ?_⟩
      split
      · exact ⟨trivial, trivial⟩
      · trivial
    | .leaf (.attr u), _, _ => exact ⟨trivial, trivial⟩
    | .barline, _, _ => exact ⟨trivial, trivial⟩

mutual
theorem std_lettered : ∀ (e : Upd), Imported e → Lettered e → LetteredL (stdUpd e)
  | .leaf (.note (.letter l a) d sl), _, _ => by
    simp only [stdUpd]
    refine ⟨trivial, ?_⟩
    split
    · exact ⟨trivial, trivial⟩
    · trivial
  | .leaf (.rest d), _, _ => by
    simp only [stdUpd]
    refine ⟨trivial, ?_⟩
    split
    · exact ⟨trivial, trivial⟩
    · trivial
  | .leaf (.attr u), _, _ => ⟨trivial, trivial⟩
  | .barline, _, _ => ⟨trivial, trivial⟩
  | .chord es, h, h' => by simp only [stdUpd]; exact ⟨std_letteredC es h h', trivial⟩
  | .seq es, h, h' => by simp only [stdUpd]; exact ⟨std_letteredL es h h', trivial⟩
  | .rep (.seq es) n, h, h' => by simp only [stdUpd]; exact ⟨std_letteredL es h.2 h', trivial⟩
  | .onReps rs (.seq es), h, h' => by simp only [stdUpd]; exact ⟨std_letteredL es h h', trivial⟩
theorem std_letteredL : ∀ (es : List Upd), ImportedL es → LetteredL es → LetteredL (standardizeBarlines es)
  | [], _, _ => trivial
  | e :: es, h, h' => by simp only [standardizeBarlines]; exact letteredL_append (std_lettered e h.1 h'.1) (std_letteredL es h.2 h'.2)
end

mutual
theorem std_percussive : ∀ (e : Upd), Imported e → Percussive e → PercussiveL (stdUpd e)
  | .leaf (.note (.midi n) d sl), _, h => by
    simp only [stdUpd]
    refine ⟨h, ?_⟩
    split
    · exact ⟨trivial, trivial⟩
    · trivial
  | .leaf (.rest d), _, _ => by
    simp only [stdUpd]
    refine ⟨trivial, ?_⟩
    split
    · exact ⟨trivial, trivial⟩
    · trivial
  | .leaf (.attr u), _, h => ⟨h, trivial⟩
  | .barline, _, _ => ⟨trivial, trivial⟩
  | .seq es, h, h' => by simp only [stdUpd]; exact ⟨std_percussiveL es h h', trivial⟩
  | .rep (.seq es) n, h, h' => by simp only [stdUpd]; exact ⟨std_percussiveL es h.2 h', trivial⟩
  | .onReps rs (.seq es), h, h' => by simp only [stdUpd]; exact ⟨std_percussiveL es h h', trivial⟩
theorem std_percussiveL : ∀ (es : List Upd), ImportedL es → PercussiveL es → PercussiveL (standardizeBarlines es)
  | [], _, _ => trivial
  | e :: es, h, h' => by simp only [standardizeBarlines]; exact percussiveL_append (std_percussive e h.1 h'.1) (std_percussiveL es h.2 h'.2)
end

/-! ### Accidentals -/

theorem modify_member (o : Opt) (e : Upd) (h : Member e) : Member (modifyAccidentals o e).1 ∧ (Lettered e → Lettered (modifyAccidentals o e).1) ∧
    (Percussive e → Percussive (modifyAccidentals o e).1) ∧ (modifyAccidentals o e).2.dur = o.dur ∧ (modifyAccidentals o e).2.octave = o.octave := by
  match e, h with
  | .leaf (.note (.midi n) d sl), h => exact ⟨h, id, id, rfl, rfl⟩
  | .leaf (.note (.letter l acc) d sl), h =>
    simp only [modifyAccidentals]
    split
    · exact ⟨h, id, id, rfl, rfl⟩
    · split
      · exact ⟨h, id, id, rfl, rfl⟩
      · exact ⟨h, id, id, rfl, rfl⟩
  | .leaf (.rest d), h => exact ⟨h, id, id, rfl, rfl⟩
  | .leaf (.attr u), h =>
    cases u with
    | keySignature k => exact absurd rfl h.1
    | _ => exact ⟨h, id, id, rfl, rfl⟩
  | .barline, _ => exact ⟨trivial, id, id, rfl, rfl⟩

theorem reset_rest (r : Upd × Opt) : (resetAtBarline r).2.dur = r.2.dur ∧ (resetAtBarline r).2.octave = r.2.octave := by
  unfold resetAtBarline; split <;> exact ⟨rfl, rfl⟩

theorem accUpd_member (o : Opt) (e : Upd) (h : Member e) : Member (accUpd o e).1 ∧ (Lettered e → Lettered (accUpd o e).1) ∧
    (Percussive e → Percussive (accUpd o e).1) ∧ (accUpd o e).2.dur = o.dur ∧ (accUpd o e).2.octave = o.octave := by
  have hm := modify_member o e h
  have key : accUpd o e = resetAtBarline (modifyAccidentals o e) := by
    match e, h with
    | .leaf l, _ => rfl
    | .barline, _ => rfl
  rw [key, reset_fst, (reset_rest _).1, (reset_rest _).2]
  exact hm

theorem acc_members : ∀ (es : List Upd) (o : Opt), (∀ e ∈ es, Member e) → (∀ e ∈ (accList o es).1, Member e) ∧ (LetteredL es → LetteredL (accList o es).1) ∧
    (accList o es).2.dur = o.dur ∧ (accList o es).2.octave = o.octave
  | [], o, _ => ⟨(fun _ h => by cases h), id, rfl, rfl⟩
  | e :: es, o, h => by
    obtain ⟨h1, h2, -, h4, h5⟩ := accUpd_member o e (h e (by simp))
    obtain ⟨i1, i2, i3, i4⟩ := acc_members es (accUpd o e).2 (fun e he => h e (by simp [he]))
    simp only [accList]
    refine ⟨?_, fun hl => ⟨h2 hl.1, i2 hl.2⟩, i3.trans h4, i4.trans h5⟩
    intro x hx
    rcases List.mem_cons.1 hx with rfl | hx
    · exact h1
    · exact i1 x hx

/-- What the pass over accidentals keeps. -/
structure AccKeeps (o : Opt) (e e' : Upd) (o' : Opt) : Prop where
  imported : Imported e'
  lettered : Lettered e → Lettered e'
  percussive : Percussive e → Percussive e'
  dur : o'.dur = o.dur
  octave : o'.octave = o.octave

mutual
theorem accUpd_keeps : ∀ (e : Upd) (o : Opt), Imported e → AccKeeps o e (accUpd o e).1 (accUpd o e).2
  | .leaf (.note p d sl), o, h => by
    obtain ⟨h1, h2, h3, h4, h5⟩ := accUpd_member o (.leaf (.note p d sl)) h
    have hi : Imported (accUpd o (.leaf (.note p d sl))).1 := by
      revert h1
      cases p with
      | midi n => simp only [accUpd, modifyAccidentals, reset_fst]; exact id
      | letter l a =>
        simp only [accUpd, modifyAccidentals, reset_fst]
        split
        · exact id
        · split <;> exact id
    exact ⟨hi, h2, h3, h4, h5⟩
  | .leaf (.rest d), o, h => by
    obtain ⟨h1, h2, h3, h4, h5⟩ := accUpd_member o (.leaf (.rest d)) h
    have hi : Imported (accUpd o (.leaf (.rest d))).1 := by
      revert h1
      simp only [accUpd, modifyAccidentals, reset_fst]; exact id
    exact ⟨hi, h2, h3, h4, h5⟩
  | .leaf (.attr u), o, h => by
    obtain ⟨h1, h2, h3, h4, h5⟩ := accUpd_member o (.leaf (.attr u)) h
    have hi : Imported (accUpd o (.leaf (.attr u))).1 := by
      revert h1
      cases u <;> (simp only [accUpd, modifyAccidentals, reset_fst]; exact id)
    exact ⟨hi, h2, h3, h4, h5⟩
  | .barline, o, h => by
    obtain ⟨h1, h2, h3, h4, h5⟩ := accUpd_member o .barline h
    have hi : Imported (accUpd o .barline).1 := by
      revert h1
      simp only [accUpd, modifyAccidentals, reset_fst]; exact id
    exact ⟨hi, h2, h3, h4, h5⟩
  | .chord es, o, h => by
    obtain ⟨h1, h2, h3, h4⟩ := acc_members es o h
    simp only [accUpd]
    exact ⟨h1, h2, id, h3, h4⟩
  | .seq es, o, h => by
    obtain ⟨h1, h2, h3, h4, h5⟩ := accList_keeps es o h
    simp only [accUpd]
    exact ⟨h1, h2, h3, h4, h5⟩
  | .rep (.seq es) n, o, h => by
    obtain ⟨h1, h2, h3, h4, h5⟩ := accList_keeps es o h.2
    simp only [accUpd]
    exact ⟨⟨h.1, h1⟩, h2, h3, h4, h5⟩
  | .onReps rs (.seq es), o, h => by
    obtain ⟨h1, h2, h3, h4, h5⟩ := accList_keeps es o h
    simp only [accUpd]
    exact ⟨h1, h2, h3, h4, h5⟩
theorem accList_keeps : ∀ (es : List Upd) (o : Opt), ImportedL es → ImportedL (accList o es).1 ∧ (LetteredL es → LetteredL (accList o es).1) ∧
    (PercussiveL es → PercussiveL (accList o es).1) ∧ (accList o es).2.dur = o.dur ∧ (accList o es).2.octave = o.octave
  | [], o, _ => ⟨trivial, id, id, rfl, rfl⟩
  | e :: es, o, h => by
    obtain ⟨h1, h2, h3, h4, h5⟩ := accUpd_keeps e o h.1
    obtain ⟨i1, i2, i3, i4, i5⟩ := accList_keeps es (accUpd o e).2 h.2
    simp only [accList]
    exact ⟨⟨h1, i1⟩, fun hl => ⟨h2 hl.1, i2 hl.2⟩, fun hl => ⟨h3 hl.1, i3 hl.2⟩, i4.trans h4, i5.trans h5⟩
end

/-! ### Percussion -/

theorem midi_lettered_leaf (o : Opt) (e : Upd) (h : Member e) (hl : Lettered e) : (midiUpd o e).1 = [e] ∧ (midiUpd o e).2.dur = o.dur := by
  match e, h, hl with
  | .leaf (.note (.letter l a) d sl), _, _ => simp only [midiUpd, modifyMidi]; refine ⟨trivial, ?_⟩; split <;> rfl
  | .leaf (.rest d), _, _ => simp only [midiUpd, modifyMidi]; refine ⟨trivial, ?_⟩; split <;> rfl
  | .leaf (.attr u), _, _ => simp only [midiUpd, modifyMidi]; refine ⟨trivial, ?_⟩; split <;> rfl
  | .barline, _, _ => simp only [midiUpd, modifyMidi]; refine ⟨trivial, ?_⟩; split <;> rfl

theorem midi_lettered_chord : ∀ (es : List Upd) (o : Opt), (∀ e ∈ es, Member e) → LetteredL es → (midiList o es).1 = es ∧ (midiList o es).2.dur = o.dur
  | [], _, _, _ => ⟨rfl, rfl⟩
  | e :: es, o, h, hl => by
    obtain ⟨h1, h2⟩ := midi_lettered_leaf o e (h e (by simp)) hl.1
    obtain ⟨i1, i2⟩ := midi_lettered_chord es (midiUpd o e).2 (fun e he => h e (by simp [he])) hl.2
    simp only [midiList, h1, i1]
    exact ⟨rfl, i2.trans h2⟩

mutual
theorem midi_lettered : ∀ (e : Upd) (o : Opt), Imported e → Lettered e → (midiUpd o e).1 = [e] ∧ (midiUpd o e).2.dur = o.dur
  | .leaf (.note p d sl), o, h, hl => midi_lettered_leaf o (.leaf (.note p d sl)) h hl
  | .leaf (.rest d), o, h, hl => midi_lettered_leaf o (.leaf (.rest d)) h hl
  | .leaf (.attr u), o, h, hl => midi_lettered_leaf o (.leaf (.attr u)) h hl
  | .barline, o, h, hl => midi_lettered_leaf o .barline h hl
  | .chord es, o, h, hl => by
    obtain ⟨a, b⟩ := midi_lettered_chord es o.resetOctave h hl
    simp only [midiUpd, a]; exact ⟨trivial, b⟩
  | .seq es, o, h, hl => by
    obtain ⟨a, b⟩ := midi_letteredL es o.resetOctave h hl
    simp only [midiUpd, a]; exact ⟨trivial, b⟩
  | .rep (.seq es) n, o, h, hl => by
    obtain ⟨a, b⟩ := midi_letteredL es o.resetOctave h.2 hl
    simp only [midiUpd, a]; exact ⟨trivial, b⟩
  | .onReps rs (.seq es), o, h, hl => by
    obtain ⟨a, b⟩ := midi_letteredL es o.resetOctave h hl
    simp only [midiUpd, a]; exact ⟨trivial, b⟩
theorem midi_letteredL : ∀ (es : List Upd) (o : Opt), ImportedL es → LetteredL es → (midiList o es).1 = es ∧ (midiList o es).2.dur = o.dur
  | [], _, _, _ => ⟨rfl, rfl⟩
  | e :: es, o, h, hl => by
    obtain ⟨h1, h2⟩ := midi_lettered e o h.1 hl.1
    obtain ⟨i1, i2⟩ := midi_letteredL es (midiUpd o e).2 h.2 hl.2
    simp only [midiList, h1, i1]
    exact ⟨rfl, i2.trans h2⟩
end

/-! ### Repeats -/

theorem close_leaf (o : Opt) (e : Upd) (h : Member e) : closeUpd (durUpd o e).1 = (durUpd o e).1 := by
  match e, h with
  | .leaf (.note p d sl), _ => rw [durUpd_note]; rfl
  | .leaf (.rest d), _ => rw [durUpd_rest]; rfl
  | .leaf (.attr u), _ => rfl
  | .barline, _ => rfl

theorem close_chord : ∀ (es : List Upd) (o : Opt), (∀ e ∈ es, Member e) → closeList (durList o es).1 = (durList o es).1
  | [], _, _ => rfl
  | e :: es, o, h => by
    simp only [durList, closeList]
    rw [close_leaf o e (h e (by simp)), close_chord es _ (fun e he => h e (by simp [he]))]

mutual
theorem close_upd : ∀ (e : Upd) (o : Opt), Imported e → closeUpd (durUpd o e).1 = (durUpd o e).1
  | .leaf (.note p d sl), o, h => close_leaf o (.leaf (.note p d sl)) h
  | .leaf (.rest d), o, h => close_leaf o (.leaf (.rest d)) h
  | .leaf (.attr u), o, h => close_leaf o (.leaf (.attr u)) h
  | .barline, o, h => close_leaf o .barline h
  | .chord es, o, h => by simp only [durUpd, closeUpd]; rw [close_chord es _ h]
  | .seq es, o, h => by simp only [durUpd, closeUpd]; rw [close_list es _ h]
  | .rep (.seq es) n, o, h => by simp only [durUpd, closeUpd]; rw [close_list es _ h.2, closedTimes, if_neg h.1]
  | .onReps rs (.seq es), o, h => by simp only [durUpd, closeUpd]; rw [close_list es _ h]
theorem close_list : ∀ (es : List Upd) (o : Opt), ImportedL es → closeList (durList o es).1 = (durList o es).1
  | [], _, _ => rfl
  | e :: es, o, h => by simp only [durList, closeList]; rw [close_upd e o h.1, close_list es _ h.2]
end

end Alda
