import Verif.Lemmas.Steps
/-!
Well-formedness of the heap of parts, preserved by every elementary change.
-/
namespace Alda

/-- Heap invariants. -/
structure WF (s : Score) : Prop where
  org_lt : ∀ i < s.next, (s.heap i).origin < s.next
  org_org : ∀ i < s.next, (s.heap (s.heap i).origin).origin = (s.heap i).origin
  org_instr : ∀ i < s.next, (s.heap (s.heap i).origin).instr = (s.heap i).instr
  vo_lt : ∀ i < s.next, (s.heap i).voices < s.vnext
  vo_share : ∀ i < s.next, ∀ j < s.next, (s.heap i).voices = (s.heap j).voices → (s.heap i).origin = (s.heap j).origin
  vo_mem : ∀ i < s.next, ∀ x ∈ s.vheap (s.heap i).voices, x.2 < s.next ∧ (s.heap x.2).origin = (s.heap i).origin
  tmpl : ∀ i < s.next, ∀ t, (s.heap i).template = some t → t < s.next ∧ (s.heap t).origin = (s.heap i).origin
  cur_lt : ∀ i ∈ s.current, i < s.next
  parts_lt : ∀ i ∈ s.parts, i < s.next
  parts_nodup : (s.parts.map (fun i => (s.heap i).origin)).Nodup
  cur_nodup : (s.current.map (fun i => (s.heap i).origin)).Nodup
  alias_parts : ∀ a ∈ s.aliases, ∀ i ∈ a.2, i ∈ s.parts
  alias_nodup : ∀ a ∈ s.aliases, a.2.Nodup
  cur_parts : ∀ c ∈ s.current, ∃ q ∈ s.parts, (s.heap q).origin = (s.heap c).origin

/-- Two parts agree in everything that is not musical state. -/
structure SameIdentity (p q : Part) : Prop where
  name : q.name = p.name
  instr : q.instr = p.instr
  tempoMaster : q.tempoMaster = p.tempoMaster
  template : q.template = p.template
  origin : q.origin = p.origin
  voices : q.voices = p.voices

theorem SameIdentity.refl (p : Part) : SameIdentity p p := ⟨rfl, rfl, rfl, rfl, rfl, rfl⟩

theorem SameIdentity.trans {p q r : Part} (h : SameIdentity p q) (h' : SameIdentity q r) : SameIdentity p r :=
  ⟨h'.1.trans h.1, h'.2.trans h.2, h'.3.trans h.3, h'.4.trans h.4, h'.5.trans h.5, h'.6.trans h.6⟩

/-- Nothing but musical state of parts, events, global attributes, markers, variables, channel usage changed. -/
structure SameShape (s t : Score) : Prop where
  cells : ∀ i, SameIdentity (s.heap i) (t.heap i)
  next : t.next = s.next
  vheap : t.vheap = s.vheap
  vnext : t.vnext = s.vnext
  parts : t.parts = s.parts
  current : t.current = s.current
  aliases : t.aliases = s.aliases

theorem SameShape.refl (s : Score) : SameShape s s := ⟨fun _ => .refl _, rfl, rfl, rfl, rfl, rfl, rfl⟩

theorem SameShape.trans {s t u : Score} (h : SameShape s t) (h' : SameShape t u) : SameShape s u :=
  ⟨fun i => (h.1 i).trans (h'.1 i), h'.2.trans h.2, h'.3.trans h.3, h'.4.trans h.4, h'.5.trans h.5, h'.6.trans h.6,
   h'.7.trans h.7⟩

theorem SameShape.wf {s t : Score} (h : SameShape s t) (w : WF s) : WF t := by
  obtain ⟨hc, h1, h2, h3, h4, h5, h6⟩ := h
  have ho := fun i => (hc i).origin
  have hi := fun i => (hc i).instr
  have hv := fun i => (hc i).voices
  have ht := fun i => (hc i).template
  constructor <;> simp only [h1, h2, h3, h4, h5, h6, ho, hi, hv, ht]
  · exact w.org_lt
  · exact w.org_org
  · exact w.org_instr
  · exact w.vo_lt
  · exact w.vo_share
  · exact w.vo_mem
  · exact w.tmpl
  · exact w.cur_lt
  · exact w.parts_lt
  · exact w.parts_nodup
  · exact w.cur_nodup
  · exact w.alias_parts
  · exact w.alias_nodup
  · exact w.cur_parts

theorem SameShape.setPart {s : Score} {id : Nat} {p : Part} (h : SameIdentity (s.heap id) p) : SameShape s (s.setPart id p) := by
  refine ⟨fun i => ?_, rfl, rfl, rfl, rfl, rfl, rfl⟩
  simp only [Score.setPart]
  split
  · rename_i h'; rw [h']; exact h
  · exact .refl _

theorem updatePart_identity {u g p q} (h : updatePart u g p = .ok q) : SameIdentity p q := by
  cases u with
  | tempo t => cases g <;> simp [updatePart, Part.recordTempoValue] at h <;> subst h <;> exact ⟨rfl, rfl, rfl, rfl, rfl, rfl⟩
  | metricModulation t =>
    cases g <;> simp [updatePart, Part.recordTempoValue] at h <;> subst h <;> exact ⟨rfl, rfl, rfl, rfl, rfl, rfl⟩
  | midiChannel n =>
    simp only [updatePart] at h
    split at h
    · simp at h
    · simp only [Except.ok.injEq] at h; subst h; exact ⟨rfl, rfl, rfl, rfl, rfl, rfl⟩
  | _ => simp only [updatePart, Except.ok.injEq] at h; subst h; exact ⟨rfl, rfl, rfl, rfl, rfl, rfl⟩

theorem applyUpdates_identity (us : List PartUpd) : ∀ p, SameIdentity p (applyUpdates us p).2 := by
  induction us with
  | nil => intro p; exact .refl p
  | cons u us ih =>
    intro p
    simp only [applyUpdates]
    split
    · exact ih p
    · split
      · exact .refl p
      · rename_i p' h; exact (updatePart_identity h).trans (ih p')

theorem SameIdentity.override {p q : Part} (h : SameIdentity p q) (o) : SameIdentity p { q with override := o } :=
  ⟨h.1, h.2, h.3, h.4, h.5, h.6⟩

theorem applyGlobalsPart_shape (id : Nat) (s : Score) : SameShape s (applyGlobalsPart id s).s := by
  simp only [applyGlobalsPart]
  have h := applyUpdates_identity (s.globals.inWindow (s.heap id).lastOffset (s.heap id).offset) (s.heap id)
  split
  · rename_i he; rw [he] at h; exact .setPart h
  · rename_i he; rw [he] at h; exact .setPart (h.override _)

theorem emitted_shape (s : Score) (id : Nat) (ch note : Int) (d a : Rat) : SameShape s (emitted s id ch note d a) := by
  have h1 : SameShape s (recordUsage s ch.toNat (s.heap id).origin) := by
    unfold recordUsage
    split
    · exact .refl s
    · exact ⟨fun _ => .refl _, rfl, rfl, rfl, rfl, rfl, rfl⟩
  have h2 : ∀ (s : Score) i, SameShape s (s.modPart i (fun p => { p with midiChannel := ch })) :=
    fun s i => .setPart ⟨rfl, rfl, rfl, rfl, rfl, rfl⟩
  have h3 := ((h1.trans (h2 _ id)).trans (h2 _ (s.heap id).origin))
  exact ⟨h3.1, h3.2, h3.3, h3.4, h3.5, h3.6, h3.7⟩

/-! ### Allocation -/

theorem alloc_heap (s : Score) (p : Part) (i : Nat) :
    (s.alloc p).2.heap i = if i = s.next then p else s.heap i := rfl

theorem template_wf {s : Score} {id : Nat} (w : WF s) (hid : id ∈ s.current)
    (ht : (s.heap id).template = none) :
    WF ((s.alloc { (s.heap id).clone with template := some s.next }).2.modPart id (fun p => { p with template := some s.next })) := by
  have hlt := w.cur_lt id hid
  have hne : id ≠ s.next := by omega
  generalize hs' : ((s.alloc { (s.heap id).clone with template := some s.next }).2.modPart id
    (fun p => { p with template := some s.next })) = s'
  have heap' : ∀ i, s'.heap i = if i = id then { s.heap id with template := some s.next }
      else if i = s.next then { (s.heap id).clone with template := some s.next } else s.heap i := by
    intro i
    subst hs'
    simp only [Score.modPart, Score.setPart, Score.alloc, hne, if_false]
  have hn : s'.next = s.next + 1 := by subst hs'; rfl
  have hvh : s'.vheap = s.vheap := by subst hs'; rfl
  have hvn : s'.vnext = s.vnext := by subst hs'; rfl
  have hp : s'.parts = s.parts := by subst hs'; rfl
  have hc : s'.current = s.current := by subst hs'; rfl
  have ha : s'.aliases = s.aliases := by subst hs'; rfl
  clear hs'
  have o' : ∀ i, (s'.heap i).origin = if i = s.next then (s.heap id).origin else (s.heap i).origin := by
    intro i; rw [heap']; by_cases h1 : i = id
    · subst h1; simp [hne]
    · by_cases h2 : i = s.next <;> simp [h1, h2, Part.clone, Ne.symm hne]
  have i' : ∀ i, (s'.heap i).instr = if i = s.next then (s.heap id).instr else (s.heap i).instr := by
    intro i; rw [heap']; by_cases h1 : i = id
    · subst h1; simp [hne]
    · by_cases h2 : i = s.next <;> simp [h1, h2, Part.clone, Ne.symm hne]
  have v' : ∀ i, (s'.heap i).voices = if i = s.next then (s.heap id).voices else (s.heap i).voices := by
    intro i; rw [heap']; by_cases h1 : i = id
    · subst h1; simp [hne]
    · by_cases h2 : i = s.next <;> simp [h1, h2, Part.clone, Ne.symm hne]
  have t' : ∀ i, (s'.heap i).template = if i = s.next ∨ i = id then some s.next else (s.heap i).template := by
    intro i; rw [heap']; by_cases h1 : i = id
    · subst h1; simp
    · by_cases h2 : i = s.next <;> simp [h1, h2, Ne.symm hne]
  have lt' : ∀ i, i < s.next → i ≠ s.next := fun i h => by omega
  have old_o : ∀ i, i < s.next → (s'.heap i).origin = (s.heap i).origin := fun i h => by rw [o', if_neg (lt' i h)]
  have old_v : ∀ i, i < s.next → (s'.heap i).voices = (s.heap i).voices := fun i h => by rw [v', if_neg (lt' i h)]
  have rep : ∀ i, i < s.next + 1 → ∃ j < s.next, (s'.heap i).origin = (s.heap j).origin ∧ (s'.heap i).voices = (s.heap j).voices
      ∧ (s'.heap i).instr = (s.heap j).instr := by
    intro i hi
    by_cases h : i = s.next
    · exact ⟨id, hlt, by rw [o', if_pos h], by rw [v', if_pos h], by rw [i', if_pos h]⟩
    · exact ⟨i, by omega, by rw [o', if_neg h], by rw [v', if_neg h], by rw [i', if_neg h]⟩
  constructor
  · intro i hi
    rw [hn] at *
    obtain ⟨j, hj, e, _⟩ := rep i hi
    rw [e]; have := w.org_lt j hj; omega
  · intro i hi
    rw [hn] at *
    obtain ⟨j, hj, e, _⟩ := rep i hi
    rw [e, old_o _ (w.org_lt j hj), w.org_org j hj]
  · intro i hi
    rw [hn] at *
    obtain ⟨j, hj, e, _, e2⟩ := rep i hi
    rw [e, e2, i', if_neg (lt' _ (w.org_lt j hj)), w.org_instr j hj]
  · intro i hi
    rw [hn] at *
    obtain ⟨j, hj, _, e, _⟩ := rep i hi
    rw [e, hvn]; exact w.vo_lt j hj
  · intro i hi j hj h
    rw [hn] at *
    obtain ⟨i2, hi2, e, e2, _⟩ := rep i hi
    obtain ⟨j2, hj2, f, f2, _⟩ := rep j hj
    rw [e, f]; exact w.vo_share i2 hi2 j2 hj2 (by rw [← e2, ← f2, h])
  · intro i hi x hx
    rw [hn] at *
    obtain ⟨i2, hi2, e, e2, _⟩ := rep i hi
    rw [hvh, e2] at hx
    obtain ⟨h1, h2⟩ := w.vo_mem i2 hi2 x hx
    exact ⟨by omega, by rw [old_o _ h1, h2, e]⟩
  · intro i hi t h
    rw [hn] at *
    rw [t'] at h
    split at h
    · rename_i hor
      simp only [Option.some.injEq] at h
      subst h
      refine ⟨by omega, ?_⟩
      rw [o', if_pos rfl]
      rcases hor with h | h
      · rw [h, o', if_pos rfl]
      · rw [h, old_o _ hlt]
    · rename_i hor
      have hi2 : i < s.next := by omega
      obtain ⟨h1, h2⟩ := w.tmpl i hi2 t h
      exact ⟨by omega, by rw [old_o _ h1, old_o _ hi2, h2]⟩
  · intro i hi
    rw [hc] at hi; rw [hn]; have := w.cur_lt i hi; omega
  · intro i hi
    rw [hp] at hi; rw [hn]; have := w.parts_lt i hi; omega
  · rw [hp]
    rw [List.map_congr_left (fun i hi => old_o i (w.parts_lt i hi))]
    exact w.parts_nodup
  · rw [hc]
    rw [List.map_congr_left (fun i hi => old_o i (w.cur_lt i hi))]
    exact w.cur_nodup
  · rw [ha, hp]; exact w.alias_parts
  · rw [ha]; exact w.alias_nodup
  · intro c hcc
    rw [hc] at hcc
    obtain ⟨q, hq, e⟩ := w.cur_parts c hcc
    exact ⟨q, by rw [hp]; exact hq, by rw [old_o _ (w.parts_lt q hq), old_o _ (w.cur_lt c hcc), e]⟩

theorem addVoice_wf {s : Score} {id t : Nat} (n : Int) (w : WF s) (hid : id ∈ s.current)
    (ht : (s.heap id).template = some t) : WF (addVoice id n s).1.s := by
  have hlt := w.cur_lt id hid
  obtain ⟨htl, hto⟩ := w.tmpl id hlt t ht
  generalize hs' : (addVoice id n s).1.s = s'
  have heap' : ∀ i, s'.heap i = if i = s.next then (s.heap t).clone else s.heap i := by
    intro i; subst hs'; simp only [addVoice, ht, Score.alloc, Score.setPart, Out.ok]
  have hn : s'.next = s.next + 1 := by subst hs'; simp only [addVoice, ht, Score.alloc, Out.ok]
  have hvh : ∀ i, s'.vheap i = if i = (s.heap id).voices then s.vheap i ++ [(n, s.next)] else s.vheap i := by
    intro i; subst hs'; simp only [addVoice, ht, Score.alloc, Score.setPart, Out.ok]
    split
    · rename_i h; rw [h]
    · rfl
  have hvn : s'.vnext = s.vnext := by subst hs'; simp only [addVoice, ht, Score.alloc, Score.setPart, Out.ok]
  have hp : s'.parts = s.parts := by subst hs'; simp only [addVoice, ht, Score.alloc, Score.setPart, Out.ok]
  have hc : s'.current = s.current := by subst hs'; simp only [addVoice, ht, Score.alloc, Score.setPart, Out.ok]
  have ha : s'.aliases = s.aliases := by subst hs'; simp only [addVoice, ht, Score.alloc, Score.setPart, Out.ok]
  clear hs'
  have lt' : ∀ i, i < s.next → i ≠ s.next := fun i h => by omega
  have old : ∀ i, i < s.next → s'.heap i = s.heap i := fun i h => by rw [heap', if_neg (lt' i h)]
  have rep : ∀ i, i < s.next + 1 → ∃ j < s.next, (s'.heap i).origin = (s.heap j).origin ∧ (s'.heap i).voices = (s.heap j).voices
      ∧ (s'.heap i).instr = (s.heap j).instr ∧ (s'.heap i).template = (s.heap j).template := by
    intro i hi
    by_cases h : i = s.next
    · exact ⟨t, htl, by rw [heap', if_pos h]; simp [Part.clone]⟩
    · exact ⟨i, by omega, by rw [heap', if_neg h]; simp⟩
  constructor
  · intro i hi
    rw [hn] at *
    obtain ⟨j, hj, e, _⟩ := rep i hi
    rw [e]; have := w.org_lt j hj; omega
  · intro i hi
    rw [hn] at *
    obtain ⟨j, hj, e, _⟩ := rep i hi
    rw [e, old _ (w.org_lt j hj), w.org_org j hj]
  · intro i hi
    rw [hn] at *
    obtain ⟨j, hj, e, _, e2, _⟩ := rep i hi
    rw [e, e2, old _ (w.org_lt j hj), w.org_instr j hj]
  · intro i hi
    rw [hn] at *
    obtain ⟨j, hj, _, e, _⟩ := rep i hi
    rw [e, hvn]; exact w.vo_lt j hj
  · intro i hi j hj h
    rw [hn] at *
    obtain ⟨i2, hi2, e, e2, _⟩ := rep i hi
    obtain ⟨j2, hj2, f, f2, _⟩ := rep j hj
    rw [e, f]; exact w.vo_share i2 hi2 j2 hj2 (by rw [← e2, ← f2, h])
  · intro i hi x hx
    rw [hn] at *
    obtain ⟨i2, hi2, e, e2, _⟩ := rep i hi
    rw [hvh, e2] at hx
    have old_case : x ∈ s.vheap (s.heap i2).voices → x.2 < s.next + 1 ∧ (s'.heap x.2).origin = (s'.heap i).origin := by
      intro hx
      obtain ⟨h1, h2⟩ := w.vo_mem i2 hi2 x hx
      exact ⟨by omega, by rw [old _ h1, h2, e]⟩
    split at hx
    · rename_i hv
      rcases List.mem_append.1 hx with hx | hx
      · exact old_case hx
      · simp only [List.mem_singleton] at hx
        subst hx
        refine ⟨by simp, ?_⟩
        rw [e]
        show (s'.heap s.next).origin = _
        rw [heap', if_pos rfl]
        simp only [Part.clone]
        rw [hto]
        exact (w.vo_share i2 hi2 id hlt hv).symm
    · exact old_case hx
  · intro i hi t2 h
    rw [hn] at *
    obtain ⟨j, hj, e, e2, _, e3⟩ := rep i hi
    rw [e3] at h
    obtain ⟨h1, h2⟩ := w.tmpl j hj t2 h
    exact ⟨by omega, by rw [old _ h1, h2, e]⟩
  · intro i hi
    rw [hc] at hi; rw [hn]; have := w.cur_lt i hi; omega
  · intro i hi
    rw [hp] at hi; rw [hn]; have := w.parts_lt i hi; omega
  · rw [hp]
    rw [List.map_congr_left (fun i hi => by rw [old i (w.parts_lt i hi)])]
    exact w.parts_nodup
  · rw [hc]
    rw [List.map_congr_left (fun i hi => by rw [old i (w.cur_lt i hi)])]
    exact w.cur_nodup
  · rw [ha, hp]; exact w.alias_parts
  · rw [ha]; exact w.alias_nodup
  · intro c hcc
    rw [hc] at hcc
    obtain ⟨q, hq, e⟩ := w.cur_parts c hcc
    exact ⟨q, by rw [hp]; exact hq, by rw [old _ (w.parts_lt q hq), old _ (w.cur_lt c hcc), e]⟩

/-- Replacing by a part of the same origin keeps the origins. -/
theorem replaceByOrigin_origins (s : Score) (o v : Nat) (hv : (s.heap v).origin = o) (ids : List Nat) :
    (replaceByOrigin s o v ids).map (fun i => (s.heap i).origin) = ids.map (fun i => (s.heap i).origin) := by
  simp only [replaceByOrigin, List.map_map]
  apply List.map_congr_left
  intro i _
  simp only [Function.comp]
  split
  · rename_i h; rw [hv, h]
  · rfl

theorem enterVoice_wf {s : Score} {id : Nat} {n : Int} {v : Nat} (w : WF s) (hid : id ∈ s.current)
    (hv : (n, v) ∈ s.vheap (s.heap id).voices) :
    WF { s with current := replaceByOrigin s (s.heap id).origin v s.current } := by
  obtain ⟨h1, h2⟩ := w.vo_mem id (w.cur_lt id hid) _ hv
  simp only at h1 h2
  refine { w with cur_lt := ?_, cur_nodup := ?_, cur_parts := ?_ }
  · intro i hi
    simp only [replaceByOrigin, List.mem_map] at hi
    obtain ⟨q, hq, rfl⟩ := hi
    split
    · exact h1
    · exact w.cur_lt q hq
  · show (List.map _ (replaceByOrigin s _ _ _)).Nodup
    rw [replaceByOrigin_origins s _ v h2]
    exact w.cur_nodup
  · intro i hi
    simp only [replaceByOrigin, List.mem_map] at hi
    obtain ⟨q, hq, rfl⟩ := hi
    split
    · rename_i he
      obtain ⟨r, hr, e⟩ := w.cur_parts q hq
      exact ⟨r, hr, by show (s.heap r).origin = (s.heap v).origin; rw [e, h2, he]⟩
    · exact w.cur_parts q hq

theorem lastToFinish_mem (s : Score) (vs : List (Int × Nat)) : ∀ best, lastToFinish s best vs = best ∨
    ∃ x ∈ vs, lastToFinish s best vs = x.2 := by
  induction vs with
  | nil => intro b; exact Or.inl rfl
  | cons x vs ih =>
    intro b
    obtain ⟨n, v⟩ := x
    simp only [lastToFinish]
    rcases ih (if (s.heap v).offset > (s.heap b).offset then v else b) with h | ⟨x, hx, h⟩
    · rw [h]; split
      · exact Or.inr ⟨(n, v), List.mem_cons_self .., rfl⟩
      · exact Or.inl rfl
    · exact Or.inr ⟨x, List.mem_cons_of_mem _ hx, h⟩

/-- The voice chosen at the end of a voice group is one of the voices. -/
theorem chosen_voice (s : Score) (voices : List (Int × Nat)) (n : Int) (last : Nat) (h : voices.getLast? = some (n, last)) :
    ∃ x ∈ voices, lastToFinish s last voices.dropLast = x.2 := by
  rcases lastToFinish_mem s voices.dropLast last with h' | ⟨x, hx, h'⟩
  · exact ⟨(n, last), List.mem_of_getLast? h, h'⟩
  · exact ⟨x, List.dropLast_subset _ hx, h'⟩

theorem inj_of_nodup_map {α β : Type} {f : α → β} {l : List α} (h : (l.map f).Nodup) {x y : α} (hx : x ∈ l) (hy : y ∈ l)
    (he : f x = f y) : x = y := by
  induction l with
  | nil => simp at hx
  | cons a l ih =>
    simp only [List.map_cons, List.nodup_cons] at h
    rcases List.mem_cons.1 hx with hx' | hx' <;> rcases List.mem_cons.1 hy with hy' | hy'
    · rw [hx', hy']
    · subst hx'; exact absurd (List.mem_map.2 ⟨y, hy', he.symm⟩) h.1
    · subst hy'; exact absurd (List.mem_map.2 ⟨x, hx', he⟩) h.1
    · exact ih h.2 hx' hy'

theorem endVoices_wf {s : Score} (i : Nat) (w : WF s) : WF (voiceEndAt i s).s := by
  simp only [voiceEndAt]
  split
  · exact w
  rename_i id hid
  have hidm : id ∈ s.current := List.mem_of_getElem? hid
  have hlt := w.cur_lt id hidm
  split
  · exact w
  rename_i n last hlast
  obtain ⟨x, hx, hxe⟩ := chosen_voice s _ n last hlast
  rw [hxe]
  obtain ⟨vlt, vo⟩ := w.vo_mem id hlt x hx
  generalize x.2 = v at vlt vo
  clear hxe hx x
  -- the state after the winning voice got a new `Voices` object
  generalize hs1 : (s.newVoices.2.modPart v (fun p => { p with voices := s.newVoices.1, template := none })) = s1
  have heap1 : ∀ j, s1.heap j = if j = v then { s.heap v with voices := s.vnext, template := none } else s.heap j := by
    intro j; subst hs1; rfl
  have e1 : s1.next = s.next := by subst hs1; rfl
  have e2 : ∀ j, s1.vheap j = if j = s.vnext then [] else s.vheap j := by intro j; subst hs1; rfl
  have e3 : s1.vnext = s.vnext + 1 := by subst hs1; rfl
  have e4 : s1.parts = s.parts := by subst hs1; rfl
  have e5 : s1.current = s.current := by subst hs1; rfl
  have e6 : s1.aliases = s.aliases := by subst hs1; rfl
  clear hs1
  have o1 : ∀ j, (s1.heap j).origin = (s.heap j).origin := by
    intro j; rw [heap1]; split
    · rename_i h; rw [h]
    · rfl
  have i1 : ∀ j, (s1.heap j).instr = (s.heap j).instr := by
    intro j; rw [heap1]; split
    · rename_i h; rw [h]
    · rfl
  have v1 : ∀ j, (s1.heap j).voices = if j = v then s.vnext else (s.heap j).voices := by
    intro j; rw [heap1]; split <;> rfl
  have t1 : ∀ j, (s1.heap j).template = if j = v then none else (s.heap j).template := by
    intro j; rw [heap1]; split <;> rfl
  show WF { s1 with
        current := s1.current.set i v
        parts := replaceByOrigin s1 (s1.heap id).origin v s1.parts
        aliases := s1.aliases.map (fun a => (a.1, replaceByOrigin s1 (s1.heap id).origin v a.2)) }
  rw [e4, e5, e6]
  have vo1 : (s1.heap v).origin = (s1.heap id).origin := by rw [o1, o1, vo]
  have hset : (s.current.set i v).map (fun j => (s1.heap j).origin) = s.current.map (fun j => (s1.heap j).origin) := by
    rw [List.map_set, vo1]
    have hi := List.getElem?_eq_some_iff.1 hid
    obtain ⟨hil, hie⟩ := hi
    have : (s1.heap id).origin = (s.current.map (fun j => (s1.heap j).origin))[i]'(by simpa using hil) := by
      rw [List.getElem_map, hie]
    rw [this, List.set_getElem_self]
  constructor
  · intro j hj; rw [o1]; have := w.org_lt j (by simpa [e1] using hj); simpa [e1] using this
  · intro j hj; show (s1.heap (s1.heap j).origin).origin = (s1.heap j).origin
    rw [o1, o1]; exact w.org_org j (by simpa [e1] using hj)
  · intro j hj; show (s1.heap (s1.heap j).origin).instr = (s1.heap j).instr
    rw [o1, i1, i1]; exact w.org_instr j (by simpa [e1] using hj)
  · intro j hj; show (s1.heap j).voices < s1.vnext
    rw [v1, e3]; split
    · omega
    · have := w.vo_lt j (by simpa [e1] using hj); omega
  · intro j hj k hk h
    have hj' : j < s.next := by simpa [e1] using hj
    have hk' : k < s.next := by simpa [e1] using hk
    show (s1.heap j).origin = (s1.heap k).origin
    change (s1.heap j).voices = (s1.heap k).voices at h
    rw [o1, o1]
    rw [v1, v1] at h
    have a1 := w.vo_lt j hj'
    have a2 := w.vo_lt k hk'
    by_cases hjv : j = v <;> by_cases hkv : k = v
    · rw [hjv, hkv]
    · rw [if_pos hjv, if_neg hkv] at h; omega
    · rw [if_neg hjv, if_pos hkv] at h; omega
    · rw [if_neg hjv, if_neg hkv] at h; exact w.vo_share j hj' k hk' h
  · intro j hj y hy
    have hj' : j < s.next := by simpa [e1] using hj
    show y.2 < s1.next ∧ (s1.heap y.2).origin = (s1.heap j).origin
    change y ∈ s1.vheap (s1.heap j).voices at hy
    rw [v1, e2] at hy
    rw [o1, o1, e1]
    have a1 := w.vo_lt j hj'
    by_cases hjv : j = v
    · simp [hjv] at hy
    · rw [if_neg hjv, if_neg (by omega)] at hy; exact w.vo_mem j hj' y hy
  · intro j hj t h
    have hj' : j < s.next := by simpa [e1] using hj
    show t < s1.next ∧ (s1.heap t).origin = (s1.heap j).origin
    change (s1.heap j).template = some t at h
    rw [t1] at h
    rw [e1, o1, o1]
    split at h
    · simp at h
    · exact w.tmpl j hj' t h
  · intro j hj; show j < s1.next
    rw [e1]
    rcases List.mem_or_eq_of_mem_set hj with h | h
    · exact w.cur_lt j h
    · rw [h]; exact vlt
  · intro j hj; show j < s1.next
    rw [e1]
    simp only [replaceByOrigin, List.mem_map] at hj
    obtain ⟨q, hq, rfl⟩ := hj
    split
    · exact vlt
    · exact w.parts_lt q hq
  · show (List.map _ (replaceByOrigin s1 _ _ _)).Nodup
    rw [replaceByOrigin_origins s1 _ v vo1]
    simp only [o1]
    exact w.parts_nodup
  · show (List.map (fun j => (s1.heap j).origin) _).Nodup
    rw [hset]; simp only [o1]; exact w.cur_nodup
  · intro a ha j hj
    simp only [List.mem_map] at ha
    obtain ⟨b, hb, rfl⟩ := ha
    simp only [replaceByOrigin, List.mem_map] at hj ⊢
    obtain ⟨q, hq, rfl⟩ := hj
    exact ⟨q, w.alias_parts b hb q hq, rfl⟩
  · intro a ha
    simp only [List.mem_map] at ha
    obtain ⟨b, hb, rfl⟩ := ha
    have : ((replaceByOrigin s1 (s1.heap id).origin v b.2).map (fun j => (s1.heap j).origin)).Nodup := by
      rw [replaceByOrigin_origins s1 _ v vo1]
      simp only [o1]
      refine (List.pairwise_map).2 ?_
      refine List.Pairwise.imp_of_mem ?_ (w.alias_nodup b hb)
      intro x y hx hy hne heq
      exact hne (inj_of_nodup_map w.parts_nodup (w.alias_parts b hb x hx) (w.alias_parts b hb y hy) heq)
    exact List.Pairwise.of_map _ (fun _ _ h h' => h (by rw [h'])) this
  · intro c hc
    have hc' : (s1.heap c).origin ∈ s.current.map (fun j => (s1.heap j).origin) := by
      rw [← hset]; exact List.mem_map.2 ⟨c, hc, rfl⟩
    obtain ⟨d, hd, hde⟩ := List.mem_map.1 hc'
    obtain ⟨q, hq, e⟩ := w.cur_parts d hd
    have : (s1.heap c).origin ∈ (replaceByOrigin s1 (s1.heap id).origin v s.parts).map (fun j => (s1.heap j).origin) := by
      rw [replaceByOrigin_origins s1 _ v vo1]
      exact List.mem_map.2 ⟨q, hq, by rw [← hde, o1, o1, e]⟩
    obtain ⟨r, hr, hre⟩ := List.mem_map.1 this
    exact ⟨r, hr, hre⟩

/-! ### Part declarations -/

/-- What `newPart` does to the score. -/
theorem newPart_eq {name : String} {s : Score} {id : Nat} {s' : Score} (h : newPart name s = some (id, s')) :
    ∃ instr, stockInstrument name = some instr ∧ id = s.next ∧ ∃ p : Part,
      p.origin = s.next ∧ p.voices = s.vnext ∧ p.instr = instr ∧ p.name = name ∧ p.template = none ∧ p.tempoMaster = false ∧
      p.tempo = 120 ∧ p.volume = dynamicVolume "mf" ∧ p.trackVolume = 100 / 127 ∧ p.panning = 1 / 2 ∧ p.quant = 9 / 10 ∧
      p.midiChannel = -1 ∧ p.explicitChannel = false ∧ p.override = none ∧ p.timeScale = 1 ∧ p.offset = 0 ∧
      p.lastOffset = -1 ∧ p.dur = [.length 4 0] ∧ p.octave = 4 ∧ p.tempoValues = [] ∧
      s' = { s with heap := fun i => if i = s.next then p else s.heap i, next := s.next + 1,
                    vheap := fun i => if i = s.vnext then [] else s.vheap i, vnext := s.vnext + 1 } := by
  simp only [newPart] at h
  split at h
  · simp at h
  · rename_i instr hi
    simp only [Score.newVoices, Score.alloc, Score.setPart, Option.some.injEq, Prod.mk.injEq] at h
    obtain ⟨rfl, rfl⟩ := h
    exact ⟨instr, hi, rfl, _, rfl, rfl, rfl, rfl, rfl, rfl, rfl, rfl, rfl, rfl, rfl, rfl, rfl, rfl, rfl, rfl, rfl, rfl, rfl, rfl, rfl⟩

theorem newPart_wf {name : String} {s : Score} {id : Nat} {s' : Score} (w : WF s) (h : newPart name s = some (id, s')) :
    WF s' := by
  obtain ⟨instr, _, _, p, ho, hv, _, _, ht, _, _, _, _, _, _, _, _, _, _, _, _, _, _, _, rfl⟩ := newPart_eq h
  have old : ∀ j, j < s.next → (if j = s.next then p else s.heap j) = s.heap j := fun j hj => if_neg (by omega)
  have new : ∀ j, j = s.next → (if j = s.next then p else s.heap j) = p := fun j hj => if_pos hj
  constructor
  · intro j hj
    simp only at hj ⊢
    by_cases hjn : j = s.next
    · rw [new j hjn, ho]; omega
    · have hj' : j < s.next := by omega
      rw [old j hj']; have := w.org_lt j hj'; omega
  · intro j hj
    simp only at hj ⊢
    by_cases hjn : j = s.next
    · rw [new j hjn, new _ ho]
    · have hj' : j < s.next := by omega
      rw [old j hj', old _ (w.org_lt j hj')]; exact w.org_org j hj'
  · intro j hj
    simp only at hj ⊢
    by_cases hjn : j = s.next
    · rw [new j hjn, new _ ho]
    · have hj' : j < s.next := by omega
      rw [old j hj', old _ (w.org_lt j hj')]; exact w.org_instr j hj'
  · intro j hj
    simp only at hj ⊢
    by_cases hjn : j = s.next
    · rw [new j hjn, hv]; omega
    · have hj' : j < s.next := by omega
      rw [old j hj']; have := w.vo_lt j hj'; omega
  · intro j hj k hk he
    simp only at hj hk he ⊢
    by_cases hjn : j = s.next <;> by_cases hkn : k = s.next
    · rw [hjn, hkn]
    · have hk' : k < s.next := by omega
      rw [new j hjn, old k hk', hv] at he
      have := w.vo_lt k hk'; omega
    · have hj' : j < s.next := by omega
      rw [new k hkn, old j hj', hv] at he
      have := w.vo_lt j hj'; omega
    · have hj' : j < s.next := by omega
      have hk' : k < s.next := by omega
      rw [old j hj', old k hk'] at he ⊢
      exact w.vo_share j hj' k hk' he
  · intro j hj x hx
    simp only at hj hx ⊢
    by_cases hjn : j = s.next
    · rw [new j hjn, hv] at hx; simp at hx
    · have hj' : j < s.next := by omega
      rw [old j hj'] at hx ⊢
      have := w.vo_lt j hj'
      rw [if_neg (by omega)] at hx
      obtain ⟨h1, h2⟩ := w.vo_mem j hj' x hx
      exact ⟨by omega, by rw [old _ h1, h2]⟩
  · intro j hj t htt
    simp only at hj htt ⊢
    by_cases hjn : j = s.next
    · rw [new j hjn, ht] at htt; simp at htt
    · have hj' : j < s.next := by omega
      rw [old j hj'] at htt ⊢
      obtain ⟨h1, h2⟩ := w.tmpl j hj' t htt
      exact ⟨by omega, by rw [old _ h1, h2]⟩
  · intro j hj; have := w.cur_lt j hj; simp only; omega
  · intro j hj; have := w.parts_lt j hj; simp only; omega
  · simp only
    rw [List.map_congr_left (fun j hj => by rw [old j (w.parts_lt j hj)])]
    exact w.parts_nodup
  · simp only
    rw [List.map_congr_left (fun j hj => by rw [old j (w.cur_lt j hj)])]
    exact w.cur_nodup
  · exact w.alias_parts
  · exact w.alias_nodup
  · intro c hc
    obtain ⟨q, hq, e⟩ := w.cur_parts c hc
    exact ⟨q, hq, by simp only; rw [old _ (w.parts_lt q hq), old _ (w.cur_lt c hc), e]⟩

/-- A newly made part is fresh. -/
theorem newPart_fresh {name : String} {s : Score} {id : Nat} {s' : Score} (w : WF s) (h : newPart name s = some (id, s')) :
    Fresh s' id := by
  obtain ⟨instr, _, rfl, p, ho, hv, _, _, ht, hm, _, _, _, _, _, _, _, _, _, _, _, _, _, _, rfl⟩ := newPart_eq h
  constructor
  · simp
  · simp [ho]
  · intro j hj he
    simp only at hj he
    split at he
    · assumption
    · have := w.org_lt j (by omega); omega
  · simp [hm]
  · simp [hv]
  · intro j hj he
    simp only [if_true] at hj he
    split at he
    · assumption
    · have := w.vo_lt j (by omega); omega
  · simp [ht]
  · intro hm; have := w.parts_lt _ hm; omega

/-- A fresh part stays so when another one is made. -/
theorem newPart_keeps_fresh {name : String} {s : Score} {id : Nat} {s' : Score} (w : WF s) (h : newPart name s = some (id, s'))
    {j : Nat} (hf : Fresh s j) : Fresh s' j := by
  obtain ⟨instr, _, rfl, p, ho, hv, _, _, ht, hm, _, _, _, _, _, _, _, _, _, _, _, _, _, _, rfl⟩ := newPart_eq h
  have hjlt := hf.lt
  have hne : j ≠ s.next := by omega
  have hvlt := w.vo_lt j hjlt
  constructor
  · simp only; omega
  · simp only [if_neg hne]; exact hf.org
  · intro k hk he
    simp only at hk he
    split at he
    · omega
    · exact hf.only k (by omega) he
  · simp only [if_neg hne]; exact hf.master
  · simp only [if_neg hne]; rw [if_neg (by omega)]; exact hf.noVoices
  · intro k hk he
    simp only [if_neg hne] at hk he
    split at he
    · omega
    · exact hf.onlyVoices k (by omega) he
  · simp only [if_neg hne]; exact hf.noTemplate
  · exact hf.notPart

theorem dedup_mem (l : List Nat) : ∀ acc x, x ∈ dedup acc l ↔ x ∈ acc ∨ x ∈ l := by
  induction l with
  | nil => intro acc x; simp [dedup]
  | cons i is ih =>
    intro acc x
    simp only [dedup, ih, List.mem_cons]
    split
    · rename_i h
      simp only [List.contains_iff_mem] at h
      constructor
      · rintro (h' | h') <;> simp [h']
      · rintro (h' | h' | h')
        · exact Or.inl h'
        · subst h'; exact Or.inl h
        · exact Or.inr h'
    · simp only [List.mem_append, List.mem_singleton]
      constructor
      · rintro ((h' | h') | h') <;> simp [h']
      · rintro (h' | h' | h') <;> simp [h']

theorem dedup_nodup (l : List Nat) : ∀ acc, acc.Nodup → (dedup acc l).Nodup := by
  induction l with
  | nil => intro acc h; exact h
  | cons i is ih =>
    intro acc h
    simp only [dedup]
    split
    · exact ih acc h
    · rename_i hc
      refine ih _ (List.nodup_append.2 ⟨h, by simp, ?_⟩)
      intro a ha b hb hab
      simp only [List.mem_singleton] at hb
      subst hb; subst hab
      exact hc (by simpa using ha)

theorem setAlias_mem {as : List (String × List Nat)} {al : String} {ids : List Nat} {a : String × List Nat}
    (h : a ∈ setAlias as al ids) : a = (al, ids) ∨ a ∈ as := by
  simp only [setAlias, List.mem_cons, List.mem_filter] at h
  rcases h with h | h
  · exact Or.inl h
  · exact Or.inr h.1

theorem memberAliases_mem {alias : String} {as : List (String × List Nat)} {id : Nat} {n : String} {ex : List String}
    {a : String × List Nat} (h : a ∈ memberAliases alias as id n ex) : a.2 = [id] ∨ a ∈ as := by
  unfold memberAliases at h
  have key : ∀ (ex : List String) (as : List (String × List Nat)), a ∈ ex.foldl (fun as a => setAlias as (alias ++ "." ++ a) [id]) as →
      a.2 = [id] ∨ a ∈ as := by
    intro ex
    induction ex with
    | nil => intro as h; exact Or.inr h
    | cons e ex ih =>
      intro as h
      rcases ih _ h with h | h
      · exact Or.inl h
      · rcases setAlias_mem h with h | h
        · exact Or.inl (by rw [h])
        · exact Or.inr h
  rcases key _ _ h with h | h
  · exact Or.inl h
  · rcases setAlias_mem h with h | h
    · exact Or.inl (by rw [h])
    · exact Or.inr h

/-- Where the entries of the alias table come from after a declaration. -/
theorem declAliases_mem {alias : String} {parts : List Nat} {s : Score} {a : String × List Nat}
    (h : a ∈ declAliases alias parts s) : a ∈ s.aliases ∨ a.2 = parts ∨ ∃ id ∈ parts, a.2 = [id] := by
  unfold declAliases at h
  split at h
  · exact Or.inl h
  · have key : ∀ (ps : List Nat) (as : List (String × List Nat)), (∀ p ∈ ps, p ∈ parts) →
        a ∈ ps.foldl (fun as id => memberAliases alias as id (s.heap id).name (s.aliasesFor id)) as →
        a ∈ as ∨ ∃ id ∈ parts, a.2 = [id] := by
      intro ps
      induction ps with
      | nil => intro as _ h; exact Or.inl h
      | cons p ps ih =>
        intro as hp h
        rcases ih _ (fun q hq => hp q (List.mem_cons_of_mem _ hq)) h with h | h
        · rcases memberAliases_mem h with h | h
          · exact Or.inr ⟨p, hp p (List.mem_cons_self ..), h⟩
          · exact Or.inl h
        · exact Or.inr h
    rcases key parts _ (fun _ h => h) h with h | h
    · rcases setAlias_mem h with h | h
      · exact Or.inr (Or.inl (by rw [h]))
      · exact Or.inl h
    · exact Or.inr (Or.inr h)

/-- The effect of a declaration on the parts, in a state where identities of parts are as in `s`. -/
theorem declare_wf_aux {s t : Score} (w : WF s) (parts : List Nat)
    (hp : ∀ id ∈ parts, id ∈ s.parts ∨ Fresh s id) (hn : parts.Nodup)
    (hheap : ∀ i, (t.heap i).origin = (s.heap i).origin ∧ (t.heap i).instr = (s.heap i).instr ∧
      (t.heap i).voices = (s.heap i).voices ∧ (t.heap i).template = (s.heap i).template)
    (h1 : t.next = s.next) (h2 : t.vheap = s.vheap) (h3 : t.vnext = s.vnext) (h4 : t.parts = dedup s.parts parts)
    (h5 : t.current = parts) (h6 : ∀ a ∈ t.aliases, a ∈ s.aliases ∨ a.2 = parts ∨ ∃ id ∈ parts, a.2 = [id]) : WF t := by
  have ho := fun i => (hheap i).1
  have hi := fun i => (hheap i).2.1
  have hv := fun i => (hheap i).2.2.1
  have ht := fun i => (hheap i).2.2.2
  have hlt : ∀ id ∈ parts, id < s.next := by
    intro id hid
    rcases hp id hid with h | h
    · exact w.parts_lt id h
    · exact h.lt
  have hpm : ∀ x, x ∈ t.parts ↔ x ∈ s.parts ∨ x ∈ parts := by intro x; rw [h4]; exact dedup_mem _ _ _
  have inj : ∀ x y, (x ∈ s.parts ∨ x ∈ parts) → (y ∈ s.parts ∨ y ∈ parts) → (s.heap x).origin = (s.heap y).origin → x = y := by
    intro x y hx hy he
    have hx' : x ∈ s.parts ∨ Fresh s x := hx.elim Or.inl (hp x)
    have hy' : y ∈ s.parts ∨ Fresh s y := hy.elim Or.inl (hp y)
    rcases hx' with hx' | hx' <;> rcases hy' with hy' | hy'
    · exact inj_of_nodup_map w.parts_nodup hx' hy' he
    · exact hy'.only x (w.parts_lt x hx') (by rw [he, hy'.org])
    · exact (hx'.only y (w.parts_lt y hy') (by rw [← he, hx'.org])).symm
    · rw [hx'.org, hy'.org] at he; exact he
  have nd : ∀ l : List Nat, l.Nodup → (∀ x ∈ l, x ∈ s.parts ∨ x ∈ parts) → (l.map (fun i => (s.heap i).origin)).Nodup := by
    intro l hl hm
    refine (List.pairwise_map).2 (List.Pairwise.imp_of_mem ?_ hl)
    intro x y hx hy hne he
    exact hne (inj x y (hm x hx) (hm y hy) he)
  have spn : s.parts.Nodup := List.Pairwise.of_map _ (fun _ _ h h' => h (by rw [h'])) w.parts_nodup
  constructor <;> try simp only [ho, hi, hv, ht, h1, h2, h3, h5]
  · exact w.org_lt
  · exact w.org_org
  · exact w.org_instr
  · exact w.vo_lt
  · exact w.vo_share
  · exact w.vo_mem
  · exact w.tmpl
  · exact hlt
  · intro i hi
    rcases (hpm i).1 hi with h | h
    · exact w.parts_lt i h
    · exact hlt i h
  · refine nd _ ?_ (fun x hx => (hpm x).1 hx)
    rw [h4]; exact dedup_nodup _ _ spn
  · exact nd _ hn (fun x hx => Or.inr hx)
  · intro a ha i hi
    rcases h6 a ha with h | h | ⟨id, hid, h⟩
    · exact (hpm i).2 (Or.inl (w.alias_parts a h i hi))
    · rw [h] at hi; exact (hpm i).2 (Or.inr hi)
    · rw [h] at hi; simp only [List.mem_singleton] at hi; subst hi; exact (hpm i).2 (Or.inr hid)
  · intro a ha
    rcases h6 a ha with h | h | ⟨id, hid, h⟩
    · exact w.alias_nodup a h
    · rw [h]; exact hn
    · rw [h]; simp
  · intro c hc
    exact ⟨c, (hpm c).2 (Or.inr hc), rfl⟩

/-- Marking the tempo master changes nothing else. -/
theorem markMaster_heap (parts : List Nat) (s : Score) (i : Nat) :
    (markMaster parts s).heap i = s.heap i ∨ (s.parts = [] ∧ parts.head? = some i ∧ (markMaster parts s).heap i = { s.heap i with tempoMaster := true }) := by
  unfold markMaster
  split
  · rename_i p0 ps hp
    simp only [Score.modPart, Score.setPart]
    split
    · rename_i h; subst h; exact Or.inr ⟨hp, rfl, rfl⟩
    · exact Or.inl rfl
  · exact Or.inl rfl

theorem markMaster_rest (parts : List Nat) (s : Score) :
    markMaster parts s = { s with heap := (markMaster parts s).heap } := by
  unfold markMaster
  split <;> rfl

theorem declareParts_heap (parts : List Nat) (alias : String) (s : Score) :
    (declareParts parts alias s).heap = (markMaster parts s).heap := rfl

theorem declare_wf {s : Score} (w : WF s) (parts : List Nat) (alias : String)
    (hp : ∀ id ∈ parts, id ∈ s.parts ∨ Fresh s id) (hn : parts.Nodup) : WF (declareParts parts alias s) := by
  have hm := markMaster_rest parts s
  have h4 : (markMaster parts s).parts = s.parts := by rw [hm]
  refine declare_wf_aux w parts hp hn (t := declareParts parts alias s) ?_ ?_ ?_ ?_ ?_ rfl ?_
  · intro i
    rw [declareParts_heap]
    rcases markMaster_heap parts s i with h | ⟨_, _, h⟩ <;> rw [h] <;> exact ⟨rfl, rfl, rfl, rfl⟩
  · show (markMaster parts s).next = _; rw [hm]
  · show (markMaster parts s).vheap = _; rw [hm]
  · show (markMaster parts s).vnext = _; rw [hm]
  · show dedup (markMaster parts s).parts parts = _; rw [h4]
  · intro a ha
    have := declAliases_mem (s := { markMaster parts s with parts := dedup (markMaster parts s).parts parts }) ha
    have h6 : (markMaster parts s).aliases = s.aliases := by rw [hm]
    simp only [h6] at this
    exact this

/-- Every elementary change preserves well-formedness. -/
theorem Step.wf {L D} {s t : Score} (h : Step L D s t) (w : WF s) : WF t := by
  cases h with
  | attr hid hL hu => exact (SameShape.setPart ((updatePart_identity hu).override _)).wf w
  | globals hid => exact (applyGlobalsPart_shape _ s).wf w
  | record o u hL => exact SameShape.wf (s := s) ⟨fun _ => .refl _, rfl, rfl, rfl, rfl, rfl, rfl⟩ w
  | emit d a hid ha hn hd hc => exact (emitted_shape _ _ _ _ _ _).wf w
  | timing o l t d r hid => exact SameShape.wf (SameShape.setPart ⟨rfl, rfl, rfl, rfl, rfl, rfl⟩) w
  | chordMode b => exact SameShape.wf (s := s) ⟨fun _ => .refl _, rfl, rfl, rfl, rfl, rfl, rfl⟩ w
  | marker n o => exact SameShape.wf (s := s) ⟨fun _ => .refl _, rfl, rfl, rfl, rfl, rfl, rfl⟩ w
  | setVar n es hes => exact SameShape.wf (s := s) ⟨fun _ => .refl _, rfl, rfl, rfl, rfl, rfl, rfl⟩ w
  | template hid hv ht => exact template_wf w hid ht
  | newVoice n hid ht hn => exact addVoice_wf n w hid ht
  | enterVoice hid hv => exact enterVoice_wf w hid hv
  | endVoices i => exact endVoices_wf i w
  | newPart hD name h => exact newPart_wf w h
  | declare hD parts alias hp hn hne hg => exact declare_wf w parts alias hp hn

theorem newScore_wf : WF newScore := by
  constructor <;> simp [newScore]

end Alda
