import Verif.Spec.Begins
import Verif.Lemmas.Parts
/-!
Lemmas for C69: what a declaration does to the part objects.
-/
namespace Alda
open Spec

/-- Part objects that existed are kept, and each new one begins as documented. -/
structure NewCells (s t : Score) : Prop where
  next : s.next ≤ t.next
  old : ∀ i < s.next, t.heap i = s.heap i
  new : ∀ i, s.next ≤ i → i < t.next → Begins (attributesAt t i) ∧ (t.heap i).explicitChannel = false ∧ (t.heap i).midiChannel = -1
  events : t.events = s.events
  globals : t.globals = s.globals
  chordMode : t.chordMode = s.chordMode
  usage : t.usage = s.usage
  parts : t.parts = s.parts

theorem NewCells.refl (s : Score) : NewCells s s :=
  ⟨Nat.le_refl _, fun _ _ => rfl, fun i h h' => absurd h' (by omega), rfl, rfl, rfl, rfl, rfl⟩

theorem newPart_begins {name : String} {s : Score} {id : Nat} {s' : Score} (h : newPart name s = some (id, s')) :
    Begins (attributesAt s' s.next) ∧ (s'.heap s.next).explicitChannel = false ∧ (s'.heap s.next).midiChannel = -1 := by
  simp only [newPart] at h
  split at h
  · simp at h
  · simp only [Score.newVoices, Score.alloc, Score.setPart, Option.some.injEq, Prod.mk.injEq] at h
    obtain ⟨rfl, rfl⟩ := h
    refine ⟨?_, by simp, by simp⟩
    simp only [attributesAt, attributes, if_true]
    refine ⟨rfl, rfl, ?_, rfl, ?_, ?_, ?_, ?_, rfl, rfl, rfl, rfl⟩
    · show dynamicVolume "mf" = _; decide +kernel
    · show (1 : Rat) / 2 = 50 / 100; decide +kernel
    · show (9 : Rat) / 10 = 90 / 100; decide +kernel
    · show total 120 (atoms [.length 4 0]) * 1 = _; decide +kernel
    · intro l; cases l <;> rfl

theorem NewCells.step {s t u : Score} {n : String} {j : Nat} (h : NewCells s t) (hn : newPart n t = some (j, u)) : NewCells s u := by
  have hb := newPart_begins hn
  obtain ⟨instr, _, _, p, _, _, _, _, _, _, _, _, _, _, _, _, _, _, _, _, _, _, _, _, rfl⟩ := newPart_eq hn
  have := h.next
  refine ⟨Nat.le_succ_of_le h.next, ?_, ?_, h.events, h.globals, h.chordMode, h.usage, h.parts⟩
  · intro i hi
    simp only
    rw [if_neg (by omega)]; exact h.old i hi
  · intro i h1 h2
    simp only at h2
    by_cases e : i = t.next
    · subst e; exact hb
    · have := h.new i h1 (by omega)
      simp only [attributesAt, if_neg e] at this ⊢
      exact this

theorem onlyNewPart_cells {s0 s : Score} (h : NewCells s0 s) (name : String) : NewCells s0 (onlyNewPart name s).2 := by
  simp only [onlyNewPart]
  split
  · exact h
  · rename_i hn; exact h.step hn

theorem collectGroup_cells {s0 : Score} (ns : List String) : ∀ (named stock : List Nat) (s : Score), NewCells s0 s →
    NewCells s0 (collectGroup s named stock ns).2 := by
  induction ns with
  | nil => intro named stock s h; simpa only [collectGroup] using h
  | cons n ns ih =>
    intro named stock s h
    simp only [collectGroup]
    split
    · exact ih _ _ _ h
    split
    · exact ih _ _ _ h
    split
    · exact h
    · rename_i hn; exact ih _ _ _ (h.step hn)

theorem newGroup_cells {s0 : Score} (ns : List String) : ∀ (acc : List Nat) (s : Score), NewCells s0 s → NewCells s0 (newGroup s acc ns).2 := by
  induction ns with
  | nil => intro acc s h; simpa only [newGroup] using h
  | cons n ns ih =>
    intro acc s h
    simp only [newGroup]
    split
    · exact h
    · rename_i hn; exact ih _ _ (h.step hn)

theorem determineParts_cells (names : List String) (alias : String) (s : Score) : NewCells s (determineParts names alias s).2 := by
  have r := NewCells.refl s
  unfold determineParts
  split
  · unfold determineSingle
    simp only
    split
    · exact r
    split
    · exact r
    split
    · exact r
    split
    · exact onlyNewPart_cells r _
    split
    · exact r
    split
    · exact r
    · exact onlyNewPart_cells r _
  split
  · exact r
  have hc := collectGroup_cells (s0 := s) names [] [] s r
  split
  · rename_i h; rw [h] at hc; exact hc
  · rename_i h
    rw [h] at hc
    split
    · exact hc
    split
    · exact newGroup_cells _ _ _ hc
    · exact hc

/-- What a declaration does after the open voices have ended. -/
theorem partDeclUpd_cells (names : List String) (alias : String) (s : Score) :
    ∃ t, NewCells (voiceEndUpd s).s t ∧
      ((partDeclUpd names alias s).s = t ∨ ∃ parts, determineParts names alias (voiceEndUpd s).s = (.ok parts, t) ∧ (partDeclUpd names alias s).s = declareParts parts alias t) := by
  have hc := determineParts_cells names alias (voiceEndUpd s).s
  refine ⟨(determineParts names alias (voiceEndUpd s).s).2, hc, ?_⟩
  unfold partDeclUpd Out.andThen
  rw [voiceEndUpd_ok]
  simp only
  rcases hx : determineParts names alias (voiceEndUpd s).s with ⟨r, t⟩
  cases r with
  | error e => exact Or.inl rfl
  | ok parts =>
    simp only
    split
    · exact Or.inl rfl
    · exact Or.inr ⟨parts, rfl, rfl⟩

theorem update_voiceEnd (s : Score) : update [.voiceEnd] s = voiceEndUpd s := by
  simp only [update, updListWith, updWith]
  unfold Out.andThen
  rw [voiceEndUpd_ok]
  show Out.ok (voiceEndUpd s).s = _
  have := voiceEndUpd_ok s
  rcases hv : voiceEndUpd s with ⟨e, v⟩
  rw [hv] at this; simp only at this; subst this; rfl

/-- Without open voices nothing ends. -/
theorem voiceEndUpd_idle {s : Score} (h : ∀ c ∈ s.current, s.vheap (s.heap c).voices = []) : (voiceEndUpd s).s = s := by
  unfold voiceEndUpd
  generalize List.range s.current.length = l
  induction l with
  | nil => rfl
  | cons i l ih =>
    simp only [forIds]
    have : voiceEndAt i s = .ok s := by
      simp only [voiceEndAt]
      split
      · rfl
      · rename_i id hid
        rw [h id (List.mem_of_getElem? hid)]
        rfl
    rw [this]
    exact ih

/-- A declaration, successful or not, does not change any part of the score. -/
theorem decl_keeps {s : Score} (g : Good (fun _ => True) True s) (names : List String) (alias : String) {q : Nat}
    (hq : q ∈ (update [.voiceEnd] s).s.parts) :
    q ∈ (update [.partDecl names alias] s).s.parts ∧ (update [.partDecl names alias] s).s.heap q = (update [.voiceEnd] s).s.heap q := by
  rw [upd_partDecl]
  rw [update_voiceEnd] at hq ⊢
  have wv := (voiceEndUpd_view s g.wf).2
  have hlt := wv.parts_lt q hq
  obtain ⟨t, c, h | ⟨parts, hp, h⟩⟩ := partDeclUpd_cells names alias s
  · rw [h, c.parts]
    exact ⟨hq, c.old q hlt⟩
  · rw [h]
    refine ⟨?_, ?_⟩
    · rw [declareParts_parts, dedup_mem, c.parts]; exact Or.inl hq
    · rw [declareParts_heap]
      rcases markMaster_heap parts t q with h | ⟨h0, _, _⟩
      · rw [h]; exact c.old q hlt
      · rw [c.parts] at h0; rw [h0] at hq; cases hq

theorem decl_events (names : List String) (alias : String) (s : Score) :
    (update [.partDecl names alias] s).s.events = (update [.voiceEnd] s).s.events ∧
    (update [.partDecl names alias] s).s.globals = (update [.voiceEnd] s).s.globals ∧
    (update [.partDecl names alias] s).s.chordMode = (update [.voiceEnd] s).s.chordMode := by
  rw [upd_partDecl, update_voiceEnd]
  obtain ⟨t, c, h | ⟨parts, hp, h⟩⟩ := partDeclUpd_cells names alias s
  · rw [h]; exact ⟨c.events, c.globals, c.chordMode⟩
  · obtain ⟨_, _, _, e⟩ := declareParts_rest parts alias t
    rw [h, e]; exact ⟨c.events, c.globals, c.chordMode⟩

/-- A part that is active after a successful declaration: one that was there, unchanged, or a new one. -/
theorem decl_current {s : Score} (g : Good (fun _ => True) True s) (names : List String) (alias : String)
    (h : (update [.partDecl names alias] s).err = none) {i : Nat} (hi : i ∈ (update [.partDecl names alias] s).s.current) :
    (i ∈ (update [.voiceEnd] s).s.parts ∧ (update [.partDecl names alias] s).s.heap i = (update [.voiceEnd] s).s.heap i) ∨
    (((update [.partDecl names alias] s).s.heap i).origin = i ∧ i ∉ instances s ∧ Begins (attributesAt (update [.partDecl names alias] s).s i) ∧
      ((update [.partDecl names alias] s).s.heap i).explicitChannel = false ∧ ((update [.partDecl names alias] s).s.heap i).midiChannel = -1) := by
  have hk := fun {q} hq => decl_keeps g names alias (q := q) hq
  by_cases hp : i ∈ (update [.voiceEnd] s).s.parts
  · exact Or.inl ⟨hp, (hk hp).2⟩
  · refine Or.inr ?_
    clear hk
    rw [update_voiceEnd] at hp
    rw [upd_partDecl] at *
    have hvv := voiceEndUpd_view s g.wf
    have hd := determineParts_made names alias (voiceEndUpd s).s hvv.2
    have c := determineParts_cells names alias (voiceEndUpd s).s
    have hx : ∃ parts t, determineParts names alias (voiceEndUpd s).s = (.ok parts, t) ∧ (partDeclUpd names alias s).s = declareParts parts alias t := by
      revert h
      unfold partDeclUpd Out.andThen
      rw [voiceEndUpd_ok]
      simp only
      rcases hx : determineParts names alias (voiceEndUpd s).s with ⟨r, t⟩
      cases r with
      | error e => intro h; simp [Out.fail] at h
      | ok parts =>
        simp only
        split
        · intro h; simp [Out.fail] at h
        · intro _; exact ⟨parts, t, rfl, rfl⟩
    obtain ⟨parts, t, he, hs⟩ := hx
    rw [he] at hd c
    obtain ⟨m, f⟩ := hd
    have f := f parts rfl
    have hi' : i ∈ parts := by rw [hs] at hi; exact hi
    have hn : ∃ n, NewFor (voiceEndUpd s).s t n i := by
      by_cases ha : alias = ""
      · rcases f.plain ha i hi' with h | ⟨n, _, h⟩
        · exact absurd h hp
        · exact ⟨n, h⟩
      · rcases f.named ha i hi' with ⟨a, ha, h⟩ | h
        · exact absurd (hvv.2.alias_parts a ha i h) hp
        · exact h
    obtain ⟨n, hn⟩ := hn
    have hb := c.new i hn.later hn.fresh.lt
    have hheap : ∀ {P : Part → Prop}, (∀ b, P { t.heap i with tempoMaster := b }) → P ((partDeclUpd names alias s).s.heap i) := by
      intro P hP
      rw [hs, declareParts_heap]
      rcases markMaster_heap parts t i with h | ⟨_, _, h⟩
      · rw [h]; exact hP (t.heap i).tempoMaster
      · rw [h]; exact hP true
    refine ⟨hheap (P := fun p => p.origin = i) (fun b => hn.fresh.org), ?_, ?_, hheap (P := fun p => p.explicitChannel = false) (fun b => hb.2.1),
      hheap (P := fun p => p.midiChannel = -1) (fun b => hb.2.2)⟩
    · intro hm
      have : i ∈ (partView s).map (·.1) := by
        unfold instances at hm
        unfold partView
        rw [List.map_map]; exact hm
      rw [← hvv.1.1, ← m.view.1] at this
      unfold partView at this
      rw [List.map_map] at this
      obtain ⟨j, hj, e⟩ := List.mem_map.1 this
      exact hn.fresh.origin_new m.wf hj (by rw [hn.fresh.org]; exact e)
    · exact hheap (P := fun p => Begins (attributes p)) (fun b => hb.1)

end Alda
