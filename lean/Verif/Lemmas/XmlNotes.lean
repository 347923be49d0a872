import Verif.Lemmas.XmlPart
/-!
What the importer makes of one `<note>`.
-/
namespace Alda
namespace Importer
open Spec

/-! ### Pitch -/

theorem signature_free {f : Int} (h1 : -7 ≤ f) (h2 : f ≤ 7) {l : Letter} (h : ¬ InSignature f l) : onLetter (keySigFromFifths f) l = [] := by
  unfold InSignature at h
  have : f = -7 ∨ f = -6 ∨ f = -5 ∨ f = -4 ∨ f = -3 ∨ f = -2 ∨ f = -1 ∨ f = 0 ∨ f = 1 ∨ f = 2 ∨ f = 3 ∨ f = 4 ∨ f = 5 ∨ f = 6 ∨ f = 7 := by omega
  rcases this with rfl | rfl | rfl | rfl | rfl | rfl | rfl | rfl | rfl | rfl | rfl | rfl | rfl | rfl | rfl <;> revert h <;> cases l <;> decide

theorem alteration_flats (k : Nat) : alteration (List.replicate k .flat) = -k := by
  induction k with
  | zero => rfl
  | succ k ih =>
    simp only [alteration, List.replicate_succ, List.map_cons, List.sum_cons] at ih ⊢
    rw [ih]; simp only [signOf]; omega

theorem natural_iff (e : Elem) : (e.find "accidental").any (fun a => decide (a.text = "natural")) = true ↔ Natural e := by
  unfold Natural
  cases h : e.find "accidental" with
  | none => simp
  | some c => simp

theorem accidentals_ok {f : Int} (h1 : -7 ≤ f) (h2 : f ≤ 7) {e c : Elem} {l : Letter} {z : Int} (ha : AlterOf c z) (hn : Natural e → z = 0)
    (hs : z = 0 → InSignature f l → Natural e) : alteration ((accidentalsOf e c).getD (onLetter (keySigFromFifths f) l)) = z := by
  unfold accidentalsOf
  by_cases hnat : Natural e
  · rw [if_pos ((natural_iff e).2 hnat), hn hnat]; rfl
  · rw [if_neg (fun h => hnat ((natural_iff e).1 h))]
    have free : z = 0 → alteration (onLetter (keySigFromFifths f) l) = 0 := by
      intro h0
      rw [signature_free h1 h2 (fun h => hnat (hs h0 h))]; rfl
    rcases ha with ⟨h3, h4⟩ | ⟨a, h3, h4, h5, h6⟩
    · rw [h3]; simp only [Option.getD_none]; rw [free h4, h4]
    · rw [h3]
      simp only
      rw [parseInt_integer (bits := 8) h4 (by simpa using h5) (by simpa using h6)]
      by_cases hp : z > 0
      · rw [if_pos hp]; simp only [Option.getD_some, alteration_sharps]; omega
      · rw [if_neg hp]
        by_cases hm : z < 0
        · rw [if_pos hm]; simp only [Option.getD_some, alteration_flats]; omega
        · rw [if_neg hm]; simp only [Option.getD_none]; rw [free (by omega)]; omega

theorem step_ok {step : Elem} {l : Letter} (h : step.text = stepText l) : letterOf step = .ok l := by
  unfold letterOf
  rw [h]
  cases l <;> rfl

/-! ### Octaves -/

theorem run_ups (K : KeySig) : ∀ (k : Nat) (q : Pen), q.run K (List.replicate k (.leaf (.attr .octaveUp))) = { q with octave := q.octave + k } := by
  intro k
  induction k with
  | zero => intro q; simp [Pen.run]
  | succ k ih =>
    intro q
    rw [List.replicate_succ]
    show (q.step K _).run K _ = _
    rw [ih]
    simp only [Pen.step, Pen.member, beatsUpd, Rat.add_zero]
    congr 1; omega

theorem run_downs (K : KeySig) : ∀ (k : Nat) (q : Pen), q.run K (List.replicate k (.leaf (.attr .octaveDown))) = { q with octave := q.octave - k } := by
  intro k
  induction k with
  | zero => intro q; simp [Pen.run]
  | succ k ih =>
    intro q
    rw [List.replicate_succ]
    show (q.step K _).run K _ = _
    rw [ih]
    simp only [Pen.step, Pen.member, beatsUpd, Rat.add_zero]
    congr 1; omega

theorem members_ups (K : KeySig) : ∀ (k : Nat) (q : Pen), (List.replicate k (.leaf (.attr .octaveUp))).foldl (Pen.member K) q = { q with octave := q.octave + k } := by
  intro k
  induction k with
  | zero => intro q; simp
  | succ k ih =>
    intro q
    rw [List.replicate_succ, List.foldl_cons, ih]
    simp only [Pen.member]
    congr 1; omega

theorem members_downs (K : KeySig) : ∀ (k : Nat) (q : Pen), (List.replicate k (.leaf (.attr .octaveDown))).foldl (Pen.member K) q = { q with octave := q.octave - k } := by
  intro k
  induction k with
  | zero => intro q; simp
  | succ k ih =>
    intro q
    rw [List.replicate_succ, List.foldl_cons, ih]
    simp only [Pen.member]
    congr 1; omega

theorem octaveChanges_run (K : KeySig) (v : Voice) (o : Int) (q : Pen) (hq : q.octave = v.octave) : q.run K (octaveChanges v o) = { q with octave := o } := by
  unfold octaveChanges
  split
  · rename_i h; subst h; rw [← hq]; rfl
  · split
    · simp [Pen.run, Pen.step, Pen.member, beatsUpd, Rat.add_zero]
    · split
      · rw [run_ups, hq]; congr 1; omega
      · rw [run_downs, hq]; congr 1; omega

theorem octaveChanges_members (K : KeySig) (v : Voice) (o : Int) (q : Pen) (hq : q.octave = v.octave) :
    (octaveChanges v o).foldl (Pen.member K) q = { q with octave := o } := by
  unfold octaveChanges
  split
  · rename_i h; subst h; rw [← hq]; rfl
  · split
    · simp [Pen.member]
    · split
      · rw [members_ups, hq]; congr 1; omega
      · rw [members_downs, hq]; congr 1; omega

theorem octaveChanges_mem (v : Voice) (o : Int) {e : Upd} (h : e ∈ octaveChanges v o) :
    e = .leaf (.attr (.octave o)) ∨ e = .leaf (.attr .octaveUp) ∨ e = .leaf (.attr .octaveDown) := by
  unfold octaveChanges at h
  split at h
  · simp at h
  · split at h
    · simp only [List.mem_singleton] at h; exact .inl h
    · split at h
      · exact .inr (.inl (List.eq_of_mem_replicate h))
      · exact .inr (.inr (List.eq_of_mem_replicate h))

theorem octaveChanges_flat (v : Voice) {o : Int} (ho : Counting o) : FlatL (octaveChanges v o) := by
  intro e he
  rcases octaveChanges_mem v o he with rfl | rfl | rfl
  · exact ⟨.octave o, .octave o ho⟩
  · exact ⟨.up, .up⟩
  · exact ⟨.down, .down⟩

theorem octaveChanges_inner (v : Voice) {o : Int} (ho : Counting o) : ∀ e ∈ octaveChanges v o, Inner e := by
  intro e he
  rcases octaveChanges_mem v o he with rfl | rfl | rfl
  · exact .octave o ho
  · exact .up
  · exact .down

theorem accidentalsOf_some (e c : Elem) : accidentalsOf e c ≠ some [] := by
  unfold accidentalsOf
  split
  · simp
  · split
    · simp
    · rename_i a _
      simp only
      split
      · rename_i h
        simp only [ne_eq, Option.some.injEq, List.replicate_eq_nil_iff]; omega
      · split
        · simp only [ne_eq, Option.some.injEq, List.replicate_eq_nil_iff]; omega
        · simp

theorem octaveChanges_member (v : Voice) (o : Int) (q : Rat) : ∀ e ∈ octaveChanges v o, FlatMember q e := by
  intro e he
  rcases octaveChanges_mem v o he with rfl | rfl | rfl
  · exact .octave o
  · exact .up
  · exact .down

theorem octaveChanges_beats (v : Voice) (o : Int) : beatsSum (octaveChanges v o) = 0 := by
  have : ∀ es : List Upd, (∀ e ∈ es, beatsUpd e = 0) → beatsSum es = 0 := by
    intro es
    induction es with
    | nil => intro _; simp [beatsSum]
    | cons e es ih =>
      intro h
      rw [beatsSum, h e (List.mem_cons_self ..), ih (fun x hx => h x (List.mem_cons_of_mem _ hx)), Rat.zero_add]
  refine this _ (fun e he => ?_)
  rcases octaveChanges_mem v o he with rfl | rfl | rfl <;> simp [beatsUpd]

/-! ### A note -/

theorem elemDuration_ok {e : Elem} {p : XPart} {D t : Nat} (hp : p.divisions = D) (h1 : 1 ≤ D) (h2 : D ≤ 24) (he : Says e "duration" t) (ht : 0 < t)
    (ht' : t ≤ 40000 * D) (hd : (e.findAll "dot").length ≤ 5) : ∃ d, elemDuration e p = .ok d ∧ Lasts d ((t : Rat) / D) ∧ OnlyLengths d := by
  obtain ⟨c, h3, h4⟩ := he
  obtain ⟨d, e1, e2⟩ := beats_exact (e.findAll "dot").length h1 h2 ht ht' hd
  refine ⟨d, ?_, e2⟩
  unfold elemDuration
  rw [h3]
  simp only [need, bind, Except.bind]
  rw [parseFloat_numeral h4]
  simp only
  have htr : (0 : Rat) < t := by exact_mod_cast ht
  rw [if_neg, hp, e1]
  rintro (h | h)
  · rw [h] at htr; exact absurd htr (by decide)
  · rw [hp] at h; omega

theorem skipped_ok {e : Elem} (h : e.find "cue" = none ∧ e.find "grace" = none ∧ ∀ c, e.find "type" = some c → c.attr "type" = none) : skipped e = .ok false := by
  unfold skipped
  rw [h.1, h.2.1]
  simp only [Option.isSome_none, Bool.false_eq_true, if_false]
  cases ht : e.find "type" with
  | none => rfl
  | some c =>
    have := h.2.2 c ht
    simp only [Elem.attrOr, this, Option.getD_none]
    rfl

theorem untied_ok {e : Elem} (h : e.findAll "tie" = []) : isTieStop e = false := by
  unfold isTieStop; rw [h]; rfl

/-- A rest. -/
theorem translate_rest {f : Int} {e : Elem} {n t : Nat} {chord : Bool} {p : XPart} {v : Voice} {D : Nat} (h : NoteOf f e n t chord none) (hp : p.divisions = D) (h1 : 1 ≤ D)
    (h2 : D ≤ 24) (ht : 0 < t) (ht' : t ≤ 40000 * D) (hv : p.voice = .ok v) : ∃ d, (Lasts d ((t : Rat) / D) ∧ OnlyLengths d) ∧ translateNote e p = .ok ⟨[.leaf (.rest d)], v.octave, 0⟩ := by
  obtain ⟨d, e1, e2⟩ := elemDuration_ok hp h1 h2 h.length ht ht' h.dots
  refine ⟨d, e2, ?_⟩
  unfold translateNote
  rw [skipped_ok h.full, e1, hv]
  have hpi := h.pitch
  simp only [PitchOf] at hpi
  obtain ⟨r, hr⟩ := Option.isSome_iff_exists.1 hpi.2
  simp only [bind, Except.bind, hpi.1, hr, pure, Except.pure, Bool.false_eq_true, if_false]

/-- A note with a pitch. -/
theorem translate_note {f : Int} (hf1 : -7 ≤ f) (hf2 : f ≤ 7) {e : Elem} {n t : Nat} {chord : Bool} {x : XmlPitch} {p : XPart} {v : Voice} {D : Nat} (h : NoteOf f e n t chord (some x))
    (hp : p.divisions = D) (h1 : 1 ≤ D) (h2 : D ≤ 24) (ht : 0 < t) (ht' : t ≤ 40000 * D) (hv : p.voice = .ok v) :
    ∃ d a sl c, (Lasts d ((t : Rat) / D) ∧ OnlyLengths d ∧ a ≠ some [] ∧ Counting x.octave) ∧ (∀ o, pitchOf x.letter (a.getD (onLetter (keySigFromFifths f) x.letter)) o 0 = 12 * (o + 1) + semitone x.letter + x.alter) ∧
      translateNote e p = .ok ⟨octaveChanges v x.octave ++ [.leaf (.note (.letter x.letter a) d sl)], x.octave, c⟩ := by
  obtain ⟨d, e1, e2⟩ := elemDuration_ok hp h1 h2 h.length ht ht' h.dots
  obtain ⟨c, step, h3, h4, h5, h6, ⟨o, h7, h7'⟩, h8, h9, h10⟩ := h.pitch
  refine ⟨d, accidentalsOf e c, decide (v.slurs + slurChange e > 0), slurChange e, ⟨e2.1, e2.2, accidentalsOf_some e c, by unfold Counting; omega⟩, ?_, ?_⟩
  · intro o
    unfold pitchOf
    rw [accidentals_ok hf1 hf2 h6 h9 h10]; omega
  · unfold translateNote
    rw [skipped_ok h.full, e1, hv, h3]
    simp only [bind, Except.bind, pure, Except.pure, Bool.false_eq_true, if_false, h4, need, step_ok h5, h7]
    rw [parseInt_numeral (bits := 8) h7' (by simpa using by omega)]

end Importer
end Alda
