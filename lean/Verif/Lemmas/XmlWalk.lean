import Verif.Lemmas.XmlSteps
/-!
The importer follows the reading of a part: from elements to measures.
-/
namespace Alda
namespace Importer
open Spec

/-- The importer with another current part. -/
def Imp.put (s : Imp) (id : String) (p : XPart) : Imp := { s with parts := assign id p s.parts }

/-- The importer is working on a part. -/
def Imp.At (s : Imp) (id : String) (p : XPart) : Prop := s.cur = some id ∧ s.parts.lookup id = some p

theorem Imp.At.put {s : Imp} {id : String} {p : XPart} (h : s.At id p) (p' : XPart) : (s.put id p').At id p' := ⟨h.1, lookup_assign_self ..⟩

theorem Imp.put_put (s : Imp) (id : String) (p q : XPart) : (s.put id p).put id q = s.put id q := by
  unfold Imp.put; simp only [assign_assign]

theorem Imp.At.same {s : Imp} {id : String} {p : XPart} (h : s.At id p) : s.put id p = s := by
  unfold Imp.put; rw [assign_same h.2]

theorem onPart_ok {s : Imp} {id : String} {p p' : XPart} (h : s.At id p) {f : XPart → Except Stop XPart} (hf : f p = .ok p') : s.onPart f = .ok (s.put id p') := by
  obtain ⟨ps, c, n⟩ := s
  obtain ⟨h1, h2⟩ := h
  simp only at h1 h2
  subst h1
  unfold Imp.onPart
  simp only [need, bind, Except.bind, pure, Except.pure]
  rw [h2]
  simp only
  rw [hf]
  rfl

/-! ### Dispatch -/

theorem handle_measure (o : Orders) {e : Elem} (h : e.tag = "measure") (s : Imp) : handle o e s = measureContent o e.children s := by
  obtain ⟨tag, attrs, text, children⟩ := e
  simp only [Elem.tag] at h; subst h
  unfold handle
  simp [Elem.children]

theorem handle_barline (o : Orders) {e : Elem} (h : e.tag = "barline") (s : Imp) : handle o e s = s.onPart (barlineElem e) := by
  obtain ⟨tag, attrs, text, children⟩ := e
  simp only [Elem.tag] at h; subst h
  unfold handle
  simp

theorem handle_key (o : Orders) {e : Elem} (h : e.tag = "key") (s : Imp) : handle o e s = s.onPart (keyElem e) := by
  obtain ⟨tag, attrs, text, children⟩ := e
  simp only [Elem.tag] at h; subst h
  unfold handle
  simp

theorem handle_dynamics (o : Orders) {e : Elem} (h : e.tag = "dynamics") (s : Imp) : handle o e s = s.onPart (dynamics e.children) := by
  obtain ⟨tag, attrs, text, children⟩ := e
  simp only [Elem.tag] at h; subst h
  unfold handle
  simp [Elem.children]

theorem handle_divisions (o : Orders) {e : Elem} (h : e.tag = "divisions") (s : Imp) : handle o e s = s.onPart (fun p => pure (divisionsElem e p)) := by
  obtain ⟨tag, attrs, text, children⟩ := e
  simp only [Elem.tag] at h; subst h
  unfold handle
  simp

theorem handle_transpose (o : Orders) {e : Elem} (h : e.tag = "transpose") (s : Imp) : handle o e s = s.onPart (transposeElem e) := by
  obtain ⟨tag, attrs, text, children⟩ := e
  simp only [Elem.tag] at h; subst h
  unfold handle
  simp

theorem handle_note (o : Orders) {e : Elem} (h : e.tag = "note") (s : Imp) : handle o e s = s.onPart (noteElem e) := by
  obtain ⟨tag, attrs, text, children⟩ := e
  simp only [Elem.tag] at h; subst h
  unfold handle
  simp

theorem handle_forward (o : Orders) {e : Elem} (h : e.tag = "forward") (s : Imp) : handle o e s = s.onPart (forward e) := by
  obtain ⟨tag, attrs, text, children⟩ := e
  simp only [Elem.tag] at h; subst h
  unfold handle
  simp

theorem handle_backup (o : Orders) {e : Elem} (h : e.tag = "backup") (s : Imp) : handle o e s = s.onPart (backup e) := by
  obtain ⟨tag, attrs, text, children⟩ := e
  simp only [Elem.tag] at h; subst h
  unfold handle
  simp

theorem handle_other (o : Orders) {e : Elem} (h : e.tag ∉ actedUpon) (s : Imp) : handle o e s = handleAll o e.children s := by
  obtain ⟨tag, attrs, text, children⟩ := e
  simp only [Elem.tag, actedUpon, List.mem_cons, List.not_mem_nil, or_false, not_or] at h
  obtain ⟨h1, h2, h3, h4, h5, h6, h7, h8, h9, h10, h11⟩ := h
  unfold handle
  simp [Elem.children, h1, h2, h3, h4, h5, h6, h7, h8, h9, h10, h11]

/-! ### Elements without notes -/

theorem barline_quiet {e : Elem} {p : XPart} {r : Upd × List Nat} (h1 : e.find "repeat" = none) (h2 : e.find "ending" = none) (hp : p.importInto = .ok r) : barlineElem e p = .ok p := by
  unfold barlineElem
  simp only [h1, h2, bind, Except.bind, hp]
  simp [pure, Except.pure]

section
variable (o : Orders) {id : String} {loud : Bool} {R : XPart → Prop} (hb : ∀ p, R p → ∃ r, p.importInto = .ok r)
  (hd : loud = true → ∀ ms p, R p → ∃ p', dynamics ms p = .ok p' ∧ R p' ∧ Same p p')
include hb hd

mutual
theorem handle_quiet : ∀ (e : Elem), Quiet loud e → ∀ (s : Imp) (p : XPart), s.At id p → R p → ∃ p', handle o e s = .ok (s.put id p') ∧ R p' ∧ Same p p'
  | .mk tag attrs text children, h, s, p, hs, hp => by
    simp only [Quiet] at h
    rcases h with ⟨h1, h2, h3⟩ | ⟨h1, h2⟩ | ⟨h1, h2⟩
    · obtain ⟨r, hr⟩ := hb p hp
      refine ⟨p, ?_, hp, .refl p⟩
      rw [handle_barline o (e := .mk tag attrs text children) h1, onPart_ok hs (barline_quiet h2 h3 hr)]
    · obtain ⟨p', e1, e2, e3⟩ := hd h2 children p hp
      refine ⟨p', ?_, e2, e3⟩
      rw [handle_dynamics o (e := .mk tag attrs text children) h1]
      exact onPart_ok hs e1
    · rw [handle_other o (e := .mk tag attrs text children) h1]
      exact handleAll_quiet children h2 s p hs hp
theorem handleAll_quiet : ∀ (es : List Elem), QuietL loud es → ∀ (s : Imp) (p : XPart), s.At id p → R p → ∃ p', handleAll o es s = .ok (s.put id p') ∧ R p' ∧ Same p p'
  | [], _, s, p, hs, hp => ⟨p, by unfold handleAll; rw [hs.same]; rfl, hp, .refl p⟩
  | e :: es, h, s, p, hs, hp => by
    simp only [QuietL] at h
    obtain ⟨p1, e1, e2, e3⟩ := handle_quiet e h.1 s p hs hp
    obtain ⟨p2, f1, f2, f3⟩ := handleAll_quiet es h.2 _ p1 (hs.put p1) e2
    refine ⟨p2, ?_, f2, e3.trans f3⟩
    unfold handleAll
    rw [e1]
    simp only [bind, Except.bind]
    rw [f1, Imp.put_put]
end
end

/-- Elements without notes and markings change nothing. -/
theorem handle_silent (o : Orders) {e : Elem} (h : Quiet false e) {s : Imp} {id : String} {p : XPart} (hs : s.At id p) {r : Upd × List Nat} (hp : p.importInto = .ok r) :
    handle o e s = .ok s := by
  obtain ⟨p', e1, e2, _⟩ := handle_quiet o (loud := false) (R := fun q => q = p) (by rintro q rfl; exact ⟨r, hp⟩) (by simp) e h s p hs rfl
  rw [e1, e2, hs.same]

/-! ### Voices -/

theorem find_mem {e : Elem} {t : String} {c : Elem} (h : e.find t = some c) : c ∈ e.children ∧ c.tag = t := by
  unfold Elem.find at h
  have := List.mem_of_mem_head? (Option.mem_def.2 h)
  unfold Elem.findAll at this
  rw [List.mem_filter] at this
  exact ⟨this.1, by simpa using this.2⟩

theorem voiceTexts_mem {c : Elem} : ∀ {es : List Elem}, c ∈ es → ∀ t ∈ voiceTexts c, t ∈ voiceTextsIn es := by
  intro es
  induction es with
  | nil => intro h; simp at h
  | cons e es ih =>
    intro h t ht
    simp only [voiceTextsIn, List.mem_append]
    rcases List.mem_cons.1 h with rfl | h
    · exact .inl ht
    · exact .inr (ih h t ht)

theorem voiceTexts_children {e : Elem} {t : String} (h : t ∈ voiceTextsIn e.children) : t ∈ voiceTexts e := by
  obtain ⟨tag, attrs, text, children⟩ := e
  simp only [voiceTexts, List.mem_append]
  exact .inr h

theorem find_voice {e c : Elem} (h : e.find "voice" = some c) : c.text ∈ voiceTexts e := by
  obtain ⟨h1, h2⟩ := find_mem h
  refine voiceTexts_children (voiceTexts_mem h1 _ ?_)
  obtain ⟨tag, attrs, text, children⟩ := c
  simp only [Elem.tag] at h2
  subst h2
  simp [voiceTexts, Elem.text]

/-- The voices with these texts are known. -/
def Known (V : List Nat) (ts : List String) : Prop := ∀ t ∈ ts, ∀ n, NumeralOf n t → n ∈ V

theorem Known.voice {V : List Nat} {e : Elem} (h : Known V (voiceTexts e)) {n : Nat} (hn : Says e "voice" n) : n ∈ V := by
  obtain ⟨c, h1, h2⟩ := hn
  exact h _ (find_voice h1) n h2

/-! ### One element -/

section
variable {D : Nat} {K : KeySig} {V : List Nat} {r : XmlReading} {E : Nat → Nat} {p : XPart}

theorem PartOk.into (h : PartOk D K V r E p) : ∃ x, p.importInto = .ok x := by
  obtain ⟨n, hn, hc, _⟩ := h.cur
  obtain ⟨v, hv, ok⟩ := h.voices n hn
  exact ⟨_, importInto_flat hc hv ok.flat⟩

/-- What the importer does with one element of a measure. -/
def oneElem (o : Orders) (e : Elem) (s : Imp) : Except Stop Imp :=
  (if (e.find "voice").isSome then s.onPart (switchVoice e) else pure s) >>= handle o e

theorem measureContent_cons (o : Orders) (e : Elem) (es : List Elem) (s : Imp) : measureContent o (e :: es) s = (oneElem o e s >>= measureContent o es) := by
  conv => lhs; unfold measureContent
  unfold oneElem
  simp only [bind, Except.bind]
  split <;> split <;> simp_all

/-- Mentioning voices. -/
theorem switch_ok (h1 : 1 ≤ D) (h : PartOk D K V r E p) {e : Elem} {is : List XmlItem} (hm : MentionOf e is) (hk : Known V (voiceTexts e)) (hs : r.SensibleItems D is)
    {s : Imp} {id : String} (hat : s.At id p) :
    ∃ p', (if (e.find "voice").isSome then s.onPart (switchVoice e) else pure s) = .ok (s.put id p') ∧ PartOk D K V (r.items is) E p' ∧ Same p p' := by
  rcases hm with ⟨hm, rfl⟩ | ⟨v, hm, hv1, hv2, rfl⟩
  · rw [hm]
    exact ⟨p, by simp only [Option.isSome_none, Bool.false_eq_true, if_false]; rw [hat.same]; rfl, h, .refl p⟩
  · obtain ⟨p', e1, e2, e3⟩ := mention_ok h1 h hm hv2 (hk.voice hm) hs.1
    refine ⟨p', ?_, e2, e3⟩
    obtain ⟨c, hc, _⟩ := hm
    rw [if_pos (by rw [hc]; rfl)]
    exact onPart_ok hat e1

theorem sensible_append : ∀ (is js : List XmlItem) (r : XmlReading), r.SensibleItems D (is ++ js) → r.SensibleItems D is ∧ (r.items is).SensibleItems D js := by
  intro is
  induction is with
  | nil => intro js r h; exact ⟨trivial, h⟩
  | cons i is ih =>
    intro js r h
    obtain ⟨h3, h4⟩ := h
    obtain ⟨a, b⟩ := ih js _ h4
    exact ⟨⟨h3, a⟩, b⟩

theorem items_append (r : XmlReading) (is js : List XmlItem) : r.items (is ++ js) = (r.items is).items js := List.foldl_append ..

/-- One element of a measure. -/
theorem elem_ok (o : Orders) (h1 : 1 ≤ D) (h2 : D ≤ 24) {f : Int} (hf1 : -7 ≤ f) (hf2 : f ≤ 7) (hK : K = keySigFromFifths f) (h : PartOk D K V r E p) {e : Elem} {is : List XmlItem}
    (he : ItemsOf f e is) (hk : Known V (voiceTexts e)) (hs : r.SensibleItems D is) {s : Imp} {id : String} (hat : s.At id p) :
    ∃ E' p', oneElem o e s = .ok (s.put id p') ∧ PartOk D K V (r.items is) E' p' ∧ Same p p' := by
  unfold oneElem
  cases he with
  | note v t chord x hn =>
    obtain ⟨c, hc, _⟩ := hn.voice.1
    have hv := hk.voice hn.voice.1
    rw [if_pos (by rw [hc]; rfl)]
    cases chord with
    | false =>
      obtain ⟨q, p', e1, e2, e3, e4⟩ := note_ok h1 h2 hf1 hf2 hK h hv hn hs.1
      refine ⟨_, p', ?_, e3, e4⟩
      rw [onPart_ok hat e1]
      simp only [bind, Except.bind]
      rw [handle_note o hn.tag, onPart_ok (hat.put q) e2, Imp.put_put]
    | true =>
      obtain ⟨q, p', e1, e2, e3, e4⟩ := chord_ok' h1 h2 hf1 hf2 hK h hn hs.1
      refine ⟨_, p', ?_, e3, e4⟩
      rw [onPart_ok hat e1]
      simp only [bind, Except.bind]
      rw [handle_note o hn.tag, onPart_ok (hat.put q) e2, Imp.put_put]
  | forward t is hm hmen =>
    obtain ⟨s1, s2⟩ := sensible_append _ _ _ hs
    obtain ⟨q, e1, e2, e3⟩ := switch_ok h1 h hmen hk s1 hat
    obtain ⟨p', e4, e5, e6⟩ := forward_ok h1 h2 e2 hm s2.1
    refine ⟨_, p', ?_, by rw [items_append]; exact e5, e3.trans e6⟩
    rw [e1]
    simp only [bind, Except.bind]
    rw [handle_forward o hm.tag, onPart_ok (hat.put q) e4, Imp.put_put]
  | backup t hm hv =>
    obtain ⟨p', e4, e5, e6⟩ := backup_ok h1 h2 h hm hs.1
    refine ⟨_, p', ?_, e5, e6⟩
    rw [hv]
    simp only [Option.isSome_none, Bool.false_eq_true, if_false, bind, Except.bind, pure, Except.pure]
    rw [handle_backup o hm.tag, onPart_ok hat e4]
  | quiet _ hq hmen =>
    obtain ⟨q, e1, e2, e3⟩ := switch_ok h1 h hmen hk hs hat
    obtain ⟨x, hx⟩ := e2.into
    refine ⟨_, q, ?_, e2, e3⟩
    rw [e1]
    simp only [bind, Except.bind]
    rw [handle_silent o hq (hat.put q) hx]
  | loud is hq hmen =>
    obtain ⟨s1, s2⟩ := sensible_append _ _ _ hs
    obtain ⟨q, e1, e2, e3⟩ := switch_ok h1 h hmen hk s1 hat
    obtain ⟨p', e4, e5, e6⟩ := handle_quiet o (loud := true) (R := Level D K V ((r.items is).item .dynamics) E) (fun p hp => hp.1.into) (fun _ => dynamics_ok h1 h2) e hq _ q (hat.put q)
      (level_ok e2 s2.1)
    refine ⟨_, p', ?_, by rw [items_append]; exact e5.1, e3.trans e6⟩
    rw [e1]
    simp only [bind, Except.bind]
    rw [e4, Imp.put_put]

/-- The content of a measure. -/
theorem content_ok (o : Orders) (h1 : 1 ≤ D) (h2 : D ≤ 24) {f : Int} (hf1 : -7 ≤ f) (hf2 : f ≤ 7) (hK : K = keySigFromFifths f) {id : String} {es : List Elem} {is : List XmlItem}
    (he : ContentOf f es is) : ∀ {r : XmlReading} {E : Nat → Nat} {p : XPart}, PartOk D K V r E p → Known V (voiceTextsIn es) → r.SensibleItems D is → ∀ {s : Imp}, s.At id p →
    ∃ E' p', measureContent o es s = .ok (s.put id p') ∧ PartOk D K V (r.items is) E' p' ∧ Same p p' := by
  induction he with
  | nil =>
    intro r E p h _ _ s hat
    exact ⟨E, p, by unfold measureContent; rw [hat.same]; rfl, h, .refl p⟩
  | cons he _ ih =>
    intro r E p h hk hs s hat
    obtain ⟨s1, s2⟩ := sensible_append _ _ _ hs
    obtain ⟨E1, p1, e1, e2, e3⟩ := elem_ok o h1 h2 hf1 hf2 hK h he (fun t ht => hk t (by simp only [voiceTextsIn, List.mem_append]; exact .inl ht)) s1 hat
    obtain ⟨E2, p2, f1, f2, f3⟩ := ih e2 (fun t ht => hk t (by simp only [voiceTextsIn, List.mem_append]; exact .inr ht)) s2 (hat.put p1)
    refine ⟨E2, p2, ?_, by rw [items_append]; exact f2, e3.trans f3⟩
    rw [measureContent_cons, e1]
    simp only [bind, Except.bind]
    rw [f1, Imp.put_put]

end

end Importer
end Alda
