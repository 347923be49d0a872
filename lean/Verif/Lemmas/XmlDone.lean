import Verif.Lemmas.XmlWalk
import Verif.Props.Import
/-!
The importer follows the reading of a part: the beginning, and all measures.
-/
namespace Alda
namespace Importer
open Spec

/-! ### The beginning of a part -/

/-- A key signature or a transposition. -/
def HeadUpd (u : Upd) : Prop := (∃ f : Int, (-7 ≤ f ∧ f ≤ 7) ∧ u = .leaf (.attr (.keySignature (keySigFromFifths f)))) ∨ ∃ z : Int, (-128 ≤ z ∧ z ≤ 127) ∧ u = .leaf (.attr (.transposition z))

/-- What they say. -/
def headStep (a : KeySig × Int) : Upd → KeySig × Int
  | .leaf (.attr (.keySignature k)) => (k, a.2)
  | .leaf (.attr (.transposition z)) => (a.1, z)
  | _ => a

/-- What they say in a row. -/
def headState (us : List Upd) : KeySig × Int := us.foldl headStep (keySigFromFifths 0, 0)

/-- The part before its first note. -/
structure Fresh (V : List Nat) (h : XmlHead) (p : XPart) : Prop where
  divisions : p.divisions = h.divisions
  voices : p.voices = V.map (fun n : Nat => ((n : Int), newVoice))
  beats : p.beats = 0
  cur : p.cur = .at 1
  key : p.opt.key = keySigFromFifths h.fifths
  dur : p.opt.dur = []
  octave : p.opt.octave = -1
  heads : ∀ u ∈ p.updates, HeadUpd u
  says : headState p.updates = (keySigFromFifths h.fifths, h.transpose)
  fifths : -7 ≤ h.fifths ∧ h.fifths ≤ 7
  transpose : -128 ≤ h.transpose ∧ h.transpose ≤ 127

/-- The same instrument. -/
structure Alike (p q : XPart) : Prop where
  instruments : q.instruments = p.instruments
  alias : q.alias = p.alias
  unpitched : q.unpitched = p.unpitched

theorem Alike.refl (p : XPart) : Alike p p := ⟨rfl, rfl, rfl⟩
theorem Alike.trans {p q r : XPart} (h : Alike p q) (h' : Alike q r) : Alike p r := ⟨h'.1.trans h.1, h'.2.trans h.2, h'.3.trans h.3⟩
theorem Same.alike {p q : XPart} (h : Same p q) : Alike p q := ⟨h.instruments, h.alias, h.unpitched⟩

theorem fresh_lookup {V : List Nat} {n : Int} : (V.map (fun n : Nat => ((n : Int), newVoice))).lookup n = if n ∈ V.map (fun n : Nat => (n : Int)) then some newVoice else none := by
  induction V with
  | nil => simp
  | cons m V ih =>
    rw [List.map_cons, List.lookup_cons, ih, List.map_cons]
    by_cases h : n = m
    · subst h; simp
    · have : (n == (m : Int)) = false := by simpa [beq_eq_false_iff_ne] using h
      rw [this]
      simp [h]

section
variable {V : List Nat} {h : XmlHead} {p : XPart}

theorem Fresh.lookup (f : Fresh V h p) {n : Nat} (hn : n ∈ V) : p.voices.lookup (n : Int) = some newVoice := by
  rw [f.voices, fresh_lookup, if_pos (List.mem_map_of_mem hn)]

theorem Fresh.lookup_any (f : Fresh V h p) (n : Int) : p.voices.lookup n = none ∨ p.voices.lookup n = some newVoice := by
  rw [f.voices, fresh_lookup]
  split
  · exact .inr rfl
  · exact .inl rfl

theorem Fresh.into (f : Fresh V h p) (h1 : 1 ∈ V) : ∃ x, p.importInto = .ok x :=
  ⟨_, importInto_flat f.cur (f.lookup h1) (fun e he => by simp [newVoice] at he)⟩

theorem Fresh.collapse (f : Fresh V h p) (h1 : 1 ∈ V) (b : Bool) : p.collapse b = .ok p := by
  unfold XPart.collapse
  split
  · rw [voice_at f.cur (f.lookup h1)]
    rfl
  · have : ∀ (ns : List Int), collapseLoop ns p false = (p, false) := by
      intro ns
      induction ns with
      | nil => rfl
      | cons n ns ih =>
        unfold collapseLoop
        rcases f.lookup_any n with e | e <;> rw [e]
        · exact ih
        · simp only
          rw [if_pos (show newVoice.isEmpty = true from rfl)]; exact ih
    rw [this]
    simp [pure, Except.pure]

theorem headState_append (us : List Upd) (u : Upd) : headState (us ++ [u]) = headStep (headState us) u := by
  unfold headState; rw [List.foldl_append]; rfl

theorem Fresh.attr (f : Fresh V h p) (h1 : 1 ∈ V) {u : PartUpd} {h' : XmlHead} (hu : HeadUpd (.leaf (.attr u))) (hd : h'.divisions = h.divisions)
    (hs : headStep (keySigFromFifths h.fifths, h.transpose) (.leaf (.attr u)) = (keySigFromFifths h'.fifths, h'.transpose)) (h2 : -7 ≤ h'.fifths ∧ h'.fifths ≤ 7)
    (h3 : -128 ≤ h'.transpose ∧ h'.transpose ≤ 127) : ∃ p', p.appendAttr u = .ok p' ∧ Fresh V h' p' ∧ Alike p p' := by
  unfold XPart.appendAttr
  rw [f.collapse h1]
  simp only [bind, Except.bind, pure, Except.pure]
  have hopt : (optimize p.opt [.leaf (.attr u)]).1 = [.leaf (.attr u)] ∧ (optimize p.opt [.leaf (.attr u)]).2.key = keySigFromFifths h'.fifths := by
    rcases hu with ⟨k, _, hk⟩ | ⟨z, _, hz⟩
    · simp only [Upd.leaf.injEq, Leaf.attr.injEq] at hk
      subst hk
      obtain ⟨e1, e2⟩ := c41_key p.opt _ _ rfl
      simp only [headStep, Prod.mk.injEq] at hs
      exact ⟨e1, e2.trans hs.1⟩
    · simp only [Upd.leaf.injEq, Leaf.attr.injEq] at hz
      subst hz
      simp only [headStep, Prod.mk.injEq] at hs
      exact ⟨rfl, f.key.trans hs.1⟩
  obtain ⟨a1, a2, _⟩ := c41_next p.opt [.leaf (.attr u)]
  refine ⟨_, rfl, ⟨f.divisions.trans (by rw [hd]), f.voices, f.beats, f.cur, hopt.2, a1, a2, ?_, ?_, h2, h3⟩, ⟨rfl, rfl, rfl⟩⟩
  · simp only
    rw [hopt.1]
    intro x hx
    rcases List.mem_append.1 hx with hx | hx
    · exact f.heads x hx
    · rw [List.mem_singleton] at hx; subst hx; exact hu
  · simp only
    rw [hopt.1, headState_append, f.says]; exact hs

end

theorem measureContent_nil (o : Orders) (s : Imp) : measureContent o [] s = .ok s := by unfold measureContent; rfl
theorem handleAll_nil (o : Orders) (s : Imp) : handleAll o [] s = .ok s := by unfold handleAll; rfl
theorem handleAll_cons (o : Orders) (e : Elem) (es : List Elem) (s : Imp) : handleAll o (e :: es) s = (handle o e s >>= handleAll o es) := by
  conv => lhs; unfold handleAll
theorem oneElem_silent (o : Orders) {e : Elem} (h : e.find "voice" = none) (s : Imp) : oneElem o e s = handle o e s := by
  unfold oneElem; rw [h]; rfl

theorem measureContent_append (o : Orders) : ∀ (a b : List Elem) (s : Imp), measureContent o (a ++ b) s = (measureContent o a s >>= measureContent o b) := by
  intro a
  induction a with
  | nil => intro b s; rw [measureContent_nil]; rfl
  | cons e a ih =>
    intro b s
    rw [List.cons_append, measureContent_cons, measureContent_cons]
    cases oneElem o e s with
    | error x => rfl
    | ok s' => exact ih b s'

/-- The beginning of a part. -/
theorem head_ok (o : Orders) {V : List Nat} (h1 : 1 ∈ V) {id : String} {h h' : XmlHead} {es : List Elem} (he : HeadOf h es h') : ∀ {p : XPart}, Fresh V h p → ∀ {s : Imp}, s.At id p →
    ∃ p', handleAll o es s = .ok (s.put id p') ∧ measureContent o es s = .ok (s.put id p') ∧ Fresh V h' p' ∧ Alike p p' := by
  have step : ∀ {e : Elem} {es : List Elem} {h1 h' : XmlHead} {p p1 : XPart} {s : Imp}, e.find "voice" = none → s.At id p → handle o e s = .ok (s.put id p1) → Fresh V h1 p1 → Alike p p1 →
      (∀ {p : XPart}, Fresh V h1 p → ∀ {s : Imp}, s.At id p →
        ∃ p', handleAll o es s = .ok (s.put id p') ∧ measureContent o es s = .ok (s.put id p') ∧ Fresh V h' p' ∧ Alike p p') →
      ∃ p', handleAll o (e :: es) s = .ok (s.put id p') ∧ measureContent o (e :: es) s = .ok (s.put id p') ∧ Fresh V h' p' ∧ Alike p p' := by
    intro e es h1 h' p p1 s hv hat hh f1 al ih
    obtain ⟨p', e1, e2, e3, e4⟩ := ih f1 (hat.put p1)
    refine ⟨p', ?_, ?_, e3, al.trans e4⟩
    · rw [handleAll_cons, hh]; simp only [bind, Except.bind]; rw [e1, Imp.put_put]
    · rw [measureContent_cons, oneElem_silent o hv, hh]; simp only [bind, Except.bind]; rw [e2, Imp.put_put]
  induction he with
  | nil h =>
    intro p f s hat
    exact ⟨p, by rw [handleAll_nil, hat.same], by rw [measureContent_nil, hat.same], f, .refl p⟩
  | quiet hq hv _ ih =>
    intro p f s hat
    obtain ⟨x, hx⟩ := f.into h1
    exact step hv hat (by rw [handle_silent o hq hat hx, hat.same]) f (.refl p) ih
  | attributes ht hv _ _ ih1 ih2 =>
    intro p f s hat
    obtain ⟨p1, e1, _, e3, e4⟩ := ih1 f hat
    exact step hv hat (by rw [handle_other o (by rw [ht]; decide), e1]) e3 e4 ih2
  | @divisions h h' e es n ht hv hn hb _ ih =>
    intro p f s hat
    refine step hv hat (h1 := { h with divisions := n }) (p1 := { p with divisions := n }) ?_ ⟨rfl, f.voices, f.beats, f.cur, f.key, f.dur, f.octave, f.heads, f.says, f.fifths, f.transpose⟩ ⟨rfl, rfl, rfl⟩ ih
    rw [handle_divisions o ht]
    refine onPart_ok hat ?_
    unfold divisionsElem
    rw [parseInt_numeral (bits := 8) hn (by simpa using by omega)]
    rfl
  | @key h h' e c es z ht hv k1 k2 k3 kf kz z1 z2 _ ih =>
    intro p f s hat
    obtain ⟨p1, e1, e2, e3⟩ := f.attr h1 (h' := { h with fifths := z }) (u := .keySignature (keySigFromFifths z)) (.inl ⟨_, ⟨z1, z2⟩, rfl⟩) rfl rfl ⟨z1, z2⟩ f.transpose
    refine step hv hat ?_ e2 e3 ih
    rw [handle_key o ht]
    refine onPart_ok hat ?_
    unfold keyElem
    rw [k1, k2, k3, kf]
    simp only [Option.isSome_none, Bool.false_eq_true, or_self, if_false, need, bind, Except.bind]
    rw [parseInt_integer (bits := 8) kz (by simpa using by omega) (by simpa using by omega)]
    exact e1
  | @transpose h h' e c es z ht hv ho kf kz z1 z2 _ ih =>
    intro p f s hat
    obtain ⟨p1, e1, e2, e3⟩ := f.attr h1 (h' := { h with transpose := z }) (u := .transposition z) (.inr ⟨_, ⟨z1, z2⟩, rfl⟩) rfl rfl f.fifths ⟨z1, z2⟩
    refine step hv hat ?_ e2 e3 ih
    rw [handle_transpose o ht]
    refine onPart_ok hat ?_
    unfold transposeElem
    rw [kf]
    simp only [need, bind, Except.bind]
    rw [parseInt_integer (bits := 8) kz (by simpa using by omega) (by simpa using by omega)]
    exact e1

/-- The invariant at the beginning of the music. -/
theorem Fresh.ok {V : List Nat} {h : XmlHead} {p : XPart} (f : Fresh V h p) (h1 : 1 ∈ V) (hd : 1 ≤ h.divisions) :
    PartOk h.divisions (keySigFromFifths h.fifths) V .start (fun _ => 0) p := by
  have hz : ((0 : Nat) : Rat) / (h.divisions : Rat) = 0 := by
    have : (0 : Rat) < (h.divisions : Rat) := by exact_mod_cast hd
    have h0 : ((0 : Nat) : Rat) = 0 := rfl
    grind
  refine ⟨⟨Nat.le_refl _, Nat.zero_le _, Nat.zero_le _, fun _ => Nat.le_refl _, fun _ _ => Nat.le_refl _, fun _ _ => Nat.zero_le _, fun _ _ => Nat.zero_le _, .inl (Nat.le_refl _), fun _ _ _ => Nat.le_refl _, fun _ => Nat.le_refl _⟩,
    f.divisions, ?_, ?_, ?_, ⟨1, h1, f.cur, fun w hw => by simp [XmlReading.start] at hw⟩, fun m hm => by simp [XmlReading.start] at hm⟩
  · rw [f.voices, List.map_map]; rfl
  · rw [f.beats]; exact hz.symm
  · intro n hn
    refine ⟨newVoice, f.lookup hn, ⟨⟨fun e he => by simp [newVoice] at he, ?_, rfl, rfl⟩, hz.symm⟩⟩
    rw [hz]; simp [newVoice, beatsSum]

end Importer
end Alda
