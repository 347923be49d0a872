import Verif.Lemmas.Parse
import Verif.Spec.Accept
/-!
The parser reads lisp forms, durations, notes and chords of the grammar.
-/
namespace Alda
namespace Syn
namespace Accept
open Spec

mutual
theorem form_complete : ∀ {ts : List Token} {n : Node}, FormG ts n → ∀ (fuel : Nat) (rest : List Token),
    2 * ts.length ≤ fuel → lispForm fuel (ts ++ rest) = .ok (n, rest)
  | _, _, .symbol ⟨k, x, p⟩ h, fuel, rest, hf => by
    cases fuel with
    | zero => simp at hf
    | succ fuel => cases h; simp [lispForm, leafNode, atom]
  | _, _, .number ⟨k, x, p⟩ q h, fuel, rest, hf => by
    cases fuel with
    | zero => simp at hf
    | succ fuel => cases h; simp [lispForm, leafNode, atom]
  | _, _, .string ⟨k, x, p⟩ q h, fuel, rest, hf => by
    cases fuel with
    | zero => simp at hf
    | succ fuel => cases h; simp [lispForm, leafNode, atom]
  | _, _, .list ⟨k, x, p⟩ r ts ns hl hr h, fuel, rest, hf => by
    cases fuel with
    | zero => simp at hf
    | succ fuel =>
      cases hl
      have := forms_complete h fuel r rest hr (by simp at hf; omega)
      simp [lispForm, this, branch]
theorem forms_complete : ∀ {ts : List Token} {ns : List Node}, FormsG ts ns → ∀ (fuel : Nat) (r : Token) (rest : List Token),
    r.tok = .rightParen → 2 * ts.length + 1 ≤ fuel → lispElements fuel (ts ++ r :: rest) = .ok (ns, rest)
  | _, _, .nil, fuel, ⟨k, x, p⟩, rest, hr, hf => by
    cases fuel with
    | zero => simp at hf
    | succ fuel => cases hr; simp [lispElements]
  | _, _, .cons ts us n ns h1 h2, fuel, r, rest, hr, hf => by
    cases fuel with
    | zero => simp at hf
    | succ fuel =>
      have hne := h1.ne_nil
      have hl : 0 < ts.length := List.length_pos_iff.2 hne
      simp only [List.length_append] at hf
      have a := form_complete h1 fuel (us ++ r :: rest) (by omega)
      have b := forms_complete h2 fuel r rest hr (by omega)
      have : ∃ t ts', ts = t :: ts' ∧ t.tok ≠ .rightParen ∧ t.tok ≠ .eof ∧ t.tok ≠ .singleQuote := by
        cases h1 with
        | symbol t h => exact ⟨_, _, rfl, by simp [h], by simp [h], by simp [h]⟩
        | number t q h => exact ⟨_, _, rfl, by simp [h], by simp [h], by simp [h]⟩
        | string t s h => exact ⟨_, _, rfl, by simp [h], by simp [h], by simp [h]⟩
        | list l r ts ns h => exact ⟨_, _, rfl, by simp [h], by simp [h], by simp [h]⟩
      obtain ⟨⟨k, x, p⟩, ts', rfl, n1, n2, n3⟩ := this
      simp only [List.append_assoc, List.cons_append] at a ⊢
      have hq : matchQuote (⟨k, x, p⟩ :: (ts' ++ (us ++ r :: rest))) = (false, ⟨k, x, p⟩ :: (ts' ++ (us ++ r :: rest))) := by
        unfold matchQuote
        split
        · rename_i heq; simp at heq n3; exact absurd heq.1.1 n3
        · rfl
      unfold lispElements
      split
      · rename_i heq; simp at heq n1; exact absurd heq.1.1 n1
      · rename_i heq; simp at heq n2; exact absurd heq.1.1 n2
      · simp [hq, a, b]
  | _, _, .quoted ⟨k, x, p⟩ ts us n ns hq h1 h2, fuel, r, rest, hr, hf => by
    cases fuel with
    | zero => simp at hf
    | succ fuel =>
      simp only [List.length_append, List.length_cons] at hf
      have a := form_complete h1 fuel (us ++ r :: rest) (by omega)
      have b := forms_complete h2 fuel r rest hr (by omega)
      cases hq
      simp [lispElements, matchQuote, a, b, branch]
end

theorem lispList_complete {ts : List Token} {n : Node} (h : SexpG ts n) :
    ∃ l us, ts = l :: us ∧ l.tok = .leftParen ∧ ∀ rest, lispList (us ++ rest) = .ok (n, rest) := by
  obtain ⟨h, ht⟩ := h
  cases h with
  | symbol t h => simp [atom, Node.type] at ht
  | number t q h => simp [atom, Node.type] at ht
  | string t s h => simp [atom, Node.type] at ht
  | list l r ts ns hl hr hs =>
    refine ⟨l, ts ++ [r], rfl, hl, fun rest => ?_⟩
    have := forms_complete hs (2 * (ts ++ [r] ++ rest).length + 1) r rest hr (by simp; omega)
    unfold lispList
    simp only [List.append_assoc, List.cons_append, List.nil_append] at this ⊢
    rw [this]
    rfl

/-- After the barlines, no tied component of a duration follows. -/
def Calm (toks : List Token) : Prop :=
  ∀ t more, (matchBarlines toks).2 = t :: more → t.tok = .tie →
    matchDurationComponent (matchTies (matchBarlines more).2) = none

theorem matchBarlines_append (bars R : List Token) (h : All .barline bars) :
    (matchBarlines (bars ++ R)).2 = (matchBarlines R).2 := by
  induction bars with
  | nil => rfl
  | cons b bars ih =>
    obtain ⟨k, x, p⟩ := b
    have : k = .barline := h _ (List.mem_cons_self ..)
    subst this
    rw [List.cons_append, matchBarlines, ih (fun t ht => h t (List.mem_cons_of_mem _ ht))]

theorem matchBarlines_none {R : List Token} (h : ∀ t more, R = t :: more → t.tok ≠ .barline) :
    (matchBarlines R).2 = R := by
  unfold matchBarlines
  split
  · exact absurd rfl (h _ _ rfl)
  · rfl

theorem matchTies_append (ties R : List Token) (h : All .tie ties) : matchTies (ties ++ R) = matchTies R := by
  induction ties with
  | nil => rfl
  | cons b ties ih =>
    obtain ⟨k, x, p⟩ := b
    have : k = .tie := h _ (List.mem_cons_self ..)
    subst this
    rw [List.cons_append, matchTies, ih (fun t ht => h t (List.mem_cons_of_mem _ ht))]

theorem matchTies_none {R : List Token} (h : ∀ t more, R = t :: more → t.tok ≠ .tie) : matchTies R = R := by
  unfold matchTies
  split
  · exact absurd rfl (h _ _ rfl)
  · rfl

theorem length_complete {t : Token} {n : Node} (h : LengthG t n) (R : List Token) :
    matchDurationComponent (t :: R) = some (n, R) := by
  obtain ⟨k, x, p⟩ := t
  cases h with
  | plain d k h hk => cases h; simp [matchDurationComponent, branch, atom, leafNode]; omega
  | dotted d k h hk => cases h; simp [matchDurationComponent, branch, atom, leafNode]; omega
  | ms q h => cases h; simp [matchDurationComponent, atom, leafNode]
  | seconds q h => cases h; simp [matchDurationComponent, atom, leafNode]

theorem _root_.Alda.Spec.LengthG.tok {t : Token} {n : Node} (h : LengthG t n) :
    t.tok ≠ .barline ∧ t.tok ≠ .tie := by
  cases h with
  | plain d k h hk => simp [h]
  | dotted d k h hk => simp [h]
  | ms q h => simp [h]
  | seconds q h => simp [h]

theorem durationLoop_stop {R : List Token} (h : Calm R) (fuel : Nat) (hf : R.length ≤ fuel) :
    (durationLoop fuel R).2 = (matchBarlines R).2 := by
  cases fuel with
  | zero => have : R = [] := by simpa using hf
            subst this; rfl
  | succ fuel =>
    unfold durationLoop
    dsimp only
    split
    · rename_i x p more heq
      have := h _ _ heq rfl
      rw [this]
    · rfl

theorem lengths_complete {ts : List Token} {ns : List Node} (h : LengthsG ts ns) {R : List Token} (hc : Calm R) :
    ∀ fuel, (ts ++ R).length ≤ fuel → (durationLoop fuel (ts ++ R)).2 = (matchBarlines R).2 := by
  induction h with
  | done bars hb =>
    intro fuel hf
    rw [durationLoop_stop _ fuel hf, matchBarlines_append _ _ hb]
    intro t more h1 h2
    rw [matchBarlines_append _ _ hb] at h1
    exact hc t more h1 h2
  | tied bars bars' ties tie t n ts ns hb ht hb' hts hl _ ih =>
    intro fuel hf
    cases fuel with
    | zero => simp at hf
    | succ fuel =>
      obtain ⟨k, x, p⟩ := tie
      cases ht
      have e1 : (matchBarlines (bars ++ ⟨.tie, x, p⟩ :: (bars' ++ (ties ++ t :: (ts ++ R))))).2 =
          ⟨.tie, x, p⟩ :: (bars' ++ (ties ++ t :: (ts ++ R))) := by
        rw [matchBarlines_append _ _ hb]
        exact matchBarlines_none (by intro t more h; cases h; simp)
      have e2 : (matchBarlines (bars' ++ (ties ++ t :: (ts ++ R)))).2 = ties ++ t :: (ts ++ R) := by
        rw [matchBarlines_append _ _ hb']
        refine matchBarlines_none ?_
        intro t' more h
        cases ties with
        | nil => cases h; exact hl.tok.1
        | cons a ties => cases h; rw [hts _ (List.mem_cons_self ..)]; simp
      have e3 : matchTies (ties ++ t :: (ts ++ R)) = t :: (ts ++ R) := by
        rw [matchTies_append _ _ hts]
        exact matchTies_none (by intro t' more h; cases h; exact hl.tok.2)
      simp only [List.append_assoc, List.cons_append, List.length_append, List.length_cons] at hf ⊢
      unfold durationLoop
      simp only [e1, e2, e3, length_complete hl]
      exact ih fuel (by simp; omega)

/-- No part of a duration comes first. -/
def NoLength (toks : List Token) : Prop := matchDurationComponent toks = none

/-- After a duration of the grammar the parser has read it, and perhaps the barlines that follow. -/
theorem duration_complete {ts : List Token} {ns : List Node} (h : DurationG ts ns) {R : List Token} (hc : Calm R)
    (hn : NoLength R) : (optionalDuration (ts ++ R)).2 = R ∨ (optionalDuration (ts ++ R)).2 = (matchBarlines R).2 := by
  cases h with
  | none => left; simp only [List.nil_append]; unfold optionalDuration; rw [hn]
  | some t n ts ns hl hs =>
    right
    unfold optionalDuration
    simp only [List.cons_append, length_complete hl]
    exact lengths_complete hs hc _ (Nat.le_refl _)

theorem accidentals_complete {ts : List Token} {ns : List Node} (h : AccidentalsG ts ns) {R : List Token}
    (hR : ∀ t more, R = t :: more → t.tok ≠ .flat ∧ t.tok ≠ .natural ∧ t.tok ≠ .sharp) :
    (matchAccidentals (ts ++ R)).2 = R := by
  induction h with
  | nil =>
    rw [List.nil_append]
    unfold matchAccidentals
    split
    · exact absurd rfl (hR _ _ rfl).1
    · exact absurd rfl (hR _ _ rfl).2.1
    · exact absurd rfl (hR _ _ rfl).2.2
    · rfl
  | flat t ts ns ht _ ih => obtain ⟨k, x, p⟩ := t; cases ht; simpa [matchAccidentals] using ih
  | natural t ts ns ht _ ih => obtain ⟨k, x, p⟩ := t; cases ht; simpa [matchAccidentals] using ih
  | sharp t ts ns ht _ ih => obtain ⟨k, x, p⟩ := t; cases ht; simpa [matchAccidentals] using ih

/-- What may come after a note: no accidental, no part of a duration, no tie, also not after barlines. -/
structure After (R : List Token) : Prop where
  head : ∀ t more, R = t :: more → t.tok ≠ .flat ∧ t.tok ≠ .natural ∧ t.tok ≠ .sharp ∧ t.tok ≠ .tie
  length : NoLength R
  bars : ∀ t more, (matchBarlines R).2 = t :: more → t.tok ≠ .tie
  barsLength : NoLength (matchBarlines R).2

theorem After.calm {R : List Token} (h : After R) : Calm R := fun t more h1 h2 => absurd h2 (h.bars t more h1)

theorem After.slurCalm {R : List Token} (h : After R) (s : Token) (hs : s.tok = .tie) : Calm (s :: R) ∧ NoLength (s :: R) := by
  obtain ⟨k, x, p⟩ := s
  cases hs
  constructor
  · intro t more h1 _
    have : (matchBarlines (⟨.tie, x, p⟩ :: R)).2 = ⟨.tie, x, p⟩ :: R :=
      matchBarlines_none (by intro t more h; cases h; simp)
    rw [this] at h1
    cases h1
    rw [matchTies_none h.bars]
    exact h.barsLength
  · rfl

theorem DurationG.head {ts : List Token} {ns : List Node} (h : DurationG ts ns) {R : List Token} {P : Token → Prop}
    (hl : ∀ t n, LengthG t n → P t) (hR : ∀ t more, R = t :: more → P t) : ∀ t more, ts ++ R = t :: more → P t := by
  intro t more he
  cases h with
  | none => exact hR t more he
  | some t n ts ns h1 _ => cases he; exact hl _ _ h1

theorem LengthG.noAccidental {t : Token} {n : Node} (h : LengthG t n) : t.tok ≠ .flat ∧ t.tok ≠ .natural ∧ t.tok ≠ .sharp := by
  cases h with
  | plain d k h hk => simp [h]
  | dotted d k h hk => simp [h]
  | ms q h => simp [h]
  | seconds q h => simp [h]

theorem matchSlur_none {R : List Token} (h : ∀ t more, R = t :: more → t.tok ≠ .tie) : (matchSlur R).2 = R := by
  unfold matchSlur
  split
  · exact absurd rfl (h _ _ rfl)
  · rfl

/-- The parser reads a note or rest of the grammar, and perhaps the barlines that follow. -/
theorem note_complete {ts : List Token} {n : Node} (h : NoteG ts n) {R : List Token} (hR : After R) :
    ∃ n' R', noteOrRest (ts ++ R) = some (n', R') ∧ isNoteOrRest n' = true ∧ (R' = R ∨ R' = (matchBarlines R).2) := by
  cases h with
  | rest l ds dn hl hd =>
    obtain ⟨k, x, p⟩ := l
    cases hl
    exact ⟨_, _, rfl, rfl, duration_complete hd hR.calm hR.length⟩
  | note l c as ds ss an dn sn hl ha hd hs =>
    obtain ⟨k, x, p⟩ := l
    cases hl
    have key : ∃ R', (matchSlur (optionalDuration (ds ++ (ss ++ R))).2).2 = R' ∧ (R' = R ∨ R' = (matchBarlines R).2) := by
      cases hs with
      | none =>
        rcases duration_complete hd hR.calm hR.length with h | h
        · exact ⟨R, by rw [List.nil_append, h]; exact matchSlur_none (fun t more e => (hR.head t more e).2.2.2), .inl rfl⟩
        · exact ⟨_, by rw [List.nil_append, h]; exact matchSlur_none hR.bars, .inr rfl⟩
      | some s hs =>
        obtain ⟨c1, c2⟩ := hR.slurCalm s hs
        have hb : (matchBarlines (s :: R)).2 = s :: R := matchBarlines_none (by intro t more h; cases h; simp [hs])
        refine ⟨R, ?_, .inl rfl⟩
        have : (optionalDuration (ds ++ ([s] ++ R))).2 = s :: R := by
          rcases duration_complete hd c1 c2 with h | h
          · exact h
          · rw [hb] at h; exact h
        rw [this]
        obtain ⟨k, x, p⟩ := s
        cases hs
        rfl
    obtain ⟨R', k1, k2⟩ := key
    have hacc : (matchAccidentals (as ++ (ds ++ (ss ++ R)))).2 = ds ++ (ss ++ R) := by
      refine accidentals_complete ha (DurationG.head hd (fun t n => LengthG.noAccidental) ?_)
      intro t more e
      cases hs with
      | none => have := hR.head t more e; exact ⟨this.1, this.2.1, this.2.2.1⟩
      | some s hs => cases e; simp [hs]
    refine ⟨(note c (as ++ (ds ++ (ss ++ R)))).1, R', ?_, rfl, k2⟩
    simp only [List.append_assoc, List.cons_append, noteOrRest, Option.some.injEq]
    have : (note c (as ++ (ds ++ (ss ++ R)))).2 = R' := by
      simp only [note, hacc, k1]
    rw [← this]

theorem After.of_head {t : Token} {R : List Token} (h1 : t.tok ≠ .flat ∧ t.tok ≠ .natural ∧ t.tok ≠ .sharp ∧ t.tok ≠ .tie)
    (h2 : t.tok ≠ .barline) (h3 : NoLength (t :: R)) : After (t :: R) := by
  have e : (matchBarlines (t :: R)).2 = t :: R := matchBarlines_none (by intro t' more h; cases h; exact h2)
  refine ⟨?_, h3, ?_, ?_⟩
  · intro t' more h; cases h; exact h1
  · intro t' more h; rw [e] at h; cases h; exact h1.2.2.2
  · rw [e]; exact h3

theorem _root_.Alda.Spec.OctaveG.head {ts : List Token} {n : Node} (h : OctaveG ts n) :
    ∃ t, ts = [t] ∧ (t.tok = .octaveUp ∨ t.tok = .octaveDown ∨ ∃ k, t.tok = .octaveSet k) := by
  cases h with
  | up t h => exact ⟨t, rfl, .inl h⟩
  | down t h => exact ⟨t, rfl, .inr (.inl h)⟩
  | set t k h => exact ⟨t, rfl, .inr (.inr ⟨k, h⟩)⟩

/-- Neither an octave change nor a list comes first. -/
def NoBetween (R : List Token) : Prop :=
  ∀ t more, R = t :: more → t.tok ≠ .octaveUp ∧ t.tok ≠ .octaveDown ∧ (∀ k, t.tok ≠ .octaveSet k) ∧ t.tok ≠ .leftParen

theorem between_none {R : List Token} (h : NoBetween R) (fuel : Nat) : nodesBetween (fuel + 1) R = .ok ([], R) := by
  unfold nodesBetween
  dsimp only
  split
  · exact absurd rfl (h _ _ rfl).1
  · exact absurd rfl (h _ _ rfl).2.1
  · exact absurd rfl ((h _ _ rfl).2.2.1 _)
  · exact absurd rfl (h _ _ rfl).2.2.2
  · rfl

theorem between_octave {ts : List Token} {n : Node} (h : OctaveG ts n) {R : List Token} {fuel : Nat} {ns : List Node}
    {R' : List Token} (hr : nodesBetween fuel R = .ok (ns, R')) : nodesBetween (fuel + 1) (ts ++ R) = .ok (n :: ns, R') := by
  cases h with
  | up t h => obtain ⟨k, x, p⟩ := t; cases h; simp [nodesBetween, hr, atom, leafNode]
  | down t h => obtain ⟨k, x, p⟩ := t; cases h; simp [nodesBetween, hr, atom, leafNode]
  | set t k h => obtain ⟨k, x, p⟩ := t; cases h; simp [nodesBetween, hr, atom, leafNode]

theorem between_sexp {ts : List Token} {n : Node} (h : SexpG ts n) {R : List Token} {fuel : Nat} {ns : List Node}
    {R' : List Token} (hr : nodesBetween fuel R = .ok (ns, R')) : nodesBetween (fuel + 1) (ts ++ R) = .ok (n :: ns, R') := by
  obtain ⟨⟨k, x, p⟩, us, rfl, hl, hc⟩ := lispList_complete h
  cases hl
  simp [nodesBetween, hr, hc]

theorem between_complete {ts : List Token} {ns : List Node} (h : BetweenG ts ns) {R : List Token} (hR : NoBetween R) :
    ∀ fuel, ts.length < fuel → nodesBetween fuel (ts ++ R) = .ok (ns, R) := by
  induction h with
  | nil =>
    intro fuel hf
    cases fuel with
    | zero => omega
    | succ fuel => exact between_none hR fuel
  | octave ts us n ns ho _ ih =>
    intro fuel hf
    cases fuel with
    | zero => omega
    | succ fuel =>
      obtain ⟨t, rfl, _⟩ := ho.head
      rw [List.append_assoc]
      exact between_octave ho (ih fuel (by simp at hf; omega))
  | sexp ts us n ns hs _ ih =>
    intro fuel hf
    cases fuel with
    | zero => omega
    | succ fuel =>
      have : 0 < ts.length := List.length_pos_iff.2 hs.1.ne_nil
      rw [List.append_assoc]
      exact between_sexp hs (ih fuel (by simp at hf; omega))

/-- The parser, looking for another note of a chord, finds none, and no repeat either. -/
structure Next (R : List Token) : Prop where
  head : ∀ t more k, R = t :: more → t.tok ≠ .repeat k
  look : ∃ ns R', nodesBetween (R.length + 1) R = .ok (ns, R') ∧ ∀ t more, R' = t :: more → t.tok ≠ .separator

/-- What may follow the notes: a repeat, or what is no part of a chord. -/
def Fin (Q : List Token → Prop) (R : List Token) : Prop :=
  (∃ t k R', R = t :: R' ∧ t.tok = .repeat k ∧ Q R') ∨ (Next R ∧ Q R)

theorem chordLoop_last {Q : List Token → Prop} {toks : List Token} {node : Node} {R : List Token}
    (h : noteOrRest toks = some (node, R)) (hf : Fin Q R) (fuel : Nat) :
    ∃ times R', chordLoop (fuel + 1) toks = .ok ([node], times, R') ∧ Q R' := by
  rcases hf with ⟨⟨k, x, p⟩, n, R', rfl, ht, hq⟩ | ⟨⟨hh, ns, R', hl, hs⟩, hq⟩
  · cases ht
    exact ⟨n, R', by unfold chordLoop; rw [h], hq⟩
  · refine ⟨0, R, ?_, hq⟩
    unfold chordLoop
    rw [h]
    dsimp only
    split
    · exact absurd rfl (hh _ _ _ rfl)
    · rw [hl]
      split
      · rename_i heq; cases heq
      · rename_i heq; cases heq; exact absurd rfl (hs _ _ rfl)
      · rfl

theorem _root_.Alda.Spec.NoteG.head {ts : List Token} {n : Node} (h : NoteG ts n) :
    ∃ t us, ts = t :: us ∧ (t.tok = .restLetter ∨ ∃ c, t.tok = .noteLetter c) := by
  cases h with
  | note l c as ds ss an dn sn hl => exact ⟨l, _, rfl, .inr ⟨c, hl⟩⟩
  | rest l ds dn hl => exact ⟨l, _, rfl, .inl hl⟩

theorem _root_.Alda.Spec.NoteG.noBetween {ts : List Token} {n : Node} (h : NoteG ts n) (R : List Token) : NoBetween (ts ++ R) := by
  obtain ⟨t, us, rfl, ht⟩ := h.head
  intro t' more e
  cases e
  rcases ht with ht | ⟨c, ht⟩ <;> simp [ht]

theorem _root_.Alda.Spec.ChordG.noBetween {ts : List Token} {ns : List Node} (h : ChordG ts ns) (R : List Token) :
    NoBetween (ts ++ R) := by
  cases h with
  | two ts bs cs us sep n m bn cn h1 => simpa using h1.noBetween _
  | more ts bs cs us sep n bn cn ns h1 => simpa using h1.noBetween _

theorem _root_.Alda.Spec.BetweenG.head {ts : List Token} {ns : List Node} (h : BetweenG ts ns) {sep : Token} {R : List Token}
    (hs : sep.tok = .separator) :
    After (ts ++ sep :: R) ∧ (matchBarlines (ts ++ sep :: R)).2 = ts ++ sep :: R ∧
      ∀ t more k, ts ++ sep :: R = t :: more → t.tok ≠ .repeat k := by
  have key : ∃ t more, ts ++ sep :: R = t :: more ∧ (t.tok = .separator ∨ t.tok = .leftParen ∨ t.tok = .octaveUp ∨
      t.tok = .octaveDown ∨ ∃ k, t.tok = .octaveSet k) := by
    cases h with
    | nil => exact ⟨sep, R, rfl, .inl hs⟩
    | octave ts us n ns ho _ =>
      obtain ⟨t, rfl, h⟩ := ho.head
      exact ⟨t, _, rfl, .inr (.inr h)⟩
    | sexp ts us n ns ho _ =>
      obtain ⟨l, us, rfl, hl, _⟩ := lispList_complete ho
      exact ⟨l, _, rfl, .inr (.inl hl)⟩
  obtain ⟨⟨k, x, p⟩, more, e, h⟩ := key
  rw [e]
  rcases h with h | h | h | h | ⟨n, h⟩ <;> cases h <;>
    exact ⟨After.of_head (by simp) (by simp) rfl, matchBarlines_none (by intro t m h; cases h; simp),
      by intro t m k h; cases h; simp⟩

theorem chordLoop_more {ts bs cs us : List Token} {sep : Token} {n : Node} {bn cn : List Node} (h1 : NoteG ts n)
    (h2 : BetweenG bs bn) (hs : sep.tok = .separator) (h3 : BetweenG cs cn) (hu : NoBetween us) {fuel : Nat}
    {nodes : List Node} {times : Int} {R' : List Token} (hr : chordLoop fuel us = .ok (nodes, times, R')) :
    ∃ node, isNoteOrRest node = true ∧
      chordLoop (fuel + 1) (ts ++ (bs ++ sep :: (cs ++ us))) = .ok (node :: bn ++ cn ++ nodes, times, R') := by
  obtain ⟨a1, a2, a3⟩ := h2.head (R := cs ++ us) hs
  obtain ⟨node, R1, e1, e2, e3⟩ := note_complete h1 a1
  rw [a2, or_self] at e3
  subst e3
  refine ⟨node, e2, ?_⟩
  have b1 := between_complete h2 (R := sep :: (cs ++ us)) (by intro t m h; cases h; simp [hs])
    ((bs ++ sep :: (cs ++ us)).length + 1) (by simp; omega)
  have b2 := between_complete h3 hu ((cs ++ us).length + 1) (by simp; omega)
  obtain ⟨k, x, p⟩ := sep
  cases hs
  unfold chordLoop
  rw [e1]
  dsimp only
  split
  · rename_i heq; exact absurd rfl (a3 _ _ _ heq)
  · rw [b1]
    dsimp only
    rw [b2]
    dsimp only
    rw [hr]

theorem chordLoop_complete {ts : List Token} {ns : List Node} (h : ChordG ts ns) {Q : List Token → Prop} {R : List Token}
    (hA : After R) (h1 : Fin Q R) (h2 : Fin Q (matchBarlines R).2) : ∀ fuel, ts.length ≤ fuel →
    ∃ nodes times R', chordLoop fuel (ts ++ R) = .ok (nodes, times, R') ∧ 1 < (nodes.filter isNoteOrRest).length ∧ Q R' := by
  induction h with
  | two ts bs cs us sep n m bn cn hn hb hs hc hm =>
    intro fuel hf
    have l1 := List.length_pos_iff.2 hn.ne_nil
    have l2 := List.length_pos_iff.2 hm.ne_nil
    simp at hf
    obtain ⟨fuel, rfl⟩ : ∃ f, fuel = f + 1 + 1 := ⟨fuel - 2, by omega⟩
    obtain ⟨node, R1, e1, e2, e3⟩ := note_complete hm hA
    have hF : Fin Q R1 := by rcases e3 with rfl | rfl <;> assumption
    obtain ⟨times, R', f1, f2⟩ := chordLoop_last e1 hF fuel
    obtain ⟨node', g1, g2⟩ := chordLoop_more hn hb hs hc (hm.noBetween R) f1
    refine ⟨_, _, _, by simpa using g2, ?_, f2⟩
    simp [List.filter_append, g1, e2]
    omega
  | more ts bs cs us sep n bn cn ns hn hb hs hc hm ih =>
    intro fuel hf
    have l1 := List.length_pos_iff.2 hn.ne_nil
    simp at hf
    obtain ⟨fuel, rfl⟩ : ∃ f, fuel = f + 1 := ⟨fuel - 1, by omega⟩
    obtain ⟨nodes, times, R', f1, f2, f3⟩ := ih fuel (by omega)
    obtain ⟨node', g1, g2⟩ := chordLoop_more hn hb hs hc (hm.noBetween R) f1
    refine ⟨_, _, _, by simpa using g2, ?_, f3⟩
    simp only [List.filter_append, List.filter_cons, g1, if_true, List.length_cons, List.length_append]
    omega

theorem notes_complete {ts : List Token} {n : Node} (h : NotesG ts n) {Q : List Token → Prop} {R : List Token}
    (hA : After R) (h1 : Fin Q R) (h2 : Fin Q (matchBarlines R).2) :
    ∃ n' R', noteRestOrChord (ts ++ R) = .ok (n', R') ∧ Q R' := by
  cases h with
  | single _ h =>
    obtain ⟨node, R1, e1, e2, e3⟩ := note_complete h hA
    have hF : Fin Q R1 := by rcases e3 with rfl | rfl <;> assumption
    obtain ⟨times, R', f1, f2⟩ := chordLoop_last e1 hF (ts ++ R).length
    unfold noteRestOrChord
    rw [f1]
    dsimp only
    simp only [List.filter_cons, e2, if_true, List.filter_nil, List.length_cons, List.length_nil]
    by_cases ht : times > 0
    · exact ⟨_, _, by simp [ht]; rfl, f2⟩
    · exact ⟨_, _, by simp [ht]; rfl, f2⟩
  | chord ns h =>
    obtain ⟨nodes, times, R', f1, f2, f3⟩ := chordLoop_complete h hA h1 h2 ((ts ++ R).length + 1) (by simp; omega)
    unfold noteRestOrChord
    rw [f1]
    dsimp only
    by_cases ht : times > 0
    · exact ⟨_, _, by simp [ht, f2]; rfl, f3⟩
    · exact ⟨_, _, by simp [ht, f2]; rfl, f3⟩

end Accept
end Syn
end Alda
