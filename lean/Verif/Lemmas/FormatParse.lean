import Verif.Lemmas.FormatStream
/-!
The parser on the tokens of well-formed trees: lisp, durations, notes and chords.
-/
namespace Alda
namespace Syn
open Spec Tree

theorem kindsOf_cons {us : List Token} {k : Tok} {t : List Char} {ks : List Kind} (h : kindsOf us = (k, t) :: ks) :
    ∃ p us', us = ⟨k, t, p⟩ :: us' ∧ kindsOf us' = ks := by
  cases us with
  | nil => simp [kindsOf] at h
  | cons u us =>
    simp only [kindsOf, List.map_cons, List.cons.injEq, Prod.mk.injEq] at h
    obtain ⟨⟨h1, h2⟩, h3⟩ := h
    exact ⟨u.pos, us, by rw [← h1, ← h2], h3⟩

theorem kindsOf_split {us : List Token} {a b : List Kind} (h : kindsOf us = a ++ b) : ∃ u1 u2, us = u1 ++ u2 ∧ kindsOf u1 = a ∧ kindsOf u2 = b := by
  induction a generalizing us with
  | nil => exact ⟨[], us, rfl, rfl, h⟩
  | cons k a ih =>
    obtain ⟨p, us', rfl, h'⟩ := kindsOf_cons (k := k.1) (t := k.2) h
    obtain ⟨u1, u2, rfl, h1, h2⟩ := ih h'
    exact ⟨⟨k.1, k.2, p⟩ :: u1, u2, rfl, by simp [kindsOf] at h1 ⊢; exact h1, h2⟩

theorem kindsOf_nil {us : List Token} (h : kindsOf us = []) : us = [] := by
  cases us with
  | nil => rfl
  | cons u us => simp [kindsOf] at h

/-! ### Lisp -/

mutual
theorem lispForm_run : ∀ (f : Form), f.ok → f.isQuoted = false → ∀ (us R : List Token), kindsOf us = f.kinds → ∀ fuel, 2 * us.length ≤ fuel →
    lispForm fuel (us ++ R) = .ok (f.node, R)
  | .sym s, h, _, us, R, hk, fuel, hf => by
    simp only [Form.kinds] at hk
    obtain ⟨p, us', rfl, h'⟩ := kindsOf_cons hk
    obtain rfl := kindsOf_nil h'
    obtain ⟨fuel, rfl⟩ : ∃ k, fuel = k + 1 := ⟨fuel - 1, by simp at hf; omega⟩
    simp [lispForm, Form.node, atom, leafNode]
  | .num q, h, _, us, R, hk, fuel, hf => by
    simp only [Form.kinds] at hk
    obtain ⟨p, us', rfl, h'⟩ := kindsOf_cons hk
    obtain rfl := kindsOf_nil h'
    obtain ⟨fuel, rfl⟩ : ∃ k, fuel = k + 1 := ⟨fuel - 1, by simp at hf; omega⟩
    simp [lispForm, Form.node, atom, leafNode]
  | .str s, h, _, us, R, hk, fuel, hf => by
    simp only [Form.kinds] at hk
    obtain ⟨p, us', rfl, h'⟩ := kindsOf_cons hk
    obtain rfl := kindsOf_nil h'
    obtain ⟨fuel, rfl⟩ : ∃ k, fuel = k + 1 := ⟨fuel - 1, by simp at hf; omega⟩
    simp [lispForm, Form.node, atom, leafNode]
  | .list fs, h, _, us, R, hk, fuel, hf => by
    simp only [Form.kinds] at hk
    obtain ⟨p, us', rfl, h'⟩ := kindsOf_cons hk
    obtain ⟨u1, u2, rfl, h1, h2⟩ := kindsOf_split h'
    obtain ⟨p2, us2, rfl, h3⟩ := kindsOf_cons h2
    obtain rfl := kindsOf_nil h3
    obtain ⟨fuel, rfl⟩ : ∃ k, fuel = k + 1 := ⟨fuel - 1, by simp at hf; omega⟩
    have := lispElements_run fs (by simpa only [Form.ok] using h) u1 p2 R h1 fuel (by simp at hf; omega)
    simp only [List.cons_append, List.append_assoc, List.nil_append] at this ⊢
    simp only [lispForm, this, Form.node, branch]
  | .quoted f, _, h, _, _, _, _, _ => by simp [Form.isQuoted] at h
theorem lispElements_run : ∀ (fs : List Form), formsOk fs → ∀ (us : List Token) (p : Pos) (R : List Token), kindsOf us = formKinds fs →
    ∀ fuel, 2 * us.length + 1 ≤ fuel → lispElements fuel (us ++ ⟨.rightParen, [')'], p⟩ :: R) = .ok (formNodes fs, R)
  | [], _, us, p, R, hk, fuel, hf => by
    simp only [formKinds] at hk
    obtain rfl := kindsOf_nil hk
    obtain ⟨fuel, rfl⟩ : ∃ k, fuel = k + 1 := ⟨fuel - 1, by omega⟩
    simp [lispElements, formNodes]
  | f :: fs, h, us, p, R, hk, fuel, hf => by
    simp only [formsOk] at h
    simp only [formKinds] at hk
    obtain ⟨u1, u2, rfl, h1, h2⟩ := kindsOf_split hk
    obtain ⟨fuel, rfl⟩ : ∃ k, fuel = k + 1 := ⟨fuel - 1, by omega⟩
    have hlen : 1 ≤ u1.length := by
      cases u1 with
      | nil => exact absurd h1.symm (Form.kinds_ne_nil f)
      | cons => simp
    simp only [List.length_append] at hf
    have hrest := lispElements_run fs h.2 u2 p R h2 fuel (by omega)
    rw [List.append_assoc]
    cases f with
    | quoted f =>
      simp only [Form.ok, Form.kinds] at h h1
      obtain ⟨p1, u1, rfl, h1'⟩ := kindsOf_cons h1
      simp only [List.length_cons] at hf
      have hform := lispForm_run f h.1.1 h.1.2 u1 (u2 ++ ⟨.rightParen, [')'], p⟩ :: R) h1' fuel (by omega)
      simp only [List.cons_append, lispElements, matchQuote, hform, hrest, if_true, formNodes, Form.node, branch]
    | sym s =>
      have hform := lispForm_run (.sym s) h.1 rfl u1 (u2 ++ ⟨.rightParen, [')'], p⟩ :: R) h1 fuel (by omega)
      simp only [Form.kinds] at h1
      obtain ⟨p1, u1, rfl, h1⟩ := kindsOf_cons h1
      simp only [List.cons_append] at hform
      simp [lispElements, matchQuote, hform, hrest, formNodes]
    | num q =>
      have hform := lispForm_run (.num q) h.1 rfl u1 (u2 ++ ⟨.rightParen, [')'], p⟩ :: R) h1 fuel (by omega)
      simp only [Form.kinds] at h1
      obtain ⟨p1, u1, rfl, h1⟩ := kindsOf_cons h1
      simp only [List.cons_append] at hform
      simp [lispElements, matchQuote, hform, hrest, formNodes]
    | str s =>
      have hform := lispForm_run (.str s) h.1 rfl u1 (u2 ++ ⟨.rightParen, [')'], p⟩ :: R) h1 fuel (by omega)
      simp only [Form.kinds] at h1
      obtain ⟨p1, u1, rfl, h1⟩ := kindsOf_cons h1
      simp only [List.cons_append] at hform
      simp [lispElements, matchQuote, hform, hrest, formNodes]
    | list gs =>
      have hform := lispForm_run (.list gs) h.1 rfl u1 (u2 ++ ⟨.rightParen, [')'], p⟩ :: R) h1 fuel (by omega)
      simp only [Form.kinds] at h1
      obtain ⟨p1, u1, rfl, h1⟩ := kindsOf_cons h1
      simp only [List.cons_append] at hform
      simp [lispElements, matchQuote, hform, hrest, formNodes]
end

/-- The tokens of an S-expression after its opening parenthesis. -/
theorem lispList_run {fs : List Form} (h : formsOk fs) {us R : List Token} (hk : kindsOf us = formKinds fs ++ [(.rightParen, [')'])]) :
    lispList (us ++ R) = .ok (branch .lispList (formNodes fs), R) := by
  obtain ⟨u1, u2, rfl, h1, h2⟩ := kindsOf_split hk
  obtain ⟨p2, us2, rfl, h3⟩ := kindsOf_cons h2
  obtain rfl := kindsOf_nil h3
  unfold lispList
  have := lispElements_run fs h u1 p2 R h1 (2 * ((u1 ++ [(⟨.rightParen, [')'], p2⟩ : Token)]) ++ R).length + 1) (by simp; omega)
  rw [List.append_assoc] at this ⊢
  simp only [List.cons_append, List.nil_append] at this ⊢
  rw [this]; rfl

/-! ### Durations -/

/-- The tokens of the components of a duration. -/
def durKinds : Bool → List Comp → List Kind
  | _, [] => []
  | b, c :: cs => if c = .bar then barKind :: durKinds b cs else tieKinds b ++ (c.tok, c.text) :: durKinds true cs

theorem itemKinds_append : ∀ a b, itemKinds (a ++ b) = itemKinds a ++ itemKinds b
  | [], _ => rfl
  | .t _ _ ks :: a, b => by simp only [List.cons_append, itemKinds, itemKinds_append a b, List.append_assoc]
  | .brk :: a, b => by simp only [List.cons_append, itemKinds, itemKinds_append a b]

theorem itemKinds_piece {text : List Char} {ks : List Kind} (h : text = [] → ks = []) : itemKinds (piece text ks) = ks := by
  unfold piece
  split
  · rename_i h0; rw [h (by simpa using h0)]; rfl
  · simp [itemKinds]

theorem durItems_kinds (slur : Bool) : ∀ (cs : List Comp) (text : List Char) (ks : List Kind) (b : Bool), (text = [] → ks = []) →
    (slur = true → cs.getLast? ≠ some .bar) → (slur = true → cs = [] → text ≠ []) → (∀ c ∈ cs, c ≠ .bar → c.text ≠ []) →
    itemKinds (durItems slur cs text ks b) = ks ++ durKinds b cs ++ slurKinds slur
  | [], text, ks, b, h1, _, h3, _ => by
    unfold durItems durKinds
    cases slur with
    | false =>
      split
      · rename_i h0; rw [h1 (by simpa using h0)]; rfl
      · simp [itemKinds, slurKinds]
    | true =>
      have : text.isEmpty = false := by simpa using h3 rfl rfl
      simp [this, itemKinds]
  | c :: cs, text, ks, b, h1, h2, _, h4 => by
    unfold durItems durKinds
    have h4' : ∀ c ∈ cs, c ≠ .bar → c.text ≠ [] := fun x hx => h4 x (List.mem_cons_of_mem _ hx)
    have h2' : slur = true → cs.getLast? ≠ some .bar := by
      intro hs
      have := h2 hs
      cases cs with
      | nil => simp
      | cons d cs => simpa [List.getLast?_cons_cons] using this
    by_cases hc : c = .bar
    · simp only [hc, if_true]
      have hne : slur = true → cs ≠ [] := by
        intro hs he
        subst he hc
        exact h2 hs rfl
      have ih := durItems_kinds slur cs [] [] b (fun _ => rfl) h2' (fun hs he => absurd he (hne hs)) h4'
      rw [itemKinds_append]
      simp only [itemKinds, ih, List.nil_append]
      cases hcs : cs.isEmpty with
      | true =>
        have hs : slur = false := by
          cases slur with
          | false => rfl
          | true => exact absurd (by simpa using hcs) (hne rfl)
        subst hs
        simp only [if_true, tieText, slurKinds, Bool.false_eq_true, if_false, List.append_nil, itemKinds_piece h1]
        simp
      | false =>
        simp only [Bool.false_eq_true, if_false, itemKinds_piece h1]
        simp
    · simp only [hc, if_false]
      have ht := h4 c (List.mem_cons_self ..) hc
      rw [durItems_kinds slur cs _ _ true (by simp [ht]) h2' (by simp [ht]) h4']
      simp

/-- Not a token that goes on with a duration or a slur. -/
def notLength (t : Tok) : Prop := match t with
  | .noteLength _ _ => False
  | .noteLengthMs _ => False
  | .noteLengthSeconds _ => False
  | .tie => False
  | _ => True

/-- After a slur, what follows is no further component of the duration. -/
def Settled (R : List Token) : Prop := matchDurationComponent (matchTies (matchBarlines R).2) = none

theorem matchBarlines_stop {R : List Token} (h : ∀ u us, R = u :: us → u.tok ≠ .barline) : matchBarlines R = ([], R) := by
  cases R with
  | nil => rfl
  | cons u us =>
    obtain ⟨t, x, p⟩ := u
    have := h _ _ rfl
    cases t <;> first | rfl | exact absurd rfl this

theorem component_run {c : Comp} (hc : c ≠ .bar) (p : Pos) (R : List Token) (t : List Char) : matchDurationComponent (⟨c.tok, t, p⟩ :: R) = some (c.node, R) := by
  cases c with
  | bar => exact absurd rfl hc
  | len d dots => simp [Comp.tok, Comp.node, matchDurationComponent, branch, atom, leafNode]
  | ms q => rfl
  | sec q => rfl

theorem component_not_tie {c : Comp} (hc : c ≠ .bar) (p : Pos) (R : List Token) (t : List Char) :
    matchBarlines (⟨c.tok, t, p⟩ :: R) = ([], ⟨c.tok, t, p⟩ :: R) ∧ matchTies (⟨c.tok, t, p⟩ :: R) = ⟨c.tok, t, p⟩ :: R := by
  cases c with
  | bar => exact absurd rfl hc
  | len d dots => exact ⟨rfl, rfl⟩
  | ms q => exact ⟨rfl, rfl⟩
  | sec q => exact ⟨rfl, rfl⟩

/-- What may follow a duration. -/
structure AfterDur (R : List Token) : Prop where
  bar : ∀ u us, R = u :: us → u.tok ≠ .barline
  tie : ∀ u us, R = u :: us → u.tok = .tie → Settled us
  ends : ∀ u us, R = u :: us → u.tok = .tie ∨ notLength u.tok

/-- `durationLoop` on barlines. -/
theorem durationLoop_bar (fuel : Nat) (p : Pos) (t : List Char) (toks : List Token) :
    durationLoop (fuel + 1) (⟨.barline, t, p⟩ :: toks) = (leafNode .barline :: (durationLoop (fuel + 1) toks).1, (durationLoop (fuel + 1) toks).2) := by
  simp only [durationLoop, matchBarlines]
  generalize matchBarlines toks = r
  obtain ⟨bs, toks'⟩ := r
  simp only
  split
  · split <;> rfl
  · rfl

theorem durationLoop_stop (fuel : Nat) {R : List Token} (h : AfterDur R) : durationLoop fuel R = ([], R) := by
  cases fuel with
  | zero => rfl
  | succ fuel =>
    simp only [durationLoop, matchBarlines_stop h.bar]
    split
    · rename_i p t toks
      have := h.tie _ _ rfl rfl
      unfold Settled at this
      simp only [this]
    · rfl

theorem durationLoop_run {R : List Token} (hR : AfterDur R) : ∀ (cs : List Comp) (us : List Token), kindsOf us = durKinds true cs →
    ∀ fuel, us.length ≤ fuel → durationLoop fuel (us ++ R) = (cs.map Comp.node, R)
  | [], us, hk, fuel, _ => by
    obtain rfl := kindsOf_nil hk
    exact durationLoop_stop fuel hR
  | c :: cs, us, hk, fuel, hf => by
    unfold durKinds at hk
    by_cases hc : c = .bar
    · simp only [hc, if_true, barKind] at hk
      obtain ⟨p, us', rfl, h'⟩ := kindsOf_cons hk
      obtain ⟨fuel, rfl⟩ : ∃ k, fuel = k + 1 := ⟨fuel - 1, by simp at hf; omega⟩
      rw [List.cons_append, durationLoop_bar, durationLoop_run hR cs us' h' (fuel + 1) (by simp at hf; omega), hc]
      rfl
    · simp only [hc, if_false, tieKinds, if_true, tieKind, List.singleton_append] at hk
      obtain ⟨p, us', rfl, h'⟩ := kindsOf_cons hk
      obtain ⟨p2, us2, rfl, h2⟩ := kindsOf_cons h'
      obtain ⟨fuel, rfl⟩ : ∃ k, fuel = k + 1 := ⟨fuel - 1, by simp at hf; omega⟩
      have hb : matchBarlines (⟨.tie, ['~'], p⟩ :: ⟨c.tok, c.text, p2⟩ :: (us2 ++ R)) = ([], ⟨.tie, ['~'], p⟩ :: ⟨c.tok, c.text, p2⟩ :: (us2 ++ R)) := rfl
      obtain ⟨hb2, ht2⟩ := component_not_tie hc p2 (us2 ++ R) c.text
      have ih := durationLoop_run hR cs us2 h2 fuel (by simp at hf; omega)
      simp only [List.cons_append, durationLoop, hb, hb2, ht2, component_run hc, ih]
      rfl

theorem optionalDuration_run {R : List Token} {cs : List Comp} (hR : cs ≠ [] → AfterDur R) (h0 : ∀ u us, R = u :: us → cs = [] → u.tok = .tie ∨ notLength u.tok)
    (hb : cs.head? ≠ some .bar) {us : List Token} (hk : kindsOf us = durKinds false cs) : optionalDuration (us ++ R) = (durNodes cs, R) := by
  cases cs with
  | nil =>
    obtain rfl := kindsOf_nil hk
    have : matchDurationComponent R = none := by
      cases R with
      | nil => rfl
      | cons u us =>
        obtain ⟨t, x, p⟩ := u
        have := h0 _ _ rfl rfl
        cases t <;> first | rfl | simp [notLength] at this
    simp [optionalDuration, this, durNodes]
  | cons c cs =>
    have hc : c ≠ .bar := fun h => hb (by rw [h]; rfl)
    simp only [durKinds, hc, if_false, tieKinds, Bool.false_eq_true, List.nil_append] at hk
    obtain ⟨p, us', rfl, h'⟩ := kindsOf_cons hk
    simp only [List.cons_append, optionalDuration, component_run hc]
    rw [durationLoop_run (hR (by simp)) cs us' h' _ (by simp)]
    rfl

/-! ### Notes -/

theorem accidentals_run {R : List Token} (hR : ∀ u us, R = u :: us → u.tok ≠ .flat ∧ u.tok ≠ .natural ∧ u.tok ≠ .sharp) :
    ∀ (accs : List Accidental) (us : List Token), kindsOf us = (accs.map fun a => (accTok a, [accChar a])) → matchAccidentals (us ++ R) = (accs.map accNode, R)
  | [], us, hk => by
    obtain rfl := kindsOf_nil hk
    cases R with
    | nil => rfl
    | cons u us =>
      obtain ⟨t, x, p⟩ := u
      have := hR _ _ rfl
      cases t <;> first | rfl | simp at this
  | a :: accs, us, hk => by
    obtain ⟨p, us', rfl, h'⟩ := kindsOf_cons hk
    have ih := accidentals_run hR accs us' h'
    cases a <;> simp only [List.cons_append, accTok, matchAccidentals, ih] <;> rfl

/-- What may follow a note or a rest. -/
structure AfterNote (tail : Bool) (R : List Token) : Prop where
  acc : ∀ u us, R = u :: us → u.tok ≠ .flat ∧ u.tok ≠ .natural ∧ u.tok ≠ .sharp
  len : ∀ u us, R = u :: us → notLength u.tok
  bar : tail = true → ∀ u us, R = u :: us → u.tok ≠ .barline
  settled : Settled R

theorem durKinds_head {cs : List Comp} {us : List Token} (hk : kindsOf us = durKinds false cs) (hb : cs.head? ≠ some .bar) :
    ∀ u vs, us = u :: vs → ∃ c : Comp, c ≠ .bar ∧ u.tok = c.tok := by
  intro u vs e
  subst e
  cases cs with
  | nil => simp [durKinds, kindsOf] at hk
  | cons c cs =>
    have hc : c ≠ .bar := fun h => hb (by rw [h]; rfl)
    simp only [durKinds, hc, if_false, tieKinds, Bool.false_eq_true, List.nil_append] at hk
    obtain ⟨p, us', e, _⟩ := kindsOf_cons hk
    injection e with e _
    exact ⟨c, hc, by rw [e]⟩

theorem comp_tok {c : Comp} (hc : c ≠ .bar) : c.tok ≠ .flat ∧ c.tok ≠ .natural ∧ c.tok ≠ .sharp ∧ c.tok ≠ .tie ∧ c.tok ≠ .barline := by
  cases c <;> simp [Comp.tok] at hc ⊢

theorem slur_run {R : List Token} (h : ∀ u us, R = u :: us → notLength u.tok) {slur : Bool} {us : List Token} (hk : kindsOf us = slurKinds slur) :
    matchSlur (us ++ R) = (if slur then [atom .tie .none] else [], R) := by
  cases slur with
  | false =>
    obtain rfl := kindsOf_nil hk
    cases R with
    | nil => rfl
    | cons u us =>
      obtain ⟨t, x, p⟩ := u
      have := h _ _ rfl
      cases t <;> first | rfl | simp [notLength] at this
  | true =>
    obtain ⟨p, us', rfl, h'⟩ := kindsOf_cons (k := .tie) (t := ['~']) hk
    obtain rfl := kindsOf_nil h'
    rfl

theorem afterNote_dur {R : List Token} {d : List Comp} {slur : Bool} {us : List Token} (hk : kindsOf us = slurKinds slur) (hR : AfterNote (!d.isEmpty && !slur) R) :
    d ≠ [] → AfterDur (us ++ R) := by
  intro h0
  have h0' : d.isEmpty = false := by simpa using h0
  cases slur with
  | false =>
    obtain rfl := kindsOf_nil hk
    refine ⟨hR.bar (by simp [h0']), fun u us e ht => ?_, fun u us e => Or.inr (hR.len u us e)⟩
    have := hR.len u us e
    rw [ht] at this; exact this.elim
  | true =>
    obtain ⟨p, us', rfl, h'⟩ := kindsOf_cons (k := .tie) (t := ['~']) hk
    obtain rfl := kindsOf_nil h'
    refine ⟨fun u us e => ?_, fun u us e ht => ?_, fun u us e => ?_⟩
    · injection e with e _; rw [← e]; simp
    · injection e with _ e; rw [← e]; exact hR.settled
    · injection e with e _; rw [← e]; simp

/-- The letter of a note has been read. -/
theorem note_parse {c : Char} {accs : List Accidental} {d : List Comp} {slur : Bool} (hd : d.head? ≠ some .bar) {R : List Token}
    (hR : AfterNote (!d.isEmpty && !slur) R) {us : List Token}
    (hk : kindsOf us = (accs.map fun a => (accTok a, [accChar a])) ++ durKinds false d ++ slurKinds slur) :
    note c (us ++ R) = (Ev.node (.note c accs d slur), R) := by
  obtain ⟨u12, u3, rfl, h12, h3⟩ := kindsOf_split hk
  obtain ⟨u1, u2, rfl, h1, h2⟩ := kindsOf_split h12
  rw [List.append_assoc, List.append_assoc]
  have hacc : matchAccidentals (u1 ++ (u2 ++ (u3 ++ R))) = (accs.map accNode, u2 ++ (u3 ++ R)) := by
    refine accidentals_run ?_ accs u1 h1
    intro u us e
    cases u2 with
    | cons v vs =>
      obtain ⟨c, hc, ht⟩ := durKinds_head h2 hd v vs rfl
      injection e with e _
      rw [← e, ht]
      exact ⟨(comp_tok hc).1, (comp_tok hc).2.1, (comp_tok hc).2.2.1⟩
    | nil =>
      cases slur with
      | false =>
        obtain rfl := kindsOf_nil h3
        exact hR.acc u us e
      | true =>
        obtain ⟨p, us', rfl, h'⟩ := kindsOf_cons (k := .tie) (t := ['~']) h3
        injection e with e _
        rw [← e]; simp
  have hdur : optionalDuration (u2 ++ (u3 ++ R)) = (durNodes d, u3 ++ R) := by
    refine optionalDuration_run (afterNote_dur h3 hR) ?_ hd h2
    intro u us e _
    cases slur with
    | false =>
      obtain rfl := kindsOf_nil h3
      exact Or.inr (hR.len u us e)
    | true =>
      obtain ⟨p, us', rfl, h'⟩ := kindsOf_cons (k := .tie) (t := ['~']) h3
      injection e with e _
      rw [← e]; simp
  have hemp : (accs.map accNode).isEmpty = accs.isEmpty := by cases accs <;> rfl
  unfold note
  simp only [hacc, hdur, slur_run hR.len h3, hemp]
  rfl

theorem rest_parse {d : List Comp} (hd : d.head? ≠ some .bar) {R : List Token} (hR : AfterNote (!d.isEmpty) R) {us : List Token}
    (hk : kindsOf us = durKinds false d) : rest (us ++ R) = (Ev.node (.rest d), R) := by
  have hdur : optionalDuration (us ++ R) = (durNodes d, R) := by
    refine optionalDuration_run (afterNote_dur (slur := false) (us := []) rfl (by simpa using hR)) ?_ hd hk
    exact fun u us e _ => Or.inr (hR.len u us e)
  unfold rest
  simp only [hdur]
  rfl

theorem comp_text_ne {d : List Comp} (h : ∀ c ∈ d, c.ok) : ∀ c ∈ d, c ≠ .bar → c.text ≠ [] := by
  intro c hc hb
  obtain ⟨x, xs, e, _⟩ := Comp.text_cons (h c hc) hb
  rw [e]; simp

/-- A note or a rest. -/
theorem noteOrRest_run {e : Ev} (he : e.isNR = true) (hok : e.ok) {us R : List Token} (hk : kindsOf us = itemKinds e.items) (hR : AfterNote e.tailDur R) :
    noteOrRest (us ++ R) = some (e.node, R) := by
  cases e with
  | note c accs d slur =>
    simp only [Ev.ok] at hok
    simp only [Ev.items] at hk
    rw [durItems_kinds slur d _ _ _ (by simp) hok.2.2 (by simp) (comp_text_ne hok.2.1.1)] at hk
    simp only [List.cons_append] at hk
    obtain ⟨p, us', rfl, h'⟩ := kindsOf_cons hk
    simp only [Ev.tailDur] at hR
    simp only [List.cons_append, noteOrRest]
    rw [note_parse hok.2.1.2 hR (by simpa only [List.append_assoc] using h')]
  | rest d =>
    simp only [Ev.ok] at hok
    simp only [Ev.items] at hk
    rw [durItems_kinds false d _ _ _ (by simp) (by simp) (by simp) (comp_text_ne hok.1)] at hk
    simp only [List.cons_append, List.nil_append, slurKinds, Bool.false_eq_true, if_false, List.append_nil] at hk
    obtain ⟨p, us', rfl, h'⟩ := kindsOf_cons hk
    simp only [Ev.tailDur] at hR
    simp only [List.cons_append, noteOrRest]
    rw [rest_parse hok.2 hR h']
  | _ => simp [Ev.isNR] at he

end Syn
end Alda
