import Verif.Spec.Grammar
/-!
The parser reads, in every function, tokens that make up the node by the grammar. (For C30.)
-/
namespace Alda
namespace Syn
open Spec

/-- The tokens end with the end of the file, which occurs nowhere else, and no token is on an earlier line than one before
it. -/
def Ends (toks : List Token) : Prop :=
  (∃ ts t, toks = ts ++ [t] ∧ t.tok = .eof ∧ ∀ x ∈ ts, x.tok ≠ .eof) ∧
  toks.Pairwise fun a b => a.pos.line ≤ b.pos.line

theorem Ends.not_nil : ¬ Ends [] := by rintro ⟨⟨ts, t, h, _⟩, _⟩; simp at h

theorem Ends.tail {t : Token} {toks : List Token} (h : Ends (t :: toks)) (ht : t.tok ≠ .eof) : Ends toks := by
  obtain ⟨⟨ts, e, h1, h2, h3⟩, h4⟩ := h
  cases ts with
  | nil => simp at h1; obtain ⟨rfl, _⟩ := h1; exact absurd h2 ht
  | cons a ts =>
    simp at h1
    exact ⟨⟨ts, e, h1.2, h2, fun x hx => h3 x (List.mem_cons_of_mem _ hx)⟩, (List.pairwise_cons.1 h4).2⟩

theorem Ends.eof {t : Token} {toks : List Token} (h : Ends (t :: toks)) (ht : t.tok = .eof) : toks = [] := by
  obtain ⟨⟨ts, e, h1, h2, h3⟩, h4⟩ := h
  cases ts with
  | nil => simp at h1; exact h1.2
  | cons a ts =>
    simp at h1
    exact absurd (h1.1 ▸ ht) (h3 a (List.mem_cons_self ..))

theorem Ends.append {ts toks : List Token} (h : Ends (ts ++ toks)) (hts : ∀ x ∈ ts, x.tok ≠ .eof) : Ends toks := by
  induction ts with
  | nil => exact h
  | cons t ts ih =>
    exact ih (Ends.tail h (hts t (List.mem_cons_self ..))) (fun x hx => hts x (List.mem_cons_of_mem _ hx))

theorem _root_.Alda.Spec.EmptyCram.append {ts toks : List Token} (h : EmptyCram toks) : EmptyCram (ts ++ toks) := by
  obtain ⟨b, a, o, c, h1, h2, h3⟩ := h
  exact ⟨ts ++ b, a, o, c, by simp [h1], h2, h3⟩

/-- What an error may be: at a token, or a panic because of an empty cram. -/
def Fault (toks : List Token) : SynErr → Prop
  | .at pos _ => ∃ t ∈ toks, t.pos = pos
  | .panic _ => EmptyCram toks
  | .unreachable => False

theorem Fault.append {ts toks : List Token} {e : SynErr} (h : Fault toks e) : Fault (ts ++ toks) e := by
  cases e with
  | «at» pos m => obtain ⟨t, h1, h2⟩ := h; exact ⟨t, List.mem_append_right _ h1, h2⟩
  | panic m => exact EmptyCram.append h
  | unreachable => exact h

theorem Fault.cons {t : Token} {toks : List Token} {e : SynErr} (h : Fault toks e) : Fault (t :: toks) e :=
  Fault.append (ts := [t]) h

/-- A result for these tokens. -/
def Reading {α : Type} (G : List Token → α → Prop) (toks : List Token) : Parsed α → Prop
  | .ok (a, left) => ∃ ts, toks = ts ++ left ∧ G ts a ∧ Ends left
  | .error e => Fault toks e

theorem Fault.unexpected {toks : List Token} (h : Ends toks) (c : String) : Fault toks (unexpectedToken c toks) := by
  cases toks with
  | nil => exact absurd h Ends.not_nil
  | cons t ts => exact ⟨t, List.mem_cons_self .., rfl⟩

theorem _root_.Alda.Spec.FormG.ne_nil {ts : List Token} {n : Node} (h : FormG ts n) : ts ≠ [] := by cases h <;> simp

theorem lisp_sound (fuel : Nat) : ∀ toks, Ends toks →
    (2 * toks.length ≤ fuel → Reading FormG toks (lispForm fuel toks)) ∧
    (2 * toks.length + 1 ≤ fuel →
      Reading (fun ts ns => ∃ us r, ts = us ++ [r] ∧ r.tok = .rightParen ∧ FormsG us ns) toks (lispElements fuel toks)) := by
  induction fuel with
  | zero =>
    intro toks he
    refine ⟨fun h => ?_, fun h => absurd h (by omega)⟩
    cases toks with
    | nil => exact absurd he Ends.not_nil
    | cons t ts => simp at h
  | succ fuel ih =>
    intro toks he
    constructor
    · intro hf
      simp only [lispForm]
      split
      · rename_i text pos toks
        exact ⟨[⟨.symbol, text, pos⟩], rfl, .symbol _ rfl, he.tail (by simp)⟩
      · rename_i q text pos toks
        exact ⟨[⟨.number q, text, pos⟩], rfl, .number _ q rfl, he.tail (by simp)⟩
      · rename_i s text pos toks
        exact ⟨[⟨.string s, text, pos⟩], rfl, .string _ s rfl, he.tail (by simp)⟩
      · rename_i text pos toks
        have := (ih toks (he.tail (by simp))).2 (by simp at hf; omega)
        split
        · rename_i e h; rw [h] at this; exact Fault.cons this
        · rename_i forms left h
          rw [h] at this
          obtain ⟨ts, h1, ⟨us, r, h2, h3, h4⟩, h5⟩ := this
          exact ⟨⟨.leftParen, text, pos⟩ :: us ++ [r], by rw [h1, h2]; simp, .list _ r us forms rfl h3 h4, h5⟩
      · exact Fault.unexpected he _
    · intro hf
      simp only [lispElements]
      split
      · rename_i text pos toks
        exact ⟨[⟨.rightParen, text, pos⟩], rfl, ⟨[], _, rfl, rfl, .nil⟩, he.tail (by simp)⟩
      · rename_i text pos toks
        exact ⟨_, List.mem_cons_self .., rfl⟩
      · rename_i h1 h2
        rcases hq : matchQuote toks with ⟨quoted, toks'⟩
        have hq' : Ends toks' ∧ ((quoted = true ∧ ∃ q : Token, q.tok = .singleQuote ∧ toks = q :: toks') ∨
            (quoted = false ∧ toks' = toks)) := by
          unfold matchQuote at hq
          split at hq
          · cases hq
            exact ⟨he.tail (by simp), .inl ⟨rfl, _, rfl, rfl⟩⟩
          · cases hq
            exact ⟨he, .inr ⟨rfl, rfl⟩⟩
        dsimp only
        obtain ⟨he', hq'⟩ := hq'
        have hlen : toks'.length ≤ toks.length := by
          rcases hq' with ⟨_, q, _, h⟩ | ⟨_, h⟩ <;> simp [h]
        have hF : ∀ e, Fault toks' e → Fault toks e := by
          intro e h
          rcases hq' with ⟨_, q, _, h'⟩ | ⟨_, h'⟩
          · rw [h']; exact Fault.cons h
          · rw [← h']; exact h
        have a := (ih toks' he').1 (by omega)
        split
        · rename_i e h; rw [h] at a; exact hF _ a
        · rename_i form left h
          rw [h] at a
          obtain ⟨ts, a1, a2, a3⟩ := a
          have hlt : left.length < toks'.length := by
            have := FormG.ne_nil a2
            cases ts with
            | nil => exact absurd rfl this
            | cons x xs => rw [a1]; simp; omega
          have b := (ih left a3).2 (by omega)
          split
          · rename_i e h; rw [h] at b
            apply hF; rw [a1]; exact Fault.append b
          · rename_i forms left' h
            rw [h] at b
            obtain ⟨us, b1, ⟨vs, r, b2, b3, b4⟩, b5⟩ := b
            rcases hq' with ⟨rfl, q, hq1, hq2⟩ | ⟨rfl, hq2⟩
            · exact ⟨q :: ts ++ vs ++ [r], by rw [hq2, a1, b1, b2]; simp, ⟨_, r, rfl, b3, .quoted q ts vs form forms hq1 a2 b4⟩, b5⟩
            · exact ⟨ts ++ vs ++ [r], by rw [← hq2, a1, b1, b2]; simp, ⟨_, r, rfl, b3, .cons ts vs form forms a2 b4⟩, b5⟩

/-- `lispList` reads what follows the opening parenthesis. -/
theorem lispList_sound (toks : List Token) (he : Ends toks) (l : Token) (hl : l.tok = .leftParen) :
    Reading (fun ts n => SexpG (l :: ts) n) toks (lispList toks) := by
  have := (lisp_sound (2 * toks.length + 1) toks he).2 (Nat.le_refl _)
  unfold lispList
  split
  · rename_i e h; rw [h] at this; exact this
  · rename_i forms left h
    rw [h] at this
    obtain ⟨ts, h1, ⟨us, r, h2, h3, h4⟩, h5⟩ := this
    exact ⟨ts, h1, ⟨by rw [h2]; exact .list l r us forms hl h3 h4, rfl⟩, h5⟩

theorem singleOrRepeated_sound {ts : List Token} {n : Node} {toks : List Token} (he : Ends toks) :
    ∃ us, toks = us ++ (singleOrRepeated n toks).2 ∧ RepeatedG ts n (ts ++ us) (singleOrRepeated n toks).1 ∧
      Ends (singleOrRepeated n toks).2 := by
  unfold singleOrRepeated
  split
  · rename_i k text pos toks
    exact ⟨[⟨.repeat k, text, pos⟩], rfl, .times _ k rfl, he.tail (by simp)⟩
  · exact ⟨[], rfl, by simpa using RepeatedG.once, he⟩

theorem sexp_sound (toks : List Token) (he : Ends toks) (l : Token) (hl : l.tok = .leftParen) :
    Reading (fun ts n => EventG (l :: ts) n) toks (sexp toks) := by
  have := lispList_sound toks he l hl
  unfold sexp
  split
  · rename_i e h; rw [h] at this; exact this
  · rename_i list left h
    rw [h] at this
    obtain ⟨ts, h1, h2, h3⟩ := this
    obtain ⟨us, s1, s2, s3⟩ := singleOrRepeated_sound (ts := l :: ts) (n := list) h3
    show Reading _ _ (Except.ok (singleOrRepeated list left))
    rcases hs : singleOrRepeated list left with ⟨m, left'⟩
    rw [hs] at s1 s2 s3
    exact ⟨ts ++ us, by rw [h1, List.append_assoc]; exact congrArg _ s1, .sexp _ _ _ _ h2 (by simpa using s2), s3⟩

theorem partNames_sound (toks : List Token) (he : Ends toks) : Reading NamesG toks (partNames toks) := by
  fun_induction partNames toks with
  | case1 p1 p2 text pos toks e h ih =>
    have := ih ((he.tail (by simp)).tail (by simp))
    rw [h] at this
    exact Fault.cons (Fault.cons this)
  | case2 p1 p2 text pos toks names left h ih =>
    have := ih ((he.tail (by simp)).tail (by simp))
    rw [h] at this
    obtain ⟨ts, h1, h2, h3⟩ := this
    exact ⟨_ :: _ :: ts, by rw [h1]; rfl, .cons _ _ ts names rfl rfl h2, h3⟩
  | case3 p1 p2 toks h => exact Fault.cons (Fault.unexpected (he.tail (by simp)) _)
  | case4 toks => exact ⟨[], rfl, .nil, he⟩

theorem partDeclaration_sound (name : Token) (toks : List Token) (he : Ends toks) :
    Reading (fun us n => ∃ ts as c ns an, us = ts ++ as ++ [c] ∧ NamesG ts ns ∧ AliasG as an ∧ c.tok = .colon ∧
      n = branch .partDeclaration (branch .partNames
        (atom .partName (.str (String.ofList name.text)) :: ns) :: an)) toks (partDeclaration name toks) := by
  have a := partNames_sound toks he
  unfold partDeclaration
  split
  · rename_i e h; rw [h] at a; exact a
  · rename_i names left h
    rw [h] at a
    obtain ⟨ts, h1, h2, h3⟩ := a
    dsimp only
    rcases hc : matchAlias left with ⟨an, left'⟩
    have key : ∃ as, AliasG as an ∧ left = as ++ left' ∧ Ends left' := by
      unfold matchAlias at hc
      split at hc
      · cases hc
        exact ⟨[_], .some _ _ rfl, rfl, h3.tail (by simp)⟩
      · cases hc
        exact ⟨[], .none, rfl, h3⟩
    dsimp only
    obtain ⟨as, k1, k2, k3⟩ := key
    split
    · rename_i text pos toks
      exact ⟨ts ++ as ++ [⟨.colon, text, pos⟩], by rw [h1, k2]; simp, ⟨ts, as, _, names, an, rfl, h2, k1, rfl, rfl⟩,
        k3.tail (by simp)⟩
    · rw [h1, k2]
      exact Fault.append (Fault.append (Fault.unexpected k3 _))

/-! ### Durations and notes -/

theorem matchDurationComponent_sound {toks : List Token} (he : Ends toks) {n : Node} {left : List Token}
    (h : matchDurationComponent toks = some (n, left)) : ∃ t, toks = t :: left ∧ LengthG t n ∧ Ends left := by
  unfold matchDurationComponent at h
  split at h
  · rename_i d dots text pos toks
    cases h
    refine ⟨_, rfl, ?_, he.tail (by simp)⟩
    by_cases hd : dots > 0
    · rw [if_pos hd]; exact .dotted _ d dots rfl hd
    · rw [if_neg hd]; exact .plain _ d dots rfl (by omega)
  · cases h; exact ⟨_, rfl, .ms _ _ rfl, he.tail (by simp)⟩
  · cases h; exact ⟨_, rfl, .seconds _ _ rfl, he.tail (by simp)⟩
  · cases h

theorem matchBarlines_sound (toks : List Token) (he : Ends toks) :
    ∃ bars, toks = bars ++ (matchBarlines toks).2 ∧ All .barline bars ∧
      (matchBarlines toks).1 = List.replicate bars.length (atom .barline .none) ∧ Ends (matchBarlines toks).2 := by
  fun_induction matchBarlines toks with
  | case1 text pos toks r ih =>
    obtain ⟨bars, h1, h2, h3, h4⟩ := ih (he.tail (by simp))
    refine ⟨_ :: bars, by rw [List.cons_append, ← h1], ?_, ?_, h4⟩
    · intro t ht
      rcases List.mem_cons.1 ht with rfl | ht
      · rfl
      · exact h2 t ht
    · show _ :: r.1 = _
      rw [h3]; rfl
  | case2 toks h => exact ⟨[], rfl, by intro t ht; simp at ht, rfl, he⟩

theorem matchTies_sound (toks : List Token) (he : Ends toks) :
    ∃ ties, toks = ties ++ matchTies toks ∧ All .tie ties ∧ Ends (matchTies toks) := by
  fun_induction matchTies toks with
  | case1 text pos toks ih =>
    obtain ⟨ties, h1, h2, h3⟩ := ih (he.tail (by simp))
    refine ⟨_ :: ties, by rw [List.cons_append, ← h1], ?_, h3⟩
    intro t ht
    rcases List.mem_cons.1 ht with rfl | ht
    · rfl
    · exact h2 t ht
  | case2 toks h => exact ⟨[], rfl, by intro t ht; simp at ht, he⟩

theorem durationLoop_sound (fuel : Nat) (toks : List Token) (he : Ends toks) :
    ∃ ts, toks = ts ++ (durationLoop fuel toks).2 ∧ LengthsG ts (durationLoop fuel toks).1 ∧
      Ends (durationLoop fuel toks).2 := by
  induction fuel generalizing toks with
  | zero => exact ⟨[], rfl, .done [] (by intro t ht; simp at ht), he⟩
  | succ fuel ih =>
    obtain ⟨bars, b1, b2, b3, b4⟩ := matchBarlines_sound toks he
    simp only [durationLoop]
    have stop : ∃ ts, toks = ts ++ (matchBarlines toks).2 ∧ LengthsG ts (matchBarlines toks).1 ∧
        Ends (matchBarlines toks).2 := ⟨bars, b1, b3 ▸ .done bars b2, b4⟩
    split
    · rename_i x text pos toks' hx
      rw [hx] at b4
      have e' := b4.tail (by simp)
      obtain ⟨bars', c1, c2, c3, c4⟩ := matchBarlines_sound toks' e'
      obtain ⟨ties, d1, d2, d3⟩ := matchTies_sound _ c4
      split
      · exact stop
      · rename_i c left hc
        obtain ⟨t, f1, f2, f3⟩ := matchDurationComponent_sound d3 hc
        obtain ⟨ts, g1, g2, g3⟩ := ih left f3
        refine ⟨bars ++ ⟨.tie, text, pos⟩ :: bars' ++ ties ++ t :: ts, ?_, ?_, g3⟩
        · conv => lhs; rw [b1, hx, c1, d1, f1, g1]
          simp
        · have := LengthsG.tied bars bars' ties ⟨.tie, text, pos⟩ t c ts _ b2 rfl c2 d2 f2 g2
          simpa [b3, c3, ← List.replicate_append_replicate] using this
    · exact stop

theorem optionalDuration_sound (toks : List Token) (he : Ends toks) :
    ∃ ts, toks = ts ++ (optionalDuration toks).2 ∧ DurationG ts (optionalDuration toks).1 ∧
      Ends (optionalDuration toks).2 := by
  unfold optionalDuration
  split
  · exact ⟨[], rfl, .none, he⟩
  · rename_i c left h
    obtain ⟨t, h1, h2, h3⟩ := matchDurationComponent_sound he h
    obtain ⟨ts, g1, g2, g3⟩ := durationLoop_sound left.length left h3
    exact ⟨t :: ts, by rw [h1, List.cons_append, ← g1], .some t c ts _ h2 g2, g3⟩

theorem matchAccidentals_sound (toks : List Token) (he : Ends toks) :
    ∃ ts, toks = ts ++ (matchAccidentals toks).2 ∧ AccidentalsG ts (matchAccidentals toks).1 ∧
      Ends (matchAccidentals toks).2 := by
  fun_induction matchAccidentals toks with
  | case1 text pos toks r ih =>
    obtain ⟨ts, h1, h2, h3⟩ := ih (he.tail (by simp))
    exact ⟨_ :: ts, by rw [List.cons_append, ← h1], .flat _ ts _ rfl h2, h3⟩
  | case2 text pos toks r ih =>
    obtain ⟨ts, h1, h2, h3⟩ := ih (he.tail (by simp))
    exact ⟨_ :: ts, by rw [List.cons_append, ← h1], .natural _ ts _ rfl h2, h3⟩
  | case3 text pos toks r ih =>
    obtain ⟨ts, h1, h2, h3⟩ := ih (he.tail (by simp))
    exact ⟨_ :: ts, by rw [List.cons_append, ← h1], .sharp _ ts _ rfl h2, h3⟩
  | case4 toks => exact ⟨[], rfl, .nil, he⟩

theorem matchSlur_sound (toks : List Token) (he : Ends toks) :
    ∃ ss, toks = ss ++ (matchSlur toks).2 ∧ SlurG ss (matchSlur toks).1 ∧ Ends (matchSlur toks).2 := by
  unfold matchSlur
  split
  · exact ⟨[_], rfl, .some _ rfl, he.tail (by simp)⟩
  · exact ⟨[], rfl, .none, he⟩

theorem noteOrRest_sound {toks : List Token} (he : Ends toks) {n : Node} {left : List Token}
    (h : noteOrRest toks = some (n, left)) : ∃ ts, toks = ts ++ left ∧ NoteG ts n ∧ Ends left := by
  unfold noteOrRest at h
  split at h
  · rename_i c text pos toks
    obtain ⟨as, a1, a2, a3⟩ := matchAccidentals_sound toks (he.tail (by simp))
    obtain ⟨ds, d1, d2, d3⟩ := optionalDuration_sound _ a3
    simp only [Option.some.injEq] at h
    unfold note at h
    dsimp only at h
    obtain ⟨ss, s1, s2, s3⟩ := matchSlur_sound _ d3
    rw [Prod.mk.injEq] at h
    obtain ⟨h1, h2⟩ := h
    subst h2
    refine ⟨⟨.noteLetter c, text, pos⟩ :: as ++ ds ++ ss, ?_, ?_, s3⟩
    · conv => lhs; rw [a1, d1, s1]
      simp
    · have := NoteG.note (⟨.noteLetter c, text, pos⟩ : Token) c as ds ss _ _ _ rfl a2 d2 s2
      rw [← h1]
      by_cases hz : (matchAccidentals toks).1 = []
      · rw [if_pos hz] at this; rw [hz]; exact this
      · rw [if_neg hz] at this
        have hz' : ¬ (matchAccidentals toks).1.isEmpty = true := by simpa [List.isEmpty_iff] using hz
        rw [if_neg hz']; exact this
  · rename_i text pos toks
    obtain ⟨ds, d1, d2, d3⟩ := optionalDuration_sound toks (he.tail (by simp))
    simp only [Option.some.injEq, rest, Prod.mk.injEq] at h
    obtain ⟨h1, h2⟩ := h
    subst h2
    refine ⟨⟨.restLetter, text, pos⟩ :: ds, by rw [List.cons_append, ← d1], ?_, d3⟩
    rw [← h1]; exact NoteG.rest _ ds _ rfl d2
  · cases h

theorem nodesBetween_sound (fuel : Nat) (toks : List Token) (he : Ends toks) (hf : toks.length < fuel) :
    Reading BetweenG toks (nodesBetween fuel toks) := by
  induction fuel generalizing toks with
  | zero => omega
  | succ fuel ih =>
    have more : ∀ (ts : List Token) (n : Node) (left : List Token), toks = ts ++ left → ts ≠ [] → Ends left →
        OctaveG ts n ∨ SexpG ts n →
        Reading BetweenG toks (match nodesBetween fuel left with
          | .error e => .error e
          | .ok (nodes, toks) => .ok (n :: nodes, toks)) := by
      intro ts n left h1 h2 h3 h4
      have hlt : left.length < toks.length := by
        cases ts with
        | nil => exact absurd rfl h2
        | cons x xs => rw [h1]; simp; omega
      have a := ih left h3 (by omega)
      split
      · rename_i e h; rw [h] at a; rw [h1]; exact Fault.append a
      · rename_i nodes left' h
        rw [h] at a
        obtain ⟨us, a1, a2, a3⟩ := a
        refine ⟨ts ++ us, by rw [h1, a1]; simp, ?_, a3⟩
        rcases h4 with h4 | h4
        · exact .octave ts us n nodes h4 a2
        · exact .sexp ts us n nodes h4 a2
    simp only [nodesBetween]
    split
    · exact more [_] _ _ rfl (by simp) (he.tail (by simp)) (.inl (.up _ rfl))
    · exact more [_] _ _ rfl (by simp) (he.tail (by simp)) (.inl (.down _ rfl))
    · exact more [_] _ _ rfl (by simp) (he.tail (by simp)) (.inl (.set _ _ rfl))
    · rename_i text pos toks'
      have a := lispList_sound toks' (he.tail (by simp)) ⟨.leftParen, text, pos⟩ rfl
      split
      · rename_i e h; rw [h] at a; exact Fault.cons a
      · rename_i list left h
        rw [h] at a
        obtain ⟨ts, a1, a2, a3⟩ := a
        exact more (⟨.leftParen, text, pos⟩ :: ts) list left (by rw [a1]; rfl) (by simp) a3 (.inr a2)
    · exact ⟨[], rfl, .nil, he⟩

theorem _root_.Alda.Spec.NoteG.isNoteOrRest {ts : List Token} {n : Node} (h : NoteG ts n) : isNoteOrRest n = true := by
  cases h <;> rfl

theorem _root_.Alda.Spec.NoteG.ne_nil {ts : List Token} {n : Node} (h : NoteG ts n) : ts ≠ [] := by cases h <;> simp

theorem _root_.Alda.Spec.BetweenG.filter {ts : List Token} {ns : List Node} (h : BetweenG ts ns) : ns.filter Syn.isNoteOrRest = [] := by
  induction h with
  | nil => rfl
  | octave ts us n ns ho _ ih => rw [List.filter_cons_of_neg, ih]; cases ho <;> simp [Syn.isNoteOrRest, atom, Node.type]
  | sexp ts us n ns ho _ ih => rw [List.filter_cons_of_neg, ih]; simp [Syn.isNoteOrRest, ho.2]

theorem _root_.Alda.Spec.ChordG.filter {ts : List Token} {ns : List Node} (h : ChordG ts ns) : 1 < (ns.filter Syn.isNoteOrRest).length := by
  induction h with
  | two ts bs cs us sep n m bn cn h1 h2 _ h3 h4 =>
    simp [List.filter_append, h1.isNoteOrRest, h2.filter, h3.filter, h4.isNoteOrRest]
  | more ts bs cs us sep n bn cn ns h1 h2 _ h3 _ ih =>
    simp [List.filter_append, h1.isNoteOrRest, h2.filter, h3.filter]
    cases hz : ns.filter Syn.isNoteOrRest with
    | nil => rw [hz] at ih; simp at ih
    | cons x xs => have hx : x ∈ ns.filter Syn.isNoteOrRest := by rw [hz]; simp
                   exact ⟨x, by simpa using hx⟩

/-- What the loop over the notes of a chord reads: the nodes, and the optional repeat. -/
def ChordReading (toks : List Token) : Except SynErr (List Node × Int × List Token) → Prop
  | .error e => Fault toks e
  | .ok (nodes, times, left) => ∃ ts us, toks = ts ++ us ++ left ∧ Ends left ∧ ts ≠ [] ∧
      ((us = [] ∧ times = 0) ∨ ∃ t, us = [t] ∧ t.tok = .repeat times) ∧
      ((∃ n, nodes = [n] ∧ NoteG ts n) ∨ ChordG ts nodes)

theorem chordLoop_sound (fuel : Nat) (toks : List Token) (he : Ends toks) (hf : toks.length < fuel) :
    ChordReading toks (chordLoop fuel toks) := by
  induction fuel generalizing toks with
  | zero => omega
  | succ fuel ih =>
    simp only [chordLoop]
    split
    · exact Fault.unexpected he _
    · rename_i node left hn
      obtain ⟨ts, n1, n2, n3⟩ := noteOrRest_sound he hn
      have single : ChordReading toks (.ok ([node], 0, left)) :=
        ⟨ts, [], by simp [n1], n3, n2.ne_nil, .inl ⟨rfl, rfl⟩, .inl ⟨node, rfl, n2⟩⟩
      split
      · rename_i k text pos left'
        exact ⟨ts, [⟨.repeat k, text, pos⟩], by rw [n1]; simp, n3.tail (by simp), n2.ne_nil, .inr ⟨_, rfl, rfl⟩, .inl ⟨node, rfl, n2⟩⟩
      · have b := nodesBetween_sound (left.length + 1) left n3 (by omega)
        split
        · rename_i e h; rw [h] at b; rw [n1]; exact Fault.append b
        · rename_i before text pos toks' h
          rw [h] at b
          obtain ⟨bs, b1, b2, b3⟩ := b
          have b4 := b3.tail (by simp)
          have c := nodesBetween_sound (toks'.length + 1) toks' b4 (by omega)
          split
          · rename_i e h; rw [h] at c; rw [n1, b1]; exact Fault.append (Fault.append (Fault.cons c))
          · rename_i after toks'' h
            rw [h] at c
            obtain ⟨cs, c1, c2, c3⟩ := c
            have hlt : toks''.length < fuel := by
              have h := hf
              rw [n1, b1, c1] at h
              simp at h; omega
            have d := ih toks'' c3 hlt
            split
            · rename_i e h; rw [h] at d; rw [n1, b1, c1]
              exact Fault.append (Fault.append (Fault.cons (Fault.append d)))
            · rename_i nodes times left' h
              rw [h] at d
              obtain ⟨us, vs, d1, d2, d3, d4, d5⟩ := d
              refine ⟨ts ++ bs ++ ⟨.separator, text, pos⟩ :: cs ++ us, vs, ?_, d2, by simp, d4, .inr ?_⟩
              · rw [n1, b1, c1, d1]; simp
              · rcases d5 with ⟨m, rfl, d5⟩ | d5
                · exact .two ts bs cs us _ node m before after n2 b2 rfl c2 d5
                · exact .more ts bs cs us _ node before after nodes n2 b2 rfl c2 d5
        · exact single

theorem noteRestOrChord_sound (toks : List Token) (he : Ends toks) :
    Reading (fun ts n => ts ≠ [] ∧ EventG ts n) toks (noteRestOrChord toks) := by
  have a := chordLoop_sound (toks.length + 1) toks he (by omega)
  unfold noteRestOrChord
  split
  · rename_i e h; rw [h] at a; exact a
  · rename_i nodes times left h
    rw [h] at a
    obtain ⟨ts, us, a1, a2, a3, a4, a5⟩ := a
    have key : ∃ n, (if (nodes.filter isNoteOrRest).length > 1 then [.mk .chord .none nodes] else nodes) = [n] ∧
        NotesG ts n := by
      rcases a5 with ⟨n, rfl, a5⟩ | a5
      · refine ⟨n, if_neg ?_, .single ts n a5⟩
        have : ([n].filter isNoteOrRest).length ≤ [n].length := List.length_filter_le ..
        simp at this ⊢; omega
      · exact ⟨_, if_pos a5.filter, .chord ts nodes a5⟩
    obtain ⟨n, k1, k2⟩ := key
    dsimp only
    rw [k1]
    dsimp only
    rcases a4 with ⟨rfl, rfl⟩ | ⟨t, rfl, a4⟩
    · rw [if_neg (by omega)]
      exact ⟨ts, by simpa using a1, ⟨a3, .notes ts n k2⟩, a2⟩
    · split
      · rename_i ht
        exact ⟨ts ++ [t], a1, ⟨by simp, .notesTimes ts n t times k2 a4 ht⟩, a2⟩
      · rename_i ht
        exact ⟨ts ++ [t], a1, ⟨by simp, .notesZero ts n t times k2 a4 (by omega)⟩, a2⟩

/-! ### Events -/

/-- What the loops over events read. -/
def LoopG : EventLoop → List Token → List Node → Prop
  | .part, ts, ns => EventsG ts ns
  | .varDef line, ts, ns => LineG line ts ns
  | .seq, ts, ns => ∃ us c, ts = us ++ [c] ∧ c.tok = .eventSeqClose ∧ SeqG us ns
  | .cram, ts, ns => ∃ us c, ts = us ++ [c] ∧ c.tok = .cramClose ∧ EventsG us ns
  | .voice, ts, ns => EventsG ts ns

/-- What it means that the loop is left or not. -/
def StopG (loop : EventLoop) (toks : List Token) : Except SynErr (Option (List Token)) → Prop
  | .error e => Fault toks e
  | .ok (some left) => ∃ ts, toks = ts ++ left ∧ LoopG loop ts [] ∧ Ends left
  | .ok none => ∀ line, loop = .varDef line → ∃ t more, toks = t :: more ∧ t.pos.line = line

theorem stop_sound (loop : EventLoop) (toks : List Token) (he : Ends toks) : StopG loop toks (loop.stop toks) := by
  cases loop with
  | part =>
    simp only [EventLoop.stop]
    split
    · exact ⟨[], rfl, .nil, he⟩
    · split
      · exact ⟨[], rfl, .nil, he⟩
      · intro line h; cases h
  | varDef line =>
    simp only [EventLoop.stop]
    split
    · exact ⟨[], rfl, .nil _, he⟩
    · split
      · rename_i h; intro line' h'; cases h'; exact ⟨_, _, rfl, h⟩
      · exact ⟨[], rfl, .nil _, he⟩
    · exact absurd he Ends.not_nil
  | seq =>
    simp only [EventLoop.stop]
    split
    · exact ⟨[_], rfl, ⟨[], _, rfl, rfl, .nil⟩, he.tail (by simp)⟩
    · exact ⟨_, List.mem_cons_self .., rfl⟩
    · intro line h; cases h
  | cram =>
    simp only [EventLoop.stop]
    split
    · exact ⟨[_], rfl, ⟨[], _, rfl, rfl, .nil⟩, he.tail (by simp)⟩
    · exact ⟨_, List.mem_cons_self .., rfl⟩
    · intro line h; cases h
  | voice =>
    simp only [EventLoop.stop]
    split
    · exact ⟨[], rfl, .nil, he⟩
    · exact ⟨[], rfl, .nil, he⟩
    · exact ⟨[], rfl, .nil, he⟩
    · exact ⟨[], rfl, .nil, he⟩
    · split
      · exact ⟨[], rfl, .nil, he⟩
      · intro line h; cases h

/-- An event, decorated, followed by what the loop reads then. -/
theorem loop_cons {loop : EventLoop} {toks ts left left' : List Token} {n m : Node} (h : toks = ts ++ left)
    (hne : ts ≠ []) (hg : EventG ts n) (he : Ends left)
    (hl : ∀ line, loop = .varDef line → ∃ t more, toks = t :: more ∧ t.pos.line = line)
    (hd : loop.decorate n left = (m, left')) :
    Ends left' ∧ ∃ vs, toks = vs ++ left' ∧ vs ≠ [] ∧ ∀ us ns, LoopG loop us ns → LoopG loop (vs ++ us) (m :: ns) := by
  cases loop with
  | part =>
    simp only [EventLoop.decorate, Prod.mk.injEq] at hd
    obtain ⟨rfl, rfl⟩ := hd
    exact ⟨he, ts, h, hne, fun us ns hu => .cons ts us n ns hg hu⟩
  | varDef line =>
    simp only [EventLoop.decorate, Prod.mk.injEq] at hd
    obtain ⟨rfl, rfl⟩ := hd
    refine ⟨he, ts, h, hne, fun us ns hu => .cons line ts us n ns hg ?_ hu⟩
    intro t ht
    obtain ⟨t', more, e1, e2⟩ := hl line rfl
    cases ts with
    | nil => simp at ht
    | cons a as =>
      simp at ht; subst ht
      rw [e1] at h; simp at h
      rw [← h.1]; exact e2
  | seq =>
    simp only [EventLoop.decorate, withRepetitions] at hd
    split at hd
    · rename_i rs text pos left
      cases hd
      refine ⟨he.tail (by simp), ts ++ [⟨.repetitions rs, text, pos⟩], by rw [h]; simp, by simp, ?_⟩
      rintro us ns ⟨vs, c, rfl, hc, hv⟩
      exact ⟨ts ++ (⟨.repetitions rs, text, pos⟩ : Token) :: vs, c, by simp, hc, .onReps ts vs n ns _ rs hg rfl hv⟩
    · cases hd
      refine ⟨he, ts, h, hne, ?_⟩
      rintro us ns ⟨vs, c, rfl, hc, hv⟩
      exact ⟨ts ++ vs, c, by simp, hc, .cons ts vs n ns hg hv⟩
  | cram =>
    simp only [EventLoop.decorate, Prod.mk.injEq] at hd
    obtain ⟨rfl, rfl⟩ := hd
    refine ⟨he, ts, h, hne, ?_⟩
    rintro us ns ⟨vs, c, rfl, hc, hv⟩
    exact ⟨ts ++ vs, c, by simp, hc, .cons ts vs n ns hg hv⟩
  | voice =>
    simp only [EventLoop.decorate, Prod.mk.injEq] at hd
    obtain ⟨rfl, rfl⟩ := hd
    exact ⟨he, ts, h, hne, fun us ns hu => .cons ts us n ns hg hu⟩

/-- A repeatable node. -/
theorem repeated_sound {toks ts left : List Token} {n : Node} (G : List Token → Node → Prop) (h : toks = ts ++ left)
    (hne : ts ≠ []) (he : Ends left) (hG : ∀ us m, RepeatedG ts n us m → G us m) :
    Reading (fun ts n => ts ≠ [] ∧ G ts n) toks (.ok (singleOrRepeated n left)) := by
  obtain ⟨us, s1, s2, s3⟩ := singleOrRepeated_sound (ts := ts) (n := n) he
  rcases hs : singleOrRepeated n left with ⟨m, left'⟩
  rw [hs] at s1 s2 s3
  exact ⟨ts ++ us, by rw [h, List.append_assoc]; exact congrArg _ s1, ⟨by simp [hne], hG _ _ s2⟩, s3⟩

theorem events_sound (fuel : Nat) : ∀ toks, Ends toks →
    (3 * toks.length ≤ fuel → Reading (fun ts n => ts ≠ [] ∧ EventG ts n) toks (innerEvent fuel toks)) ∧
    (3 * toks.length + 1 ≤ fuel → ∀ loop, Reading (LoopG loop) toks (events fuel loop toks)) ∧
    (3 * toks.length + 2 ≤ fuel → ∀ k (v : Token), v.tok = .voiceMarker k →
      Reading (fun ts ns => VoicesG (v :: ts) ns) toks (voices fuel k toks)) := by
  induction fuel with
  | zero =>
    intro toks he
    refine ⟨fun h => ?_, fun h => absurd h (by omega), fun h => absurd h (by omega)⟩
    cases toks with
    | nil => exact absurd he Ends.not_nil
    | cons t ts => simp at h
  | succ fuel ih =>
    intro toks he
    refine ⟨fun hf => ?_, fun hf => ?_, fun hf => ?_⟩
    · simp only [innerEvent]
      split
      · rename_i text pos toks
        have a := sexp_sound toks (he.tail (by simp)) ⟨.leftParen, text, pos⟩ rfl
        cases hx : sexp toks with
        | error e => rw [hx] at a; exact Fault.cons a
        | ok p =>
          rw [hx] at a
          obtain ⟨ts, a1, a2, a3⟩ := a
          exact ⟨_ :: ts, by rw [a1]; rfl, ⟨by simp, a2⟩, a3⟩
      · rename_i text pos text' pos' toks
        have e1 := (he.tail (by simp)).tail (by simp)
        split
        · exact absurd e1 Ends.not_nil
        · rename_i t more
          split
          · exact ⟨_, List.mem_cons_self .., rfl⟩
          · rename_i hl
            have a := (ih (t :: more) e1).2.1 (by simp at hf ⊢; omega) (.varDef pos.line)
            have hline : t.pos.line = pos.line := by
              have h1 := (List.pairwise_cons.1 he.2).1 t (by simp)
              have h2 : ¬ t.pos.line > pos.line := fun h => hl (.inr h)
              simp at h1; omega
            split
            · rename_i e h; rw [h] at a; exact Fault.cons (Fault.cons a)
            · rename_i nodes left h
              have hne : nodes ≠ [] := by
                rintro rfl
                cases fuel with
                | zero => simp [events] at h
                | succ fuel =>
                  have hs : EventLoop.stop (.varDef pos.line) (t :: more) = .ok none := by
                    simp only [EventLoop.stop]
                    split
                    · rename_i h; simp at h; exact absurd (.inl (by rw [h.1])) hl
                    · rename_i h; simp at h; rw [← h.1, if_pos hline]
                    · rename_i h; cases h
                  simp only [events, hs] at h
                  split at h
                  · cases h
                  · split at h
                    · cases h
                    · cases h
              rw [h] at a
              obtain ⟨ts, a1, a2, a3⟩ := a
              exact ⟨⟨.name, text, pos⟩ :: ⟨.equals, text', pos'⟩ :: ts, by rw [a1]; rfl,
                ⟨by simp, .varDef _ _ ts nodes rfl rfl hne a2⟩, a3⟩
      · rename_i text pos toks _
        exact repeated_sound EventG (ts := [⟨.name, text, pos⟩]) rfl (by simp) (he.tail (by simp))
          (fun us m h => .varRef _ us m rfl h)
      · exact ⟨[_], rfl, ⟨by simp, .octave _ _ (.set _ _ rfl)⟩, he.tail (by simp)⟩
      · exact ⟨[_], rfl, ⟨by simp, .octave _ _ (.up _ rfl)⟩, he.tail (by simp)⟩
      · exact ⟨[_], rfl, ⟨by simp, .octave _ _ (.down _ rfl)⟩, he.tail (by simp)⟩
      · exact noteRestOrChord_sound _ he
      · exact noteRestOrChord_sound _ he
      · exact ⟨[_], rfl, ⟨by simp, .barline _ rfl⟩, he.tail (by simp)⟩
      · rename_i text pos toks
        have a := (ih toks (he.tail (by simp))).2.1 (by simp at hf; omega) .seq
        split
        · rename_i e h; rw [h] at a; exact Fault.cons a
        · rename_i nodes left h
          rw [h] at a
          obtain ⟨ts, a1, ⟨us, c, rfl, hc, hu⟩, a3⟩ := a
          exact repeated_sound EventG (ts := (⟨.eventSeqOpen, text, pos⟩ : Token) :: us ++ [c]) (by rw [a1]; simp) (by simp) a3
            (fun vs m h => .seq _ c us vs nodes m rfl hc hu h)
      · rename_i text pos toks
        have a := (ih toks (he.tail (by simp))).2.1 (by simp at hf; omega) .cram
        split
        · rename_i e h; rw [h] at a; exact Fault.cons a
        · rename_i left h
          rw [h] at a
          obtain ⟨ts, a1, ⟨us, c, rfl, hc, hu⟩, a3⟩ := a
          cases hu
          exact ⟨[], left, ⟨.cramOpen, text, pos⟩, c, by rw [a1]; rfl, rfl, hc⟩
        · rename_i nodes left hne h
          rw [h] at a
          obtain ⟨ts, a1, ⟨us, c, rfl, hc, hu⟩, a3⟩ := a
          obtain ⟨ds, d1, d2, d3⟩ := optionalDuration_sound left a3
          exact repeated_sound EventG (ts := (⟨.cramOpen, text, pos⟩ : Token) :: us ++ c :: ds)
            (by conv => lhs; rw [a1, d1]
                simp) (by simp) d3
            (fun vs m h => .cram _ c us ds vs nodes _ m rfl hc (by rintro rfl; exact hne rfl) hu d2 h)
      · rename_i k text pos toks
        have a := (ih toks (he.tail (by simp))).2.2 (by simp at hf; omega) k ⟨.voiceMarker k, text, pos⟩ rfl
        split
        · rename_i e h; rw [h] at a; exact Fault.cons a
        · rename_i nodes left h
          rw [h] at a
          obtain ⟨ts, a1, a2, a3⟩ := a
          exact ⟨_ :: ts, by rw [a1]; rfl, ⟨by simp, .voices _ nodes a2⟩, a3⟩
      · exact ⟨[_], rfl, ⟨by simp, .marker _ _ rfl⟩, he.tail (by simp)⟩
      · exact ⟨[_], rfl, ⟨by simp, .atMarker _ _ rfl⟩, he.tail (by simp)⟩
      · exact Fault.unexpected he _
    · intro loop
      have s := stop_sound loop toks he
      simp only [events]
      split
      · rename_i e h; rw [h] at s; exact s
      · rename_i left h; rw [h] at s; exact s
      · rename_i h
        rw [h] at s
        have a := (ih toks he).1 (by omega)
        split
        · rename_i e h; rw [h] at a; exact a
        · rename_i node left h
          rw [h] at a
          obtain ⟨ts, a1, ⟨a2, a3⟩, a4⟩ := a
          rcases hd : loop.decorate node left with ⟨m, left'⟩
          obtain ⟨b1, vs, b2, b3, b4⟩ := loop_cons a1 a2 a3 a4 s hd
          dsimp only
          have hlt : left'.length < toks.length := by
            cases vs with
            | nil => exact absurd rfl b3
            | cons x xs => rw [b2]; simp; omega
          have c := (ih left' b1).2.1 (by omega) loop
          split
          · rename_i e h; rw [h] at c; rw [b2]; exact Fault.append c
          · rename_i nodes left'' h
            rw [h] at c
            obtain ⟨us, c1, c2, c3⟩ := c
            exact ⟨vs ++ us, by rw [b2, c1]; simp, b4 us nodes c2, c3⟩
    · intro k v hv
      have a := (ih toks he).2.1 (by omega) .voice
      simp only [voices]
      split
      · rename_i e h; rw [h] at a; exact a
      · rename_i nodes left h
        rw [h] at a
        obtain ⟨ts, a1, a2, a3⟩ := a
        split
        · rename_i m text pos left'
          have e' := a3.tail (by simp)
          split
          · rename_i hm
            subst hm
            exact ⟨ts ++ [(⟨.voiceMarker 0, text, pos⟩ : Token)], by rw [a1]; simp, VoicesG.ended v ⟨.voiceMarker 0, text, pos⟩ k ts nodes hv a2 rfl, e'⟩
          · have hlt : left'.length < toks.length := by rw [a1]; simp; omega
            have c := (ih left' e').2.2 (by omega) m ⟨.voiceMarker m, text, pos⟩ rfl
            split
            · rename_i e h; rw [h] at c; rw [a1]; exact Fault.append (Fault.cons c)
            · rename_i more left'' h
              rw [h] at c
              obtain ⟨us, c1, c2, c3⟩ := c
              exact ⟨ts ++ ⟨.voiceMarker m, text, pos⟩ :: us, by rw [a1, c1]; simp,
                .cons v k ts (⟨.voiceMarker m, text, pos⟩ :: us) nodes more hv a2 c2, c3⟩
        · exact ⟨ts, a1, .last v k ts nodes hv a2, a3⟩

/-! ### Parts -/

theorem partEvents_sound (toks : List Token) (he : Ends toks) :
    Reading (fun ts n => ∃ ns, EventsG ts ns ∧ n = branch .eventSequence ns) toks (partEvents toks) := by
  have a := (events_sound (eventFuel toks) toks he).2.1 (Nat.le_refl _) .part
  unfold partEvents
  split
  · rename_i e h; rw [h] at a; exact a
  · rename_i nodes left h
    rw [h] at a
    obtain ⟨ts, a1, a2, a3⟩ := a
    exact ⟨ts, a1, ⟨nodes, a2, rfl⟩, a3⟩

/-- If the first token is neither the end nor looks like a declaration, the events of a part are not empty. -/
theorem partEvents_progress {toks left : List Token} {n : Node} (he : Ends toks) {t : Token} {more : List Token}
    (ht : toks = t :: more) (hne : t.tok ≠ .eof) (hl : looksLikePartDeclaration toks = false)
    (h : partEvents toks = .ok (n, left)) : left.length < toks.length := by
  unfold partEvents at h
  split at h
  · cases h
  · rename_i nodes left' hev
    cases h
    have hs : EventLoop.stop .part toks = .ok none := by
      simp only [EventLoop.stop]
      split
      · simp at ht; exact absurd (by rw [← ht.1]) hne
      · rw [hl]; rfl
    unfold eventFuel at hev
    simp only [events, hs] at hev
    have a := (events_sound (3 * toks.length) toks he).1 (Nat.le_refl _)
    split at hev
    · cases hev
    · rename_i node l1 h1
      rw [h1] at a
      obtain ⟨ts, a1, ⟨a2, a3⟩, a4⟩ := a
      have hlt : l1.length < toks.length := by
        cases ts with
        | nil => exact absurd rfl a2
        | cons x xs => rw [a1]; simp; omega
      simp only [EventLoop.decorate] at hev
      have b := (events_sound (3 * toks.length) l1 a4).2.1 (by omega) .part
      split at hev
      · cases hev
      · rename_i nodes' l2 h2
        cases hev
        rw [h2] at b
        obtain ⟨us, b1, _, _⟩ := b
        have : l1.length = us.length + left.length := by rw [b1]; simp
        omega

theorem topLevel_sound (t : Token) (more : List Token) (he : Ends (t :: more)) (hne : t.tok ≠ .eof) :
    Reading (fun ts n => ts ≠ [] ∧ PartG ts n) (t :: more) (topLevel (t :: more)) := by
  unfold topLevel
  split
  · rename_i t' more' h
    cases h
    split
    · rename_i hl
      have hname : t.tok = .name := by
        unfold looksLikePartDeclaration at hl
        split at hl
        · rename_i h; simp at h; rw [h.1]
        · cases hl
      have a := partDeclaration_sound t more (he.tail hne)
      split
      · rename_i e h; rw [h] at a; exact Fault.cons a
      · rename_i decl left h
        rw [h] at a
        obtain ⟨us, a1, ⟨ts, as, c, ns, an, rfl, a2, a3, a4, rfl⟩, a5⟩ := a
        have b := partEvents_sound left a5
        split
        · rename_i e h; rw [h] at b; rw [a1]; exact Fault.cons (Fault.append b)
        · rename_i evs left' h
          rw [h] at b
          obtain ⟨vs, b1, ⟨es, b2, rfl⟩, b3⟩ := b
          refine ⟨t :: ts ++ as ++ c :: vs, by rw [a1, b1]; simp, ⟨by simp, ?_⟩, b3⟩
          exact .declared t c ts as vs ns an es hname a2 a3 a4 b2
    · rename_i hl
      have hl : looksLikePartDeclaration (t :: more) = false := by simpa using hl
      have b := partEvents_sound (t :: more) he
      split
      · rename_i e h; rw [h] at b; exact b
      · rename_i evs left' h
        have hp := partEvents_progress he rfl hne hl h
        rw [h] at b
        obtain ⟨vs, b1, ⟨es, b2, rfl⟩, b3⟩ := b
        refine ⟨vs, b1, ⟨?_, .implicit vs es b2⟩, b3⟩
        rintro rfl
        rw [b1] at hp; simp at hp
  · rename_i h; cases h

theorem topLevels_sound (fuel : Nat) (toks : List Token) (he : Ends toks) (hf : toks.length ≤ fuel) :
    Reading PartsG toks (topLevels fuel toks) ∧
    ∀ nodes left, topLevels fuel toks = .ok (nodes, left) → ∃ t, left = [t] ∧ t.tok = .eof := by
  induction fuel generalizing toks with
  | zero =>
    cases toks with
    | nil => exact absurd he Ends.not_nil
    | cons t ts => simp at hf
  | succ fuel ih =>
    simp only [topLevels]
    split
    · exact absurd he Ends.not_nil
    · rename_i t more
      split
      · rename_i ht
        refine ⟨⟨[], rfl, .nil, he⟩, ?_⟩
        intro nodes left h
        cases h
        exact ⟨t, by rw [he.eof ht], ht⟩
      · rename_i ht
        have a := topLevel_sound t more he ht
        split
        · rename_i e h; rw [h] at a; exact ⟨a, by intro _ _ h; cases h⟩
        · rename_i node left h
          rw [h] at a
          obtain ⟨ts, a1, ⟨a2, a3⟩, a4⟩ := a
          have hlt : left.length < (t :: more).length := by
            cases ts with
            | nil => exact absurd rfl a2
            | cons x xs => rw [a1]; simp; omega
          obtain ⟨b, c⟩ := ih left a4 (by omega)
          split
          · rename_i e h; rw [h] at b; rw [a1]; exact ⟨Fault.append b, by intro _ _ h; cases h⟩
          · rename_i nodes left' h
            rw [h] at b
            obtain ⟨us, b1, b2, b3⟩ := b
            refine ⟨⟨ts ++ us, by rw [a1, b1]; simp, .cons ts us node nodes a3 b2, b3⟩, ?_⟩
            intro nodes' left'' h'
            cases h'
            exact c _ _ h

end Syn
end Alda
