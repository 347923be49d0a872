import Verif.Lemmas.JoinFuel
import Verif.Lemmas.FormatChord
/-!
What the parser reads at the end of a text stays the same if another text follows, except that the barlines at the beginning of that text become part of a
duration at the end of the first: notes, rests and chords. (For C56.)
-/
namespace Alda
namespace Syn
open Spec

/-- Events of a part can be read from these tokens. -/
def Cont (B : List Token) : Prop := ∃ f r, events f .part B = .ok r

/-- The end of a text. -/
def AtEnd (E : List Token) : Prop := ∃ x p, E = [⟨.eof, x, p⟩]

/-- The first token of `B` is one that an event, or the end of a text, begins with. -/
theorem Cont.head {B : List Token} (h : Cont B) : ∃ t us, B = t :: us ∧ (t.tok = .eof ∨ startTok t.tok = true) := by
  obtain ⟨f, r, h⟩ := h
  cases f with
  | zero => simp [events] at h
  | succ f =>
    cases B with
    | nil =>
      simp only [events, EventLoop.stop, looksLikePartDeclaration] at h
      cases f <;> simp [innerEvent] at h
    | cons t us =>
      refine ⟨t, us, rfl, ?_⟩
      obtain ⟨t, x, p⟩ := t
      cases t <;> first | exact .inl rfl | exact .inr rfl | skip
      all_goals
        simp only [events, EventLoop.stop, looksLikePartDeclaration] at h
        cases f <;> simp [innerEvent] at h

/-- After one event, others follow. -/
theorem Cont.next {t : Token} {us : List Token} (h : Cont (t :: us)) (ht : t.tok ≠ .eof) (hn : t.tok ≠ .name) :
    ∃ f n R, innerEvent f (t :: us) = .ok (n, R) ∧ Cont R := by
  obtain ⟨f, r, h⟩ := h
  cases f with
  | zero => simp [events] at h
  | succ f =>
    simp only [events] at h
    have hs : EventLoop.part.stop (t :: us) = .ok none := by
      obtain ⟨t, x, p⟩ := t
      cases t <;> first | rfl | exact absurd rfl ht | exact absurd rfl hn
    rw [hs] at h
    simp only at h
    cases hi : innerEvent f (t :: us) with
    | error e => rw [hi] at h; cases h
    | ok r' =>
      obtain ⟨n, R⟩ := r'
      rw [hi] at h
      simp only [EventLoop.decorate] at h
      cases he : events f .part R with
      | error e => rw [he] at h; cases h
      | ok r'' => exact ⟨f, n, R, hi, f, r'', he⟩

theorem Cont.bar {x : List Char} {p : Pos} {us : List Token} (h : Cont (⟨.barline, x, p⟩ :: us)) : Cont us := by
  obtain ⟨f, n, R, h1, h2⟩ := h.next (by simp) (by simp)
  cases f with
  | zero => simp [innerEvent] at h1
  | succ f => simp only [innerEvent, Except.ok.injEq, Prod.mk.injEq] at h1; rw [h1.2]; exact h2

theorem Cont.octave {t : Token} {us : List Token} (h : Cont (t :: us)) (ht : t.tok = .octaveUp ∨ t.tok = .octaveDown ∨ ∃ n, t.tok = .octaveSet n) : Cont us := by
  obtain ⟨t, x, p⟩ := t
  simp only at ht
  obtain ⟨f, n, R, h1, h2⟩ := h.next (by rcases ht with rfl | rfl | ⟨n, rfl⟩ <;> simp) (by rcases ht with rfl | rfl | ⟨n, rfl⟩ <;> simp)
  cases f with
  | zero => simp [innerEvent] at h1
  | succ f =>
    rcases ht with rfl | rfl | ⟨k, rfl⟩ <;>
    · simp only [innerEvent, Except.ok.injEq, Prod.mk.injEq] at h1; rw [h1.2]; exact h2

/-- A parenthesis, and what may follow it. -/
theorem Cont.paren {x : List Char} {p : Pos} {us : List Token} (h : Cont (⟨.leftParen, x, p⟩ :: us)) :
    ∃ n R, lispList us = .ok (n, R) ∧ (Cont R ∨ ∃ k y q vs, R = ⟨.repeat k, y, q⟩ :: vs) := by
  obtain ⟨f, n, R, h1, h2⟩ := h.next (by simp) (by simp)
  cases f with
  | zero => simp [innerEvent] at h1
  | succ f =>
    simp only [innerEvent, sexp] at h1
    cases hl : lispList us with
    | error e => rw [hl] at h1; cases h1
    | ok r =>
      obtain ⟨m, R'⟩ := r
      rw [hl] at h1
      refine ⟨m, R', rfl, ?_⟩
      simp only [singleOrRepeated] at h1
      split at h1
      · exact .inr ⟨_, _, _, _, rfl⟩
      · simp only [Except.ok.injEq, Prod.mk.injEq] at h1
        rw [h1.2]; exact .inl h2

theorem Cont.bars {B : List Token} (h : Cont B) : Cont (matchBarlines B).2 := by
  fun_induction matchBarlines B with
  | case1 x p toks r ih => exact ih h.bar
  | case2 => exact h

theorem lispList_rest {us R : List Token} {n : Node} (h : lispList us = .ok (n, R)) : R.length < us.length := by
  have key : ∀ fuel us, (∀ n R, lispForm fuel us = .ok (n, R) → R.length < us.length) ∧ (∀ ns R, lispElements fuel us = .ok (ns, R) → R.length < us.length) := by
    intro fuel
    induction fuel with
    | zero => intro us; simp [lispForm, lispElements]
    | succ fuel ih =>
      intro us
      constructor
      · intro n R h
        simp only [lispForm] at h
        split at h
        · cases h; simp
        · cases h; simp
        · cases h; simp
        · split at h
          · cases h
          · rename_i forms left hx; cases h
            have := (ih _).2 _ _ hx
            simp only [List.length_cons]; omega
        · cases h
      · intro ns R h
        simp only [lispElements] at h
        split at h
        · cases h; simp
        · cases h
        · rcases hq : matchQuote us with ⟨q, us'⟩
          have hl : us'.length ≤ us.length := by
            unfold matchQuote at hq
            split at hq <;> cases hq <;> simp
          rw [hq] at h
          simp only at h
          split at h
          · cases h
          · rename_i form left hx
            split at h
            · cases h
            · rename_i forms left' hy
              cases h
              have := (ih _).1 _ _ hx
              have := (ih _).2 _ _ hy
              omega
  unfold lispList at h
  split at h
  · cases h
  · rename_i forms left hx; cases h; exact (key _ _).2 _ _ hx

theorem nodesBetween_more {f f' : Nat} : ∀ {T : List Token} {r : List Node × List Token}, nodesBetween f T = .ok r → f ≤ f' → nodesBetween f' T = .ok r := by
  induction f generalizing f' with
  | zero => intro T r h; simp [nodesBetween] at h
  | succ f ih =>
    intro T r h hf
    obtain ⟨f', rfl⟩ : ∃ k, f' = k + 1 := ⟨f' - 1, by omega⟩
    have hm : ∀ {U r'}, nodesBetween f U = .ok r' → nodesBetween f' U = .ok r' := fun h => ih h (by omega)
    simp only [nodesBetween] at h ⊢
    split at h
    all_goals first | exact h | skip
    · rename_i U
      cases hx : nodesBetween f U with
      | error e => rw [hx] at h; cases h
      | ok r' => rw [hx] at h; simp only [hm hx]; exact h
    · rename_i U
      cases hx : nodesBetween f U with
      | error e => rw [hx] at h; cases h
      | ok r' => rw [hx] at h; simp only [hm hx]; exact h
    · rename_i U
      cases hx : nodesBetween f U with
      | error e => rw [hx] at h; cases h
      | ok r' => rw [hx] at h; simp only [hm hx]; exact h
    · rename_i U
      cases hl : lispList U with
      | error e => rw [hl] at h; cases h
      | ok rl =>
        obtain ⟨list, U'⟩ := rl
        rw [hl] at h
        simp only at h ⊢
        cases hx : nodesBetween f U' with
        | error e => rw [hx] at h; cases h
        | ok r' => rw [hx] at h; simp only [hm hx]; exact h

theorem calm_paren {x : List Char} {p : Pos} {us R : List Token} {n : Node} (h : lispList us = .ok (n, R)) (hc : Calm R) : Calm (⟨.leftParen, x, p⟩ :: us) := by
  obtain ⟨ns, R', h1, h2⟩ := hc.between
  refine ⟨⟨n :: ns, R', fun fuel hf => ?_, h2⟩, rfl⟩
  obtain ⟨fuel, rfl⟩ : ∃ k, fuel = k + 1 := ⟨fuel - 1, by simp at hf; omega⟩
  have := lispList_rest h
  simp only [List.length_cons] at hf
  simp only [nodesBetween, h, h1 fuel (by omega)]

/-- What follows is neither an error nor a further note of a chord, nor a further component of a duration. -/
theorem Cont.calm (k : Nat) : ∀ {B : List Token}, B.length ≤ k → Cont B → Calm B := by
  induction k with
  | zero => intro B hB h; obtain ⟨t, us, rfl, _⟩ := h.head; simp at hB
  | succ k ih =>
    intro B hB h
    obtain ⟨t, us, rfl, ht⟩ := h.head
    simp only [List.length_cons] at hB
    obtain ⟨t, x, p⟩ := t
    cases t <;> first | exact calm_plain us rfl | (simp [startTok] at ht; done) | skip
    · exact calm_bar rfl (ih (by omega) h.bar)
    · obtain ⟨n, R, h1, h2⟩ := h.paren
      have := lispList_rest h1
      refine calm_paren h1 ?_
      rcases h2 with h2 | ⟨k, y, q, vs, rfl⟩
      · exact ih (by omega) h2
      · exact calm_plain vs rfl
    · exact calm_octave (.inr (.inl rfl)) (ih (by omega) (h.octave (.inr (.inl rfl))))
    · rename_i n; exact calm_octave (.inr (.inr ⟨n, rfl⟩)) (ih (by omega) (h.octave (.inr (.inr ⟨n, rfl⟩))))
    · exact calm_octave (.inl rfl) (ih (by omega) (h.octave (.inl rfl)))

/-! ### Durations -/

/-- `B'` is what is left of `B` when some barlines at its beginning are taken away. -/
def Bars (B B' : List Token) : Prop := ∃ bs, B = bs ++ B' ∧ ∀ b ∈ bs, b.tok = .barline

theorem Bars.refl (B : List Token) : Bars B B := ⟨[], rfl, by simp⟩

theorem bars_match (B : List Token) : Bars B (matchBarlines B).2 ∧ ∃ k, (matchBarlines B).1 = List.replicate k (leafNode .barline) := by
  fun_induction matchBarlines B with
  | case1 x p toks r ih =>
    obtain ⟨⟨bs, h1, h2⟩, k, h3⟩ := ih
    refine ⟨⟨⟨.barline, x, p⟩ :: bs, by rw [List.cons_append, ← h1], ?_⟩, k + 1, ?_⟩
    · intro b hb
      rcases List.mem_cons.1 hb with rfl | hb
      · rfl
      · exact h2 b hb
    · show leafNode .barline :: _ = _
      rw [h3, List.replicate_succ]
  | case2 => exact ⟨.refl _, 0, rfl⟩

theorem Bars.cont {B B' : List Token} (hb : Bars B B') (h : Cont B) : Cont B' := by
  obtain ⟨bs, rfl, hb⟩ := hb
  induction bs with
  | nil => exact h
  | cons b bs ih =>
    obtain ⟨t, x, p⟩ := b
    have : t = .barline := hb _ (List.mem_cons_self ..)
    subst this
    exact ih (fun b hb' => hb b (List.mem_cons_of_mem _ hb')) h.bar

variable {E B : List Token}

theorem matchBarlines_ext (hE : AtEnd E) (A : List Token) : ∃ A2, (matchBarlines (A ++ E)).2 = A2 ++ E ∧ A2.length ≤ A.length ∧
    (A2 ≠ [] → matchBarlines (A ++ B) = ((matchBarlines (A ++ E)).1, A2 ++ B)) ∧
    (A2 = [] → matchBarlines (A ++ B) = ((matchBarlines (A ++ E)).1 ++ (matchBarlines B).1, (matchBarlines B).2)) := by
  obtain ⟨ex, ep, rfl⟩ := hE
  induction A with
  | nil => exact ⟨[], rfl, Nat.le_refl _, fun h => absurd rfl h, fun _ => rfl⟩
  | cons t A ih =>
    obtain ⟨t, x, p⟩ := t
    by_cases ht : t = .barline
    · subst ht
      obtain ⟨A2, h1, h2, h3, h4⟩ := ih
      refine ⟨A2, h1, by simp only [List.length_cons]; omega, fun h => ?_, fun h => ?_⟩
      · simp only [List.cons_append, matchBarlines, h3 h]
      · simp only [List.cons_append, matchBarlines, h4 h]
    · have e : ∀ X, matchBarlines ((⟨t, x, p⟩ :: A) ++ X) = ([], (⟨t, x, p⟩ :: A) ++ X) := by
        intro X
        refine matchBarlines_stop ?_
        intro u us h
        simp only [List.cons_append, List.cons.injEq] at h
        rw [← h.1]; exact ht
      exact ⟨⟨t, x, p⟩ :: A, by rw [e], Nat.le_refl _, fun _ => by rw [e, e], fun h => by cases h⟩

theorem matchTies_ext (hE : AtEnd E) (A : List Token) : ∃ A2, matchTies (A ++ E) = A2 ++ E ∧ A2.length ≤ A.length ∧
    (A2 ≠ [] → matchTies (A ++ B) = A2 ++ B) ∧ (A2 = [] → matchTies (A ++ B) = matchTies B) := by
  obtain ⟨ex, ep, rfl⟩ := hE
  induction A with
  | nil => exact ⟨[], rfl, Nat.le_refl _, fun h => absurd rfl h, fun _ => rfl⟩
  | cons t A ih =>
    obtain ⟨t, x, p⟩ := t
    by_cases ht : t = .tie
    · subst ht
      obtain ⟨A2, h1, h2, h3, h4⟩ := ih
      exact ⟨A2, h1, by simp only [List.length_cons]; omega, fun h => h3 h, fun h => h4 h⟩
    · have e : ∀ X, matchTies ((⟨t, x, p⟩ :: A) ++ X) = (⟨t, x, p⟩ :: A) ++ X := by
        intro X
        simp only [List.cons_append]
        cases t <;> first | rfl | exact absurd rfl ht
      exact ⟨⟨t, x, p⟩ :: A, e _, Nat.le_refl _, fun _ => e _, fun h => by cases h⟩

theorem component_ext (t : Token) (A : List Token) : (∀ X, matchDurationComponent ((t :: A) ++ X) = none) ∨
    ∃ c, ∀ X, matchDurationComponent ((t :: A) ++ X) = some (c, A ++ X) := by
  obtain ⟨t, x, p⟩ := t
  cases t <;> first | exact .inl fun _ => rfl | exact .inr ⟨_, fun _ => rfl⟩

theorem component_end (hE : AtEnd E) : matchDurationComponent E = none := by obtain ⟨x, p, rfl⟩ := hE; rfl

theorem Cont.no_length (h : Cont B) : matchDurationComponent B = none ∧ matchTies B = B ∧ ∀ u us, B = u :: us → u.tok ≠ .tie := by
  obtain ⟨t, us, rfl, ht⟩ := h.head
  obtain ⟨t, x, p⟩ := t
  cases t <;> first | exact ⟨rfl, rfl, by intro u us e; cases e; simp⟩ | (simp [startTok] at ht; done)

theorem durationLoop_halt {f : Nat} {T T1 : List Token} {bars : List Node} (h : matchBarlines T = (bars, T1)) (ht : ∀ u us, T1 = u :: us → u.tok ≠ .tie) :
    durationLoop (f + 1) T = (bars, T1) := by
  simp only [durationLoop]
  rw [h]
  simp only
  split
  · exact absurd rfl (ht _ _ rfl)
  · rfl

theorem durationLoop_untied {f : Nat} {T U V : List Token} {bars more : List Node} {x : List Char} {p : Pos} (h : matchBarlines T = (bars, ⟨.tie, x, p⟩ :: U))
    (h2 : matchBarlines U = (more, V)) (h3 : matchDurationComponent (matchTies V) = none) :
    durationLoop (f + 1) T = (bars, ⟨.tie, x, p⟩ :: U) := by
  simp only [durationLoop]
  rw [h]
  simp only
  rw [h2]
  simp only [h3]

theorem durationLoop_some {f : Nat} {T U V W : List Token} {bars more : List Node} {x : List Char} {p : Pos} {c : Node} (h : matchBarlines T = (bars, ⟨.tie, x, p⟩ :: U))
    (h2 : matchBarlines U = (more, V)) (h3 : matchDurationComponent (matchTies V) = some (c, W)) :
    durationLoop (f + 1) T = (bars ++ more ++ c :: (durationLoop f W).1, (durationLoop f W).2) := by
  simp only [durationLoop]
  rw [h]
  simp only
  rw [h2]
  simp only [h3]

theorem durationLoop_ext (hE : AtEnd E) (hB : Cont B) (f : Nat) : ∀ (f' : Nat) (A : List Token), A.length < f → A.length < f' →
    ∃ A2, (durationLoop f (A ++ E)).2 = A2 ++ E ∧ A2.length ≤ A.length ∧
    (A2 ≠ [] → durationLoop f' (A ++ B) = ((durationLoop f (A ++ E)).1, A2 ++ B)) ∧
    (A2 = [] → durationLoop f' (A ++ B) = ((durationLoop f (A ++ E)).1 ++ (matchBarlines B).1, (matchBarlines B).2)) := by
  have hB1 := hB.bars.no_length
  have hB0 := hB.no_length
  induction f with
  | zero => intro f' A h; omega
  | succ f ih =>
    intro f' A hf hf'
    obtain ⟨f', rfl⟩ : ∃ k, f' = k + 1 := ⟨f' - 1, by omega⟩
    obtain ⟨A1, a1, a2, a3, a4⟩ := matchBarlines_ext (B := B) hE A
    have eE : matchBarlines (A ++ E) = ((matchBarlines (A ++ E)).1, A1 ++ E) := by rw [← a1]
    generalize (matchBarlines (A ++ E)).1 = bars at eE a3 a4
    cases A1 with
    | nil =>
      have e1 : durationLoop (f + 1) (A ++ E) = (bars, E) := durationLoop_halt eE (by
        obtain ⟨ex, ep, rfl⟩ := hE; intro u us h; cases h; simp)
      rw [e1]
      exact ⟨[], rfl, by simp, fun h => absurd rfl h, fun _ => durationLoop_halt (a4 rfl) hB1.2.2⟩
    | cons t A1 =>
      have eB := a3 (by simp)
      obtain ⟨t, x, p⟩ := t
      by_cases ht : t = .tie
      · subst ht
        simp only [List.cons_append] at eE eB
        simp only [List.length_cons] at a2
        obtain ⟨A3, b1, b2, b3, b4⟩ := matchBarlines_ext (B := B) hE A1
        have fE : matchBarlines (A1 ++ E) = ((matchBarlines (A1 ++ E)).1, A3 ++ E) := by rw [← b1]
        generalize (matchBarlines (A1 ++ E)).1 = more at fE b3 b4
        obtain ⟨A4, c1, c2, c3, c4⟩ := matchTies_ext (B := B) hE A3
        have done : matchDurationComponent (A4 ++ E) = none → matchDurationComponent (matchTies (matchBarlines (A1 ++ B)).2) = none →
            ∃ A2, (durationLoop (f + 1) (A ++ E)).2 = A2 ++ E ∧ A2.length ≤ A.length ∧
            (A2 ≠ [] → durationLoop (f' + 1) (A ++ B) = ((durationLoop (f + 1) (A ++ E)).1, A2 ++ B)) ∧
            (A2 = [] → durationLoop (f' + 1) (A ++ B) = ((durationLoop (f + 1) (A ++ E)).1 ++ (matchBarlines B).1, (matchBarlines B).2)) := by
          intro h1 h2
          rw [durationLoop_untied eE fE (by rw [c1]; exact h1), durationLoop_untied eB rfl h2]
          exact ⟨⟨.tie, x, p⟩ :: A1, rfl, by simp only [List.length_cons]; omega, fun _ => rfl, fun h => by cases h⟩
        cases A4 with
        | nil =>
          refine done (component_end hE) ?_
          by_cases h3 : A3 = []
          · rw [b4 h3, hB1.2.1]; exact hB1.1
          · rw [b3 h3, c4 rfl, hB0.2.1]; exact hB0.1
        | cons u A4 =>
          have h3 : A3 ≠ [] := by intro h; subst h; simp at c2
          have fB : matchBarlines (A1 ++ B) = (more, A3 ++ B) := b3 h3
          rcases component_ext u A4 with hn | ⟨c, hc⟩
          · refine done (hn E) ?_
            rw [fB, c3 (by simp)]; exact hn B
          · rw [durationLoop_some eE fE (by rw [c1]; exact hc E), durationLoop_some eB fB (by rw [c3 (by simp)]; exact hc B)]
            simp only [List.length_cons] at c2
            obtain ⟨A2, d1, d2, d3, d4⟩ := ih f' A4 (by omega) (by omega)
            refine ⟨A2, d1, by omega, fun h => by rw [d3 h], fun h => by rw [d4 h]; simp⟩
      · have e : ∀ X u us, (⟨t, x, p⟩ :: A1) ++ X = u :: us → u.tok ≠ .tie := by
          intro X u us h
          simp only [List.cons_append, List.cons.injEq] at h
          rw [← h.1]; exact ht
        rw [durationLoop_halt eE (e E)]
        exact ⟨⟨t, x, p⟩ :: A1, rfl, a2, fun _ => durationLoop_halt eB (e B), fun h => by cases h⟩

/-- Some barlines. -/
def barNodes (k : Nat) : List Node := List.replicate k (leafNode .barline)

/-- `n'` is `n` with barlines added to the duration at its end. -/
inductive Longer : Node → Node → Prop
  | refl (n : Node) : Longer n n
  | note (laa : Node) (ds : List Node) (k : Nat) (h : ds ≠ []) : Longer (.mk .note .none [laa, .mk .duration .none ds]) (.mk .note .none [laa, .mk .duration .none (ds ++ barNodes k)])
  | rest (ds : List Node) (k : Nat) (h : ds ≠ []) : Longer (.mk .rest .none [.mk .duration .none ds]) (.mk .rest .none [.mk .duration .none (ds ++ barNodes k)])
  | cram (es : Node) (ds : List Node) (k : Nat) (h : ds ≠ []) : Longer (.mk .cram .none [es, .mk .duration .none ds]) (.mk .cram .none [es, .mk .duration .none (ds ++ barNodes k)])
  | chord (ns : List Node) {n n' : Node} : Longer n n' → Longer (.mk .chord .none (ns ++ [n])) (.mk .chord .none (ns ++ [n']))
  | varDef (name : Node) (ns : List Node) {n n' : Node} : Longer n n' → Longer (.mk .variableDefinition .none [name, .mk .eventSequence .none (ns ++ [n])])
      (.mk .variableDefinition .none [name, .mk .eventSequence .none (ns ++ [n'])])

theorem Longer.type {n n' : Node} (h : Longer n n') : n'.type = n.type := by cases h <;> rfl

/-- The lists are the same up to barlines in the duration at their end. -/
def LongerL (ns ns' : List Node) : Prop := ns' = ns ∨ ∃ ms n n', ns = ms ++ [n] ∧ ns' = ms ++ [n'] ∧ Longer n n'

theorem optionalDuration_ext (hE : AtEnd E) (hB : Cont B) (A : List Token) : ∃ A2, (optionalDuration (A ++ E)).2 = A2 ++ E ∧ A2.length ≤ A.length ∧
    (A2 ≠ [] → optionalDuration (A ++ B) = ((optionalDuration (A ++ E)).1, A2 ++ B)) ∧
    (A2 = [] → optionalDuration (A ++ B) = ((optionalDuration (A ++ E)).1, B) ∨
      ∃ ds k, ds ≠ [] ∧ (optionalDuration (A ++ E)).1 = [.mk .duration .none ds] ∧
        optionalDuration (A ++ B) = ([.mk .duration .none (ds ++ barNodes k)], (matchBarlines B).2)) := by
  have hlE : 0 < E.length := by obtain ⟨x, p, rfl⟩ := hE; simp
  have hlB : 0 < B.length := by obtain ⟨t, us, rfl, _⟩ := hB.head; simp
  cases A with
  | nil =>
    have h1 : optionalDuration ([] ++ E) = ([], E) := by simp only [List.nil_append, optionalDuration, component_end hE]
    have h2 : optionalDuration ([] ++ B) = ([], B) := by simp only [List.nil_append, optionalDuration, hB.no_length.1]
    rw [h1, h2]
    exact ⟨[], rfl, Nat.le_refl _, fun h => absurd rfl h, fun _ => .inl rfl⟩
  | cons t A =>
    rcases component_ext t A with hn | ⟨c, hc⟩
    · simp only [optionalDuration, hn]
      exact ⟨t :: A, rfl, Nat.le_refl _, fun _ => rfl, fun h => by cases h⟩
    · simp only [optionalDuration, hc]
      obtain ⟨A2, h1, h2, h3, h4⟩ := durationLoop_ext hE hB (A ++ E).length (A ++ B).length A (by simp only [List.length_append]; omega) (by simp only [List.length_append]; omega)
      refine ⟨A2, h1, by simp only [List.length_cons]; omega, fun h => by rw [h3 h], fun h => .inr ?_⟩
      obtain ⟨k, hk⟩ := (bars_match B).2
      refine ⟨_, k, by simp, rfl, ?_⟩
      rw [h4 h, hk]; rfl

theorem matchAccidentals_ext (hE : AtEnd E) (hB : Cont B) (A : List Token) : ∃ A2, (matchAccidentals (A ++ E)).2 = A2 ++ E ∧ A2.length ≤ A.length ∧
    matchAccidentals (A ++ B) = ((matchAccidentals (A ++ E)).1, A2 ++ B) := by
  induction A with
  | nil =>
    have h1 : matchAccidentals ([] ++ E) = ([], E) := by obtain ⟨x, p, rfl⟩ := hE; rfl
    have h2 : matchAccidentals ([] ++ B) = ([], B) := by
      obtain ⟨t, us, rfl, ht⟩ := hB.head
      obtain ⟨t, x, p⟩ := t
      cases t <;> first | rfl | (simp [startTok] at ht; done)
    rw [h1, h2]
    exact ⟨[], rfl, Nat.le_refl _, rfl⟩
  | cons t A ih =>
    obtain ⟨A2, h1, h2, h3⟩ := ih
    obtain ⟨t, x, p⟩ := t
    have go : ∀ nt, (∀ X : List Token, matchAccidentals (⟨t, x, p⟩ :: A ++ X) = (leafNode nt :: (matchAccidentals (A ++ X)).1, (matchAccidentals (A ++ X)).2)) →
        ∃ A2, (matchAccidentals (⟨t, x, p⟩ :: A ++ E)).2 = A2 ++ E ∧ A2.length ≤ (⟨t, x, p⟩ :: A : List Token).length ∧
        matchAccidentals (⟨t, x, p⟩ :: A ++ B) = ((matchAccidentals (⟨t, x, p⟩ :: A ++ E)).1, A2 ++ B) := by
      intro nt h
      rw [h, h, h3]
      exact ⟨A2, h1, by simp only [List.length_cons]; omega, rfl⟩
    cases t with
    | flat => exact go .flat fun _ => rfl
    | natural => exact go .natural fun _ => rfl
    | sharp => exact go .sharp fun _ => rfl
    | _ => exact ⟨⟨_, x, p⟩ :: A, rfl, Nat.le_refl _, rfl⟩

theorem matchSlur_ext (hE : AtEnd E) (hB : Cont B) (A : List Token) : ∃ A2, (matchSlur (A ++ E)).2 = A2 ++ E ∧ A2.length ≤ A.length ∧
    matchSlur (A ++ B) = ((matchSlur (A ++ E)).1, A2 ++ B) := by
  cases A with
  | nil =>
    have h1 : matchSlur ([] ++ E) = ([], E) := by obtain ⟨x, p, rfl⟩ := hE; rfl
    have h2 : matchSlur ([] ++ B) = ([], B) := by
      obtain ⟨t, us, rfl, ht⟩ := hB.head
      obtain ⟨t, x, p⟩ := t
      cases t <;> first | rfl | (simp [startTok] at ht; done)
    rw [h1, h2]
    exact ⟨[], rfl, Nat.le_refl _, rfl⟩
  | cons t A =>
    obtain ⟨t, x, p⟩ := t
    cases t with
    | tie => exact ⟨A, rfl, by simp, rfl⟩
    | _ => exact ⟨⟨_, x, p⟩ :: A, rfl, Nat.le_refl _, rfl⟩

theorem slur_none (hB : Cont B) : matchSlur B = ([], B) := by
  obtain ⟨t, us, rfl, ht⟩ := hB.head
  obtain ⟨t, x, p⟩ := t
  cases t <;> first | rfl | (simp [startTok] at ht; done)

theorem note_ext (hE : AtEnd E) (hB : Cont B) (c : Char) (A : List Token) : ∃ A2, (note c (A ++ E)).2 = A2 ++ E ∧ A2.length ≤ A.length ∧
    (A2 ≠ [] → note c (A ++ B) = ((note c (A ++ E)).1, A2 ++ B)) ∧
    (A2 = [] → ∃ n' B', note c (A ++ B) = (n', B') ∧ Bars B B' ∧ Longer (note c (A ++ E)).1 n') := by
  obtain ⟨A1, a1, a2, a3⟩ := matchAccidentals_ext hE hB A
  have aE : matchAccidentals (A ++ E) = ((matchAccidentals (A ++ E)).1, A1 ++ E) := by rw [← a1]
  generalize (matchAccidentals (A ++ E)).1 = accs at aE a3
  obtain ⟨A3, b1, b2, b3, b4⟩ := optionalDuration_ext hE hB A1
  have bE : optionalDuration (A1 ++ E) = ((optionalDuration (A1 ++ E)).1, A3 ++ E) := by rw [← b1]
  generalize (optionalDuration (A1 ++ E)).1 = dur at bE b3 b4
  obtain ⟨A4, c1, c2, c3⟩ := matchSlur_ext hE hB A3
  have cE : matchSlur (A3 ++ E) = ((matchSlur (A3 ++ E)).1, A4 ++ E) := by rw [← c1]
  generalize hs : (matchSlur (A3 ++ E)).1 = slur at cE c3
  have eE : note c (A ++ E) = (.mk .note .none (.mk .noteLetterAndAccidentals .none (leafNode .noteLetter (.chr c) ::
      (if accs.isEmpty then [] else [.mk .noteAccidentals .none accs])) :: dur ++ slur), A4 ++ E) := by
    simp only [note]
    rw [aE]
    simp only
    rw [bE]
    simp only
    rw [cE]
  rw [eE]
  have same : optionalDuration (A1 ++ B) = (dur, A3 ++ B) → note c (A ++ B) = (.mk .note .none (.mk .noteLetterAndAccidentals .none (leafNode .noteLetter (.chr c) ::
      (if accs.isEmpty then [] else [.mk .noteAccidentals .none accs])) :: dur ++ slur), A4 ++ B) := by
    intro h
    simp only [note]
    rw [a3]
    simp only
    rw [h]
    simp only
    rw [c3]
  refine ⟨A4, rfl, by omega, fun h => ?_, fun h => ?_⟩
  · refine same (b3 ?_)
    intro h3; subst h3; simp at c2; exact h c2
  · by_cases h3 : A3 = []
    · rcases b4 h3 with h4 | ⟨ds, k, hds, h4, h5⟩
      · subst h3 h
        exact ⟨_, _, same h4, .refl B, .refl _⟩
      · have hsl : slur = [] := by
          subst h3
          rw [← hs]
          obtain ⟨x, p, rfl⟩ := hE
          rfl
        subst h3 h hsl h4
        refine ⟨.mk .note .none [.mk .noteLetterAndAccidentals .none (leafNode .noteLetter (.chr c) ::
            (if accs.isEmpty then [] else [.mk .noteAccidentals .none accs])), .mk .duration .none (ds ++ barNodes k)], (matchBarlines B).2, ?_, (bars_match B).1, ?_⟩
        rotate_left
        · exact Longer.note _ ds k hds
        simp only [note]
        rw [a3]
        simp only
        rw [h5]
        simp only
        rw [slur_none hB.bars]
        rfl
    · subst h
      exact ⟨_, _, same (b3 h3), .refl B, .refl _⟩

theorem rest_ext (hE : AtEnd E) (hB : Cont B) (A : List Token) : ∃ A2, (rest (A ++ E)).2 = A2 ++ E ∧ A2.length ≤ A.length ∧
    (A2 ≠ [] → rest (A ++ B) = ((rest (A ++ E)).1, A2 ++ B)) ∧
    (A2 = [] → ∃ n' B', rest (A ++ B) = (n', B') ∧ Bars B B' ∧ Longer (rest (A ++ E)).1 n') := by
  obtain ⟨A2, b1, b2, b3, b4⟩ := optionalDuration_ext hE hB A
  refine ⟨A2, b1, b2, fun h => ?_, fun h => ?_⟩
  · simp only [rest, b3 h]
  · rcases b4 h with h4 | ⟨ds, k, hds, h4, h5⟩
    · exact ⟨_, _, by simp only [rest, h4], .refl B, .refl _⟩
    · refine ⟨.mk .rest .none [.mk .duration .none (ds ++ barNodes k)], _, by simp only [rest, h5], (bars_match B).1, ?_⟩
      simp only [rest, h4]
      exact Longer.rest ds k hds

theorem noteOrRest_ext (hE : AtEnd E) (hB : Cont B) {A R : List Token} {n : Node} (h : noteOrRest (A ++ E) = some (n, R)) : ∃ A2, R = A2 ++ E ∧ A2.length < A.length ∧
    (A2 ≠ [] → noteOrRest (A ++ B) = some (n, A2 ++ B)) ∧
    (A2 = [] → ∃ n' B', noteOrRest (A ++ B) = some (n', B') ∧ Bars B B' ∧ Longer n n') := by
  cases A with
  | nil => obtain ⟨x, p, rfl⟩ := hE; cases h
  | cons t A =>
    obtain ⟨t, x, p⟩ := t
    cases t <;> first | (cases h; done) | skip
    · rename_i c
      simp only [List.cons_append, noteOrRest, Option.some.injEq] at h ⊢
      obtain ⟨A2, b1, b2, b3, b4⟩ := note_ext hE hB c A
      rw [h] at b1 b3 b4
      refine ⟨A2, b1, by simp only [List.length_cons]; omega, fun h2 => ?_, fun h2 => ?_⟩
      · exact b3 h2
      · exact b4 h2
    · simp only [List.cons_append, noteOrRest, Option.some.injEq] at h ⊢
      obtain ⟨A2, b1, b2, b3, b4⟩ := rest_ext hE hB A
      rw [h] at b1 b3 b4
      refine ⟨A2, b1, by simp only [List.length_cons]; omega, fun h2 => ?_, fun h2 => ?_⟩
      · exact b3 h2
      · exact b4 h2

/-! ### S-expressions -/

theorem lisp_ext (hE : AtEnd E) (fuel : Nat) : ∀ (fuel' : Nat) (A : List Token), fuel ≤ fuel' →
    (∀ n R, lispForm fuel (A ++ E) = .ok (n, R) → ∃ A2, R = A2 ++ E ∧ A2.length < A.length ∧ ∀ X, lispForm fuel' (A ++ X) = .ok (n, A2 ++ X)) ∧
    (∀ n R, lispElements fuel (A ++ E) = .ok (n, R) → ∃ A2, R = A2 ++ E ∧ A2.length < A.length ∧ ∀ X, lispElements fuel' (A ++ X) = .ok (n, A2 ++ X)) := by
  obtain ⟨ex, ep, rfl⟩ := hE
  induction fuel with
  | zero => intro fuel' A _; simp [lispForm, lispElements]
  | succ fuel ih =>
    intro fuel' A hf
    obtain ⟨fuel', rfl⟩ : ∃ k, fuel' = k + 1 := ⟨fuel' - 1, by omega⟩
    have ih := fun A => ih fuel' A (by omega)
    constructor
    · intro n R h
      cases A with
      | nil => cases h
      | cons t A =>
        obtain ⟨t, x, p⟩ := t
        cases t <;> first | (cases h; done) | skip
        · simp only [List.cons_append, lispForm] at h
          cases hl : lispElements fuel (A ++ [⟨.eof, ex, ep⟩]) with
          | error e => rw [hl] at h; cases h
          | ok r =>
            obtain ⟨ns, R'⟩ := r
            rw [hl] at h
            cases h
            obtain ⟨A2, h1, h2, h3⟩ := (ih A).2 _ _ hl
            exact ⟨A2, h1, by simp only [List.length_cons]; omega, fun X => by simp only [List.cons_append, lispForm, h3]⟩
        all_goals
          simp only [List.cons_append, lispForm, Except.ok.injEq, Prod.mk.injEq] at h
          obtain ⟨rfl, rfl⟩ := h
          exact ⟨A, rfl, by simp, fun X => by simp only [List.cons_append, lispForm]⟩
    · intro n R h
      cases A with
      | nil => cases h
      | cons t A =>
        obtain ⟨t, x, p⟩ := t
        by_cases h1 : t = .rightParen
        · subst h1
          simp only [List.cons_append, lispElements, Except.ok.injEq, Prod.mk.injEq] at h
          obtain ⟨rfl, rfl⟩ := h
          exact ⟨A, rfl, by simp, fun X => by simp only [List.cons_append, lispElements]⟩
        · by_cases h2 : t = .eof
          · subst h2; cases h
          · have hq : ∃ q A', A'.length ≤ (⟨t, x, p⟩ :: A : List Token).length ∧ ∀ X, matchQuote (⟨t, x, p⟩ :: A ++ X) = (q, A' ++ X) := by
              by_cases h3 : t = .singleQuote
              · subst h3; exact ⟨true, A, by simp, fun X => rfl⟩
              · refine ⟨false, ⟨t, x, p⟩ :: A, Nat.le_refl _, fun X => ?_⟩
                simp only [List.cons_append]
                cases t <;> first | rfl | exact absurd rfl h3
            obtain ⟨q, A', hA', hq⟩ := hq
            have unf : ∀ g X, lispElements (g + 1) (⟨t, x, p⟩ :: A ++ X) = (match lispForm g (A' ++ X) with
                | .error e => .error e
                | .ok (form, toks) =>
                  match lispElements g toks with
                  | .error e => .error e
                  | .ok (forms, toks) => .ok ((if q then .mk .lispQuotedForm .none [form] else form) :: forms, toks)) := by
              intro g X
              have := hq X
              simp only [List.cons_append] at this ⊢
              cases t <;> first | exact absurd rfl h1 | exact absurd rfl h2 | (simp only [lispElements]; rw [this]; done) | (simp only [lispElements]; rw [this]; rfl)
            rw [unf] at h
            cases hl : lispForm fuel (A' ++ [⟨.eof, ex, ep⟩]) with
            | error e => rw [hl] at h; cases h
            | ok r =>
              obtain ⟨form, R'⟩ := r
              rw [hl] at h
              simp only at h
              obtain ⟨A3, a1, a2, a3⟩ := (ih A').1 _ _ hl
              subst a1
              cases hl2 : lispElements fuel (A3 ++ [⟨.eof, ex, ep⟩]) with
              | error e => rw [hl2] at h; cases h
              | ok r =>
                obtain ⟨ns, R''⟩ := r
                rw [hl2] at h
                simp only [Except.ok.injEq, Prod.mk.injEq] at h
                obtain ⟨rfl, rfl⟩ := h
                obtain ⟨A4, b1, b2, b3⟩ := (ih A3).2 _ _ hl2
                refine ⟨A4, b1, by omega, fun X => ?_⟩
                rw [unf, a3]
                simp only
                rw [b3]

theorem lispList_ext (hE : AtEnd E) {A R : List Token} {n : Node} (h : lispList (A ++ E) = .ok (n, R)) :
    ∃ A2, R = A2 ++ E ∧ A2.length < A.length ∧ ∀ X : List Token, 0 < X.length → lispList (A ++ X) = .ok (n, A2 ++ X) := by
  have hl : E.length = 1 := by obtain ⟨x, p, rfl⟩ := hE; rfl
  unfold lispList at h
  cases hx : lispElements (2 * (A ++ E).length + 1) (A ++ E) with
  | error e => rw [hx] at h; cases h
  | ok r =>
    obtain ⟨ns, R'⟩ := r
    rw [hx] at h
    cases h
    obtain ⟨A2, h1, h2, _⟩ := (lisp_ext hE _ _ A (Nat.le_refl _)).2 _ _ hx
    refine ⟨A2, h1, h2, fun X hX => ?_⟩
    obtain ⟨A2', h1', _, h3⟩ := (lisp_ext hE _ (2 * (A ++ X).length + 1) A (by simp only [List.length_append]; omega)).2 _ _ hx
    have : A2' = A2 := List.append_cancel_right (h1'.symm.trans h1)
    subst this
    unfold lispList
    rw [h3]

/-! ### Chords -/

theorem nodesBetween_ext (hE : AtEnd E) (hB : Cont B) (f : Nat) : ∀ (f' : Nat) {A R : List Token} {ns : List Node}, f ≤ f' → (A ++ B).length < f' → nodesBetween f (A ++ E) = .ok (ns, R) →
    ∃ A2, R = A2 ++ E ∧ A2.length ≤ A.length ∧ (A2 ≠ [] → nodesBetween f' (A ++ B) = .ok (ns, A2 ++ B)) ∧
      (A2 = [] → ∃ ns' R', nodesBetween f' (A ++ B) = .ok (ns', R') ∧ ∀ u us, R' = u :: us → u.tok ≠ .separator) := by
  induction f with
  | zero => intro f' A R ns _ _ h; simp [nodesBetween] at h
  | succ f ih =>
    intro f' A R ns hf hlen h
    obtain ⟨f', rfl⟩ : ∃ k, f' = k + 1 := ⟨f' - 1, by omega⟩
    cases A with
    | nil =>
      have e : nodesBetween (f + 1) ([] ++ E) = .ok ([], E) := by obtain ⟨x, p, rfl⟩ := hE; rfl
      rw [e] at h
      cases h
      obtain ⟨ns', R', h1, h2⟩ := (Cont.calm _ (Nat.le_refl _) hB).between
      refine ⟨[], rfl, Nat.le_refl _, fun h => absurd rfl h, fun _ => ⟨ns', R', h1 _ (by simp only [List.nil_append] at hlen; omega), h2⟩⟩
    | cons t A =>
      obtain ⟨t, x, p⟩ := t
      simp only [List.cons_append, List.length_cons] at hlen
      have step : ∀ (m : Node) (A1 : List Token), A1.length ≤ A.length → (∀ X g, X = E ∨ X = B → nodesBetween (g + 1) (⟨t, x, p⟩ :: A ++ X) = (match nodesBetween g (A1 ++ X) with
            | .error e => .error e
            | .ok (nodes, toks) => .ok (m :: nodes, toks))) →
          ∃ A2, R = A2 ++ E ∧ A2.length ≤ (⟨t, x, p⟩ :: A : List Token).length ∧ (A2 ≠ [] → nodesBetween (f' + 1) (⟨t, x, p⟩ :: A ++ B) = .ok (ns, A2 ++ B)) ∧
            (A2 = [] → ∃ ns' R', nodesBetween (f' + 1) (⟨t, x, p⟩ :: A ++ B) = .ok (ns', R') ∧ ∀ u us, R' = u :: us → u.tok ≠ .separator) := by
        intro m A1 hA1 hs
        rw [hs _ _ (.inl rfl)] at h
        cases hx : nodesBetween f (A1 ++ E) with
        | error e => rw [hx] at h; cases h
        | ok r =>
          obtain ⟨ms, R1⟩ := r
          rw [hx] at h
          simp only [Except.ok.injEq, Prod.mk.injEq] at h
          obtain ⟨rfl, rfl⟩ := h
          simp only [List.length_append] at hlen
          obtain ⟨A2, h1, h2, h3, h4⟩ := ih f' (by omega) (by simp only [List.length_append]; omega) hx
          refine ⟨A2, h1, by simp only [List.length_cons]; omega, fun h5 => ?_, fun h5 => ?_⟩
          · rw [hs _ _ (.inr rfl), h3 h5]
          · obtain ⟨ns', R', h6, h7⟩ := h4 h5
            exact ⟨m :: ns', R', by rw [hs _ _ (.inr rfl), h6], h7⟩
      have stop : (∀ X g, nodesBetween (g + 1) (⟨t, x, p⟩ :: A ++ X) = .ok ([], ⟨t, x, p⟩ :: A ++ X)) →
          ∃ A2, R = A2 ++ E ∧ A2.length ≤ (⟨t, x, p⟩ :: A : List Token).length ∧ (A2 ≠ [] → nodesBetween (f' + 1) (⟨t, x, p⟩ :: A ++ B) = .ok (ns, A2 ++ B)) ∧
            (A2 = [] → ∃ ns' R', nodesBetween (f' + 1) (⟨t, x, p⟩ :: A ++ B) = .ok (ns', R') ∧ ∀ u us, R' = u :: us → u.tok ≠ .separator) := by
        intro hs
        rw [hs] at h
        cases h
        exact ⟨⟨t, x, p⟩ :: A, rfl, Nat.le_refl _, fun _ => hs _ _, fun h => by cases h⟩
      cases t with
      | octaveUp => exact step _ A (Nat.le_refl _) fun X g _ => rfl
      | octaveDown => exact step _ A (Nat.le_refl _) fun X g _ => rfl
      | octaveSet n => exact step _ A (Nat.le_refl _) fun X g _ => rfl
      | leftParen =>
        have h' := h
        simp only [List.cons_append, nodesBetween] at h'
        cases hl : lispList (A ++ E) with
        | error e => rw [hl] at h'; cases h'
        | ok r =>
          obtain ⟨l, R1⟩ := r
          obtain ⟨A1, a1, a2, a3⟩ := lispList_ext hE hl
          refine step l A1 (by omega) fun X g hX => ?_
          simp only [List.cons_append, nodesBetween]
          rw [a3 X (by rcases hX with rfl | rfl; (· obtain ⟨x, p, rfl⟩ := hE; simp); (· obtain ⟨t, us, rfl, _⟩ := hB.head; simp))]
          rfl
      | _ => exact stop fun X g => rfl

theorem chordLoop_repeat {f : Nat} {T R : List Token} {n : Node} {k : Int} {x : List Char} {p : Pos} (h : noteOrRest T = some (n, ⟨.repeat k, x, p⟩ :: R)) :
    chordLoop (f + 1) T = .ok ([n], k, R) := by
  simp only [chordLoop, h]

theorem chordLoop_one {f : Nat} {T R R' : List Token} {n : Node} {ns : List Node} (h : noteOrRest T = some (n, R)) (hr : ∀ u us, R = u :: us → ∀ k, u.tok ≠ .repeat k)
    (hb : nodesBetween (R.length + 1) R = .ok (ns, R')) (hs : ∀ u us, R' = u :: us → u.tok ≠ .separator) :
    chordLoop (f + 1) T = .ok ([n], 0, R) := by
  simp only [chordLoop, h]
  split
  · exact absurd rfl (hr _ _ rfl _)
  · rw [hb]
    split
    · rename_i he; cases he
    · rename_i he
      cases he
      exact absurd rfl (hs _ _ rfl)
    · rfl

theorem chordLoop_more {f : Nat} {T R U V W : List Token} {n : Node} {before after ns : List Node} {times : Int} {x : List Char} {p : Pos} (h : noteOrRest T = some (n, R))
    (hr : ∀ u us, R = u :: us → ∀ k, u.tok ≠ .repeat k) (hb : nodesBetween (R.length + 1) R = .ok (before, ⟨.separator, x, p⟩ :: U))
    (ha : nodesBetween (U.length + 1) U = .ok (after, V)) (hc : chordLoop f V = .ok (ns, times, W)) :
    chordLoop (f + 1) T = .ok (n :: before ++ after ++ ns, times, W) := by
  simp only [chordLoop, h]
  split
  · exact absurd rfl (hr _ _ rfl _)
  · rw [hb]
    simp only
    rw [ha]
    simp only
    rw [hc]

theorem chordLoop_cases {f : Nat} {T W : List Token} {ns : List Node} {times : Int} (h : chordLoop (f + 1) T = .ok (ns, times, W)) :
    (∃ n x p, noteOrRest T = some (n, ⟨.repeat times, x, p⟩ :: W) ∧ ns = [n]) ∨
    (∃ n ms R', noteOrRest T = some (n, W) ∧ ns = [n] ∧ times = 0 ∧ (∀ u us, W = u :: us → ∀ k, u.tok ≠ .repeat k) ∧ nodesBetween (W.length + 1) W = .ok (ms, R') ∧
      ∀ u us, R' = u :: us → u.tok ≠ .separator) ∨
    (∃ n before after ms R x p U V, noteOrRest T = some (n, R) ∧ (∀ u us, R = u :: us → ∀ k, u.tok ≠ .repeat k) ∧ nodesBetween (R.length + 1) R = .ok (before, ⟨.separator, x, p⟩ :: U) ∧
      nodesBetween (U.length + 1) U = .ok (after, V) ∧ chordLoop f V = .ok (ms, times, W) ∧ ns = n :: before ++ after ++ ms) := by
  simp only [chordLoop] at h
  cases hn : noteOrRest T with
  | none => rw [hn] at h; cases h
  | some r =>
    obtain ⟨n, R⟩ := r
    rw [hn] at h
    simp only at h
    split at h
    · cases h
      exact .inl ⟨n, _, _, rfl, rfl⟩
    · rename_i hr
      have hr : ∀ u us, R = u :: us → ∀ k, u.tok ≠ .repeat k := by
        intro u us h1 k h2
        obtain ⟨t, x, p⟩ := u
        simp only at h2
        subst h2
        exact hr k x p us h1
      cases hb : nodesBetween (R.length + 1) R with
      | error e => rw [hb] at h; cases h
      | ok r =>
        obtain ⟨before, R1⟩ := r
        rw [hb] at h
        split at h
        · rename_i he; cases he
        · rename_i x p U he
          cases he
          cases ha : nodesBetween (U.length + 1) U with
          | error e => rw [ha] at h; cases h
          | ok r =>
            obtain ⟨after, V⟩ := r
            rw [ha] at h
            simp only at h
            cases hc : chordLoop f V with
            | error e => rw [hc] at h; cases h
            | ok r =>
              obtain ⟨ms, tm, W'⟩ := r
              rw [hc] at h
              cases h
              exact .inr (.inr ⟨n, before, after, ms, R, x, p, U, V, rfl, hr, hb, ha, hc, rfl⟩)
        · rename_i he1 he2
          cases h
          refine .inr (.inl ⟨n, before, R1, rfl, rfl, rfl, hr, hb, ?_⟩)
          intro u us h1 h2
          obtain ⟨t, x, p⟩ := u
          simp only at h2
          subst h2 h1
          cases he2
          exact he1 _ _ _ _ rfl

theorem chordLoop_ext (hE : AtEnd E) (hB : Cont B) (f : Nat) : ∀ (f' : Nat) {A R : List Token} {ns : List Node} {times : Int}, f ≤ f' → chordLoop f (A ++ E) = .ok (ns, times, R) →
    ∃ A2, R = A2 ++ E ∧ A2.length < A.length ∧ (A2 ≠ [] → chordLoop f' (A ++ B) = .ok (ns, times, A2 ++ B)) ∧
      (A2 = [] → ∃ ms n n' B', ns = ms ++ [n] ∧ chordLoop f' (A ++ B) = .ok (ms ++ [n'], times, B') ∧ Bars B B' ∧ Longer n n' ∧ (n' ≠ n → times = 0)) := by
  have hlE : E.length = 1 := by obtain ⟨x, p, rfl⟩ := hE; rfl
  have hlB : 0 < B.length := by obtain ⟨t, us, rfl, _⟩ := hB.head; simp
  have headE : ∀ u us, E = u :: us → u.tok = .eof := by
    obtain ⟨x, p, rfl⟩ := hE; intro u us h; cases h; rfl
  induction f with
  | zero => intro f' A R ns times _ h; simp [chordLoop] at h
  | succ f ih =>
    intro f' A R ns times hf h
    obtain ⟨f', rfl⟩ : ∃ k, f' = k + 1 := ⟨f' - 1, by omega⟩
    have noRep : ∀ {A1 : List Token}, A1 ≠ [] → (∀ u us, A1 ++ E = u :: us → ∀ k, u.tok ≠ .repeat k) → ∀ u us, A1 ++ B = u :: us → ∀ k, u.tok ≠ .repeat k := by
      intro A1 h1 h2 u us h3
      cases A1 with
      | nil => exact absurd rfl h1
      | cons t A1 =>
        simp only [List.cons_append, List.cons.injEq] at h3
        rw [← h3.1]
        exact h2 t (A1 ++ E) rfl
    rcases chordLoop_cases h with ⟨n, x, p, h1, rfl⟩ | ⟨n, ms, R', h1, rfl, rfl, h2, h3, h4⟩ | ⟨n, before, after, ms, R1, x, p, U, V, h1, h2, h3, h4, h5, rfl⟩
    · obtain ⟨A1, a1, a2, a3, a4⟩ := noteOrRest_ext hE hB h1
      cases A1 with
      | nil => have := headE _ _ a1.symm; cases this
      | cons t A1 =>
        simp only [List.cons_append, List.cons.injEq] at a1
        obtain ⟨rfl, rfl⟩ := a1
        simp only [List.length_cons] at a2
        have := a3 (by simp)
        simp only [List.cons_append] at this
        have h5 := chordLoop_repeat (f := f') this
        exact ⟨A1, rfl, by omega, fun _ => h5, fun h6 => ⟨[], n, n, B, rfl, by subst h6; exact h5, .refl B, .refl n, fun h => absurd rfl h⟩⟩
    · obtain ⟨A1, a1, a2, a3, a4⟩ := noteOrRest_ext hE hB h1
      subst a1
      by_cases hA : A1 = []
      · subst hA
        obtain ⟨n', B', b1, b2, b3⟩ := a4 rfl
        have hc := b2.cont hB
        refine ⟨[], rfl, a2, fun h => absurd rfl h, fun _ => ⟨[], n, n', B', rfl, ?_, b2, b3, fun _ => rfl⟩⟩
        obtain ⟨ms, R', c1, c2⟩ := (Cont.calm _ (Nat.le_refl _) hc).between
        refine chordLoop_one b1 ?_ (c1 _ (Nat.le_refl _)) c2
        intro u us h5 k h6
        obtain ⟨t, us, h7, ht⟩ := hc.head
        rw [h7] at h5
        cases h5
        rw [h6] at ht
        simp [startTok] at ht
      · refine ⟨A1, rfl, a2, fun _ => ?_, fun h => absurd h hA⟩
        obtain ⟨A2, b1, b2, b3, b4⟩ := nodesBetween_ext hE hB _ ((A1 ++ B).length + 1) (by simp only [List.length_append]; omega) (by omega) h3
        have hnb : ∃ ns' R', nodesBetween ((A1 ++ B).length + 1) (A1 ++ B) = .ok (ns', R') ∧ ∀ u us, R' = u :: us → u.tok ≠ .separator := by
          by_cases h5 : A2 = []
          · exact b4 h5
          · refine ⟨_, _, b3 h5, ?_⟩
            intro u us h6
            cases A2 with
            | nil => exact absurd rfl h5
            | cons t A2 =>
              simp only [List.cons_append, List.cons.injEq] at h6
              rw [← h6.1]
              exact h4 t (A2 ++ E) b1
        obtain ⟨ns', R'', c1, c2⟩ := hnb
        exact chordLoop_one (a3 hA) (noRep hA h2) c1 c2
    · obtain ⟨A1, a1, a2, a3, a4⟩ := noteOrRest_ext hE hB h1
      subst a1
      obtain ⟨A2, b1, b2, b3, b4⟩ := nodesBetween_ext hE hB _ ((A1 ++ B).length + 1) (by simp only [List.length_append]; omega) (by omega) h3
      cases A2 with
      | nil => have := headE _ _ b1.symm; cases this
      | cons t A2 =>
        simp only [List.cons_append, List.cons.injEq] at b1
        obtain ⟨rfl, rfl⟩ := b1
        simp only [List.length_cons] at b2
        have hA : A1 ≠ [] := by intro h; subst h; simp at b2
        have b3 := b3 (by simp)
        obtain ⟨A3, c1, c2, c3, c4⟩ := nodesBetween_ext hE hB _ ((A2 ++ B).length + 1) (by simp only [List.length_append]; omega) (by omega) h4
        subst c1
        obtain ⟨A4, d1, d2, d3, d4⟩ := ih f' (by omega) h5
        have hA3 : A3 ≠ [] := by intro h; subst h; simp at d2
        refine ⟨A4, d1, by omega, fun h6 => ?_, fun h6 => ?_⟩
        · exact chordLoop_more (a3 hA) (noRep hA h2) b3 (c3 hA3) (d3 h6)
        · obtain ⟨ms', m, m', B', e1, e2, e3⟩ := d4 h6
          refine ⟨n :: before ++ after ++ ms', m, m', B', by rw [e1]; simp, ?_, e3⟩
          rw [chordLoop_more (a3 hA) (noRep hA h2) b3 (c3 hA3) e2]
          simp

theorem noteRestOrChord_ext (hE : AtEnd E) (hB : Cont B) {A R : List Token} {n : Node} (h : noteRestOrChord (A ++ E) = .ok (n, R)) :
    ∃ A2, R = A2 ++ E ∧ A2.length < A.length ∧ (A2 ≠ [] → noteRestOrChord (A ++ B) = .ok (n, A2 ++ B)) ∧
      (A2 = [] → ∃ n' B', noteRestOrChord (A ++ B) = .ok (n', B') ∧ Bars B B' ∧ Longer n n') := by
  have hlE : E.length = 1 := by obtain ⟨x, p, rfl⟩ := hE; rfl
  have hlB : 0 < B.length := by obtain ⟨t, us, rfl, _⟩ := hB.head; simp
  unfold noteRestOrChord at h
  cases hc : chordLoop ((A ++ E).length + 1) (A ++ E) with
  | error e => rw [hc] at h; cases h
  | ok r =>
    obtain ⟨ns, times, R'⟩ := r
    rw [hc] at h
    simp only at h
    obtain ⟨A2, a1, a2, a3, a4⟩ := chordLoop_ext hE hB _ ((A ++ B).length + 1) (by simp only [List.length_append]; omega) hc
    subst a1
    have hR : R = A2 ++ E := by
      split at h
      · split at h
        · cases h; rfl
        · cases h
      · split at h
        · cases h; rfl
        · cases h
    subst hR
    have same : ∀ X, chordLoop ((A ++ B).length + 1) (A ++ B) = .ok (ns, times, X) → noteRestOrChord (A ++ B) = .ok (n, X) := by
      intro X hX
      unfold noteRestOrChord
      rw [hX]
      simp only
      generalize (if (ns.filter isNoteOrRest).length > 1 then [Node.mk .chord .none ns] else ns) = nodes at h ⊢
      split at h
      · rename_i ht
        rw [if_pos ht]
        split at h
        · cases h; rfl
        · cases h
      · rename_i ht
        rw [if_neg ht]
        split at h
        · cases h; rfl
        · cases h
    refine ⟨A2, rfl, a2, fun h6 => same _ (a3 h6), fun h6 => ?_⟩
    obtain ⟨ms, m, m', B', e1, e2, e3, e4, e5⟩ := a4 h6
    by_cases hm : m' = m
    · subst hm
      exact ⟨n, B', same _ (by rw [e2, e1]), e3, .refl n⟩
    · have e5 := e5 hm
      subst e5 e1
      rw [if_neg (by decide)] at h
      have hty : isNoteOrRest m' = isNoteOrRest m := by simp only [isNoteOrRest, e4.type]
      have hfil : ((ms ++ [m']).filter isNoteOrRest).length = ((ms ++ [m]).filter isNoteOrRest).length := by
        simp only [List.filter_append, List.length_append, List.filter_cons, hty]
        split <;> rfl
      unfold noteRestOrChord
      rw [e2]
      simp only
      rw [if_neg (by decide), hfil]
      by_cases hl : ((ms ++ [m]).filter isNoteOrRest).length > 1
      · rw [if_pos hl] at h ⊢
        cases h
        exact ⟨_, B', rfl, e3, .chord ms e4⟩
      · rw [if_neg hl] at h ⊢
        cases ms with
        | nil =>
          cases h
          exact ⟨_, B', rfl, e3, e4⟩
        | cons m0 ms =>
          cases h
          exact ⟨_, B', rfl, e3, .refl _⟩

end Syn
end Alda
