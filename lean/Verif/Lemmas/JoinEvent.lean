import Verif.Lemmas.JoinNote
/-!
What the parser reads at the end of a text stays the same if another text follows: inner events. (For C56.)
-/
namespace Alda
namespace Syn
open Spec

/-- The nodes of events other than voice groups. -/
def plainType : NodeType → Bool
  | .lispList | .repeat | .variableDefinition | .variableReference | .octaveSet | .octaveUp | .octaveDown | .note | .rest | .chord | .barline
  | .eventSequence | .cram | .marker | .atMarker => true
  | _ => false

/-- A voice. -/
def OpenVoice (n : Node) : Prop :=
  ∃ k es, n = .mk .voice .none [leafNode .voiceNumber (.int k), .mk .eventSequence .none es] ∧ ∀ e ∈ es, plainType e.type = true

/-- The event ends in a voice group that is not closed. -/
inductive Open : Node → Prop
  | voice (ns : List Node) {n : Node} : OpenVoice n → Open (.mk .voiceGroup .none (ns ++ [n]))
  | varDef (name : Node) (ns : List Node) {n : Node} : Open n → Open (.mk .variableDefinition .none [name, .mk .eventSequence .none (ns ++ [n])])

variable {E B : List Token}

/-- Tokens that no event begins with do not come next. -/
theorem Cont.not_head {t : Token} {us : List Token} (h : Cont (t :: us)) (ht : t.tok ≠ .eof) (hs : startTok t.tok = false) : False := by
  obtain ⟨t', us', he, h1⟩ := h.head
  cases he
  rcases h1 with h1 | h1
  · exact ht h1
  · rw [hs] at h1; cases h1

theorem looksLike_ext (hE : AtEnd E) (hB : Cont B) (t : Token) (A : List Token) :
    looksLikePartDeclaration (t :: A ++ B) = looksLikePartDeclaration (t :: A ++ E) := by
  obtain ⟨ex, ep, rfl⟩ := hE
  cases A with
  | cons u A => obtain ⟨t, x, p⟩ := t; cases t <;> rfl
  | nil =>
    obtain ⟨u, us, rfl, hu⟩ := hB.head
    obtain ⟨t, x, p⟩ := t
    obtain ⟨u, y, q⟩ := u
    cases t <;> try rfl
    cases u <;> first | rfl | (simp [startTok] at hu; done)

/-- Whether a loop is left does not depend on what follows. -/
theorem stop_ext (hE : AtEnd E) (hB : Cont B) (loop : EventLoop) (t : Token) (A : List Token) :
    (loop.stop (t :: A ++ E) = .ok none ∧ loop.stop (t :: A ++ B) = .ok none) ∨
    (∃ A2, loop.stop (t :: A ++ E) = .ok (some (A2 ++ E)) ∧ loop.stop (t :: A ++ B) = .ok (some (A2 ++ B)) ∧ A2.length ≤ A.length + 1 ∧
      (loop = .seq ∨ loop = .cram → A2.length < A.length + 1) ∧ (loop ≠ .seq → loop ≠ .cram → A2 ≠ [])) ∨
    ∃ e, loop.stop (t :: A ++ E) = .error e := by
  have hl := looksLike_ext hE hB t A
  have plain : ∀ {loop : EventLoop}, loop ≠ .seq → loop ≠ .cram → (∃ b : Bool, ∀ X, X = E ∨ X = B → loop.stop (t :: A ++ X) = .ok (if b then some (t :: A ++ X) else none)) →
      (loop.stop (t :: A ++ E) = .ok none ∧ loop.stop (t :: A ++ B) = .ok none) ∨
      (∃ A2, loop.stop (t :: A ++ E) = .ok (some (A2 ++ E)) ∧ loop.stop (t :: A ++ B) = .ok (some (A2 ++ B)) ∧ A2.length ≤ A.length + 1 ∧
        (loop = .seq ∨ loop = .cram → A2.length < A.length + 1) ∧ (loop ≠ .seq → loop ≠ .cram → A2 ≠ [])) ∨
      ∃ e, loop.stop (t :: A ++ E) = .error e := by
    intro loop h1 h2 ⟨b, hb⟩
    cases b with
    | false => exact .inl ⟨hb _ (.inl rfl), hb _ (.inr rfl)⟩
    | true =>
      refine .inr (.inl ⟨t :: A, hb _ (.inl rfl), hb _ (.inr rfl), Nat.le_refl _, fun h => ?_, fun _ _ => by simp⟩)
      rcases h with h | h
      · exact absurd h h1
      · exact absurd h h2
  obtain ⟨t, x, p⟩ := t
  cases loop with
  | part =>
    refine plain (by simp) (by simp) ?_
    by_cases ht : t = .eof
    · subst ht; exact ⟨true, fun X _ => rfl⟩
    · refine ⟨looksLikePartDeclaration (⟨t, x, p⟩ :: A ++ E), fun X hX => ?_⟩
      have hX : looksLikePartDeclaration (⟨t, x, p⟩ :: A ++ X) = looksLikePartDeclaration (⟨t, x, p⟩ :: A ++ E) := by
        rcases hX with rfl | rfl
        · rfl
        · exact hl
      rw [← hX]
      simp only [List.cons_append, EventLoop.stop]
      cases t <;> first | rfl | exact absurd rfl ht
  | varDef line =>
    refine plain (by simp) (by simp) ?_
    by_cases ht : t = .eof
    · subst ht; exact ⟨true, fun X _ => rfl⟩
    · refine ⟨!decide (p.line = line), fun X hX => ?_⟩
      simp only [List.cons_append, EventLoop.stop]
      by_cases hp : p.line = line <;> cases t <;> first | exact absurd rfl ht | simp [hp]
  | seq =>
    by_cases h1 : t = .eventSeqClose
    · subst h1
      exact .inr (.inl ⟨A, rfl, rfl, by omega, fun _ => by omega, fun h => absurd rfl h⟩)
    · by_cases h2 : t = .eof
      · subst h2; exact .inr (.inr ⟨_, rfl⟩)
      · refine .inl ?_
        simp only [List.cons_append]
        cases t <;> first | exact ⟨rfl, rfl⟩ | exact absurd rfl h1 | exact absurd rfl h2
  | cram =>
    by_cases h1 : t = .cramClose
    · subst h1
      exact .inr (.inl ⟨A, rfl, rfl, by omega, fun _ => by omega, fun _ h => absurd rfl h⟩)
    · by_cases h2 : t = .eof
      · subst h2; exact .inr (.inr ⟨_, rfl⟩)
      · refine .inl ?_
        simp only [List.cons_append]
        cases t <;> first | exact ⟨rfl, rfl⟩ | exact absurd rfl h1 | exact absurd rfl h2
  | voice =>
    refine plain (by simp) (by simp) ?_
    by_cases ht : t = .eof ∨ (∃ n, t = .voiceMarker n) ∨ t = .eventSeqClose ∨ t = .cramClose
    · rcases ht with rfl | ⟨n, rfl⟩ | rfl | rfl <;> exact ⟨true, fun X _ => rfl⟩
    · refine ⟨looksLikePartDeclaration (⟨t, x, p⟩ :: A ++ E), fun X hX => ?_⟩
      have hX : looksLikePartDeclaration (⟨t, x, p⟩ :: A ++ X) = looksLikePartDeclaration (⟨t, x, p⟩ :: A ++ E) := by
        rcases hX with rfl | rfl
        · rfl
        · exact hl
      rw [← hX]
      simp only [List.cons_append, EventLoop.stop]
      cases t <;> first | rfl | (simp at ht; done)

theorem stop_end (hE : AtEnd E) (loop : EventLoop) : (loop.stop E = .ok (some E) ∧ loop ≠ .seq ∧ loop ≠ .cram) ∨ ∃ e, loop.stop E = .error e := by
  obtain ⟨x, p, rfl⟩ := hE
  cases loop <;> first | exact .inl ⟨rfl, by simp, by simp⟩ | exact .inr ⟨_, rfl⟩

theorem singleOrRepeated_ext (hE : AtEnd E) (hB : Cont B) (n : Node) (A : List Token) : ∃ m A2, A2.length ≤ A.length ∧
    singleOrRepeated n (A ++ E) = (m, A2 ++ E) ∧ singleOrRepeated n (A ++ B) = (m, A2 ++ B) ∧ (A = [] → m = n) := by
  cases A with
  | nil =>
    refine ⟨n, [], Nat.le_refl _, ?_, ?_, fun _ => rfl⟩
    · obtain ⟨x, p, rfl⟩ := hE; rfl
    · obtain ⟨u, us, rfl, hu⟩ := hB.head
      obtain ⟨u, y, q⟩ := u
      cases u <;> first | rfl | (simp [startTok] at hu; done)
  | cons t A =>
    obtain ⟨t, x, p⟩ := t
    by_cases ht : ∃ k, t = .repeat k
    · obtain ⟨k, rfl⟩ := ht
      exact ⟨_, A, by simp, rfl, rfl, fun h => by cases h⟩
    · refine ⟨n, ⟨t, x, p⟩ :: A, Nat.le_refl _, ?_, ?_, fun _ => rfl⟩ <;>
      · simp only [List.cons_append]
        cases t <;> first | rfl | exact absurd ⟨_, rfl⟩ ht

theorem decorate_ext (loop : EventLoop) (n : Node) (t : Token) (A : List Token) : ∃ m A2, A2.length ≤ A.length + 1 ∧
    (∀ X, loop.decorate n (t :: A ++ X) = (m, A2 ++ X)) ∧ (loop ≠ .seq → m = n ∧ A2 = t :: A) := by
  cases loop with
  | seq =>
    obtain ⟨t, x, p⟩ := t
    by_cases ht : ∃ rs, t = .repetitions rs
    · obtain ⟨rs, rfl⟩ := ht
      exact ⟨_, A, by omega, fun X => rfl, fun h => absurd rfl h⟩
    · refine ⟨n, ⟨t, x, p⟩ :: A, Nat.le_refl _, fun X => ?_, fun h => absurd rfl h⟩
      simp only [List.cons_append, EventLoop.decorate]
      cases t <;> first | rfl | exact absurd ⟨_, rfl⟩ ht
  | _ => exact ⟨n, t :: A, Nat.le_refl _, fun X => rfl, fun _ => ⟨rfl, rfl⟩⟩

theorem decorate_end (hE : AtEnd E) (loop : EventLoop) (n : Node) : loop.decorate n E = (n, E) := by
  obtain ⟨x, p, rfl⟩ := hE
  cases loop <;> rfl

theorem withRepetitions_ends (n : Node) {T : List Token} (h : Ends T) : Ends (withRepetitions n T).2 := by
  unfold withRepetitions
  split
  · exact h.tail (by simp)
  · exact h

theorem events_stop {f : Nat} {loop : EventLoop} {T R : List Token} (h : loop.stop T = .ok (some R)) : events (f + 1) loop T = .ok ([], R) := by
  simp only [events, h]

theorem events_step {f : Nat} {loop : EventLoop} {T R R1 W : List Token} {n m : Node} {ns : List Node} (h : loop.stop T = .ok none) (hi : innerEvent f T = .ok (n, R))
    (hd : loop.decorate n R = (m, R1)) (he : events f loop R1 = .ok (ns, W)) : events (f + 1) loop T = .ok (m :: ns, W) := by
  simp only [events, h, hi, hd, he]

theorem events_cases {f : Nat} {loop : EventLoop} {T W : List Token} {ns : List Node} (h : events (f + 1) loop T = .ok (ns, W)) :
    (loop.stop T = .ok (some W) ∧ ns = []) ∨
    ∃ n R m R1 ms, loop.stop T = .ok none ∧ innerEvent f T = .ok (n, R) ∧ loop.decorate n R = (m, R1) ∧ events f loop R1 = .ok (ms, W) ∧ ns = m :: ms := by
  simp only [events] at h
  cases hs : loop.stop T with
  | error e => rw [hs] at h; cases h
  | ok o =>
    rw [hs] at h
    cases o with
    | some R => cases h; exact .inl ⟨rfl, rfl⟩
    | none =>
      simp only at h
      cases hi : innerEvent f T with
      | error e => rw [hi] at h; cases h
      | ok r =>
        obtain ⟨n, R⟩ := r
        rw [hi] at h
        simp only at h
        rcases hd : loop.decorate n R with ⟨m, R1⟩
        rw [hd] at h
        simp only at h
        cases he : events f loop R1 with
        | error e => rw [he] at h; cases h
        | ok r =>
          obtain ⟨ms, W'⟩ := r
          rw [he] at h
          cases h
          exact .inr ⟨n, R, m, R1, ms, rfl, rfl, hd, he, rfl⟩

theorem stop_later {u : Tok} {y : List Char} {q : Pos} {us : List Token} {line : Nat} (h : line < q.line) :
    (EventLoop.varDef line).stop (⟨u, y, q⟩ :: us) = .ok (some (⟨u, y, q⟩ :: us)) := by
  simp only [EventLoop.stop]
  cases u <;> first | rfl | (show Except.ok (if q.line = line then none else _) = _; rw [if_neg (by omega)])

theorem innerEvent_reads {f : Nat} {T R : List Token} {n : Node} (he : Ends T) (h : innerEvent f T = .ok (n, R)) :
    ∃ ts, T = ts ++ R ∧ ts ≠ [] ∧ EventG ts n ∧ Ends R := by
  have := (events_sound (f + 3 * T.length) T he).1 (by omega)
  rw [innerEvent_mono h (by omega)] at this
  obtain ⟨ts, h1, h2, h3⟩ := this
  exact ⟨ts, h1, h2.1, h2.2, h3⟩

theorem events_reads {f : Nat} {T R : List Token} {loop : EventLoop} {ns : List Node} (he : Ends T) (h : events f loop T = .ok (ns, R)) :
    ∃ ts, T = ts ++ R ∧ LoopG loop ts ns ∧ Ends R := by
  have := (events_sound (f + 3 * T.length + 1) T he).2.1 (by omega) loop
  rw [events_mono h (by omega)] at this
  exact this

theorem voices_reads {f : Nat} {T R : List Token} {k : Int} {ns : List Node} (he : Ends T) (h : voices f k T = .ok (ns, R)) :
    ∃ ts, T = ts ++ R ∧ VoicesG (⟨.voiceMarker k, [], ⟨0, 0⟩⟩ :: ts) ns ∧ Ends R := by
  have := (events_sound (f + 3 * T.length + 2) T he).2.2 (by omega) k ⟨.voiceMarker k, [], ⟨0, 0⟩⟩ rfl
  rw [voices_mono h (by omega)] at this
  exact this

/-- What is claimed about an inner event. -/
def EventExt (E B : List Token) (f : Nat) : Prop := ∀ (A R : List Token) (n : Node), Ends (A ++ E) → innerEvent f (A ++ E) = .ok (n, R) →
  ∃ A2, R = A2 ++ E ∧ A2.length < A.length ∧ (A2 ≠ [] → ∀ f', f ≤ f' → innerEvent f' (A ++ B) = .ok (n, A2 ++ B)) ∧
    (A2 = [] → ¬ Open n → (∀ t ∈ A, ∀ u ∈ B, t.pos.line < u.pos.line) → ∃ n' B', (∀ f', f ≤ f' → innerEvent f' (A ++ B) = .ok (n', B')) ∧ Bars B B' ∧ Longer n n')

/-- … about a loop. -/
def EventsExt (E B : List Token) (f : Nat) : Prop := ∀ (loop : EventLoop) (A R : List Token) (ns : List Node), Ends (A ++ E) → events f loop (A ++ E) = .ok (ns, R) →
  ∃ A2, R = A2 ++ E ∧ A2.length ≤ A.length ∧ (loop = .seq ∨ loop = .cram → A2.length < A.length) ∧
    (A2 ≠ [] ∨ loop = .seq ∨ loop = .cram → ∀ f', f ≤ f' → events f' loop (A ++ B) = .ok (ns, A2 ++ B)) ∧
    (A2 = [] → ∀ line, loop = .varDef line → (∀ t ∈ A, ∀ u ∈ B, t.pos.line < u.pos.line) → (∀ u ∈ B, line < u.pos.line) → (∀ ms n, ns = ms ++ [n] → ¬ Open n) →
      ∃ ns' B', (∀ f', f ≤ f' → events f' loop (A ++ B) = .ok (ns', B')) ∧ Bars B B' ∧ LongerL ns ns')

/-- … about voices. -/
def VoicesExt (E B : List Token) (f : Nat) : Prop := ∀ (k : Int) (A R : List Token) (ns : List Node), Ends (A ++ E) → voices f k (A ++ E) = .ok (ns, R) →
  ∃ A2, R = A2 ++ E ∧ A2.length ≤ A.length ∧
    ((∀ f', f ≤ f' → voices f' k (A ++ B) = .ok (ns, A2 ++ B)) ∨ A2 = [] ∧ ∃ ms n, ns = ms ++ [n] ∧ OpenVoice n)

theorem eventsExt_step (hE : AtEnd E) (hB : Cont B) {f : Nat} (hI : EventExt E B f) (hL : EventsExt E B f) : EventsExt E B (f + 1) := by
  intro loop A R ns he h
  cases A with
  | nil =>
    rcases stop_end hE loop with ⟨h1, h2, h3⟩ | ⟨e, h1⟩
    · rw [List.nil_append, events_stop h1] at h
      cases h
      refine ⟨[], rfl, Nat.le_refl _, ?_, ?_, ?_⟩
      · intro h; rcases h with h | h
        · exact absurd h h2
        · exact absurd h h3
      · intro h; rcases h with h | h | h
        · exact absurd rfl h
        · exact absurd h h2
        · exact absurd h h3
      · intro _ line hl h4 h5 _
        subst hl
        refine ⟨[], B, fun f' hf' => ?_, .refl B, .inl rfl⟩
        obtain ⟨f', rfl⟩ : ∃ k, f' = k + 1 := ⟨f' - 1, by omega⟩
        refine events_stop ?_
        obtain ⟨u, us, rfl, _⟩ := hB.head
        obtain ⟨u, y, q⟩ := u
        have := h5 _ (List.mem_cons_self ..)
        simp only at this
        exact stop_later this
    · simp only [List.nil_append, events, h1] at h
      cases h
  | cons t A =>
    rcases stop_ext hE hB loop t A with ⟨s1, s2⟩ | ⟨A2, s1, s2, s3, s4, s5⟩ | ⟨e, s1⟩
    · rcases events_cases h with ⟨h1, _⟩ | ⟨n, R1, m, R2, ms, h1, h2, h3, h4, rfl⟩
      · rw [s1] at h1; cases h1
      · obtain ⟨A1, a1, a2, a3, a4⟩ := hI _ _ _ he h2
        subst a1
        obtain ⟨pre, p1, _, _, p4⟩ := innerEvent_reads he h2
        have hpre : t :: A = pre ++ A1 := by rw [← List.append_assoc] at p1; exact List.append_cancel_right p1
        simp only [List.length_cons] at a2 ⊢
        cases A1 with
        | nil =>
          rw [List.nil_append, decorate_end hE] at h3
          cases h3
          rcases stop_end hE loop with ⟨d1, d2, d3⟩ | ⟨e, d1⟩
          · have hms : ms = [] ∧ R = E := by
              cases f with
              | zero => simp [events] at h4
              | succ f => rw [events_stop d1] at h4; cases h4; exact ⟨rfl, rfl⟩
            obtain ⟨rfl, rfl⟩ := hms
            refine ⟨[], rfl, by simp, ?_, ?_, ?_⟩
            · intro h; rcases h with h | h
              · exact absurd h d2
              · exact absurd h d3
            · intro h; rcases h with h | h | h
              · exact absurd rfl h
              · exact absurd h d2
              · exact absurd h d3
            · intro _ line hl l1 l2 l3
              subst hl
              obtain ⟨n', B', b1, b2, b3⟩ := a4 rfl (l3 [] n rfl) l1
              refine ⟨[n'], B', fun f' hf' => ?_, b2, .inr ⟨[], n, n', rfl, rfl, b3⟩⟩
              obtain ⟨f', rfl⟩ : ∃ k, f' = k + 1 := ⟨f' - 1, by omega⟩
              refine events_step s2 (b1 f' (by omega)) rfl ?_
              have hf0 : f ≠ 0 := by intro h0; subst h0; simp [events] at h4
              obtain ⟨f', rfl⟩ : ∃ k, f' = k + 1 := ⟨f' - 1, by omega⟩
              refine events_stop ?_
              obtain ⟨u, us, hu, _⟩ := (b2.cont hB).head
              obtain ⟨bs, hbs, _⟩ := b2
              obtain ⟨u, y, q⟩ := u
              have := l2 ⟨u, y, q⟩ (by rw [hbs, hu]; simp)
              simp only at this
              rw [hu]
              exact stop_later this
          · cases f with
            | zero => simp [events] at h4
            | succ f => simp only [events, d1] at h4; cases h4
        | cons u A1 =>
          have a3 := a3 (by simp)
          obtain ⟨m', A2, d1, d2, d3⟩ := decorate_ext loop n u A1
          rw [d2] at h3
          simp only [Prod.mk.injEq] at h3
          obtain ⟨rfl, rfl⟩ := h3
          have he2 : Ends (A2 ++ E) := by
            by_cases hl : loop = .seq
            · subst hl
              have := d2 E
              simp only [EventLoop.decorate] at this
              have hw := withRepetitions_ends n p4
              rw [this] at hw
              exact hw
            · rw [(d3 hl).2]; exact p4
          obtain ⟨A3, b1, b2, b3, b4, b5⟩ := hL _ _ _ _ he2 h4
          simp only [List.length_cons] at a2
          refine ⟨A3, b1, by omega, fun h => by have := b3 h; omega, ?_, ?_⟩
          · intro h5 f' hf'
            obtain ⟨f', rfl⟩ : ∃ k, f' = k + 1 := ⟨f' - 1, by omega⟩
            exact events_step s2 (a3 f' (by omega)) (d2 B) (b4 h5 f' (by omega))
          · intro h5 line hl l1 l2 l3
            obtain ⟨e1, e2⟩ := d3 (by rw [hl]; simp)
            subst e1 e2
            obtain ⟨ns', B', c1, c2, c3⟩ := b5 h5 line hl (fun x hx => l1 x (by rw [hpre]; exact List.mem_append_right _ hx)) l2 (fun ms' n' hm => l3 (m' :: ms') n' (by rw [hm]; rfl))
            refine ⟨m' :: ns', B', fun f' hf' => ?_, c2, ?_⟩
            · obtain ⟨f', rfl⟩ : ∃ k, f' = k + 1 := ⟨f' - 1, by omega⟩
              exact events_step s2 (a3 f' (by omega)) (d2 B) (c1 f' (by omega))
            · rcases c3 with rfl | ⟨ls, l, l', rfl, rfl, hl⟩
              · exact .inl rfl
              · exact .inr ⟨m' :: ls, l, l', rfl, rfl, hl⟩
    · rw [events_stop s1] at h
      cases h
      refine ⟨A2, rfl, s3, s4, fun _ f' hf' => ?_, ?_⟩
      · obtain ⟨f', rfl⟩ : ∃ k, f' = k + 1 := ⟨f' - 1, by omega⟩
        exact events_stop s2
      · intro h5 line hl
        subst hl
        exact absurd h5 (s5 (by simp) (by simp))
    · simp only [events, s1] at h
      cases h

theorem voices_cases {f : Nat} {k : Int} {T W : List Token} {ns : List Node} (h : voices (f + 1) k T = .ok (ns, W)) :
    ∃ es R, events f .voice T = .ok (es, R) ∧
      ((∃ x p, R = ⟨.voiceMarker 0, x, p⟩ :: W ∧ ns = [.mk .voice .none [leafNode .voiceNumber (.int k), .mk .eventSequence .none es], leafNode .voiceGroupEndMarker]) ∨
       (∃ m x p U more, m ≠ 0 ∧ R = ⟨.voiceMarker m, x, p⟩ :: U ∧ voices f m U = .ok (more, W) ∧ ns = .mk .voice .none [leafNode .voiceNumber (.int k), .mk .eventSequence .none es] :: more) ∨
       (R = W ∧ (∀ u us, R = u :: us → ∀ m, u.tok ≠ .voiceMarker m) ∧ ns = [.mk .voice .none [leafNode .voiceNumber (.int k), .mk .eventSequence .none es]])) := by
  simp only [voices] at h
  cases he : events f .voice T with
  | error e => rw [he] at h; cases h
  | ok r =>
    obtain ⟨es, R⟩ := r
    rw [he] at h
    simp only at h
    refine ⟨es, R, rfl, ?_⟩
    split at h
    · rename_i m x p U
      split at h
      · rename_i hm
        cases h
        subst hm
        exact .inl ⟨x, p, rfl, rfl⟩
      · rename_i hm
        cases hv : voices f m U with
        | error e => rw [hv] at h; cases h
        | ok r =>
          rw [hv] at h
          cases h
          exact .inr (.inl ⟨m, x, p, U, _, hm, rfl, hv, rfl⟩)
    · rename_i hno
      cases h
      refine .inr (.inr ⟨rfl, ?_, rfl⟩)
      intro u us h1 m h2
      obtain ⟨u, x, p⟩ := u
      simp only at h2
      subst h2 h1
      exact hno _ _ _ _ rfl

theorem voices_zero {f : Nat} {k : Int} {T W : List Token} {es : List Node} {x : List Char} {p : Pos} (h : events f .voice T = .ok (es, ⟨.voiceMarker 0, x, p⟩ :: W)) :
    voices (f + 1) k T = .ok ([.mk .voice .none [leafNode .voiceNumber (.int k), .mk .eventSequence .none es], leafNode .voiceGroupEndMarker], W) := by
  simp only [voices, h, if_true]

theorem voices_next {f : Nat} {k m : Int} {T U W : List Token} {es more : List Node} {x : List Char} {p : Pos} (h : events f .voice T = .ok (es, ⟨.voiceMarker m, x, p⟩ :: U)) (hm : m ≠ 0)
    (hv : voices f m U = .ok (more, W)) :
    voices (f + 1) k T = .ok (.mk .voice .none [leafNode .voiceNumber (.int k), .mk .eventSequence .none es] :: more, W) := by
  simp only [voices, h, if_neg hm, hv]

theorem voices_last {f : Nat} {k : Int} {T R : List Token} {es : List Node} (h : events f .voice T = .ok (es, R)) (hR : ∀ u us, R = u :: us → ∀ m, u.tok ≠ .voiceMarker m) :
    voices (f + 1) k T = .ok ([.mk .voice .none [leafNode .voiceNumber (.int k), .mk .eventSequence .none es]], R) := by
  simp only [voices, h]
  split
  · exact absurd rfl (hR _ _ rfl _)
  · rfl

theorem singleOrRepeated_plain {n m : Node} {T R : List Token} (h : (Except.ok (singleOrRepeated n T) : Parsed Node) = .ok (m, R)) (hn : plainType n.type = true) :
    plainType m.type = true := by
  have e : (singleOrRepeated n T).1 = m := congrArg Prod.fst (Except.ok.inj h)
  rw [← e]
  unfold singleOrRepeated
  split
  · rfl
  · exact hn

theorem noteOrRest_type {T R : List Token} {n : Node} (h : noteOrRest T = some (n, R)) : n.type = .note ∨ n.type = .rest := by
  unfold noteOrRest at h
  split at h
  · cases h; exact .inl rfl
  · cases h; exact .inr rfl
  · cases h

theorem chordLoop_type {f : Nat} {T R : List Token} {ns : List Node} {k : Int} (h : chordLoop f T = .ok (ns, k, R)) :
    ∃ n ms, ns = n :: ms ∧ (n.type = .note ∨ n.type = .rest) := by
  cases f with
  | zero => simp [chordLoop] at h
  | succ f =>
    simp only [chordLoop] at h
    split at h
    · cases h
    · rename_i node T' hn
      have := noteOrRest_type hn
      split at h
      · cases h; exact ⟨_, _, rfl, this⟩
      · split at h
        · cases h
        · split at h
          · cases h
          · split at h
            · cases h
            · cases h; exact ⟨_, _, rfl, this⟩
        · cases h; exact ⟨_, _, rfl, this⟩

theorem noteRestOrChord_plain {T R : List Token} {n : Node} (h : noteRestOrChord T = .ok (n, R)) : plainType n.type = true := by
  unfold noteRestOrChord at h
  split at h
  · cases h
  · rename_i ns k T' hc
    obtain ⟨m, ms, rfl, hm⟩ := chordLoop_type hc
    simp only at h
    split at h
    · split at h
      · cases h; rfl
      · cases h
    · split at h
      · rename_i node _ he
        cases h
        split at he
        · cases he; rfl
        · cases he; rcases hm with h | h <;> rw [h] <;> rfl
      · cases h

/-- An event that does not begin with a voice marker is not a voice group. -/
theorem innerEvent_plain {f : Nat} {T R : List Token} {n : Node} (h : innerEvent f T = .ok (n, R)) (hv : ∀ t U, T = t :: U → ∀ m, t.tok ≠ .voiceMarker m) :
    plainType n.type = true := by
  cases f with
  | zero => simp [innerEvent] at h
  | succ f =>
    rw [innerEvent.eq_def] at h
    simp only at h
    split at h
    · unfold sexp at h
      split at h
      · cases h
      · rename_i l T' hl
        have : l.type = .lispList := by
          unfold lispList at hl
          split at hl <;> cases hl
          rfl
        exact singleOrRepeated_plain h (by rw [this]; rfl)
    · split at h
      · cases h
      · split at h
        · cases h
        · split at h
          · cases h
          · cases h; rfl
    · exact singleOrRepeated_plain h rfl
    · cases h; rfl
    · cases h; rfl
    · cases h; rfl
    · exact noteRestOrChord_plain h
    · exact noteRestOrChord_plain h
    · cases h; rfl
    · split at h
      · cases h
      · exact singleOrRepeated_plain h rfl
    · split at h
      · cases h
      · cases h
      · exact singleOrRepeated_plain h rfl
    · exact absurd rfl (hv _ _ rfl _)
    · cases h; rfl
    · cases h; rfl
    · cases h

theorem voice_goes_on {T : List Token} (h : EventLoop.stop .voice T = .ok none) : ∀ t U, T = t :: U → ∀ m, t.tok ≠ .voiceMarker m := by
  intro t U e m ht
  obtain ⟨t, x, p⟩ := t
  simp only at ht
  subst ht e
  simp [EventLoop.stop] at h

/-- A voice does not contain voices. -/
theorem voice_plain : ∀ (f : Nat) {T R : List Token} {ns : List Node}, events f .voice T = .ok (ns, R) → ∀ n ∈ ns, plainType n.type = true := by
  intro f
  induction f with
  | zero => intro T R ns h; simp [events] at h
  | succ f ih =>
    intro T R ns h
    rcases events_cases h with ⟨_, rfl⟩ | ⟨n, R', m, R1, ms, h1, h2, h3, h4, rfl⟩
    · intro n hn; cases hn
    · simp only [EventLoop.decorate, Prod.mk.injEq] at h3
      obtain ⟨rfl, rfl⟩ := h3
      intro k hk
      rcases List.mem_cons.mp hk with rfl | hk
      · exact innerEvent_plain h2 (voice_goes_on h1)
      · exact ih h4 k hk

theorem voicesExt_step (hE : AtEnd E) {f : Nat} (hL : EventsExt E B f) (hV : VoicesExt E B f) : VoicesExt E B (f + 1) := by
  have headE : ∀ u us, E = u :: us → u.tok = .eof := by
    obtain ⟨x, p, rfl⟩ := hE; intro u us h; cases h; rfl
  intro k A R ns he h
  obtain ⟨es, R1, h1, h2⟩ := voices_cases h
  obtain ⟨A1, a1, a2, a3, a4, a5⟩ := hL _ _ _ _ he h1
  obtain ⟨_, _, _, p4⟩ := events_reads he h1
  subst a1
  rcases h2 with ⟨x, p, h2, rfl⟩ | ⟨m, x, p, U, more, hm, h2, h3, rfl⟩ | ⟨rfl, h2, rfl⟩
  · cases A1 with
    | nil => have := headE _ _ h2; cases this
    | cons t A1 =>
      simp only [List.cons_append, List.cons.injEq] at h2
      obtain ⟨rfl, rfl⟩ := h2
      simp only [List.length_cons] at a2
      refine ⟨A1, rfl, by omega, .inl fun f' hf' => ?_⟩
      obtain ⟨f', rfl⟩ : ∃ k, f' = k + 1 := ⟨f' - 1, by omega⟩
      exact voices_zero (a4 (.inl (by simp)) f' (by omega))
  · cases A1 with
    | nil => have := headE _ _ h2; cases this
    | cons t A1 =>
      simp only [List.cons_append, List.cons.injEq] at h2
      obtain ⟨rfl, rfl⟩ := h2
      simp only [List.length_cons] at a2
      obtain ⟨A2, b1, b2, b3⟩ := hV _ _ _ _ (p4.tail (by simp)) h3
      refine ⟨A2, b1, by omega, ?_⟩
      rcases b3 with b3 | ⟨b3, ms, n, rfl, b4⟩
      · refine .inl fun f' hf' => ?_
        obtain ⟨f', rfl⟩ : ∃ k, f' = k + 1 := ⟨f' - 1, by omega⟩
        exact voices_next (a4 (.inl (by simp)) f' (by omega)) hm (b3 f' (by omega))
      · exact .inr ⟨b3, _ :: ms, n, rfl, b4⟩
  · cases A1 with
    | nil => exact ⟨[], rfl, by simp, .inr ⟨rfl, [], _, rfl, _, _, rfl, voice_plain _ h1⟩⟩
    | cons t A1 =>
      refine ⟨t :: A1, rfl, a2, .inl fun f' hf' => ?_⟩
      obtain ⟨f', rfl⟩ : ∃ k, f' = k + 1 := ⟨f' - 1, by omega⟩
      refine voices_last (a4 (.inl (by simp)) f' (by omega)) ?_
      intro u us h3
      simp only [List.cons_append, List.cons.injEq] at h3
      rw [← h3.1]
      exact h2 t (A1 ++ E) rfl

theorem eventExt_step (hE : AtEnd E) (hB : Cont B) {f : Nat} (hL : EventsExt E B f) (hV : VoicesExt E B f) : EventExt E B (f + 1) := by
  have hlE : 0 < E.length := by obtain ⟨x, p, rfl⟩ := hE; simp
  have hlB : 0 < B.length := by obtain ⟨t, us, rfl, _⟩ := hB.head; simp
  intro A R n he h
  cases A with
  | nil => obtain ⟨x, p, rfl⟩ := hE; cases h
  | cons t A =>
    have both : ∀ (A2 : List Token), A2.length < (t :: A).length → R = A2 ++ E → (∀ f', f ≤ f' → innerEvent (f' + 1) (t :: A ++ B) = .ok (n, A2 ++ B)) →
        ∃ A2, R = A2 ++ E ∧ A2.length < (t :: A).length ∧ (A2 ≠ [] → ∀ f', f + 1 ≤ f' → innerEvent f' (t :: A ++ B) = .ok (n, A2 ++ B)) ∧
        (A2 = [] → ¬ Open n → (∀ x ∈ t :: A, ∀ u ∈ B, x.pos.line < u.pos.line) → ∃ n' B', (∀ f', f + 1 ≤ f' → innerEvent f' (t :: A ++ B) = .ok (n', B')) ∧ Bars B B' ∧ Longer n n') := by
      intro A2 h1 h2 h3
      have h3' : ∀ f', f + 1 ≤ f' → innerEvent f' (t :: A ++ B) = .ok (n, A2 ++ B) := by
        intro f' hf'
        obtain ⟨f', rfl⟩ : ∃ k, f' = k + 1 := ⟨f' - 1, by omega⟩
        exact h3 f' (by omega)
      exact ⟨A2, h2, h1, fun _ => h3', fun h4 _ _ => ⟨n, B, by subst h4; exact h3', .refl B, .refl n⟩⟩
    obtain ⟨t, x, p⟩ := t
    have notes : noteRestOrChord (⟨t, x, p⟩ :: A ++ E) = .ok (n, R) → (∀ f X, innerEvent (f + 1) (⟨t, x, p⟩ :: A ++ X) = noteRestOrChord (⟨t, x, p⟩ :: A ++ X)) →
        ∃ A2, R = A2 ++ E ∧ A2.length < (⟨t, x, p⟩ :: A : List Token).length ∧ (A2 ≠ [] → ∀ f', f + 1 ≤ f' → innerEvent f' (⟨t, x, p⟩ :: A ++ B) = .ok (n, A2 ++ B)) ∧
        (A2 = [] → ¬ Open n → (∀ x_1 ∈ (⟨t, x, p⟩ :: A : List Token), ∀ u ∈ B, x_1.pos.line < u.pos.line) →
          ∃ n' B', (∀ f', f + 1 ≤ f' → innerEvent f' (⟨t, x, p⟩ :: A ++ B) = .ok (n', B')) ∧ Bars B B' ∧ Longer n n') := by
      intro h1 h2
      obtain ⟨A2, a1, a2, a3, a4⟩ := noteRestOrChord_ext hE hB h1
      refine ⟨A2, a1, a2, fun h3 f' hf' => ?_, fun h3 _ _ => ?_⟩
      · obtain ⟨f', rfl⟩ : ∃ k, f' = k + 1 := ⟨f' - 1, by omega⟩
        rw [h2]; exact a3 h3
      · obtain ⟨n', B', b1, b2⟩ := a4 h3
        refine ⟨n', B', fun f' hf' => ?_, b2⟩
        obtain ⟨f', rfl⟩ : ∃ k, f' = k + 1 := ⟨f' - 1, by omega⟩
        rw [h2]; exact b1
    cases t with
    | barline => cases h; exact both A (by simp) rfl fun _ _ => rfl
    | marker s => cases h; exact both A (by simp) rfl fun _ _ => rfl
    | atMarker s => cases h; exact both A (by simp) rfl fun _ _ => rfl
    | octaveUp => cases h; exact both A (by simp) rfl fun _ _ => rfl
    | octaveDown => cases h; exact both A (by simp) rfl fun _ _ => rfl
    | octaveSet k => cases h; exact both A (by simp) rfl fun _ _ => rfl
    | noteLetter c => exact notes h fun _ _ => rfl
    | restLetter => exact notes h fun _ _ => rfl
    | leftParen =>
      simp only [List.cons_append, innerEvent, sexp] at h
      cases hl : lispList (A ++ E) with
      | error e => rw [hl] at h; cases h
      | ok r =>
        obtain ⟨l, R1⟩ := r
        rw [hl] at h
        obtain ⟨A1, a1, a2, a3⟩ := lispList_ext hE hl
        subst a1
        obtain ⟨m, A2, b1, b2, b3, _⟩ := singleOrRepeated_ext hE hB l A1
        simp only [b2] at h
        cases h
        refine both A2 (by simp only [List.length_cons]; omega) rfl fun f' _ => ?_
        simp only [List.cons_append, innerEvent, sexp, a3 B hlB, b3]
    | eventSeqOpen =>
      simp only [List.cons_append, innerEvent] at h
      cases hl : events f .seq (A ++ E) with
      | error e => rw [hl] at h; cases h
      | ok r =>
        obtain ⟨ns, R1⟩ := r
        rw [hl] at h
        obtain ⟨A1, a1, a2, a3, a4, a5⟩ := hL _ _ _ _ (he.tail (by simp)) hl
        subst a1
        obtain ⟨m, A2, b1, b2, b3, _⟩ := singleOrRepeated_ext hE hB (.mk .eventSequence .none ns) A1
        simp only [b2] at h
        cases h
        refine both A2 (by simp only [List.length_cons]; omega) rfl fun f' hf' => ?_
        simp only [List.cons_append, innerEvent, a4 (.inr (.inl rfl)) f' hf', b3]
    | cramOpen =>
      simp only [List.cons_append, innerEvent] at h
      cases hl : events f .cram (A ++ E) with
      | error e => rw [hl] at h; cases h
      | ok r =>
        obtain ⟨ns, R1⟩ := r
        rw [hl] at h
        obtain ⟨A1, a1, a2, a3, a4, a5⟩ := hL _ _ _ _ (he.tail (by simp)) hl
        subst a1
        have a4 := a4 (.inr (.inr rfl))
        cases ns with
        | nil => cases h
        | cons m0 ns =>
          obtain ⟨A2, b1, b2, b3, b4⟩ := optionalDuration_ext hE hB A1
          have bE : optionalDuration (A1 ++ E) = ((optionalDuration (A1 ++ E)).1, A2 ++ E) := by rw [← b1]
          generalize (optionalDuration (A1 ++ E)).1 = dur at bE b3 b4
          simp only at h
          rw [bE] at h
          simp only at h
          obtain ⟨m, A3, c1, c2, c3, c4⟩ := singleOrRepeated_ext hE hB (.mk .cram .none (.mk .eventSequence .none (m0 :: ns) :: dur)) A2
          simp only [c2] at h
          cases h
          have same : optionalDuration (A1 ++ B) = (dur, A2 ++ B) → ∀ f', f ≤ f' → innerEvent (f' + 1) (⟨.cramOpen, x, p⟩ :: A ++ B) = .ok (n, A3 ++ B) := by
            intro h1 f' hf'
            simp only [List.cons_append, innerEvent, a4 f' hf', h1, c3]
          by_cases hA : A2 = []
          · rcases b4 hA with b6 | ⟨ds, k, hds, b6, b5⟩
            · refine both A3 (by simp only [List.length_cons]; omega) rfl (same ?_)
              rw [hA]; exact b6
            · subst hA; subst b6
              simp only [List.length_nil, Nat.le_zero_eq, List.length_eq_zero_iff] at c1
              subst c1
              rw [c4 rfl]
              refine ⟨[], rfl, by simp, fun h => absurd rfl h, fun _ _ _ => ?_⟩
              refine ⟨_, _, fun f' hf' => ?_, (bars_match B).1, .cram (.mk .eventSequence .none (m0 :: ns)) ds k hds⟩
              obtain ⟨f', rfl⟩ : ∃ k, f' = k + 1 := ⟨f' - 1, by omega⟩
              simp only [List.cons_append, innerEvent, a4 f' (by omega), b5]
              have := singleOrRepeated_ext hE hB.bars (.mk .cram .none [.mk .eventSequence .none (m0 :: ns), .mk .duration .none (ds ++ barNodes k)]) []
              obtain ⟨m, A3, d1, d2, d3, d4⟩ := this
              simp only [List.length_nil, Nat.le_zero_eq, List.length_eq_zero_iff] at d1
              subst d1
              rw [d4 rfl] at d3
              simp only [List.nil_append] at d3
              rw [d3]
          · exact both A3 (by simp only [List.length_cons]; omega) rfl (same (b3 hA))
    | voiceMarker k =>
      simp only [List.cons_append, innerEvent] at h
      cases hl : voices f k (A ++ E) with
      | error e => rw [hl] at h; cases h
      | ok r =>
        obtain ⟨ns, R1⟩ := r
        rw [hl] at h
        cases h
        obtain ⟨A1, a1, a2, a3⟩ := hV _ _ _ _ (he.tail (by simp)) hl
        subst a1
        rcases a3 with a3 | ⟨rfl, ms, m, rfl, a3⟩
        · refine both A1 (by simp only [List.length_cons]; omega) rfl fun f' hf' => ?_
          simp only [List.cons_append, innerEvent, a3 f' hf']
        · exact ⟨[], rfl, by simp, fun h => absurd rfl h, fun _ h => absurd (Open.voice ms a3) h⟩
    | name =>
      cases A with
      | nil =>
        have hn : innerEvent (f + 1) ([⟨.name, x, p⟩] ++ E) = .ok (singleOrRepeated (leafNode .variableReference (.str (String.ofList x))) ([] ++ E)) := by
          obtain ⟨ex, ep, rfl⟩ := hE; rfl
        obtain ⟨m, A2, b1, b2, b3, _⟩ := singleOrRepeated_ext hE hB (leafNode .variableReference (.str (String.ofList x))) []
        rw [hn, b2] at h
        cases h
        refine both A2 (by simp only [List.length_cons]; omega) rfl fun f' _ => ?_
        rw [← b3]
        obtain ⟨u, us, rfl, hu⟩ := hB.head
        obtain ⟨u, y, q⟩ := u
        cases u <;> first | rfl | (simp [startTok] at hu; done)
      | cons t2 A =>
        obtain ⟨t2, x2, p2⟩ := t2
        by_cases ht : t2 = .equals
        · subst ht
          simp only [List.cons_append, innerEvent] at h
          cases A with
          | nil =>
            obtain ⟨ex, ep, rfl⟩ := hE
            simp at h
          | cons t3 A =>
            simp only [List.cons_append] at h
            split at h
            · cases h
            · rename_i hc
              cases hl : events f (.varDef p.line) (t3 :: (A ++ E)) with
              | error e => rw [hl] at h; cases h
              | ok r =>
                obtain ⟨ns, R1⟩ := r
                rw [hl] at h
                cases h
                have he2 : Ends ((t3 :: A) ++ E) := Ends.tail (t := ⟨.equals, x2, p2⟩) (Ends.tail (t := ⟨.name, x, p⟩) he (by simp)) (by simp)
                obtain ⟨A1, a1, a2, a3, a4, a5⟩ := hL (.varDef p.line) (t3 :: A) _ _ he2 hl
                subst a1
                simp only [List.length_cons] at a2
                refine ⟨A1, rfl, by simp only [List.length_cons]; omega, fun h1 f' hf' => ?_, fun h1 h2 h3 => ?_⟩
                · obtain ⟨f', rfl⟩ : ∃ k, f' = k + 1 := ⟨f' - 1, by omega⟩
                  have := a4 (.inl h1) f' (by omega)
                  simp only [List.cons_append] at this
                  simp only [List.cons_append, innerEvent, if_neg hc, this]
                · obtain ⟨ns', B', b1, b2, b3⟩ := a5 h1 p.line rfl (fun y hy => h3 y (List.mem_cons_of_mem _ (List.mem_cons_of_mem _ hy))) (h3 ⟨.name, x, p⟩ (List.mem_cons_self ..))
                    (fun ms m hm ho => h2 (by rw [hm]; exact .varDef _ ms ho))
                  refine ⟨.mk .variableDefinition .none [leafNode .variableName (.str (String.ofList x)), .mk .eventSequence .none ns'], B', fun f' hf' => ?_, b2, ?_⟩
                  · obtain ⟨f', rfl⟩ : ∃ k, f' = k + 1 := ⟨f' - 1, by omega⟩
                    have := b1 f' (by omega)
                    simp only [List.cons_append] at this
                    simp only [List.cons_append, innerEvent, if_neg hc, this]
                  · rcases b3 with rfl | ⟨ms, m, m', rfl, rfl, b3⟩
                    · exact .refl _
                    · exact .varDef _ ms b3
        · have hn : ∀ f X, innerEvent (f + 1) (⟨.name, x, p⟩ :: ⟨t2, x2, p2⟩ :: A ++ X) =
              .ok (singleOrRepeated (leafNode .variableReference (.str (String.ofList x))) (⟨t2, x2, p2⟩ :: A ++ X)) := by
            intro f X
            simp only [List.cons_append]
            cases t2 <;> first | rfl | exact absurd rfl ht
          obtain ⟨m, A2, b1, b2, b3, _⟩ := singleOrRepeated_ext hE hB (leafNode .variableReference (.str (String.ofList x))) (⟨t2, x2, p2⟩ :: A)
          rw [hn, b2] at h
          cases h
          refine both A2 (by simp only [List.length_cons] at b1 ⊢; omega) rfl fun f' _ => ?_
          rw [hn, b3]
    | _ => cases h

/-- The three claims hold. -/
theorem parser_ext (hE : AtEnd E) (hB : Cont B) (f : Nat) : EventExt E B f ∧ EventsExt E B f ∧ VoicesExt E B f := by
  induction f with
  | zero =>
    refine ⟨?_, ?_, ?_⟩
    · intro A R n _ h; simp [innerEvent] at h
    · intro loop A R n _ h; simp [events] at h
    · intro k A R n _ h; simp [voices] at h
  | succ f ih => exact ⟨eventExt_step hE hB ih.2.1 ih.2.2, eventsExt_step hE hB ih.1 ih.2.1, voicesExt_step hE ih.2.1 ih.2.2⟩

end Syn
end Alda
