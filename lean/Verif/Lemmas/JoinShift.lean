import Verif.Lemmas.JoinEvent
/-!
What the parser reads does not change if all tokens are moved down by the same number of lines. (For C56.)
-/
namespace Alda
namespace Syn
open Spec

/-- A token some lines further down. -/
def sh (k : Nat) (t : Token) : Token := ⟨t.tok, t.text, ⟨t.pos.line + k, t.pos.column⟩⟩

theorem sh_mk (k : Nat) (t : Tok) (x : List Char) (p : Pos) : sh k ⟨t, x, p⟩ = ⟨t, x, ⟨p.line + k, p.column⟩⟩ := rfl

variable (k : Nat)

theorem matchBarlines_sh (T : List Token) : matchBarlines (T.map (sh k)) = ((matchBarlines T).1, (matchBarlines T).2.map (sh k)) := by
  induction T with
  | nil => rfl
  | cons t T ih =>
    obtain ⟨t, x, p⟩ := t
    cases t <;> first | rfl | skip
    simp only [List.map_cons, sh_mk, matchBarlines, ih]

theorem matchTies_sh (T : List Token) : matchTies (T.map (sh k)) = (matchTies T).map (sh k) := by
  induction T with
  | nil => rfl
  | cons t T ih =>
    obtain ⟨t, x, p⟩ := t
    cases t <;> first | rfl | skip
    simp only [List.map_cons, sh_mk, matchTies, ih]

theorem component_sh (T : List Token) : matchDurationComponent (T.map (sh k)) = (matchDurationComponent T).map fun r => (r.1, r.2.map (sh k)) := by
  cases T with
  | nil => rfl
  | cons t T =>
    obtain ⟨t, x, p⟩ := t
    cases t <;> rfl

theorem durationLoop_sh (f : Nat) (T : List Token) : durationLoop f (T.map (sh k)) = ((durationLoop f T).1, (durationLoop f T).2.map (sh k)) := by
  induction f generalizing T with
  | zero => rfl
  | succ f ih =>
    have hb := matchBarlines_sh k T
    rcases hm : matchBarlines T with ⟨bars, T1⟩
    rw [hm] at hb
    simp only at hb
    by_cases ht : ∀ u us, T1 = u :: us → u.tok ≠ .tie
    · rw [durationLoop_halt hm ht, durationLoop_halt hb]
      intro u us h
      cases T1 with
      | nil => cases h
      | cons v vs =>
        simp only [List.map_cons, List.cons.injEq] at h
        rw [← h.1]; exact ht v vs rfl
    · have ht : ∃ x p U, T1 = ⟨.tie, x, p⟩ :: U := by
        cases T1 with
        | nil => exact absurd (fun u us h => by cases h) ht
        | cons u us =>
          obtain ⟨u, x, p⟩ := u
          by_cases hu : u = .tie
          · subst hu; exact ⟨x, p, us, rfl⟩
          · exact absurd (fun u us h => by cases h; exact hu) ht
      obtain ⟨x, p, U, rfl⟩ := ht
      have hc := matchBarlines_sh k U
      rcases hm2 : matchBarlines U with ⟨more, V⟩
      rw [hm2] at hc
      simp only at hc
      simp only [List.map_cons, sh_mk] at hb
      have hd := component_sh k (matchTies V)
      rw [← matchTies_sh] at hd
      cases hm3 : matchDurationComponent (matchTies V) with
      | none =>
        rw [hm3] at hd
        rw [durationLoop_untied hm hm2 hm3, durationLoop_untied hb hc hd]
        rfl
      | some r =>
        obtain ⟨c, W⟩ := r
        rw [hm3] at hd
        rw [durationLoop_some hm hm2 hm3, durationLoop_some hb hc hd, ih]

theorem optionalDuration_sh (T : List Token) : optionalDuration (T.map (sh k)) = ((optionalDuration T).1, (optionalDuration T).2.map (sh k)) := by
  have hd := component_sh k T
  unfold optionalDuration
  rw [hd]
  cases matchDurationComponent T with
  | none => rfl
  | some r => simp only [Option.map_some, List.length_map, durationLoop_sh]

theorem matchAccidentals_sh (T : List Token) : matchAccidentals (T.map (sh k)) = ((matchAccidentals T).1, (matchAccidentals T).2.map (sh k)) := by
  induction T with
  | nil => rfl
  | cons t T ih =>
    obtain ⟨t, x, p⟩ := t
    cases t <;> first | rfl | (simp only [List.map_cons, sh_mk, matchAccidentals, ih])

theorem matchSlur_sh (T : List Token) : matchSlur (T.map (sh k)) = ((matchSlur T).1, (matchSlur T).2.map (sh k)) := by
  cases T with
  | nil => rfl
  | cons t T =>
    obtain ⟨t, x, p⟩ := t
    cases t <;> rfl

theorem noteOrRest_sh (T : List Token) : noteOrRest (T.map (sh k)) = (noteOrRest T).map fun r => (r.1, r.2.map (sh k)) := by
  cases T with
  | nil => rfl
  | cons t T =>
    obtain ⟨t, x, p⟩ := t
    cases t <;> first | rfl | skip
    · simp only [List.map_cons, sh_mk, noteOrRest, note, Option.map_some, matchAccidentals_sh, optionalDuration_sh, matchSlur_sh]
    · simp only [List.map_cons, sh_mk, noteOrRest, rest, Option.map_some, optionalDuration_sh]

theorem matchQuote_sh (T : List Token) : matchQuote (T.map (sh k)) = ((matchQuote T).1, (matchQuote T).2.map (sh k)) := by
  cases T with
  | nil => rfl
  | cons t T =>
    obtain ⟨t, x, p⟩ := t
    cases t <;> rfl

theorem lisp_sh (f : Nat) : ∀ T : List Token,
    (∀ n R, lispForm f T = .ok (n, R) → lispForm f (T.map (sh k)) = .ok (n, R.map (sh k))) ∧
    (∀ n R, lispElements f T = .ok (n, R) → lispElements f (T.map (sh k)) = .ok (n, R.map (sh k))) := by
  induction f with
  | zero => intro T; simp [lispForm, lispElements]
  | succ f ih =>
    intro T
    constructor
    · intro n R h
      cases T with
      | nil => cases h
      | cons t T =>
        obtain ⟨t, x, p⟩ := t
        cases t <;> first | (cases h; done) | skip
        · simp only [lispForm] at h
          cases hl : lispElements f T with
          | error e => rw [hl] at h; cases h
          | ok r =>
            rw [hl] at h
            cases h
            simp only [List.map_cons, sh_mk, lispForm, (ih T).2 _ _ hl]
        all_goals cases h; rfl
    · intro n R h
      cases T with
      | nil =>
        cases f <;> cases h
      | cons t T =>
        by_cases h1 : t.tok = .rightParen
        · obtain ⟨t, x, p⟩ := t
          simp only at h1
          subst h1
          cases h
          rfl
        · by_cases h2 : t.tok = .eof
          · obtain ⟨t, x, p⟩ := t
            simp only at h2
            subst h2
            cases h
          · have unf : ∀ T : List Token, (∃ u us, T = u :: us ∧ u.tok = t.tok) → lispElements (f + 1) T = (match lispForm f (matchQuote T).2 with
                | .error e => .error e
                | .ok (form, toks) =>
                  match lispElements f toks with
                  | .error e => .error e
                  | .ok (forms, toks) => .ok ((if (matchQuote T).1 then .mk .lispQuotedForm .none [form] else form) :: forms, toks)) := by
              intro T ⟨u, us, hT, hu⟩
              subst hT
              obtain ⟨u, x, p⟩ := u
              simp only at hu
              subst hu
              cases u : t.tok <;> first | exact absurd u h1 | exact absurd u h2 | rfl | (simp only [lispElements])
            have hq := matchQuote_sh k (t :: T)
            rw [unf _ ⟨t, T, rfl, rfl⟩] at h
            rw [unf ((t :: T).map (sh k)) ⟨sh k t, T.map (sh k), rfl, rfl⟩, hq]
            cases hl : lispForm f (matchQuote (t :: T)).2 with
            | error e => rw [hl] at h; cases h
            | ok r =>
              obtain ⟨form, R'⟩ := r
              rw [hl] at h
              simp only at h
              simp only [(ih _).1 _ _ hl]
              cases hl2 : lispElements f R' with
              | error e => rw [hl2] at h; cases h
              | ok r =>
                obtain ⟨ns, R''⟩ := r
                rw [hl2] at h
                simp only [Except.ok.injEq, Prod.mk.injEq] at h
                obtain ⟨rfl, rfl⟩ := h
                simp only [(ih _).2 _ _ hl2]

theorem lispList_sh {T R : List Token} {n : Node} (h : lispList T = .ok (n, R)) : lispList (T.map (sh k)) = .ok (n, R.map (sh k)) := by
  unfold lispList at h ⊢
  rw [List.length_map]
  cases hx : lispElements (2 * T.length + 1) T with
  | error e => rw [hx] at h; cases h
  | ok r =>
    rw [hx] at h
    cases h
    simp only [(lisp_sh k _ T).2 _ _ hx]

theorem nodesBetween_sh (f : Nat) : ∀ {T R : List Token} {ns : List Node}, nodesBetween f T = .ok (ns, R) → nodesBetween f (T.map (sh k)) = .ok (ns, R.map (sh k)) := by
  induction f with
  | zero => intro T R ns h; simp [nodesBetween] at h
  | succ f ih =>
    intro T R ns h
    cases T with
    | nil => cases h; rfl
    | cons t T =>
      obtain ⟨t, x, p⟩ := t
      cases t with
      | octaveUp =>
        simp only [nodesBetween] at h
        cases hx : nodesBetween f T with
        | error e => rw [hx] at h; cases h
        | ok r => rw [hx] at h; cases h; simp only [List.map_cons, sh_mk, nodesBetween, ih hx]
      | octaveDown =>
        simp only [nodesBetween] at h
        cases hx : nodesBetween f T with
        | error e => rw [hx] at h; cases h
        | ok r => rw [hx] at h; cases h; simp only [List.map_cons, sh_mk, nodesBetween, ih hx]
      | octaveSet n =>
        simp only [nodesBetween] at h
        cases hx : nodesBetween f T with
        | error e => rw [hx] at h; cases h
        | ok r => rw [hx] at h; cases h; simp only [List.map_cons, sh_mk, nodesBetween, ih hx]
      | leftParen =>
        simp only [nodesBetween] at h
        cases hl : lispList T with
        | error e => rw [hl] at h; cases h
        | ok r =>
          obtain ⟨l, T'⟩ := r
          rw [hl] at h
          simp only at h
          cases hx : nodesBetween f T' with
          | error e => rw [hx] at h; cases h
          | ok r => rw [hx] at h; cases h; simp only [List.map_cons, sh_mk, nodesBetween, lispList_sh k hl, ih hx]
      | _ => cases h; rfl

theorem map_head {T us : List Token} {u : Token} (h : T.map (sh k) = u :: us) : ∃ v vs, T = v :: vs ∧ u.tok = v.tok := by
  cases T with
  | nil => cases h
  | cons v vs =>
    simp only [List.map_cons, List.cons.injEq] at h
    exact ⟨v, vs, rfl, by rw [← h.1]; rfl⟩

theorem chordLoop_sh (f : Nat) : ∀ {T R : List Token} {ns : List Node} {times : Int}, chordLoop f T = .ok (ns, times, R) → chordLoop f (T.map (sh k)) = .ok (ns, times, R.map (sh k)) := by
  induction f with
  | zero => intro T R ns times h; simp [chordLoop] at h
  | succ f ih =>
    intro T R ns times h
    have hn := noteOrRest_sh k T
    rcases chordLoop_cases h with ⟨n, x, p, h1, rfl⟩ | ⟨n, ms, R', h1, rfl, rfl, h2, h3, h4⟩ | ⟨n, before, after, ms, R1, x, p, U, V, h1, h2, h3, h4, h5, rfl⟩
    · rw [h1] at hn
      exact chordLoop_repeat hn
    · rw [h1] at hn
      refine chordLoop_one hn ?_ (by rw [List.length_map]; exact nodesBetween_sh k _ h3) ?_
      · intro u us h
        obtain ⟨v, vs, h5, h6⟩ := map_head k h
        rw [h6]; exact h2 v vs h5
      · intro u us h
        obtain ⟨v, vs, h5, h6⟩ := map_head k h
        rw [h6]; exact h4 v vs h5
    · rw [h1] at hn
      have h3' := nodesBetween_sh k _ h3
      simp only [List.map_cons, sh_mk] at h3'
      refine chordLoop_more hn ?_ (by rw [List.length_map]; exact h3') (by rw [List.length_map]; exact nodesBetween_sh k _ h4) (ih h5)
      intro u us h
      obtain ⟨v, vs, h6, h7⟩ := map_head k h
      rw [h7]; exact h2 v vs h6

theorem noteRestOrChord_sh {T R : List Token} {n : Node} (h : noteRestOrChord T = .ok (n, R)) : noteRestOrChord (T.map (sh k)) = .ok (n, R.map (sh k)) := by
  unfold noteRestOrChord at h ⊢
  rw [List.length_map]
  cases hc : chordLoop (T.length + 1) T with
  | error e => rw [hc] at h; cases h
  | ok r =>
    obtain ⟨ns, times, R'⟩ := r
    rw [hc] at h
    simp only at h
    simp only [chordLoop_sh k _ hc]
    generalize (if (ns.filter isNoteOrRest).length > 1 then [Node.mk .chord .none ns] else ns) = nodes at h ⊢
    split at h
    · rename_i ht
      rw [if_pos ht]
      split at h
      · cases h; rfl
      · cases h
    · rename_i ht
      rw [if_neg ht]
      split at h
      · cases h; rfl
      · cases h

theorem singleOrRepeated_sh (n : Node) (T : List Token) : singleOrRepeated n (T.map (sh k)) = ((singleOrRepeated n T).1, (singleOrRepeated n T).2.map (sh k)) := by
  cases T with
  | nil => rfl
  | cons t T =>
    obtain ⟨t, x, p⟩ := t
    cases t <;> rfl

theorem looksLike_sh (T : List Token) : looksLikePartDeclaration (T.map (sh k)) = looksLikePartDeclaration T := by
  cases T with
  | nil => rfl
  | cons t T =>
    cases T with
    | nil => obtain ⟨t, x, p⟩ := t; cases t <;> rfl
    | cons u T => obtain ⟨t, x, p⟩ := t; cases t <;> rfl

/-- A loop some lines further down. -/
def EventLoop.down : EventLoop → EventLoop
  | .varDef line => .varDef (line + k)
  | loop => loop

theorem stop_sh (loop : EventLoop) {T : List Token} {o : Option (List Token)} (h : loop.stop T = .ok o) : (loop.down k).stop (T.map (sh k)) = .ok (o.map (List.map (sh k))) := by
  have hl := looksLike_sh k T
  cases T with
  | nil => cases loop <;> cases h <;> rfl
  | cons t T =>
    obtain ⟨t, x, p⟩ := t
    cases loop with
    | part =>
      simp only [List.map_cons, sh_mk] at hl
      simp only [EventLoop.down, List.map_cons, sh_mk, EventLoop.stop] at h ⊢
      cases t <;> first
        | (cases h; rfl; done)
        | (simp only [hl]; simp only at h; split at h <;> rename_i hc <;> cases h <;> simp only [hc] <;> rfl)
    | varDef line =>
      simp only [EventLoop.down, List.map_cons, sh_mk, EventLoop.stop] at h ⊢
      by_cases hp : p.line = line
      · subst hp
        cases t <;> first | (cases h; rfl; done) | (simp only [if_true] at h ⊢; cases h; rfl)
      · have hp' : ¬ p.line + k = line + k := by omega
        cases t <;> first | (cases h; rfl; done) | (simp only [if_neg hp, if_neg hp'] at h ⊢; cases h; rfl)
    | seq => cases t <;> cases h <;> rfl
    | cram => cases t <;> cases h <;> rfl
    | voice =>
      simp only [List.map_cons, sh_mk] at hl
      simp only [EventLoop.down, List.map_cons, sh_mk, EventLoop.stop] at h ⊢
      cases t <;> first
        | (cases h; rfl; done)
        | (simp only [hl]; simp only at h; split at h <;> rename_i hc <;> cases h <;> simp only [hc] <;> rfl)

theorem decorate_sh (loop : EventLoop) (n : Node) (T : List Token) : (loop.down k).decorate n (T.map (sh k)) = ((loop.decorate n T).1, (loop.decorate n T).2.map (sh k)) := by
  cases loop with
  | seq =>
    cases T with
    | nil => rfl
    | cons t T =>
      obtain ⟨t, x, p⟩ := t
      cases t <;> rfl
  | _ => rfl

theorem parser_sh (f : Nat) : ∀ T : List Token,
    (∀ n R, innerEvent f T = .ok (n, R) → innerEvent f (T.map (sh k)) = .ok (n, R.map (sh k))) ∧
    (∀ loop ns R, events f loop T = .ok (ns, R) → events f (loop.down k) (T.map (sh k)) = .ok (ns, R.map (sh k))) ∧
    (∀ m ns R, voices f m T = .ok (ns, R) → voices f m (T.map (sh k)) = .ok (ns, R.map (sh k))) := by
  induction f with
  | zero => intro T; simp [innerEvent, events, voices]
  | succ f ih =>
    intro T
    refine ⟨fun n R h => ?_, fun loop ns R h => ?_, fun m ns R h => ?_⟩
    · cases T with
      | nil => cases h
      | cons t T =>
        obtain ⟨t, x, p⟩ := t
        cases t with
        | barline => cases h; rfl
        | marker s => cases h; rfl
        | atMarker s => cases h; rfl
        | octaveUp => cases h; rfl
        | octaveDown => cases h; rfl
        | octaveSet k => cases h; rfl
        | noteLetter c => exact noteRestOrChord_sh k h
        | restLetter => exact noteRestOrChord_sh k h
        | leftParen =>
          simp only [innerEvent, sexp] at h
          cases hl : lispList T with
          | error e => rw [hl] at h; cases h
          | ok r =>
            rw [hl] at h
            simp only [Except.ok.injEq] at h
            simp only [List.map_cons, sh_mk, innerEvent, sexp, lispList_sh k hl, singleOrRepeated_sh, h]
        | eventSeqOpen =>
          simp only [innerEvent] at h
          cases hl : events f .seq T with
          | error e => rw [hl] at h; cases h
          | ok r =>
            rw [hl] at h
            simp only [Except.ok.injEq] at h
            have := (ih T).2.1 _ _ _ hl
            simp only [EventLoop.down] at this
            simp only [List.map_cons, sh_mk, innerEvent, this, singleOrRepeated_sh, h]
        | cramOpen =>
          simp only [innerEvent] at h
          cases hl : events f .cram T with
          | error e => rw [hl] at h; cases h
          | ok r =>
            obtain ⟨ns, R1⟩ := r
            rw [hl] at h
            have := (ih T).2.1 _ _ _ hl
            simp only [EventLoop.down] at this
            cases ns with
            | nil => cases h
            | cons m ns =>
              simp only [Except.ok.injEq] at h
              simp only [List.map_cons, sh_mk, innerEvent, this, optionalDuration_sh, singleOrRepeated_sh, h]
        | voiceMarker m =>
          simp only [innerEvent] at h
          cases hl : voices f m T with
          | error e => rw [hl] at h; cases h
          | ok r =>
            rw [hl] at h
            cases h
            simp only [List.map_cons, sh_mk, innerEvent, (ih T).2.2 _ _ _ hl]
        | name =>
          by_cases ht : ∃ x2 p2 U, T = ⟨.equals, x2, p2⟩ :: U
          · obtain ⟨x2, p2, U, rfl⟩ := ht
            cases U with
            | nil => cases h
            | cons t3 U =>
              simp only [innerEvent] at h
              split at h
              · cases h
              · rename_i hc
                cases hl : events f (.varDef p.line) (t3 :: U) with
                | error e => rw [hl] at h; cases h
                | ok r =>
                  rw [hl] at h
                  cases h
                  have := (ih _).2.1 _ _ _ hl
                  simp only [EventLoop.down, List.map_cons] at this
                  have hc' : ¬ ((sh k t3).tok = .eof ∨ (sh k t3).pos.line > p.line + k) := by
                    simp only [sh]; rintro (h1 | h1)
                    · exact hc (.inl h1)
                    · exact hc (.inr (by omega))
                  simp only [List.map_cons, sh_mk, innerEvent, if_neg hc', this]
          · have hn : ∀ p T, (¬ ∃ x2 p2 U, T = ⟨.equals, x2, p2⟩ :: U) → innerEvent (f + 1) (⟨.name, x, p⟩ :: T) =
                .ok (singleOrRepeated (leafNode .variableReference (.str (String.ofList x))) T) := by
              intro p T ht
              cases T with
              | nil => rfl
              | cons t T =>
                obtain ⟨t, x2, p2⟩ := t
                cases t <;> first | rfl | exact absurd ⟨_, _, _, rfl⟩ ht
            rw [hn _ _ ht] at h
            simp only [Except.ok.injEq] at h
            rw [List.map_cons, sh_mk, hn _ _ ?_, singleOrRepeated_sh, h]
            rintro ⟨x2, p2, U, hU⟩
            cases T with
            | nil => cases hU
            | cons t T =>
              obtain ⟨t, x3, p3⟩ := t
              simp only [List.map_cons, sh_mk, List.cons.injEq, Token.mk.injEq] at hU
              exact ht ⟨x3, p3, T, by rw [hU.1.1]⟩
        | _ => cases h
    · rcases events_cases h with ⟨h1, rfl⟩ | ⟨n, R1, m, R2, ms, h1, h2, h3, h4, rfl⟩
      · exact events_stop (stop_sh k loop h1)
      · refine events_step (stop_sh k loop h1) ((ih T).1 _ _ h2) ?_ ((ih R2).2.1 _ _ _ h4)
        rw [decorate_sh, h3]
    · obtain ⟨es, R1, h1, h2⟩ := voices_cases h
      have h1' := (ih T).2.1 _ _ _ h1
      simp only [EventLoop.down] at h1'
      rcases h2 with ⟨x, p, rfl, rfl⟩ | ⟨m', x, p, U, more, hm, rfl, h3, rfl⟩ | ⟨rfl, h2, rfl⟩
      · exact voices_zero h1'
      · exact voices_next h1' hm ((ih U).2.2 _ _ _ h3)
      · refine voices_last h1' ?_
        intro u us h
        obtain ⟨v, vs, h5, h6⟩ := map_head k h
        rw [h6]; exact h2 v vs h5

theorem Cont.down {B : List Token} (h : Cont B) : Cont (B.map (sh k)) := by
  obtain ⟨f, ⟨ns, R⟩, h⟩ := h
  exact ⟨f, _, (parser_sh k f B).2.1 .part ns R h⟩

end Syn
end Alda
