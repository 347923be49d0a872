import Verif.Lemmas.FormatEvents
/-!
The parser on the tokens of well-formed trees: whole events and lists of them.
-/
namespace Alda
namespace Syn
open Spec Tree

theorem fuel_succ {fuel n : Nat} (h : n + 1 ≤ fuel) : ∃ k, fuel = k + 1 ∧ n ≤ k := ⟨fuel - 1, by omega, by omega⟩

theorem single_kind {us : List Token} {text : List Char} {t : Tok} (h : kindsOf us = itemKinds [one text t]) : ∃ p, us = [⟨t, text, p⟩] := by
  obtain ⟨p, us', rfl, h'⟩ := kindsOf_cons (k := t) (t := text) (ks := []) h
  obtain rfl := kindsOf_nil h'
  exact ⟨p, rfl⟩

theorem looser_def : ∀ es : List Ev, Looser (defItems es) (items es)
  | [] => Looser.refl _
  | [e] => by simp only [defItems, items, List.append_nil]; exact looser_glueFirst _
  | e :: e' :: es => by
    rw [defItems, items]
    · exact (looser_glueAll _).append (looser_def (e' :: es))
    · simp

/-- Where voices may end there is no barline. -/
theorem closers_bar {R : List Token} (h : Closers R) : ∀ u us, R = u :: us → u.tok ≠ .barline := by
  rintro u us rfl hu
  rcases h with ⟨v, vs, e, h⟩ | h
  · injection e with e _
    subst e
    rw [hu] at h
    simp at h
  · obtain ⟨t, x, p⟩ := u
    simp only at hu
    subst hu
    simp [looksLikePartDeclaration] at h

/-- A voice and what follows it in its group. -/
theorem voices_step {n : Nat} {es vs : List Ev} {b : Bool} (_ : allOk es) (hg : ((b = false → n ≠ 0) ∧ (vs ≠ [] → lastOpen es = false)) ∧ groupShape false vs)
    {k : Nat} {u2 u3 R : List Token} {L2 L' : Nat} {o2 o' : Bool} (_ : 3 * (u2 ++ (u3 ++ R)).length + 1 ≤ k) (h3 : Stream L2 o2 (items vs) u3 L' o')
    (hR : Next noRep false (lastOpen (.voice n es :: vs)) L' o' R)
    (hev : Next noRep (lastTail es) (lastOpen es) L2 o2 (u3 ++ R) → EventLoop.voice.stop (u3 ++ R) = .ok (some (u3 ++ R)) →
      events k .voice (u2 ++ (u3 ++ R)) = .ok (nodes es, u3 ++ R))
    (ih : (∃ n es more, vs = .voice n es :: more) → Next noRep false (lastOpen vs) L' o' R →
      ∃ (n : Nat) (x : List Char) (p : Pos) (us' : List Token), u3 = ⟨.voiceMarker n, x, p⟩ :: us' ∧ (false = false → n ≠ 0) ∧ voices k n (us' ++ R) = .ok (nodes vs, R)) :
    voices (k + 1) n (u2 ++ (u3 ++ R)) = .ok (nodes (.voice n es :: vs), R) := by
  unfold voices
  cases vs with
  | nil =>
    simp only [items] at h3
    cases h3
    have hc : Closers R := hR.close (by simp [lastOpen, Ev.open])
    rw [hev ⟨hR.fresh, hR.calm, fun _ => closers_bar hc, fun _ => hc, hR.line⟩ (voice_stop hc)]
    simp only [List.nil_append]
    have := closers_voice hc
    cases R with
    | nil => rfl
    | cons u us =>
      obtain ⟨t, x, q⟩ := u
      cases t <;> first | rfl | exact absurd rfl (this _ _ _ rfl)
  | cons v vs =>
    have hR' : Next noRep false (lastOpen (v :: vs)) L' o' R := by simpa only [lastOpen] using hR
    have hg2 := hg.2
    simp only [groupShape] at hg2
    cases v with
    | voice m es' =>
      have h3' := h3
      simp only [items, Ev.items, List.cons_append, one] at h3'
      obtain ⟨v, vs'', e1, _, _, a2, _⟩ := h3'.head
      obtain ⟨m', x, q, u4, rfl, hm, hrun⟩ := ih ⟨_, _, _, rfl⟩ hR'
      injection e1 with e1 _
      rw [hev (by rw [hg.1.2 (by simp)]; exact next_plain _ (Or.inl rfl) rfl (by rw [← e1] at a2; exact a2)) rfl]
      simp only [List.cons_append]
      rw [if_neg (by have := hm rfl; omega), hrun]
      simp only [nodes, Ev.node]
      rfl
    | voiceEnd =>
      obtain rfl := hg2.1.2
      simp only [items, Ev.items, List.append_nil, one] at h3
      obtain ⟨v, vs'', e1, _, _, a2, _⟩ := h3.head
      obtain ⟨q, e3⟩ := single_kind h3.kinds
      subst e3
      injection e1 with e1 _
      rw [hev (by rw [hg.1.2 (by simp)]; exact next_plain _ (Or.inl rfl) rfl (by rw [← e1] at a2; exact a2)) rfl]
      simp only [List.cons_append, List.nil_append, if_true, nodes, Ev.node]
      rfl
    | _ => simp at hg2

set_option maxHeartbeats 4000000 in
mutual
theorem Ev.parse : ∀ (e : Ev), e.ok → e.allowed .seq = true → ∀ (L : Nat) (o : Bool) (us : List Token) (L' : Nat) (o' : Bool) (R : List Token),
    Stream L o e.items us L' o' → Next (fun n => e.mayRepeat n) e.tailDur e.open L' o' R → ∀ fuel, 3 * (us ++ R).length ≤ fuel →
    ∃ r, innerEvent fuel (us ++ R) = .ok r ∧ EvReads e R r
  | .note c accs d slur, h, _, L, o, us, L', o', R, hst, hR, fuel, hf => by
    have hk := hst.kinds
    have hr := nr_run (e := .note c accs d slur) rfl h hk hR.afterNote hR.calm (hR.times (by simp [Ev.mayRepeat]))
    rw [note_kinds h] at hk
    obtain ⟨p, us', rfl, _⟩ := kindsOf_cons hk
    obtain ⟨k, rfl, hk⟩ := fuel_succ (n := 0) (fuel := fuel) (by simp at hf; omega)
    exact ⟨_, by simpa only [innerEvent, List.cons_append] using hr, rfl⟩
  | .rest d, h, _, L, o, us, L', o', R, hst, hR, fuel, hf => by
    have hk := hst.kinds
    have hr := nr_run (e := .rest d) rfl h hk hR.afterNote hR.calm (hR.times (by simp [Ev.mayRepeat]))
    rw [rest_kinds h] at hk
    obtain ⟨p, us', rfl, _⟩ := kindsOf_cons hk
    obtain ⟨k, rfl, hk⟩ := fuel_succ (n := 0) (fuel := fuel) (by simp at hf; omega)
    exact ⟨_, by simpa only [innerEvent, List.cons_append] using hr, rfl⟩
  | .chord es, h, _, L, o, us, L', o', R, hst, hR, fuel, hf => by
    have hk := hst.kinds
    have hr := chord_run h hk (by simpa only [Ev.tailDur] using hR.afterNote) hR.calm (hR.times (by simp [Ev.mayRepeat]))
    cases es with
    | nil => simp [Ev.ok, chordShape] at h
    | cons e es =>
      simp only [Ev.ok, allOk] at h
      have hnr : e.isNR = true := h.2.2.2.1 e rfl
      simp only [Ev.items, chordItems, itemKinds_append] at hk
      cases e with
      | note c accs d slur =>
        rw [note_kinds h.1.1] at hk
        obtain ⟨p, us', rfl, _⟩ := kindsOf_cons hk
        obtain ⟨k, rfl, hk⟩ := fuel_succ (n := 0) (fuel := fuel) (by simp at hf; omega)
        exact ⟨_, by simpa only [innerEvent, List.cons_append] using hr, rfl⟩
      | rest d =>
        rw [rest_kinds h.1.1] at hk
        obtain ⟨p, us', rfl, _⟩ := kindsOf_cons hk
        obtain ⟨k, rfl, hk⟩ := fuel_succ (n := 0) (fuel := fuel) (by simp at hf; omega)
        exact ⟨_, by simpa only [innerEvent, List.cons_append] using hr, rfl⟩
      | _ => simp [Ev.isNR] at hnr
  | .up, h, _, L, o, us, L', o', R, hst, hR, fuel, hf => by
    obtain ⟨p, rfl⟩ := single_kind hst.kinds
    obtain ⟨k, rfl, hk⟩ := fuel_succ (n := 0) (fuel := fuel) (by simp at hf; omega)
    refine ⟨_, rfl, ?_⟩
    show _ = singleOrRepeated _ _
    rw [singleOrRepeated_single _ (Next.noRepeat (hR.weaken (rep' := noRep) (by simp [Ev.mayRepeat]) id id id))]
    rfl
  | .down, h, _, L, o, us, L', o', R, hst, hR, fuel, hf => by
    obtain ⟨p, rfl⟩ := single_kind hst.kinds
    obtain ⟨k, rfl, hk⟩ := fuel_succ (n := 0) (fuel := fuel) (by simp at hf; omega)
    refine ⟨_, rfl, ?_⟩
    show _ = singleOrRepeated _ _
    rw [singleOrRepeated_single _ (Next.noRepeat (hR.weaken (rep' := noRep) (by simp [Ev.mayRepeat]) id id id))]
    rfl
  | .oct n, h, _, L, o, us, L', o', R, hst, hR, fuel, hf => by
    obtain ⟨p, rfl⟩ := single_kind hst.kinds
    obtain ⟨k, rfl, hk⟩ := fuel_succ (n := 0) (fuel := fuel) (by simp at hf; omega)
    refine ⟨_, rfl, ?_⟩
    show _ = singleOrRepeated _ _
    rw [singleOrRepeated_single _ (Next.noRepeat (hR.weaken (rep' := noRep) (by simp [Ev.mayRepeat]) id id id))]
    rfl
  | .bar, h, _, L, o, us, L', o', R, hst, hR, fuel, hf => by
    obtain ⟨p, rfl⟩ := single_kind hst.kinds
    obtain ⟨k, rfl, hk⟩ := fuel_succ (n := 0) (fuel := fuel) (by simp at hf; omega)
    refine ⟨_, rfl, ?_⟩
    show _ = singleOrRepeated _ _
    rw [singleOrRepeated_single _ (Next.noRepeat (hR.weaken (rep' := noRep) (by simp [Ev.mayRepeat]) id id id))]
    rfl
  | .marker s, h, _, L, o, us, L', o', R, hst, hR, fuel, hf => by
    obtain ⟨p, rfl⟩ := single_kind hst.kinds
    obtain ⟨k, rfl, hk⟩ := fuel_succ (n := 0) (fuel := fuel) (by simp at hf; omega)
    refine ⟨_, rfl, ?_⟩
    show _ = singleOrRepeated _ _
    rw [singleOrRepeated_single _ (Next.noRepeat (hR.weaken (rep' := noRep) (by simp [Ev.mayRepeat]) id id id))]
    rfl
  | .at s, h, _, L, o, us, L', o', R, hst, hR, fuel, hf => by
    obtain ⟨p, rfl⟩ := single_kind hst.kinds
    obtain ⟨k, rfl, hk⟩ := fuel_succ (n := 0) (fuel := fuel) (by simp at hf; omega)
    refine ⟨_, rfl, ?_⟩
    show _ = singleOrRepeated _ _
    rw [singleOrRepeated_single _ (Next.noRepeat (hR.weaken (rep' := noRep) (by simp [Ev.mayRepeat]) id id id))]
    rfl
  | .ref s, h, _, L, o, us, L', o', R, hst, hR, fuel, hf => by
    obtain ⟨p, rfl⟩ := single_kind hst.kinds
    obtain ⟨k, rfl, hk⟩ := fuel_succ (n := 0) (fuel := fuel) (by simp at hf; omega)
    obtain ⟨u, vs, rfl, hu⟩ := hR.fresh
    refine ⟨singleOrRepeated (Ev.node (.ref s)) (u :: vs), ?_, rfl⟩
    obtain ⟨t, x, q⟩ := u
    have : t ≠ .equals := by
      rintro rfl
      rcases hu with hu | ⟨n, hu, _⟩
      · simp [freshTok, startTok] at hu
      · simp at hu
    have hs : Ev.node (.ref s) = leafNode .variableReference (.str (String.ofList s.toList)) := by rw [String.ofList_toList]; rfl
    rw [hs]
    cases t <;> first | rfl | exact absurd rfl this
  | .defn s es, h, _, L, o, us, L', o', R, hst, hR, fuel, hf => by
    simp only [Ev.ok] at h
    simp only [Ev.items, List.cons_append] at hst
    cases hst with
    | text _ _ _ _ _ _ u us ts L2 _ _ a1 a2 a3 a4 a5 a6 hst =>
      have hnl : '\n' ∉ s.toList ++ [' ', '='] := by simp [isName_flat h.1]
      have e2 := a6 hnl
      obtain ⟨p, us', e5, h'⟩ := kindsOf_cons a1
      injection e5 with e5 e6
      subst e6
      obtain ⟨q, us'', rfl, h''⟩ := kindsOf_cons h'
      obtain rfl := kindsOf_nil h''
      subst e5
      obtain ⟨w1, w2, L1, o1, rfl, h1, h2⟩ := hst.split
      cases h2 with
      | brk _ _ _ _ _ _ h2 =>
        cases h2 with
        | nil =>
          simp only at e2
          subst e2
          obtain ⟨k, rfl, hk⟩ := fuel_succ (n := 3 * (w1 ++ R).length + 1) (fuel := fuel) (by simp at hf ⊢; omega)
          obtain ⟨hrun, v, vs, e7, e8, e9⟩ := defEvents_parse es h.2.1 h.2.2.1 h.2.2.2 p.line w1 L' o1 R h1
            (hR.weaken (rep' := noRep) (by simp [Ev.mayRepeat]) (by simp [Ev.tailDur]) (by simp [Ev.open]) id) k hk
          refine ⟨(Ev.node (.defn s es), R), ?_, ?_⟩
          · simp only [List.cons_append, List.nil_append, List.append_nil, innerEvent]
            rw [e7]
            simp only [List.cons_append]
            rw [if_neg (by simp only [not_or]; exact ⟨e8, by omega⟩), ← List.cons_append, ← e7, hrun, String.ofList_toList]
            simp only [Ev.node]
            rfl
          · show _ = singleOrRepeated _ _
            rw [singleOrRepeated_single _ (Next.noRepeat (hR.weaken (rep' := noRep) (by simp [Ev.mayRepeat]) id id id))]
  | .sexp fs, h, _, L, o, us, L', o', R, hst, hR, fuel, hf => by
    have hk := hst.kinds
    simp only [Ev.items, itemKinds, List.append_nil] at hk
    obtain ⟨p, us', rfl, h'⟩ := kindsOf_cons hk
    obtain ⟨k, rfl, hk⟩ := fuel_succ (n := 0) (fuel := fuel) (by simp at hf; omega)
    refine ⟨singleOrRepeated (Ev.node (.sexp fs)) R, ?_, rfl⟩
    simp only [List.cons_append, innerEvent, sexp]
    rw [lispList_run (by simpa only [Ev.ok] using h) h']
    simp only [Ev.node]
  | .seq es, h, _, L, o, us, L', o', R, hst, hR, fuel, hf => by
    simp only [Ev.ok] at h
    simp only [Ev.items] at hst
    obtain ⟨u12, u3, L2, o2, rfl, h12, h3⟩ := hst.split
    obtain ⟨u1, u2, L1, o1, rfl, h1, h2⟩ := Stream.split (is := [_]) h12
    obtain ⟨v, vs, e1, a1, _, a2, _⟩ := h3.head
    obtain ⟨q, e3⟩ := single_kind h3.kinds
    subst e3
    injection e1 with e1 _
    obtain ⟨p, rfl⟩ := single_kind h1.kinds
    obtain ⟨k, rfl, hk⟩ := fuel_succ (n := 3 * (u2 ++ (⟨.eventSeqClose, [']'], q⟩ :: R)).length + 1) (fuel := fuel) (by simp at hf ⊢; omega)
    have hn : Next noRep (lastTail es) (lastOpen es) L2 o2 (⟨.eventSeqClose, [']'], q⟩ :: R) := by
      refine ⟨⟨_, _, rfl, Or.inl rfl⟩, calm_plain _ rfl, fun _ v vs e hb => ?_, fun _ => Or.inl ⟨_, _, rfl, Or.inr (Or.inl rfl)⟩, fun ho v vs e => ?_⟩
      · injection e with e _
        rw [← e] at hb; simp at hb
      · injection e with e _
        subst e
        rw [← e1] at a2
        exact Or.inr (a2 ho)
    have := events_parse es .seq (by simp) h.1 h.2 L1 o1 u2 L2 o2 (⟨.eventSeqClose, [']'], q⟩ :: R) R h2 hn rfl k hk
    refine ⟨singleOrRepeated (Ev.node (.seq es)) R, ?_, rfl⟩
    simp only [List.append_assoc, List.cons_append, List.nil_append, innerEvent]
    simp only [Ctx.loop] at this
    rw [this]
    simp only [Ev.node]
    rfl
  | .cram es d, h, _, L, o, us, L', o', R, hst, hR, fuel, hf => by
    simp only [Ev.ok] at h
    simp only [Ev.items] at hst
    obtain ⟨u12, u3, L2, o2, rfl, h12, h3⟩ := hst.split
    obtain ⟨u1, u2, L1, o1, rfl, h1, h2⟩ := Stream.split (is := [_]) h12
    obtain ⟨g, text, ks, is, hi⟩ := durItems_starts false d ['}'] [(.cramClose, ['}'])] false (by simp)
    have h3' := h3
    rw [hi] at h3'
    obtain ⟨v, vs, e1, a1, _, a2, _⟩ := h3'.head
    have hk3 := h3.kinds
    rw [cram_kinds h.2.2.2] at hk3
    obtain ⟨q, u4, e3, h4⟩ := kindsOf_cons hk3
    subst e3
    injection e1 with e1 _
    obtain ⟨p, rfl⟩ := single_kind h1.kinds
    obtain ⟨k, rfl, hk⟩ := fuel_succ (n := 3 * (u2 ++ (⟨.cramClose, ['}'], q⟩ :: (u4 ++ R))).length + 1) (fuel := fuel) (by simp at hf ⊢; omega)
    have hn : Next noRep (lastTail es) (lastOpen es) L2 o2 (⟨.cramClose, ['}'], q⟩ :: (u4 ++ R)) := by
      refine ⟨⟨_, _, rfl, Or.inl rfl⟩, calm_plain _ rfl, fun _ v vs e hb => ?_, fun _ => Or.inl ⟨_, _, rfl, Or.inr (Or.inr rfl)⟩, fun ho v vs e => ?_⟩
      · injection e with e _
        rw [← e] at hb; simp at hb
      · injection e with e _
        subst e
        rw [← e1] at a2
        exact Or.inr (a2 ho)
    have := events_parse es .cram (by simp) h.2.1 h.2.2.1 L1 o1 u2 L2 o2 (⟨.cramClose, ['}'], q⟩ :: (u4 ++ R)) (u4 ++ R) h2 hn rfl k hk
    have hdur : optionalDuration (u4 ++ R) = (durNodes d, R) := by
      have hA := hR.afterNote
      simp only [Ev.tailDur] at hA
      refine optionalDuration_run (afterNote_dur (slur := false) (us := []) rfl (by simpa using hA)) ?_ h.2.2.2.2 h4
      exact fun u us e _ => Or.inr (hA.len u us e)
    refine ⟨singleOrRepeated (Ev.node (.cram es d)) R, ?_, rfl⟩
    simp only [List.append_assoc, List.cons_append, List.nil_append, innerEvent]
    simp only [Ctx.loop] at this
    rw [this]
    cases es with
    | nil => exact absurd rfl h.1
    | cons e es =>
      simp only [nodes, Ev.node, hdur]
      rfl
  | .voice n es, _, ha, _, _, _, _, _, _, _, _, _, _ => by simp [Ev.allowed] at ha
  | .voiceEnd, _, ha, _, _, _, _, _, _, _, _, _, _ => by simp [Ev.allowed] at ha
  | .group vs, h, _, L, o, us, L', o', R, hst, hR, fuel, hf => by
    simp only [Ev.ok] at h
    simp only [Ev.items] at hst
    have hv : ∃ n es more, vs = .voice n es :: more := by
      cases vs with
      | nil => exact absurd rfl h.1
      | cons v vs =>
        cases v with
        | voice n es => exact ⟨n, es, vs, rfl⟩
        | _ => simp [groupShape] at h
    have hfuel : 1 ≤ fuel := by
      obtain ⟨n, es, more, rfl⟩ := hv
      have := hst.kinds
      obtain ⟨p, us', rfl, _⟩ := kindsOf_cons (k := .voiceMarker n) (t := 'V' :: (natDigits n ++ [':'])) (ks := itemKinds (items es ++ items more))
        (by rw [this]; simp only [items, Ev.items, one, List.cons_append, itemKinds]; rfl)
      simp at hf; omega
    obtain ⟨k, rfl, hk⟩ := fuel_succ hfuel
    obtain ⟨n, x, p, us', rfl, _, hrun⟩ := voices_parse vs h.2.1 true h.2.2 hv L o us L' o' R hst
      (hR.weaken (rep' := noRep) (by simp [Ev.mayRepeat]) (by simp) (by simp [Ev.open]) id) k (by omega)
    refine ⟨(Ev.node (.group vs), R), ?_, ?_⟩
    · simp only [List.cons_append, innerEvent]
      rw [hrun]
      simp only [Ev.node]
      rfl
    · show _ = singleOrRepeated _ _
      rw [singleOrRepeated_single _ (Next.noRepeat (hR.weaken (rep' := noRep) (by simp [Ev.mayRepeat]) id id id))]
  | .rep e n, h, _, L, o, us, L', o', R, hst, hR, fuel, hf => by
    simp only [Ev.ok] at h
    simp only [Ev.items] at hst
    obtain ⟨u1, u2, L1, o1, rfl, h1, h2⟩ := hst.split
    obtain ⟨v, vs, e1, a1, _, a2, _⟩ := h2.head
    obtain ⟨q, e3⟩ := single_kind h2.kinds
    subst e3
    injection e1 with e1 _
    have hop : e.open = false ∧ e.allowed .seq = true := by
      have := h.2.2
      cases e <;> simp [Ev.mayRepeat] at this <;> simp [Ev.open, Ev.allowed]
    rw [List.append_assoc]
    obtain ⟨r, hr, hrd⟩ := Ev.parse e h.1 hop.2 L o u1 L1 o1 (⟨.repeat n, '*' :: natDigits n, q⟩ :: R) h1
      (by rw [hop.1]; exact next_plain R (Or.inr ⟨n, rfl, h.2.2⟩) rfl (by rw [← e1] at a2; exact a2)) fuel (by simpa using hf)
    refine ⟨r, hr, ?_⟩
    have hne : r = singleOrRepeated e.node (⟨.repeat n, '*' :: natDigits n, q⟩ :: R) := by
      have := h.2.2
      cases e <;> first | exact hrd | simp [Ev.mayRepeat] at this
    rw [hne]
    show _ = singleOrRepeated _ _
    rw [singleOrRepeated_single _ (Next.noRepeat (hR.weaken (rep' := noRep) (by simp [Ev.mayRepeat]) id id id)), singleOrRepeated_rep]
    simp only [Ev.node]
    rfl
  | .onReps e rs, h, _, L, o, us, L', o', R, hst, hR, fuel, hf => by
    simp only [Ev.ok] at h
    simp only [Ev.items] at hst
    obtain ⟨u1, u2, L1, o1, rfl, h1, h2⟩ := hst.split
    obtain ⟨v, vs, e1, a1, _, a2, _⟩ := h2.head
    obtain ⟨q, e3⟩ := single_kind h2.kinds
    subst e3
    injection e1 with e1 _
    rw [List.append_assoc]
    obtain ⟨r, hr, hrd⟩ := Ev.parse e h.1 (allowed_seq h.2.2.2.2) L o u1 L1 o1 (⟨rangesTok rs, rangesText rs, q⟩ :: R) h1
      (by rw [h.2.2.2.1]; exact next_plain R (Or.inl rfl) rfl (by rw [← e1] at a2; exact a2)) fuel (by simpa using hf)
    refine ⟨r, hr, ?_⟩
    have hne : r = singleOrRepeated e.node (⟨rangesTok rs, rangesText rs, q⟩ :: R) := by
      have := h.2.2.2.2
      cases e <;> first | exact hrd | simp [Ev.allowed] at this
    rw [singleOrRepeated_single _ (by intro u us k e; injection e with e _; rw [← e]; simp [rangesTok])] at hne
    rw [hne]
    show withRepetitions _ _ = _
    simp only [Ev.node, rangesTok, withRepetitions]
    rfl
theorem events_parse : ∀ (es : List Ev) (x : Ctx), x ≠ .defn → allOk es → shape x es → ∀ (L : Nat) (o : Bool) (us : List Token) (L' : Nat) (o' : Bool)
    (R R' : List Token), Stream L o (items es) us L' o' → Next noRep (lastTail es) (lastOpen es) L' o' R → (Ctx.loop x).stop R = .ok (some R') →
    ∀ fuel, 3 * (us ++ R).length + 1 ≤ fuel → events fuel (Ctx.loop x) (us ++ R) = .ok (nodes es, R')
  | [], x, hx, _, _, L, o, us, L', o', R, R', hst, hR, hstop, fuel, hf => by
    simp only [items] at hst
    cases hst
    obtain ⟨k, rfl, hk⟩ := fuel_succ hf
    simp only [List.nil_append, events, hstop]
    rfl
  | e :: es, x, hx, h, hs, L, o, us, L', o', R, R', hst, hR, hstop, fuel, hf => by
    have hnext : ∀ {u1 u2 : List Token} {L1 : Nat} {o1 : Bool}, Stream L1 o1 (items es) u2 L' o' → Next noRep e.tailDur e.open L1 o1 (u2 ++ R) :=
      fun h2 => next_in_list h hs h2 hR
    simp only [allOk] at h
    simp only [shape] at hs
    simp only [items] at hst
    obtain ⟨u1, u2, L1, o1, rfl, h1, h2⟩ := hst.split
    obtain ⟨k, rfl, hk⟩ := fuel_succ hf
    have hn := hnext (u1 := u1) h2
    have hgo := stop_none hx h.1 hs.1 h1.kinds hn.notDecl
    rw [List.append_assoc] at hk ⊢
    obtain ⟨r, hr, hrd⟩ := Ev.parse e h.1 (allowed_seq hs.1) L o u1 L1 o1 (u2 ++ R) h1 (hn.weaken (by simp [noRep]) id id id) k hk
    have hdec := decorate_reads hs.1 hrd hn.noRepeat (fun hx => no_repetitions h.2 h2.kinds hx hstop)
    have hrest : events k (Ctx.loop x) (u2 ++ R) = .ok (nodes es, R') := by
      obtain ⟨v, vs, rfl, _⟩ := h1.starts h.1
      refine events_parse es x hx h.2 hs.2.2.2.2 L1 o1 u2 L' o' R R' h2 ?_ hstop k (by simp at hk ⊢; omega)
      cases es with
      | nil => exact hR.weaken (fun _ h => h) (by simp [lastTail]) (by simp [lastOpen]) id
      | cons e' es => exact hR
    unfold events
    rw [hgo]
    simp only
    rw [hr]
    simp only
    rw [hdec]
    simp only
    rw [hrest]
    simp only [nodes]
theorem defEvents_parse : ∀ (es : List Ev), es ≠ [] → allOk es → shape .defn es → ∀ (N : Nat) (us : List Token) (L' : Nat) (o' : Bool)
    (R : List Token), Stream N false (defItems es) us L' o' → Next noRep (lastTail es) (lastOpen es) L' true R →
    ∀ fuel, 3 * (us ++ R).length + 1 ≤ fuel → events fuel (.varDef N) (us ++ R) = .ok (nodes es, R) ∧
      ∃ u vs, us = u :: vs ∧ u.tok ≠ .eof ∧ u.pos.line = N
  | [], h0, _, _, _, _, _, _, _, _, _, _, _ => absurd rfl h0
  | [e], _, h, hs, N, us, L', o', R, hst, hR, fuel, hf => by
    simp only [allOk] at h
    simp only [shape] at hs
    simp only [defItems] at hst
    have hhead : ∃ u vs, us = u :: vs ∧ u.tok ≠ .eof ∧ u.pos.line = N := by
      obtain ⟨v, vs, rfl, a1, _⟩ := (hst.loosen (looser_glueFirst _)).starts h.1
      obtain ⟨g, text, ks, is, hi⟩ := Ev.items_starts e h.1
      rw [hi] at hst
      simp only [glueFirst] at hst
      obtain ⟨w, ws, e1, _, a2, _⟩ := hst.head
      injection e1 with e1 _
      subst e1
      exact ⟨v, vs, rfl, eof_not_start a1, a2 rfl⟩
    refine ⟨?_, hhead⟩
    have hl := hst.lines
    obtain ⟨k, rfl, hk⟩ := fuel_succ hf
    obtain ⟨r, hr, hrd⟩ := Ev.parse e h.1 (allowed_seq hs.1) N false us L' o' R (hst.loosen (looser_glueFirst _))
      (hR.weaken (by simp [noRep]) (by simp [lastTail]) (by simp [lastOpen]) (by simp)) k hk
    have hdec := decorate_reads hs.1 hrd hR.noRepeat (by simp)
    obtain ⟨u, vs, rfl, a1, a2⟩ := hhead
    obtain ⟨w, ws, rfl, _⟩ := hR.fresh
    unfold events
    rw [List.cons_append, varDef_go a1 a2]
    simp only
    rw [← List.cons_append, hr]
    simp only [Ctx.loop, EventLoop.decorate, Prod.eta] at hdec ⊢
    subst hdec
    obtain ⟨k', rfl, _⟩ := fuel_succ (n := 0) (fuel := k) (by simp at hk; omega)
    unfold events
    have hline : w.tok = .eof ∨ N < w.pos.line := by
      rcases hR.line rfl w ws rfl with h | h
      · exact Or.inl h
      · exact Or.inr (by omega)
    rw [varDef_stop hline]
    rfl
  | e :: e' :: es, _, h, hs, N, us, L', o', R, hst, hR, fuel, hf => by
    have hok := h
    have hsh := hs
    simp only [allOk] at h
    simp only [shape] at hs
    simp only [defItems] at hst
    obtain ⟨u1, u2, L1, o1, rfl, h1, h2⟩ := hst.split
    have hflat := Ev.items_flat e h.1 (hs.2.2.2.1 trivial (by simp))
    obtain ⟨rfl, rfl⟩ := hflat.stays h1
    have hhead : ∃ u vs, u1 = u :: vs ∧ u.tok ≠ .eof ∧ u.pos.line = L1 := by
      obtain ⟨v, vs, rfl, a1, _⟩ := (h1.loosen (looser_glueAll _)).starts h.1
      obtain ⟨g, text, ks, is, hi⟩ := Ev.items_starts e h.1
      rw [hi] at h1
      simp only [glueAll] at h1
      obtain ⟨w, ws, e1, _, a2, _⟩ := h1.head
      injection e1 with e1 _
      subst e1
      exact ⟨v, vs, rfl, eof_not_start a1, a2 rfl⟩
    obtain ⟨u, vs, rfl, a1, a2⟩ := hhead
    obtain ⟨k, rfl, hk⟩ := fuel_succ hf
    have ih := defEvents_parse (e' :: es) (by simp) (by simp only [allOk]; exact h.2) (by simp only [shape]; exact hs.2.2.2.2) L1 u2 L' o' R h2 hR k
      (by simp at hk ⊢; omega)
    have hn : Next noRep e.tailDur e.open L1 false (u2 ++ R) :=
      next_in_list hok hsh (h2.loosen (looser_def _)) (hR.weaken (fun _ h => h) id id (fun _ => rfl))
    refine ⟨?_, u, _, rfl, a1, a2⟩
    rw [List.append_assoc] at hk ⊢
    obtain ⟨r, hr, hrd⟩ := Ev.parse e h.1 (allowed_seq hs.1) L1 false (u :: vs) L1 false (u2 ++ R) (h1.loosen (looser_glueAll _))
      (hn.weaken (by simp [noRep]) id id id) k hk
    have hdec := decorate_reads hs.1 hrd hn.noRepeat (by simp)
    unfold events
    rw [List.cons_append, varDef_go a1 a2]
    simp only
    rw [← List.cons_append, hr]
    simp only [Ctx.loop, EventLoop.decorate, Prod.eta] at hdec ⊢
    subst hdec
    rw [ih.1]
    simp only [nodes]
theorem voices_parse : ∀ (vs : List Ev), allOk vs → ∀ (b : Bool), groupShape b vs → (∃ n es more, vs = .voice n es :: more) →
    ∀ (L : Nat) (o : Bool) (us : List Token) (L' : Nat) (o' : Bool) (R : List Token), Stream L o (items vs) us L' o' → Next noRep false (lastOpen vs) L' o' R →
    ∀ fuel, 3 * (us ++ R).length ≤ fuel + 1 →
    ∃ (n : Nat) (x : List Char) (p : Pos) (us' : List Token), us = ⟨.voiceMarker n, x, p⟩ :: us' ∧ (b = false → n ≠ 0) ∧ voices fuel n (us' ++ R) = .ok (nodes vs, R)
  | .voice n es :: vs, h, b, hg, _, L, o, us, L', o', R, hst, hR, fuel, hf => by
    simp only [allOk, Ev.ok] at h
    simp only [groupShape] at hg
    have ih := voices_parse vs h.2 false hg.2
    simp only [items, Ev.items] at hst
    obtain ⟨u12, u3, L2, o2, rfl, h12, h3⟩ := hst.split
    obtain ⟨u1, u2, L1, o1, rfl, h1, h2⟩ := Stream.split (is := [_]) h12
    obtain ⟨p, rfl⟩ := single_kind h1.kinds
    refine ⟨n, _, p, u2 ++ u3, rfl, hg.1.1, ?_⟩
    obtain ⟨k, rfl, hk⟩ := fuel_succ (n := 3 * (u2 ++ (u3 ++ R)).length + 1) (fuel := fuel) (by simp at hf ⊢; omega)
    have hev : ∀ (hn : Next noRep (lastTail es) (lastOpen es) L2 o2 (u3 ++ R)) (hstop : EventLoop.voice.stop (u3 ++ R) = .ok (some (u3 ++ R))),
        events k .voice (u2 ++ (u3 ++ R)) = .ok (nodes es, u3 ++ R) := fun hn hstop =>
      events_parse es .voice (by simp) h.1.2.1 h.1.2.2 L1 o1 u2 L2 o2 (u3 ++ R) (u3 ++ R) h2 hn hstop k hk
    rw [List.append_assoc]
    exact voices_step h.1.2.1 hg hk h3 hR hev (fun hv hR => ih hv L2 o2 u3 L' o' R h3 hR k (by simp at hk ⊢; omega))
  | [], _, _, _, hv, _, _, _, _, _, _, _, _, _, _ => by simp at hv
  | .note .. :: _, _, _, _, hv, _, _, _, _, _, _, _, _, _, _ => by simp at hv
  | .rest .. :: _, _, _, _, hv, _, _, _, _, _, _, _, _, _, _ => by simp at hv
  | .chord .. :: _, _, _, _, hv, _, _, _, _, _, _, _, _, _, _ => by simp at hv
  | .up :: _, _, _, _, hv, _, _, _, _, _, _, _, _, _, _ => by simp at hv
  | .down :: _, _, _, _, hv, _, _, _, _, _, _, _, _, _, _ => by simp at hv
  | .oct .. :: _, _, _, _, hv, _, _, _, _, _, _, _, _, _, _ => by simp at hv
  | .bar :: _, _, _, _, hv, _, _, _, _, _, _, _, _, _, _ => by simp at hv
  | .marker .. :: _, _, _, _, hv, _, _, _, _, _, _, _, _, _, _ => by simp at hv
  | .at .. :: _, _, _, _, hv, _, _, _, _, _, _, _, _, _, _ => by simp at hv
  | .ref .. :: _, _, _, _, hv, _, _, _, _, _, _, _, _, _, _ => by simp at hv
  | .defn .. :: _, _, _, _, hv, _, _, _, _, _, _, _, _, _, _ => by simp at hv
  | .sexp .. :: _, _, _, _, hv, _, _, _, _, _, _, _, _, _, _ => by simp at hv
  | .seq .. :: _, _, _, _, hv, _, _, _, _, _, _, _, _, _, _ => by simp at hv
  | .cram .. :: _, _, _, _, hv, _, _, _, _, _, _, _, _, _, _ => by simp at hv
  | .voiceEnd :: _, _, _, _, hv, _, _, _, _, _, _, _, _, _, _ => by simp at hv
  | .group .. :: _, _, _, _, hv, _, _, _, _, _, _, _, _, _, _ => by simp at hv
  | .rep .. :: _, _, _, _, hv, _, _, _, _, _, _, _, _, _, _ => by simp at hv
  | .onReps .. :: _, _, _, _, hv, _, _, _, _, _, _, _, _, _, _ => by simp at hv
end

end Syn
end Alda
