import Verif.Lemmas.FormatEventRun
/-!
The parser on the tokens of well-formed trees: parts and programs.
-/
namespace Alda
namespace Syn
open Spec Tree

theorem partNames_run : ∀ (ns : List String) (us R : List Token), (∀ u vs, R = u :: vs → u.tok ≠ .separator) →
    kindsOf us = (ns.flatMap fun s => [(.separator, ['/']), (.name, s.toList)]) → partNames (us ++ R) = .ok (ns.map nameNode, R)
  | [], us, R, hR, hk => by
    obtain rfl := kindsOf_nil hk
    cases R with
    | nil => rfl
    | cons u vs =>
      obtain ⟨t, x, p⟩ := u
      have := hR _ _ rfl
      cases t <;> first | rfl | exact absurd rfl this
  | n :: ns, us, R, hR, hk => by
    simp only [List.flatMap_cons, List.cons_append, List.nil_append] at hk
    obtain ⟨p, us', rfl, h'⟩ := kindsOf_cons hk
    obtain ⟨q, us'', rfl, h''⟩ := kindsOf_cons h'
    simp only [List.cons_append, partNames]
    rw [partNames_run ns us'' R hR h'', String.ofList_toList]
    rfl

/-- The declaration of a part. -/
def declNode (n : String) (ns : List String) (alias : Option String) : Node :=
  branch .partDeclaration (branch .partNames (nameNode n :: ns.map nameNode) :: (match alias with | none => [] | some a => [atom .partAlias (.str a)]))

theorem decl_run {n : String} {ns : List String} {alias : Option String} {us R : List Token} (hk : kindsOf us = declKinds n ns alias) :
    ∃ t us', us = t :: us' ∧ t.tok = .name ∧ looksLikePartDeclaration (us ++ R) = true ∧ partDeclaration t (us' ++ R) = .ok (declNode n ns alias, R) := by
  unfold declKinds at hk
  simp only [List.cons_append, List.append_assoc] at hk
  obtain ⟨p, us', rfl, h'⟩ := kindsOf_cons hk
  refine ⟨_, us', rfl, rfl, ?_, ?_⟩
  · cases ns with
    | nil =>
      cases alias with
      | none =>
        obtain ⟨q, us'', rfl, h''⟩ := kindsOf_cons (k := .colon) (t := [':']) (ks := []) h'
        rfl
      | some a =>
        obtain ⟨q, us'', rfl, h''⟩ := kindsOf_cons (k := .alias a) (t := '"' :: (a.toList ++ ['"'])) (ks := [(.colon, [':'])]) h'
        rfl
    | cons m ns =>
      simp only [List.flatMap_cons, List.cons_append, List.nil_append] at h'
      obtain ⟨q, us'', rfl, h''⟩ := kindsOf_cons h'
      rfl
  · obtain ⟨u1, u2, rfl, h1, h2⟩ := kindsOf_split h'
    unfold partDeclaration
    rw [List.append_assoc]
    cases alias with
    | none =>
      obtain ⟨q, us'', rfl, h''⟩ := kindsOf_cons (k := .colon) (t := [':']) (ks := []) h2
      obtain rfl := kindsOf_nil h''
      rw [partNames_run ns u1 _ (by intro u vs e; injection e with e _; rw [← e]; simp) h1]
      simp only [List.cons_append, matchAlias, String.ofList_toList]
      rfl
    | some a =>
      obtain ⟨q, us'', rfl, h''⟩ := kindsOf_cons (k := .alias a) (t := '"' :: (a.toList ++ ['"'])) (ks := [(.colon, [':'])]) h2
      obtain ⟨r, us3, rfl, h3⟩ := kindsOf_cons h''
      obtain rfl := kindsOf_nil h3
      rw [partNames_run ns u1 _ (by intro u vs e; injection e with e _; rw [← e]; simp) h1]
      simp only [List.cons_append, matchAlias, String.ofList_toList]
      rfl

/-- What comes after a part: a further part, or the end. -/
theorem after_part {ps : List Tree.Part} (hd : ∀ p ∈ ps, p.isDeclared = true) {L L' : Nat} {o o' : Bool} {us : List Token}
    (h : Stream L o (partsItems ps) us L' o') (x : List Char) (epos : Pos) (tail opn : Bool) :
    Next noRep tail opn L o (us ++ [⟨.eof, x, epos⟩]) ∧ EventLoop.part.stop (us ++ [⟨.eof, x, epos⟩]) = .ok (some (us ++ [⟨.eof, x, epos⟩])) := by
  cases ps with
  | nil =>
    simp only [partsItems, List.flatMap_nil] at h
    cases h
    refine ⟨⟨⟨_, _, rfl, Or.inl rfl⟩, calm_plain _ rfl, fun _ u us e => ?_, fun _ => Or.inl ⟨_, _, rfl, Or.inl rfl⟩, fun _ u us e => ?_⟩, rfl⟩
    all_goals
      injection e with e _
      rw [← e]; simp
  | cons p ps =>
    cases p with
    | implicit es => simpa [Tree.Part.isDeclared] using hd _ (List.mem_cons_self ..)
    | declared n ns alias es =>
      simp only [partsItems, List.flatMap_cons, Tree.Part.items, List.cons_append] at h
      have hk := h.kinds
      simp only [itemKinds] at hk
      obtain ⟨v, vs, e1, _, _, a2, _⟩ := h.head
      obtain ⟨u1, u2, rfl, h1, h2⟩ := kindsOf_split hk
      obtain ⟨t, us', rfl, ht, hl, _⟩ := decl_run (R := u2 ++ [⟨.eof, x, epos⟩]) h1
      injection e1 with e1 _
      subst e1
      rw [List.append_assoc]
      refine ⟨⟨⟨t, _, rfl, Or.inl (by rw [ht]; rfl)⟩, calm_plain _ (by rw [ht]; rfl), fun _ u us e => ?_, fun _ => Or.inr hl, fun ho u us e => ?_⟩, ?_⟩
      · injection e with e _
        rw [← e, ht]; simp
      · injection e with e _
        rw [← e]
        exact Or.inr (a2 ho)
      · simp only [EventLoop.stop, hl]
        obtain ⟨t, y, q⟩ := t
        simp only at ht
        subst ht
        rfl

theorem partEvents_run {es : List Ev} (hok : allOk es) (hs : shape .part es) {L L1 : Nat} {o o1 : Bool} {us R : List Token} (h : Stream L o (items es) us L1 o1)
    (hR : Next noRep (lastTail es) (lastOpen es) L1 o1 R) (hstop : EventLoop.part.stop R = .ok (some R)) :
    partEvents (us ++ R) = .ok (branch .eventSequence (nodes es), R) := by
  unfold partEvents
  have := events_parse es .part (by simp) hok hs L o us L1 o1 R R h hR hstop (eventFuel (us ++ R)) (Nat.le_refl _)
  simp only [Ctx.loop] at this
  rw [this]
  rfl

theorem topLevels_step {fuel : Nat} {t : Token} {us R : List Token} {n : Node} {ns : List Node} {R' : List Token} (ht : t.tok ≠ .eof)
    (h1 : topLevel (t :: us) = .ok (n, R)) (h2 : topLevels fuel R = .ok (ns, R')) : topLevels (fuel + 1) (t :: us) = .ok (n :: ns, R') := by
  unfold topLevels
  simp only
  rw [if_neg ht, h1]
  simp only
  rw [h2]

theorem parts_parse (x : List Char) (epos : Pos) : ∀ (ps : List Tree.Part), (∀ p ∈ ps, p.ok) → (∀ p ∈ ps.tail, p.isDeclared = true) →
    ∀ (L : Nat) (o : Bool) (us : List Token) (L' : Nat) (o' : Bool), Stream L o (partsItems ps) us L' o' → ∀ fuel, us.length + 1 ≤ fuel →
    topLevels fuel (us ++ [⟨.eof, x, epos⟩]) = .ok (ps.map Tree.Part.node, [⟨.eof, x, epos⟩])
  | [], _, _, L, o, us, L', o', h, fuel, hf => by
    simp only [partsItems, List.flatMap_nil] at h
    cases h
    obtain ⟨k, rfl, _⟩ := fuel_succ hf
    rfl
  | p :: ps, hok, hd, L, o, us, L', o', h, fuel, hf => by
    have hp := hok p (List.mem_cons_self ..)
    have ih := parts_parse x epos ps (fun q hq => hok q (List.mem_cons_of_mem _ hq)) (fun q hq => hd q (List.mem_of_mem_tail hq))
    obtain ⟨k, rfl, hk⟩ := fuel_succ hf
    simp only [partsItems, List.flatMap_cons] at h
    obtain ⟨u1, u2, L1, o1, rfl, h1, h2⟩ := h.split
    rw [List.append_assoc]
    cases p with
    | implicit es =>
      simp only [Tree.Part.ok] at hp
      simp only [Tree.Part.items] at h1
      obtain ⟨hn, hstop⟩ := after_part hd h2 x epos (lastTail es) (lastOpen es)
      have hrun := partEvents_run hp.2.1 hp.2.2 h1 hn hstop
      have hnd : looksLikePartDeclaration (u1 ++ (u2 ++ [⟨.eof, x, epos⟩])) = false := by
        cases es with
        | nil => exact absurd rfl hp.1
        | cons e es =>
          have hnl := fun {v1 v2 : List Token} {L2 : Nat} {o2 : Bool} (hv : Stream L2 o2 (items es) v2 L1 o1) => next_in_list (x := .part) hp.2.1 hp.2.2 hv hn
          simp only [items] at h1
          obtain ⟨v1, v2, L2, o2, rfl, g1, g2⟩ := h1.split
          have hok' := hp.2.1
          simp only [allOk] at hok'
          rw [List.append_assoc]
          exact Ev.notDecl e hok'.1 v1 _ g1.kinds (hnl (v1 := v1) g2).notDecl
      have hhead : ∃ t vs, u1 = t :: vs ∧ t.tok ≠ .eof := by
        cases es with
        | nil => exact absurd rfl hp.1
        | cons e es =>
          simp only [items] at h1
          obtain ⟨v1, v2, L2, o2, rfl, g1, g2⟩ := h1.split
          have hok' := hp.2.1
          simp only [allOk] at hok'
          obtain ⟨v, vs, rfl, a1, _⟩ := g1.starts hok'.1
          exact ⟨v, _, rfl, eof_not_start a1⟩
      obtain ⟨t, vs, rfl, ht⟩ := hhead
      rw [List.cons_append] at hrun hnd ⊢
      refine topLevels_step ht ?_ (ih L1 o1 u2 L' o' h2 k (by simp at hk ⊢; omega))
      unfold topLevel
      simp only [hnd, hrun]
      rfl
    | declared n ns alias es =>
      simp only [Tree.Part.ok] at hp
      simp only [Tree.Part.items] at h1
      obtain ⟨v1, v2, L2, o2, rfl, g1, g2⟩ := Stream.split (is := [_]) h1
      obtain ⟨hn, hstop⟩ := after_part hd h2 x epos (lastTail es) (lastOpen es)
      have hrun := partEvents_run hp.2.2.2.1 hp.2.2.2.2 g2 hn hstop
      have hk1 := g1.kinds
      simp only [itemKinds, List.append_nil] at hk1
      obtain ⟨t, us', rfl, ht, hl, hdecl⟩ := decl_run (R := v2 ++ (u2 ++ [⟨.eof, x, epos⟩])) hk1
      rw [List.append_assoc]
      rw [List.cons_append] at hl ⊢
      refine topLevels_step (by rw [ht]; simp) ?_ (ih L1 o1 u2 L' o' h2 k (by simp at hk ⊢; omega))
      unfold topLevel
      simp only [hl, if_true, hdecl, hrun]
      rfl

/-- The formatted text of a well-formed program reads as that program. -/
theorem format_parse {ps : List Tree.Part} (h : partsOk ps) (width : Int) {indent : List Char} (hi : ∀ c ∈ indent, isBlank c = true) :
    ∃ out, format width indent (root ps) = .ok out ∧ parse out = .ok (root ps) := by
  obtain ⟨out, ts, L', o', epos, e1, e2, hst⟩ := format_tokens h.1 width hi
  refine ⟨out, e1, ?_⟩
  unfold parse
  rw [e2]
  unfold parseAST
  simp only
  rw [parts_parse [] epos ps h.1 h.2 0 false ts L' o' hst _ (by simp)]
  rfl

end Syn
end Alda
