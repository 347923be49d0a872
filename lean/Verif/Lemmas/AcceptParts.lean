import Verif.Lemmas.Accept
/-!
The parser accepts the tidy programs of the grammar: parts.
-/
namespace Alda
namespace Syn
namespace Accept
open Spec

/-- The tokens of a program: events, and declarations among them. -/
inductive Prog : List Token → Prop where
  | events (ts : List Token) : Flat false ts → Prog ts
  | decl (a : List Token) (n : Token) (ns : List Token) (nn : List Node) (as : List Token) (an : List Node) (c : Token)
      (us : List Token) : Flat false a → n.tok = .name → NamesG ns nn → AliasG as an → c.tok = .colon → Prog us →
      Prog (a ++ n :: (ns ++ (as ++ c :: us)))

theorem Prog.inv {ts : List Token} (h : Prog ts) : Flat false ts ∨ ∃ a n ns nn as an c us,
    ts = a ++ n :: (ns ++ (as ++ c :: us)) ∧ Flat false a ∧ n.tok = .name ∧ NamesG ns nn ∧ AliasG as an ∧ c.tok = .colon ∧
      Prog us := by
  cases h with
  | events _ hf => exact .inl hf
  | decl a n ns nn as an c us ha h1 h2 h3 h4 h5 => exact .inr ⟨a, n, ns, nn, as, an, c, us, rfl, ha, h1, h2, h3, h4, h5⟩

theorem Prog.prepend {a ts : List Token} (h : Flat false a) (hp : Prog ts) : Prog (a ++ ts) := by
  cases hp with
  | events _ hf => exact .events _ (h.append rfl hf)
  | decl b n ns nn as an c us hb h1 h2 h3 h4 h5 =>
    rw [← List.append_assoc]
    exact .decl _ n ns nn as an c us (h.append rfl hb) h1 h2 h3 h4 h5

theorem parts_prog {ts : List Token} {ns : List Node} (h : PartsG ts ns) : Prog ts := by
  induction h with
  | nil => exact .events _ .nil
  | cons ts us n ns hp _ ih =>
    cases hp with
    | implicit _ ns he => exact ih.prepend (events_flat he).1
    | declared t c ts as vs ns an es h1 h2 h3 h4 he =>
      have := Prog.decl [] t ts ns as an c (vs ++ us) .nil h1 h2 h3 h4 (ih.prepend (events_flat he).1)
      simpa using this

theorem declares {n : Token} {ns as us : List Token} {nn an : List Node} {c : Token} (h1 : n.tok = .name)
    (h2 : NamesG ns nn) (h3 : AliasG as an) (h4 : c.tok = .colon) : Declares n (ns ++ (as ++ c :: us)) := by
  refine ⟨h1, ?_⟩
  cases h2 with
  | cons s t ts ns hs _ _ => exact ⟨s, _, rfl, .inr (.inl hs)⟩
  | nil =>
    cases h3 with
    | none => exact ⟨c, _, rfl, .inl h4⟩
    | some t a ht => exact ⟨t, _, rfl, .inr (.inr ⟨a, ht⟩)⟩

theorem names_complete {ns : List Token} {nn : List Node} (h : NamesG ns nn) {R : List Token}
    (hR : ∀ t more, R = t :: more → t.tok ≠ .separator) : partNames (ns ++ R) = .ok (nn, R) := by
  induction h with
  | nil =>
    rw [List.nil_append]
    unfold partNames
    split
    · exact absurd rfl (hR _ _ rfl)
    · exact absurd rfl (hR _ _ rfl)
    · rfl
  | cons s t ts ns hs ht _ ih =>
    obtain ⟨k, x, p⟩ := s
    obtain ⟨k', x', p'⟩ := t
    cases hs; cases ht
    simp only [List.cons_append, partNames, ih]
    rfl

theorem partDeclaration_complete {n : Token} {ns as us : List Token} {nn an : List Node} {c : Token}
    (h2 : NamesG ns nn) (h3 : AliasG as an) (h4 : c.tok = .colon) :
    ∃ node, partDeclaration n (ns ++ (as ++ c :: us)) = .ok (node, us) := by
  have e1 : partNames (ns ++ (as ++ c :: us)) = .ok (nn, as ++ c :: us) := by
    refine names_complete h2 ?_
    intro t more e
    cases h3 with
    | none => cases e; simp [h4]
    | some t a ht => cases e; simp [ht]
  have e2 : (matchAlias (as ++ c :: us)).2 = c :: us := by
    cases h3 with
    | none => unfold matchAlias; split
              · rename_i heq; cases heq; cases h4
              · rfl
    | some t a ht => obtain ⟨k, x, p⟩ := t; cases ht; rfl
  obtain ⟨k, x, p⟩ := c
  cases h4
  unfold partDeclaration
  rw [e1]
  simp only [e2]
  exact ⟨_, rfl⟩

theorem partEvents_complete {ts : List Token} (h : Prog ts) {e : Token} (he : e.tok = .eof) (hd : Tidy (ts ++ [e])) :
    ∃ node us, partEvents (ts ++ [e]) = .ok (node, us ++ [e]) ∧ Prog us ∧ us <:+ ts ∧
      (ts ≠ [] → looksLikePartDeclaration (ts ++ [e]) = false → us.length < ts.length) := by
  cases h with
  | events _ hf =>
    obtain ⟨ns, e1⟩ := (reads (eventFuel (ts ++ [e]))).part ts e [] hf (.inl he) hd (Nat.le_refl _)
    refine ⟨.mk .eventSequence .none ns, [], ?_, .events _ .nil, List.nil_suffix, ?_⟩
    · unfold partEvents
      rw [e1]
      rfl
    · intro hne _
      exact List.length_pos_iff.2 hne
  | decl a n ns nn as an c us ha h1 h2 h3 h4 h5 =>
    have hdecl : Declares n (ns ++ (as ++ c :: (us ++ [e]))) := declares h1 h2 h3 h4
    have ee : (a ++ n :: (ns ++ (as ++ c :: us))) ++ [e] = a ++ n :: (ns ++ (as ++ c :: (us ++ [e]))) := by simp
    have e1 := (reads (eventFuel ((a ++ n :: (ns ++ (as ++ c :: us))) ++ [e]))).part a n
      (ns ++ (as ++ c :: (us ++ [e]))) ha (.inr hdecl) (by rw [← ee]; exact hd) (by rw [← ee]; exact Nat.le_refl _)
    obtain ⟨ms, e1⟩ := e1
    refine ⟨.mk .eventSequence .none ms, n :: (ns ++ (as ++ c :: us)), ?_,
      .decl [] n ns nn as an c us .nil h1 h2 h3 h4 h5, ⟨a, rfl⟩, ?_⟩
    · unfold partEvents
      rw [← ee] at e1
      rw [e1]
      simp
    · intro _ hl
      cases a with
      | nil =>
        rw [ee] at hl
        have := hdecl.looks
        rw [List.nil_append] at hl
        rw [this] at hl
        cases hl
      | cons x a => simp; omega

theorem topLevels_complete (fuel : Nat) : ∀ {ts : List Token}, Prog ts → ∀ {e : Token}, e.tok = .eof → Tidy (ts ++ [e]) →
    ts.length < fuel → ∃ ns R, topLevels fuel (ts ++ [e]) = .ok (ns, R) := by
  induction fuel with
  | zero => intros; omega
  | succ fuel ih =>
    intro ts h e he hd hl
    cases ts with
    | nil => simp [topLevels, he]
    | cons t more =>
      have ht : t.tok ≠ .eof := by
        rcases h.inv with hf | ⟨a, n, ns, nn, as, an, c, us, heq, ha, h1, _⟩
        · intro hk; have := hf.cons_starts; rw [hk] at this; cases this
        · rcases ha.starts with rfl | ⟨t', vs, rfl, hs⟩
          · cases heq; simp [h1]
          · cases heq; intro hk; rw [hk] at hs; cases hs
      by_cases hlk : looksLikePartDeclaration (t :: more ++ [e]) = true
      · have key : ∃ us node, partDeclaration t (more ++ [e]) = .ok (node, us ++ [e]) ∧ Prog us ∧ us <:+ more := by
          rcases h.inv with hf | ⟨a, n, ns, nn, as, an, c, us, heq, ha, h1, h2, h3, h4, h5⟩
          · have := hf.looks (by simp) (tail := [e]) ⟨e, [], rfl, .inl he⟩
            rw [this] at hlk; cases hlk
          · cases a with
            | nil =>
              cases heq
              obtain ⟨node, e1⟩ := partDeclaration_complete (n := t) (us := us ++ [e]) h2 h3 h4
              exact ⟨us, node, by simpa using e1, h5, ⟨ns ++ (as ++ [c]), by simp⟩⟩
            | cons x a =>
              rw [List.cons_append] at heq
              obtain ⟨rfl, rfl⟩ := List.cons.inj heq
              have := ha.looks (by simp) (tail := n :: (ns ++ (as ++ c :: (us ++ [e]))))
                ⟨n, _, rfl, .inr (.inr (.inr (declares h1 h2 h3 h4)))⟩
              simp only [List.cons_append, List.append_assoc] at this hlk
              rw [this] at hlk; cases hlk
        obtain ⟨us, decl, e1, e2, e3⟩ := key
        obtain ⟨node, vs, f1, f2, f3, _⟩ := partEvents_complete e2 he
          (hd.suffix (suffix_append (e3.trans (List.suffix_cons _ _))))
        have hlen := (f3.trans e3).length_le
        obtain ⟨ns, R, g1⟩ := ih f2 he (hd.suffix (suffix_append ((f3.trans e3).trans (List.suffix_cons _ _))))
          (by simp at hl; omega)
        refine ⟨.mk .part .none [decl, node] :: ns, R, ?_⟩
        simp only [List.cons_append] at hlk ⊢
        simp only [topLevels, ht, if_false, topLevel, hlk, if_true, e1, f1, g1]
      · have hlk' : looksLikePartDeclaration (t :: more ++ [e]) = false := by simpa using hlk
        obtain ⟨node, vs, f1, f2, f3, f4⟩ := partEvents_complete h he hd
        obtain ⟨ns, R, g1⟩ := ih f2 he (hd.suffix (suffix_append f3)) (by have := f4 (by simp) hlk'; simp at hl this; omega)
        refine ⟨.mk .implicitPart .none [node] :: ns, R, ?_⟩
        simp only [List.cons_append] at hlk' f1 ⊢
        simp [topLevels, ht, topLevel, hlk', f1, g1]

end Accept
end Syn
end Alda
