import Verif.Lemmas.FormatWellFormed
import Verif.Lemmas.FormatProgram
import Verif.Props.Parse
/-!
What the parser makes of the scanner's tokens is a well-formed tree: programs.
-/
namespace Alda
namespace Syn
open Spec Tree

theorem _root_.Alda.Spec.TokensOf.lined {before input : List Char} {ts : List Token} (h : TokensOf before input ts) : Lined ts := by
  induction h with
  | eof before g _ => simp [Lined]
  | token before g text rest t ts hg hd ht ih =>
    refine List.pairwise_cons.2 ⟨?_, ih⟩
    intro x hx
    obtain ⟨pre, suf, _, h2⟩ := ht.place x hx
    rw [h2]
    simp only [position, lineAfter, List.count_append]
    omega

theorem _root_.Alda.Spec.TokensOf.scanned {before input : List Char} {ts : List Token} (h : TokensOf before input ts) : Scanned ts :=
  ⟨h.ends, h.lits, h.lined⟩

/-- Where the events of a part end. -/
def PartEnd (left : List Token) : Prop := (∃ u us, left = u :: us ∧ u.tok = .eof) ∨ looksLikePartDeclaration left = true

theorem PartEnd.notBad {left : List Token} (h : PartEnd left) : ¬ Bad left := by
  rintro ⟨⟨t, x, p⟩, us, rfl, hu⟩
  rcases h with ⟨v, vs, h1, h2⟩ | h
  · injection h1 with h1 _
    subst h1
    simp only at h2
    subst h2
    simp at hu
  · rcases hu with hu | hu | ⟨a, hu⟩ <;> (simp only at hu; subst hu; simp [looksLikePartDeclaration] at h)

theorem part_left {fuel : Nat} : ∀ {R left : List Token} {ns : List Node}, events fuel .part R = .ok (ns, left) → PartEnd left := by
  induction fuel with
  | zero => intro R left ns h; simp [events] at h
  | succ f ih =>
    intro R left ns h
    simp only [events] at h
    split at h
    · cases h
    · rename_i l hs
      cases h
      simp only [EventLoop.stop] at hs
      repeat' split at hs
      · cases hs; exact .inl ⟨_, _, rfl, rfl⟩
      · rename_i hd; cases hs; exact .inr hd
      · cases hs
    · split at h
      · cases h
      · split at h
        · cases h
        · rename_i h2
          cases h
          exact ih h2

/-- The events of a part. -/
theorem partEvents_tree {toks left : List Token} {n : Node} (hS : Scanned toks) (h : partEvents toks = .ok (n, left)) :
    PartEnd left ∧ ∃ es, n = branch .eventSequence (nodes es) ∧ (Clean n → allOk es ∧ shape .part es) ∧ allFit es := by
  unfold partEvents at h
  split at h
  · cases h
  · rename_i ns left' hx
    cases h
    have hp := part_left hx
    refine ⟨hp, ?_⟩
    obtain ⟨es, hes⟩ := ((events_tree _ toks hS).2.1 (Nat.le_refl _) .part _ _ hx).resolve_left hp.notBad
    refine ⟨es, by rw [hes.node]; rfl, fun hc => ?_, hes.fit.1⟩
    exact hes.ok (clean_seq hc).1 (clean_seq hc).2

theorem namesG_tree {ts : List Token} {ns : List Node} (h : NamesG ts ns) (hl : Lits ts) :
    ∃ ss : List String, ns = ss.map nameNode ∧ ∀ s ∈ ss, isName s := by
  induction h with
  | nil => exact ⟨[], rfl, by simp⟩
  | cons s t ts ns h1 h2 h3 ih =>
    obtain ⟨ss, i1, i2⟩ := ih hl.tail.tail
    have hd := hl.tail.head (by rw [h2]; simp)
    rw [h2] at hd
    refine ⟨String.ofList t.text :: ss, by rw [i1]; rfl, ?_⟩
    intro x hx
    rcases List.mem_cons.1 hx with rfl | hx
    · exact isName_text hd
    · exact i2 x hx

theorem aliasG_tree {ts : List Token} {ns : List Node} (h : AliasG ts ns) (hl : Lits ts) :
    ∃ a : Option String, ns = (match a with | none => [] | some a => [atom .partAlias (.str a)]) ∧ ∀ x ∈ a, ∀ c ∈ x.toList, NameChar c := by
  cases h with
  | none => exact ⟨none, rfl, by simp⟩
  | some t a ht =>
    have hd := hl.head (by rw [ht]; simp)
    rw [ht] at hd
    generalize t.text = tx at hd
    cases hd with
    | alias _ q h1 h2 => exact ⟨some a, rfl, by simpa using h1⟩

/-- A part. -/
theorem topLevel_tree {t : Token} {more left : List Token} {n : Node} (hS : Scanned (t :: more)) (hne : t.tok ≠ .eof)
    (h : topLevel (t :: more) = .ok (n, left)) :
    PartEnd left ∧ ∃ p : Tree.Part, n = p.node ∧ (Clean n → p.ok) ∧ p.fit ∧ (looksLikePartDeclaration (t :: more) = true → p.isDeclared = true) := by
  unfold topLevel at h
  split at h
  · rename_i t' more' ht
    cases ht
    split at h
    · rename_i hl
      have a := partDeclaration_sound t more (hS.ends.tail hne)
      split at h
      · cases h
      · rename_i decl mid hd
        rw [hd] at a
        obtain ⟨us, a1, ⟨ts, as, c, ns, an, rfl, a2, a3, a4, rfl⟩, a5⟩ := a
        have hS' : Scanned mid := (a1 ▸ (hS.tail hne)).append a5
        have hlits := (hS.tail hne).lits
        rw [a1] at hlits
        split at h
        · cases h
        · rename_i evs left' hx
          cases h
          obtain ⟨hp, es, e1, e2, e3⟩ := partEvents_tree hS' hx
          refine ⟨hp, ?_⟩
          obtain ⟨ss, s1, s2⟩ := namesG_tree a2 hlits.left.left.left
          obtain ⟨al, l1, l2⟩ := aliasG_tree a3 hlits.left.left.right
          have hname : t.tok = .name := by
            obtain ⟨x, p, us', h1, _⟩ := decl_tokens hl
            injection h1 with h1 _
            rw [h1]
          have hd := hS.lits.head hne
          rw [hname] at hd
          refine ⟨.declared (String.ofList t.text) ss al es, ?_, fun hc => ⟨isName_text hd, s2, l2, e2 ?_⟩, e3, fun _ => rfl⟩
          · rw [e1, s1, l1]; rfl
          · simp only [Clean, AllClean] at hc
            exact hc.2.2.2.1
    · rename_i hl
      split at h
      · cases h
      · rename_i evs left' hx
        cases h
        obtain ⟨hp, es, e1, e2, e3⟩ := partEvents_tree hS hx
        refine ⟨hp, .implicit es, by rw [e1]; rfl, fun hc => ?_, e3, fun h => absurd h hl⟩
        simp only [Clean, AllClean] at hc
        refine ⟨?_, e2 hc.2.2.1⟩
        rintro rfl
        have hlt := partEvents_progress hS.ends rfl hne (by simpa using hl) hx
        unfold partEvents at hx
        split at hx
        · cases hx
        · rename_i ns l hx'
          cases hx
          injection e1 with _ _ e1
          subst e1
          rw [events_nil (by simp) (by simp) hx'] at hlt
          omega
  · rename_i h'; cases h'

theorem topLevels_tree (fuel : Nat) : ∀ {toks left : List Token} {ns : List Node}, toks.length ≤ fuel → Scanned toks → topLevels fuel toks = .ok (ns, left) →
    ∃ ps : List Tree.Part, ns = ps.map Part.node ∧ (∀ p ∈ ps, p.fit) ∧ (AllClean ns → ∀ p ∈ ps, p.ok) ∧ (∀ p ∈ ps.tail, p.isDeclared = true) ∧
      (PartEnd toks → ∀ p ∈ ps, p.isDeclared = true) := by
  induction fuel with
  | zero => intro toks left ns _ _ h; simp [topLevels] at h
  | succ fuel ih =>
    intro toks left ns hf hS h
    simp only [topLevels] at h
    split at h
    · cases h
    · rename_i t more
      split at h
      · cases h
        exact ⟨[], rfl, by simp, by simp, by simp, by simp⟩
      · rename_i ht
        have a := topLevel_sound t more hS.ends ht
        split at h
        · cases h
        · rename_i node mid hn
          rw [hn] at a
          obtain ⟨ts, a1, ⟨a2, a3⟩, a4⟩ := a
          split at h
          · cases h
          · rename_i nodes left' hx
            cases h
            obtain ⟨hp, p, p1, p2, pf, p3⟩ := topLevel_tree hS ht hn
            have hlt : mid.length ≤ fuel := by
              cases ts with
              | nil => exact absurd rfl a2
              | cons x xs => rw [a1] at hf; simp at hf; omega
            obtain ⟨ps, i1, if_, i2, i3, i4⟩ := ih hlt ((a1 ▸ hS).append a4) hx
            refine ⟨p :: ps, by rw [p1, i1]; rfl, fun x hx => ?_, fun hc => ?_, i4 hp, fun he => ?_⟩
            · rcases List.mem_cons.1 hx with rfl | hx
              · exact pf
              · exact if_ x hx
            · simp only [AllClean] at hc
              intro x hx
              rcases List.mem_cons.1 hx with rfl | hx
              · exact p2 hc.1
              · exact i2 hc.2 x hx
            · intro x hx
              rcases List.mem_cons.1 hx with rfl | hx
              · apply p3
                rcases he with ⟨u, us, h1, h2⟩ | he
                · injection h1 with h1 _
                  rw [← h1] at h2
                  exact absurd h2 ht
                · exact he
              · exact i4 hp x hx

/-- What the parser produces is well-formed, if it is clean. -/
theorem parse_tree {input : List Char} {ast : Node} (h : parse input = .ok ast) : ∃ ps, ast = root ps ∧ (∀ p ∈ ps, p.fit) ∧ (Clean ast → partsOk ps) := by
  unfold parse at h
  rcases c29 input with ⟨toks, h1, ht⟩ | ⟨_, _, _, _, h1⟩
  · rw [h1] at h
    unfold parseAST at h
    dsimp only at h
    split at h
    · cases h
    · rename_i nodes left hx
      cases h
      obtain ⟨ps, i1, if_, i2, i3, _⟩ := topLevels_tree (toks.length + 1) (by omega) ht.scanned hx
      refine ⟨ps, by rw [i1]; rfl, if_, fun hc => ⟨i2 ?_, i3⟩⟩
      simp only [Clean] at hc
      exact hc.2.2
  · rw [h1] at h; cases h

end Syn
end Alda
