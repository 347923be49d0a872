import Verif.Lemmas.ParseUpdates
import Verif.Props.Scan
/-!
C30: parsing is total and consumes every token.
-/
namespace Alda
namespace Syn
open Spec

/-- The error of a result. -/
def errorOf {α : Type} : Except SynErr α → Option SynErr
  | .error e => some e
  | .ok _ => none

theorem lineAfter_append (a b : List Char) : lineAfter a ≤ lineAfter (a ++ b) := by simp [lineAfter]

theorem _root_.Alda.Spec.TokensOf.lines {before input : List Char} {ts : List Token} (h : TokensOf before input ts) :
    ts.Pairwise fun a b => a.pos.line ≤ b.pos.line := by
  induction h with
  | eof before g _ => simp
  | token before g text rest t ts hg hd ht ih =>
    refine List.pairwise_cons.2 ⟨?_, ih⟩
    intro x hx
    obtain ⟨pre, suf, _, h2⟩ := ht.place x hx
    rw [h2]
    have := lineAfter_append (before ++ g) (text ++ pre)
    simpa [position] using this

theorem _root_.Alda.Spec.TokensOf.ends {before input : List Char} {ts : List Token} (h : TokensOf before input ts) :
    Ends ts := by
  obtain ⟨init, h1, h2⟩ := h.eof_last
  exact ⟨⟨init, _, h1, rfl, h2⟩, h.lines⟩

/-- C30, without the programs that make the parser crash: a program in which `{` is directly followed by `}`. For the tokens
of any text, parsing ends with an AST or with an error at one of the tokens. An AST is made up of all tokens up to the end of
the file, in their order, by the grammar: each token is used once. Missing from the full statement: an empty cram, for which
it is false (`c30_crash_witness`). -/
theorem c30_partial (input : List Char) (toks : List Token) (hs : scan input = .ok toks) (hc : ¬ EmptyCram toks) :
    (∃ ast ts eof, parseAST toks = .ok ast ∧ toks = ts ++ [eof] ∧ eof.tok = .eof ∧ ProgramG ts ast) ∨
    (∃ pos msg, parseAST toks = .error (.at pos msg) ∧ ∃ t ∈ toks, t.pos = pos) := by
  have ht : TokensOf [] input toks := by
    rcases c29 input with ⟨ts', h1, h2⟩ | ⟨_, _, _, _, h1⟩
    · rw [h1] at hs; cases hs; exact h2
    · rw [h1] at hs; cases hs
  obtain ⟨a, b⟩ := topLevels_sound (toks.length + 1) toks ht.ends (by omega)
  unfold parseAST
  cases hx : topLevels (toks.length + 1) toks with
  | error e =>
    rw [hx] at a
    cases e with
    | «at» pos msg => exact .inr ⟨pos, msg, rfl, a⟩
    | panic msg => exact absurd a hc
    | unreachable => exact absurd a id
  | ok p =>
    obtain ⟨nodes, left⟩ := p
    rw [hx] at a
    obtain ⟨t, h1, h2⟩ := b nodes left hx
    obtain ⟨ts, a1, a2, _⟩ := a
    exact .inl ⟨_, ts, t, rfl, by rw [a1, h1], h2, nodes, a2, rfl⟩

/-- Even with an empty cram, parsing ends, and an AST is made up of all tokens. -/
theorem c30_consumes (input : List Char) (ast : Node) (h : parse input = .ok ast) :
    ∃ ts eof, scan input = .ok (ts ++ [eof]) ∧ eof.tok = .eof ∧ ProgramG ts ast := by
  unfold parse at h
  rcases c29 input with ⟨toks, h1, ht⟩ | ⟨_, _, _, _, h1⟩
  · rw [h1] at h
    obtain ⟨a, b⟩ := topLevels_sound (toks.length + 1) toks ht.ends (by omega)
    unfold parseAST at h
    dsimp only at h
    cases hx : topLevels (toks.length + 1) toks with
    | error e => rw [hx] at h; cases h
    | ok p =>
      obtain ⟨nodes, left⟩ := p
      rw [hx] at h a
      cases h
      obtain ⟨t, h2, h3⟩ := b nodes left hx
      obtain ⟨ts, a1, a2, _⟩ := a
      exact ⟨ts, t, by rw [h1, a1, h2], h3, nodes, a2, rfl⟩
  · rw [h1] at h; cases h

/-- The whole way from the text: an AST, an error at a place in the text, or — only if the text has an empty cram — a
crash. -/
theorem c30_parse (input : List Char) :
    (∃ ast, parse input = .ok ast) ∨
    (∃ pre suf msg, input = pre ++ suf ∧ parse input = .error (.at (position pre) msg)) ∨
    (∃ toks msg, scan input = .ok toks ∧ EmptyCram toks ∧ parse input = .error (.panic msg)) := by
  unfold parse
  rcases c29 input with ⟨toks, h1, ht⟩ | ⟨pre, suf, msg, h1, h2⟩
  · rw [h1]
    obtain ⟨a, b⟩ := topLevels_sound (toks.length + 1) toks ht.ends (by omega)
    unfold parseAST
    dsimp only
    cases hx : topLevels (toks.length + 1) toks with
    | error e =>
      rw [hx] at a
      cases e with
      | «at» pos msg =>
        obtain ⟨t, ht', hp⟩ := a
        obtain ⟨pre, suf, h3, h4⟩ := ht.place t ht'
        exact .inr (.inl ⟨pre, t.text ++ suf, msg, by simpa using h3, by rw [← hp, h4]; rfl⟩)
      | panic msg => exact .inr (.inr ⟨toks, msg, rfl, a, rfl⟩)
      | unreachable => exact absurd a id
    | ok p => exact .inl ⟨_, rfl⟩
  · rw [h2]
    exact .inr (.inl ⟨pre, suf, msg, h1, rfl⟩)

theorem _root_.Alda.Spec.TokensOf.lits {before input : List Char} {ts : List Token} (h : TokensOf before input ts) :
    Lits ts := by
  induction h with
  | eof before g _ => intro t ht hne; simp only [List.mem_singleton] at ht; subst ht; exact absurd rfl hne
  | token before g text rest t ts hg hd ht ih =>
    intro x hx hne
    rcases List.mem_cons.1 hx with rfl | hx
    · exact hd
    · exact ih x hx hne

/-- The AST of a program can always be turned into score updates. -/
theorem c30_updates (input : List Char) (ast : Node) (h : parse input = .ok ast) : ∃ us, updatesOf ast = .ok us := by
  obtain ⟨ts, eof, h1, _, h2⟩ := c30_consumes input ast h
  rcases c29 input with ⟨toks, h3, ht⟩ | ⟨_, _, _, _, h3⟩
  · rw [h1] at h3
    cases h3
    exact programG_ok h2 ht.lits.left
  · rw [h1] at h3; cases h3

/-- The full statement is false: an empty cram makes the parser crash. (parser.go:903-907 takes the first of its events.) -/
theorem c30_crash_witness : errorOf (parse "piano: {}".toList) = some (.panic "index out of range") := by decide +kernel

/-- A concrete case: a part with a chord, a sequence with repetitions, a cram and two voices. -/
example : ∃ ast, parse "piano: c/e [d4 e '1]*2 {f g}2 V1: a V2: r V0: b".toList = .ok ast := by
  cases h : (parse "piano: c/e [d4 e '1]*2 {f g}2 V1: a V2: r V0: b".toList) with
  | ok a => exact ⟨a, rfl⟩
  | error e =>
    have : (parse "piano: c/e [d4 e '1]*2 {f g}2 V1: a V2: r V0: b".toList).toOption.isSome = true := by decide +kernel
    rw [h] at this; cases this

/-- An error is reported at the token that is not expected. -/
example : errorOf (parse "piano: c [d".toList) = some (.at ⟨1, 12⟩ "unterminated event sequence") := by
  decide +kernel

end Syn
end Alda
