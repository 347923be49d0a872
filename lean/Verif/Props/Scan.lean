import Verif.Lemmas.Scan
/-!
C29: scanning is total and faithful to the source.
-/
namespace Alda
namespace Syn
open Spec

theorem TokensOf.blank {before rest : List Char} {c : Char} {ts : List Token} (hc : c ∈ [' ', '\t', '\r', '\n'])
    (h : TokensOf (before ++ [c]) rest ts) : TokensOf before (c :: rest) ts := by
  generalize hb : before ++ [c] = b at h
  cases h with
  | eof _ g hg =>
    have := TokensOf.eof before (c :: rest) (.blank c _ hc hg)
    rw [← hb, List.append_assoc]; exact this
  | token _ g text rest' t ts' hg hd htail =>
    subst hb
    have := TokensOf.token before (c :: g) text rest' t ts' (.blank c _ hc hg) hd (by simpa using htail)
    simpa using this

theorem TokensOf.comment {before rest : List Char} {cs : List Char} {ts : List Token} (hc : '\n' ∉ cs)
    (hn : rest.head?.all (· = '\n')) (h : TokensOf (before ++ '#' :: cs) rest ts) :
    TokensOf before ('#' :: (cs ++ rest)) ts := by
  generalize hb : before ++ '#' :: cs = b at h
  cases h with
  | eof _ g hg =>
    have := TokensOf.eof before ('#' :: (cs ++ rest)) (.comment cs _ hc (by simpa using hn) hg)
    subst hb
    simpa using this
  | token _ g text rest' t ts' hg hd htail =>
    subst hb
    have := TokensOf.token before ('#' :: (cs ++ g)) text rest' t ts'
      (.comment cs _ hc (by rw [← List.append_assoc]; exact hn) hg) hd (by simpa using htail)
    simpa using this

/-- An error is reported at a place in the text. -/
def ErrorIn (before rest : List Char) (e : SynErr) : Prop :=
  ∃ pre suf msg, rest = pre ++ suf ∧ e = .at (position (before ++ pre)) msg

theorem scanFrom_sound (fuel : Nat) (level : Int) (before rest : List Char) (hf : rest.length ≤ fuel) :
    (∀ ts, scanFrom fuel level (position before) rest = .ok ts → TokensOf before rest ts) ∧
    (∀ e, scanFrom fuel level (position before) rest = .error e → ErrorIn before rest e) := by
  induction fuel generalizing level before rest with
  | zero =>
    cases rest with
    | cons c cs => simp at hf
    | nil =>
      simp only [scanFrom]
      refine ⟨?_, by intro e h; cases h⟩
      intro ts h; cases h
      simpa using TokensOf.eof before [] .nil
  | succ fuel ih =>
    cases rest with
    | nil =>
      simp only [scanFrom]
      refine ⟨?_, by intro e h; cases h⟩
      intro ts h; cases h
      simpa using TokensOf.eof before [] .nil
    | cons c cs =>
      have hs := scanToken_sound level ⟨[], c :: cs, position before⟩ rfl (c := c) (cs := cs) rfl
      simp only [scanFrom]
      cases hx : scanToken level ⟨[], c :: cs, position before⟩ with
      | error e =>
        rw [hx] at hs
        refine ⟨(by intro ts h; cases h), ?_⟩
        intro e' h; cases h
        obtain ⟨l', msg, ⟨xs, _, h2, h3⟩, rfl⟩ := hs
        exact ⟨xs, l'.rest, msg, h2, by rw [h3, position_through]⟩
      | ok p =>
        obtain ⟨t, l, level'⟩ := p
        rw [hx] at hs
        have hread : Reads ⟨[], c :: cs, position before⟩ l ∧ l.rest.length < (c :: cs).length := by
          cases t <;> exact ⟨hs.1, hs.2.1⟩
        obtain ⟨⟨xs, h1, h2, h3⟩, hlt⟩ := hread
        simp only [List.nil_append] at h1 h2 h3
        rw [position_through] at h3
        obtain ⟨ih1, ih2⟩ := ih level' (before ++ xs) l.rest (by simp only [List.length_cons] at hlt hf; omega)
        rw [← h3] at ih1 ih2
        dsimp only
        cases hr : scanFrom fuel level' l.pos l.rest with
        | error e =>
          refine ⟨(by intro ts h; cases h), ?_⟩
          intro e' h; cases h
          obtain ⟨pre, suf, msg, e1, e2⟩ := ih2 _ hr
          exact ⟨xs ++ pre, suf, msg, by rw [h2, e1, List.append_assoc], by rw [e2, List.append_assoc]⟩
        | ok ts =>
          have ht := ih1 _ hr
          cases t with
          | some t =>
            refine ⟨?_, by intro e h; cases h⟩
            intro ts' h; cases h
            have := TokensOf.token before [] xs l.rest t ts .nil (h1 ▸ hs.2.2) (by simpa using ht)
            rw [h2, h1]
            simpa using this
          | none =>
            refine ⟨?_, by intro e h; cases h⟩
            intro ts' h; cases h
            rcases hs.2.2 with ⟨hc, hb⟩ | ⟨ys, hy, hn, hh⟩
            · rw [h1] at hc; subst hc
              rw [h2]; exact TokensOf.blank hb ht
            · rw [h1] at hy; subst hy
              rw [h2]; exact TokensOf.comment hn hh ht

/-- C29. Scanning any text either yields its tokens — in order, without overlap, separated by white space and comments
only, each with the text it stands for, the value of that text and the position where it begins, and the end of the file
last — or an error at a position in the text. (In particular it ends.) -/
theorem c29 (input : List Char) :
    (∃ ts, scan input = .ok ts ∧ TokensOf [] input ts) ∨
    (∃ pre suf msg, input = pre ++ suf ∧ scan input = .error (.at (position pre) msg)) := by
  have h := scanFrom_sound input.length 0 [] input (Nat.le_refl _)
  have e : (⟨1, 1⟩ : Pos) = position [] := rfl
  unfold scan
  rw [e]
  cases hx : scanFrom input.length 0 (position []) input with
  | ok ts => exact .inl ⟨ts, rfl, h.1 _ hx⟩
  | error err =>
    obtain ⟨pre, suf, msg, h1, h2⟩ := h.2 _ hx
    exact .inr ⟨pre, suf, msg, h1, by rw [h2]; rfl⟩

/-! What being the tokens of a text means, spelled out. -/

/-- No token stands for the end of the file. -/
theorem _root_.Alda.Spec.Denotes.ne_eof {t : Tok} {text : List Char} (h : Denotes t text) : t ≠ .eof := by
  cases h <;> intro h <;> cases h

theorem _root_.Alda.Spec.Denotes.ne_nil {t : Tok} {text : List Char} (h : Denotes t text) : text ≠ [] := by
  cases h
  case noteLength h => rename_i k _ _; cases h <;> simp_all
  case number h => cases h <;> simp_all
  all_goals simp

/-- The last token is the end of the file, and no other is. -/
theorem _root_.Alda.Spec.TokensOf.eof_last {before input : List Char} {ts : List Token} (h : TokensOf before input ts) :
    ∃ init, ts = init ++ [⟨.eof, [], position (before ++ input)⟩] ∧ ∀ t ∈ init, t.tok ≠ .eof := by
  induction h with
  | eof before g _ => exact ⟨[], rfl, by simp⟩
  | token before g text rest t ts hg hd _ ih =>
    obtain ⟨init, h1, h2⟩ := ih
    refine ⟨⟨t, text, position (before ++ g)⟩ :: init, ?_, ?_⟩
    · rw [h1]; simp
    · intro x hx
      rcases List.mem_cons.1 hx with rfl | hx
      · exact hd.ne_eof
      · exact h2 x hx

/-- Every token stands in the text at its position. -/
theorem _root_.Alda.Spec.TokensOf.place {before input : List Char} {ts : List Token} (h : TokensOf before input ts) :
    ∀ t ∈ ts, ∃ pre suf, input = pre ++ t.text ++ suf ∧ t.pos = position (before ++ pre) := by
  induction h with
  | eof before g _ =>
    intro t ht; simp only [List.mem_singleton] at ht; subst ht
    exact ⟨g, [], by simp, rfl⟩
  | token before g text rest t ts hg hd _ ih =>
    intro x hx
    rcases List.mem_cons.1 hx with rfl | hx
    · exact ⟨g, rest, rfl, rfl⟩
    · obtain ⟨pre, suf, h1, h2⟩ := ih x hx
      exact ⟨g ++ text ++ pre, suf, by rw [h1]; simp, by rw [h2]; simp⟩

/-- C29, as stated: the last token and only the last is the end of the file, and each token's text is the text at its
position. -/
theorem c29_tokens (input : List Char) (ts : List Token) (h : scan input = .ok ts) :
    (∃ init, ts = init ++ [⟨.eof, [], position input⟩] ∧ ∀ t ∈ init, t.tok ≠ .eof) ∧
    ∀ t ∈ ts, ∃ pre suf, input = pre ++ t.text ++ suf ∧ t.pos = position pre := by
  have ht : TokensOf [] input ts := by
    rcases c29 input with ⟨ts', h1, h2⟩ | ⟨_, _, _, _, h1⟩
    · rw [h1] at h; cases h; exact h2
    · rw [h1] at h; cases h
  exact ⟨ht.eof_last, ht.place⟩

/-- A concrete case: two lines with a comment, a note length, a lisp expression and a repeat. -/
example : (scan "c4. # low\n (tempo -9.5) > d*2".toList).toOption = some
    [⟨.noteLetter 'c', ['c'], ⟨1, 1⟩⟩, ⟨.noteLength 4 1, ['4', '.'], ⟨1, 2⟩⟩,
     ⟨.leftParen, ['('], ⟨2, 2⟩⟩, ⟨.symbol, "tempo".toList, ⟨2, 3⟩⟩, ⟨.number (-19/2), "-9.5".toList, ⟨2, 9⟩⟩,
     ⟨.rightParen, [')'], ⟨2, 13⟩⟩, ⟨.octaveUp, ['>'], ⟨2, 15⟩⟩, ⟨.noteLetter 'd', ['d'], ⟨2, 17⟩⟩,
     ⟨.repeat 2, ['*', '2'], ⟨2, 18⟩⟩, ⟨.eof, [], ⟨2, 20⟩⟩] := by decide +kernel

/-- An error is reported at its place. -/
example : scan "c4 ?".toList = .error (.at ⟨1, 4⟩ "at the top level") := by rfl

/-- An alias need not be closed by a quote: any character that ends the name is taken for it. (The scanner builds an error
but drops it, scanner.go:574.) -/
theorem c29_alias_witness : (scan "piano \"solo!: c".toList).toOption = some
    [⟨.name, "piano".toList, ⟨1, 1⟩⟩, ⟨.alias "solo", "\"solo!".toList, ⟨1, 7⟩⟩, ⟨.colon, [':'], ⟨1, 13⟩⟩,
     ⟨.noteLetter 'c', ['c'], ⟨1, 15⟩⟩, ⟨.eof, [], ⟨1, 16⟩⟩] := by decide +kernel

/-- `o` at the end of the text is octave 0, and too big an octave number becomes the biggest. -/
theorem c29_octave_witness :
    (scan "o".toList).toOption = some [⟨.octaveSet 0, ['o'], ⟨1, 1⟩⟩, ⟨.eof, [], ⟨1, 2⟩⟩] ∧
    (scan "o9999999999".toList).toOption = some [⟨.octaveSet 2147483647, "o9999999999".toList, ⟨1, 1⟩⟩, ⟨.eof, [], ⟨1, 12⟩⟩] :=
  ⟨by decide +kernel, by decide +kernel⟩

end Syn
end Alda
