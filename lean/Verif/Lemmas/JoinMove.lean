import Verif.Lemmas.JoinScan
/-!
Scanning does not depend on the line that the text begins on. (For C56.)
-/
namespace Alda
namespace Syn
open Spec

/-- Further down. -/
def Pos.down (k : Nat) (p : Pos) : Pos := ⟨p.line + k, p.column⟩

/-- Further down. -/
def Lexer.down (k : Nat) (l : Lexer) : Lexer := ⟨l.text, l.rest, l.pos.down k⟩

/-- Further down. -/
def SynErr.down (k : Nat) : SynErr → SynErr
  | .at p m => .at (p.down k) m
  | e => e

/-- Further down. -/
def lexedDown (k : Nat) : Lexed → Lexed
  | .error e => .error (e.down k)
  | .ok (t, l) => .ok (t, l.down k)

theorem lexedDown_ite (k : Nat) (p : Prop) [Decidable p] (x y : Lexed) : lexedDown k (if p then x else y) = if p then lexedDown k x else lexedDown k y := by split <;> rfl

variable {k : Nat}

theorem after_down (p : Pos) (c : Char) : (p.down k).after c = (p.after c).down k := by
  unfold Pos.after Pos.down
  split
  · simp only [Pos.mk.injEq, and_true]; omega
  · rfl

theorem through_down (cs : List Char) : ∀ p : Pos, (p.down k).through cs = (p.through cs).down k := by
  induction cs with
  | nil => intro p; rfl
  | cons c cs ih => intro p; simp only [Pos.through, List.foldl_cons] at ih ⊢; rw [after_down, ih]

theorem peek_down (l : Lexer) : (l.down k).peek = l.peek := rfl
theorem peekNext_down (l : Lexer) : (l.down k).peekNext = l.peekNext := rfl
theorem rest_down (l : Lexer) : (l.down k).rest = l.rest := rfl
theorem text_down (l : Lexer) : (l.down k).text = l.text := rfl
theorem reached_down (l : Lexer) : (l.down k).reachedEOF = l.reachedEOF := rfl
theorem next_down (l : Lexer) : (l.down k).eofIsNext = l.eofIsNext := rfl

theorem advance_down (l : Lexer) : (l.down k).advance = l.advance.down k := by
  obtain ⟨text, rest, pos⟩ := l
  cases rest with
  | nil => rfl
  | cons c cs => simp only [Lexer.down, Lexer.advance, after_down]

theorem while_down (p : Char → Bool) (l : Lexer) : (l.down k).consumeWhile p = (l.consumeWhile p).down k := by
  simp only [Lexer.down, Lexer.consumeWhile, through_down]

theorem digits_down (l : Lexer) : (l.down k).consumeDigits = l.consumeDigits.down k := while_down _ _

theorem fraction_down (l : Lexer) : (l.down k).consumeFraction = l.consumeFraction.down k := by
  unfold Lexer.consumeFraction
  rw [peek_down, peekNext_down, advance_down, digits_down]
  split <;> rfl

theorem match_down (c : Char) (l : Lexer) : (l.down k).match? c = (l.match? c).map (Lexer.down k) := by
  unfold Lexer.match?
  rw [rest_down, advance_down]
  cases l.rest with
  | nil => rfl
  | cons d ds => simp only; split <;> rfl

theorem unexpected_down (l : Lexer) (m : String) : unexpectedChar (l.down k) m = (unexpectedChar l m).down k := rfl

theorem string_down (l : Lexer) : parseString (l.down k) = lexedDown k (parseString l) := by
  unfold parseString
  simp only [while_down, advance_down, reached_down, text_down, lexedDown_ite]; rfl

theorem noteLength_down (l : Lexer) : parseNoteLength (l.down k) = lexedDown k (parseNoteLength l) := by
  unfold parseNoteLength
  simp only [digits_down, fraction_down, while_down, advance_down, text_down, rest_down, peek_down, peekNext_down, next_down, lexedDown_ite]; rfl

theorem number_down (l : Lexer) : parseNumber (l.down k) = lexedDown k (parseNumber l) := by
  unfold parseNumber
  simp only [digits_down, fraction_down, text_down]; rfl

theorem repetitions_down : ∀ (f : Nat) (rs : List (Int × Int)) (l : Lexer), parseRepetitions f rs (l.down k) = lexedDown k (parseRepetitions f rs l) := by
  intro f
  induction f with
  | zero => intros; rfl
  | succ f ih =>
    intro rs l
    simp only [parseRepetitions, digits_down, match_down, peek_down, rest_down, lexedDown_ite]
    split
    · rfl
    · cases l.consumeDigits.match? '-' with
      | none =>
        simp only [Option.map_none]
        cases l.consumeDigits.match? ',' with
        | none => rfl
        | some m => exact ih _ _
      | some m =>
        simp only [Option.map_some, digits_down, match_down, peek_down, rest_down, lexedDown_ite]
        split
        · rfl
        · cases m.consumeDigits.match? ',' with
          | none => rfl
          | some m => exact ih _ _

theorem repeat_down (l : Lexer) : parseRepeat (l.down k) = lexedDown k (parseRepeat l) := by
  unfold parseRepeat
  simp only [while_down, digits_down, peek_down, rest_down, reached_down, lexedDown_ite]; rfl

theorem octaveSet_down (l : Lexer) : parseOctaveSet (l.down k) = lexedDown k (parseOctaveSet l) := by
  unfold parseOctaveSet
  simp only [digits_down, peek_down, text_down, reached_down, lexedDown_ite]; rfl

theorem voiceMarker_down (l : Lexer) : parseVoiceMarker (l.down k) = lexedDown k (parseVoiceMarker l) := by
  unfold parseVoiceMarker
  simp only [digits_down, peek_down, text_down, advance_down, lexedDown_ite]; rfl

theorem symbol_down (l : Lexer) : parseSymbol (l.down k) = lexedDown k (parseSymbol l) := by
  unfold parseSymbol
  simp only [while_down]; rfl

theorem name_down (l : Lexer) : parseName (l.down k) = lexedDown k (parseName l) := by
  unfold parseName
  simp only [while_down]; rfl

theorem alias_down (l : Lexer) : parseAlias (l.down k) = lexedDown k (parseAlias l) := by
  unfold parseAlias
  simp only [while_down, advance_down, reached_down, text_down, lexedDown_ite]; rfl

theorem prefixed_down (mk : String → Tok) (l : Lexer) : parsePrefixedName mk (l.down k) = lexedDown k (parsePrefixedName mk l) := by
  unfold parsePrefixedName
  simp only [while_down, peek_down, text_down, lexedDown_ite]; rfl

theorem scanLetter_down (c : Char) (l : Lexer) : scanLetter c (l.down k) = lexedDown k (scanLetter c l) := by
  unfold scanLetter
  simp only [peek_down, reached_down, name_down, octaveSet_down, voiceMarker_down, lexedDown_ite]; rfl

theorem scanLisp_down (before : Lexer) (c : Char) (l : Lexer) : scanLisp (before.down k) c (l.down k) = lexedDown k (scanLisp before c l) := by
  unfold scanLisp
  simp only [string_down, number_down, symbol_down, lexedDown_ite]; rfl

theorem scanPlain_down (before : Lexer) (c : Char) (l : Lexer) : scanPlain (before.down k) c (l.down k) = lexedDown k (scanPlain before c l) := by
  unfold scanPlain
  cases punctuation c with
  | some t => rfl
  | none => simp only [rest_down, repetitions_down, repeat_down, alias_down, prefixed_down, noteLength_down, scanLetter_down, lexedDown_ite]; rfl

theorem scanToken_down {level level' : Int} {before l : Lexer} {t : Option Tok} (h : scanToken level before = .ok (t, l, level')) :
    scanToken level (before.down k) = .ok (t, l.down k, level') := by
  unfold scanToken at h ⊢
  simp only [peek_down, advance_down, scanLisp_down, scanPlain_down] at h ⊢
  split at h
  · rename_i hc; rw [if_pos hc]; cases h; rfl
  · rename_i hc
    rw [if_neg hc]
    split at h
    · rename_i hc
      rw [if_pos hc]
      cases h
      have : skipComment (before.advance.down k) = (skipComment before.advance).down k := while_down _ _
      rw [this]
    · rename_i hc
      rw [if_neg hc]
      split at h
      · rename_i hc; rw [if_pos hc]; cases h; rfl
      · rename_i hc
        rw [if_neg hc]
        split at h
        · rename_i hc; rw [if_pos hc]; cases h; rfl
        · rename_i hc
          rw [if_neg hc, ← lexedDown_ite]
          split at h
          · cases h
          · rename_i u m hx
            cases h
            rw [hx]; rfl

/-- A round of the scanner. -/
theorem scan_round {f : Nat} {level : Int} {pos : Pos} {c : Char} {cs : List Char} {ts : List Token} (h : scanFrom f level pos (c :: cs) = .ok ts) :
    ∃ g t l level' ts', f = g + 1 ∧ scanToken level ⟨[], c :: cs, pos⟩ = .ok (t, l, level') ∧ scanFrom g level' l.pos l.rest = .ok ts' ∧
      ts = (match t with | none => ts' | some t => ⟨t, l.text, pos⟩ :: ts') := by
  cases f with
  | zero => simp [scanFrom] at h
  | succ g =>
    simp only [scanFrom] at h
    split at h
    · cases h
    · rename_i t l level' hx
      split at h
      · cases h
      · rename_i ts' hy
        refine ⟨g, t, l, level', ts', rfl, hx, hy, ?_⟩
        cases t <;> (cases h; rfl)

/-- What a round reads. -/
theorem round_reads {level level' : Int} {pos : Pos} {c : Char} {cs : List Char} {t : Option Tok} {l : Lexer} (h : scanToken level ⟨[], c :: cs, pos⟩ = .ok (t, l, level')) :
    c :: cs = l.text ++ l.rest ∧ l.pos = pos.through l.text ∧ l.rest.length < (c :: cs).length ∧ ∀ u, t = some u → Denotes u l.text := by
  have hs := scanToken_sound level ⟨[], c :: cs, pos⟩ rfl rfl
  rw [h] at hs
  have key : Reads ⟨[], c :: cs, pos⟩ l ∧ l.rest.length < (c :: cs).length := by
    cases t with
    | none => exact ⟨hs.1, hs.2.1⟩
    | some t => exact ⟨hs.1, hs.2.1⟩
  obtain ⟨⟨xs, h1, h2, h3⟩, h4⟩ := key
  have h1 : l.text = xs := h1
  subst h1
  refine ⟨h2, h3, h4, ?_⟩
  rintro u rfl
  exact hs.2.2

theorem scans_of : ∀ {f : Nat} {level : Int} {pos : Pos} {cs : List Char} {ts : List Token}, scanFrom f level pos cs = .ok ts → Scans level pos cs ts := by
  intro f
  induction f with
  | zero =>
    intro level pos cs ts h
    cases cs with
    | nil => cases h; exact Scans.nil _ _
    | cons c cs => simp [scanFrom] at h
  | succ f ih =>
    intro level pos cs ts h
    cases cs with
    | nil => cases h; exact Scans.nil _ _
    | cons c cs =>
      obtain ⟨g, t, l, level', ts', hg, h1, h2, rfl⟩ := scan_round h
      cases hg
      have h3 := Scans.step h1 (round_reads h1).2.2.1 (ih h2)
      cases t <;> exact h3

theorem Scans.from {level : Int} {pos : Pos} {cs : List Char} {ts : List Token} (h : Scans level pos cs ts) : scanFrom cs.length level pos cs = .ok ts := h _ (Nat.le_refl _)

theorem Scans.down {level : Int} {pos : Pos} {cs : List Char} {ts : List Token} (h : Scans level pos cs ts) : Scans level (pos.down k) cs (ts.map (sh k)) := by
  have key : ∀ (n : Nat) (level : Int) (pos : Pos) (cs : List Char) (ts : List Token), cs.length ≤ n → Scans level pos cs ts → Scans level (pos.down k) cs (ts.map (sh k)) := by
    intro n
    induction n with
    | zero =>
      intro level pos cs ts hn h
      cases cs with
      | nil => have := h.from; cases this; exact Scans.nil _ _
      | cons c cs => simp at hn
    | succ n ih =>
      intro level pos cs ts hn h
      cases cs with
      | nil => have := h.from; cases this; exact Scans.nil _ _
      | cons c cs =>
        obtain ⟨g, t, l, level', ts', hg, h1, h2, rfl⟩ := scan_round h.from
        have hr := round_reads h1
        have h3 := scanToken_down (k := k) h1
        have h4 := ih level' l.pos l.rest ts' (by have := hr.2.2.1; simp only [List.length_cons] at this hn; omega) (scans_of h2)
        have h5 := Scans.step (pos := pos.down k) (cs := c :: cs) h3 hr.2.2.1 h4
        cases t with
        | none => exact h5
        | some t => exact h5
  exact key _ _ _ _ _ (Nat.le_refl _) h

theorem through_line (cs : List Char) : ∀ p : Pos, p.line ≤ (p.through cs).line := by
  induction cs with
  | nil => intro p; exact Nat.le_refl _
  | cons c cs ih =>
    intro p
    have := ih (p.after c)
    simp only [Pos.through, List.foldl_cons] at this ⊢
    refine Nat.le_trans ?_ this
    unfold Pos.after; split <;> simp

theorem Scans.lines {level : Int} {pos : Pos} {cs : List Char} {ts : List Token} (h : Scans level pos cs ts) :
    ∀ t ∈ ts, pos.line ≤ t.pos.line ∧ t.pos.line ≤ (pos.through cs).line := by
  have key : ∀ (n : Nat) (level : Int) (pos : Pos) (cs : List Char) (ts : List Token), cs.length ≤ n → Scans level pos cs ts →
      ∀ t ∈ ts, pos.line ≤ t.pos.line ∧ t.pos.line ≤ (pos.through cs).line := by
    intro n
    induction n with
    | zero =>
      intro level pos cs ts hn h
      cases cs with
      | nil => have := h.from; cases this; simp [Pos.through]
      | cons c cs => simp at hn
    | succ n ih =>
      intro level pos cs ts hn h
      cases cs with
      | nil => have := h.from; cases this; simp [Pos.through]
      | cons c cs =>
        obtain ⟨g, t, l, level', ts', hg, h1, h2, rfl⟩ := scan_round h.from
        obtain ⟨r1, r2, r3, -⟩ := round_reads h1
        have h4 := ih level' l.pos l.rest ts' (by simp only [List.length_cons] at r3 hn; omega) (scans_of h2)
        have h5 : ∀ u ∈ ts', pos.line ≤ u.pos.line ∧ u.pos.line ≤ (pos.through (c :: cs)).line := by
          intro u hu
          obtain ⟨a1, a2⟩ := h4 u hu
          rw [r1, Pos.through_append, ← r2]
          exact ⟨Nat.le_trans (by rw [r2]; exact through_line _ _) a1, a2⟩
        cases t with
        | none => exact h5
        | some t =>
          intro u hu
          rcases List.mem_cons.1 hu with rfl | hu
          · exact ⟨Nat.le_refl _, through_line _ _⟩
          · exact h5 u hu
  exact key _ _ _ _ _ (Nat.le_refl _) h

/-! ### Parentheses -/

/-- How many parentheses the token opens. -/
def opens : Tok → Int
  | .leftParen => 1
  | .rightParen => -1
  | _ => 0

/-- How many parentheses the tokens leave open. -/
def balance (ts : List Token) : Int := (ts.map fun t => opens t.tok).sum

theorem balance_append (a b : List Token) : balance (a ++ b) = balance a + balance b := by
  simp [balance]

theorem balance_cons (t : Token) (b : List Token) : balance (t :: b) = opens t.tok + balance b := by
  simp [balance]

theorem balance_nil : balance [] = 0 := rfl

theorem round_level {level level' : Int} {pos : Pos} {c : Char} {cs : List Char} {t : Option Tok} {l : Lexer} (h : scanToken level ⟨[], c :: cs, pos⟩ = .ok (t, l, level')) :
    level' = level + (match t with | none => 0 | some t => opens t) := by
  have hd := (round_reads h).2.2.2
  have hr := (round_reads h).1
  unfold scanToken at h
  have hp : (⟨[], c :: cs, pos⟩ : Lexer).peek = c := rfl
  simp only [hp] at h
  split at h
  · cases h; simp
  · split at h
    · cases h; simp
    · split at h
      · cases h; rfl
      · split at h
        · cases h; rfl
        · rename_i n1 n2
          split at h
          · cases h
          · rename_i u m hx
            cases h
            have := hd u rfl
            generalize l.text = x at this hr
            have : opens u = 0 := by
              cases u <;> try rfl
              · cases this; cases hr; exact absurd rfl n1
              · cases this; cases hr; exact absurd rfl n2
            simp [this]

/-- A text with another one on the next line. -/
theorem scan_then {level : Int} {pos : Pos} {r : List Char} {ts : List Token} (h : Scans level pos r ts) (h2 : r.getLast? = some 'o' → ∃ ts2, Scans level pos (r ++ ['\n']) ts2) :
    ∃ As e, ts = As ++ [e] ∧ e.tok = .eof ∧
      ∀ b U, Scans (level + balance As) ((pos.through r).after '\n') b U → Scans level pos (r ++ '\n' :: b) (As ++ U) := by
  have key : ∀ (n : Nat) (level : Int) (pos : Pos) (r : List Char) (ts : List Token), r.length ≤ n → Scans level pos r ts → (r.getLast? = some 'o' → ∃ ts2, Scans level pos (r ++ ['\n']) ts2) →
      ∃ As e, ts = As ++ [e] ∧ e.tok = .eof ∧
        ∀ b U, Scans (level + balance As) ((pos.through r).after '\n') b U → Scans level pos (r ++ '\n' :: b) (As ++ U) := by
    intro n
    induction n with
    | zero =>
      intro level pos r ts hn h h2
      cases r with
      | nil =>
        have := h.from
        cases this
        refine ⟨[], _, rfl, rfl, fun b U hU => ?_⟩
        rw [balance_nil, Int.add_zero] at hU
        exact Scans.blank (by decide) hU
      | cons c cs => simp at hn
    | succ n ih =>
      intro level pos r ts hn h h2
      cases r with
      | nil =>
        have := h.from
        cases this
        refine ⟨[], _, rfl, rfl, fun b U hU => ?_⟩
        rw [balance_nil, Int.add_zero] at hU
        exact Scans.blank (by decide) hU
      | cons c cs =>
        obtain ⟨g, t, l, level', ts', hg, h3, h4, rfl⟩ := scan_round h.from
        obtain ⟨r1, r2, r3, -⟩ := round_reads h3
        have ho : ¬ (c = 'o' ∧ cs = [] ∧ level ≤ 0) := by
          rintro ⟨rfl, rfl, hl⟩
          obtain ⟨ts2, h2⟩ := h2 rfl
          obtain ⟨g', t', l', level'', ts'', hg', h3', h4', rfl⟩ := scan_round h2.from
          have hl : ¬ level > 0 := by omega
          have h6 : scanPlain ⟨[], ['o', '\n'], pos⟩ 'o' ⟨['o'], ['\n'], pos.after 'o'⟩ = .error (unexpectedChar ⟨['o'], ['\n'], pos.after 'o'⟩ "in note/rest/name") := rfl
          have h7 : scanToken level ⟨[], ['o', '\n'], pos⟩ = .error (unexpectedChar ⟨['o'], ['\n'], pos.after 'o'⟩ "in note/rest/name") := by
            simp only [scanToken, Lexer.peek, Lexer.advance, List.nil_append, if_neg hl]
            rw [if_neg (by decide), if_neg (by decide), if_neg (by decide), if_neg (by decide), h6]
          have h8 := h7.symm.trans h3'
          cases h8
        have step : ∀ b, scanToken level ⟨[], (c :: cs) ++ '\n' :: b, pos⟩ = .ok (t, ⟨l.text, l.rest ++ '\n' :: b, l.pos⟩, level') :=
          fun b => scanToken_then (before := ⟨[], c :: cs, pos⟩) rfl ho h3
        have h2' : l.rest.getLast? = some 'o' → ∃ ts2, Scans level' l.pos (l.rest ++ ['\n']) ts2 := by
          intro hl
          obtain ⟨ts2, h2⟩ := h2 (by rw [r1, List.getLast?_append, hl]; rfl)
          obtain ⟨g', t', l', level'', ts'', hg', h3', h4', rfl⟩ := scan_round h2.from
          have h5 := (step []).symm.trans h3'
          cases h5
          exact ⟨ts'', scans_of h4'⟩
        obtain ⟨As, e, e1, e2, e3⟩ := ih level' l.pos l.rest ts' (by simp only [List.length_cons] at r3 hn; omega) (scans_of h4) h2'
        have shorter : ∀ b, (l.rest ++ '\n' :: b).length < ((c :: cs) ++ '\n' :: b).length := by
          intro b; simp only [List.length_append]; omega
        have hlev := round_level h3
        have hpos : (pos.through (c :: cs)).after '\n' = (l.pos.through l.rest).after '\n' := by rw [r1, Pos.through_append, ← r2]
        subst e1
        cases t with
        | none =>
          refine ⟨As, e, rfl, e2, fun b U hU => ?_⟩
          rw [hpos] at hU
          exact Scans.step (step b) (shorter b) (e3 b U (by simp only [Int.add_zero] at hlev; rw [hlev]; exact hU))
        | some t =>
          refine ⟨⟨t, l.text, pos⟩ :: As, e, rfl, e2, fun b U hU => ?_⟩
          rw [hpos, balance_cons, ← Int.add_assoc] at hU
          exact Scans.step (step b) (shorter b) (e3 b U (by rw [hlev]; exact hU))
  exact key _ _ _ _ _ (Nat.le_refl _) h h2

end Syn
end Alda
