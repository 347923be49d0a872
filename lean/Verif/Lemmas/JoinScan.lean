import Verif.Lemmas.Scan
import Verif.Lemmas.FormatScan
import Verif.Lemmas.JoinShift
/-!
Scanning one text after another. (For C56.)
-/
namespace Alda
namespace Syn
open Spec

/-! ### What follows on the next line -/

/-- Another line follows. -/
def Lexer.then (b : List Char) (l : Lexer) : Lexer := ⟨l.text, l.rest ++ '\n' :: b, l.pos⟩

theorem peek_then_nil {b : List Char} {l : Lexer} (h : l.rest = []) : (l.then b).peek = '\n' := by
  simp only [Lexer.then, Lexer.peek, h, List.nil_append]

theorem peek_then {b : List Char} {l : Lexer} {c : Char} {cs : List Char} (h : l.rest = c :: cs) : (l.then b).peek = l.peek := by
  simp only [Lexer.then, Lexer.peek, h, List.cons_append]

theorem advance_then {b : List Char} {l : Lexer} {c : Char} {cs : List Char} (h : l.rest = c :: cs) : (l.then b).advance = l.advance.then b := by
  simp only [Lexer.then, Lexer.advance, h, List.cons_append]

theorem takeWhile_then {p : Char → Bool} (hp : p '\n' = false) (r b : List Char) : (r ++ '\n' :: b).takeWhile p = r.takeWhile p := by
  induction r with
  | nil => simp [hp]
  | cons c r ih => simp only [List.cons_append, List.takeWhile_cons, ih]

theorem dropWhile_then {p : Char → Bool} (hp : p '\n' = false) (r b : List Char) : (r ++ '\n' :: b).dropWhile p = r.dropWhile p ++ '\n' :: b := by
  induction r with
  | nil => simp [hp]
  | cons c r ih =>
    simp only [List.cons_append, List.dropWhile_cons, ih]
    split <;> rfl

theorem consumeWhile_then {p : Char → Bool} (hp : p '\n' = false) (b : List Char) (l : Lexer) : (l.then b).consumeWhile p = (l.consumeWhile p).then b := by
  simp only [Lexer.then, Lexer.consumeWhile, takeWhile_then hp, dropWhile_then hp]

theorem digits_then (b : List Char) (l : Lexer) : (l.then b).consumeDigits = l.consumeDigits.then b := consumeWhile_then (by decide) b l

theorem fraction_then (b : List Char) (l : Lexer) : (l.then b).consumeFraction = l.consumeFraction.then b := by
  obtain ⟨text, rest, pos⟩ := l
  unfold Lexer.consumeFraction
  cases rest with
  | nil =>
    rw [if_neg (by simp [Lexer.peek, Lexer.then]), if_neg (by simp [Lexer.peek])]
  | cons c rest =>
    cases rest with
    | nil =>
      rw [if_neg (by simp [Lexer.peekNext, Lexer.then, isDigit]), if_neg (by simp [Lexer.peekNext, isDigit])]
    | cons d rest =>
      have h1 : (Lexer.then b ⟨text, c :: d :: rest, pos⟩).peek = c := rfl
      have h2 : (Lexer.then b ⟨text, c :: d :: rest, pos⟩).peekNext = d := rfl
      have h3 : (⟨text, c :: d :: rest, pos⟩ : Lexer).peek = c := rfl
      have h4 : (⟨text, c :: d :: rest, pos⟩ : Lexer).peekNext = d := rfl
      rw [h1, h2, h3, h4]
      split
      · rw [advance_then rfl, digits_then]
      · rfl

theorem number_then (b : List Char) (l : Lexer) : parseNumber (l.then b) = .ok (.number (parseFloat l.consumeDigits.consumeFraction.text), l.consumeDigits.consumeFraction.then b) := by
  simp only [parseNumber, digits_then, fraction_then]; rfl

theorem noteLength_then {b : List Char} {l l' : Lexer} {t : Tok} (h : parseNoteLength l = .ok (t, l')) : parseNoteLength (l.then b) = .ok (t, l'.then b) := by
  unfold parseNoteLength at h ⊢
  simp only [digits_then, fraction_then] at h ⊢
  generalize l.consumeDigits.consumeFraction = m at h ⊢
  obtain ⟨text, rest, pos⟩ := m
  have dots : ∀ rest, (Lexer.then b ⟨text, rest, pos⟩).rest.takeWhile (fun c => decide (c = '.')) = rest.takeWhile (fun c => decide (c = '.')) :=
    fun rest => takeWhile_then (by decide) rest b
  have whiles := consumeWhile_then (p := fun c => decide (c = '.')) (by decide) b
  cases rest with
  | nil =>
    rw [if_neg (by simp [Lexer.peek]), if_neg (by simp [Lexer.peek])] at h
    rw [if_neg (by simp [Lexer.peek, Lexer.then]), if_neg (by simp [Lexer.peek, Lexer.then]), dots, whiles]
    cases h
    rfl
  | cons c rest =>
    cases rest with
    | nil =>
      have h1 : (Lexer.then b ⟨text, [c], pos⟩).peek = c := rfl
      have h2 : (Lexer.then b ⟨text, [c], pos⟩).peekNext = '\n' := rfl
      have h3 : (⟨text, [c], pos⟩ : Lexer).peek = c := rfl
      have h4 : (⟨text, [c], pos⟩ : Lexer).peekNext = '\x00' := rfl
      have h5 : (⟨text, [c], pos⟩ : Lexer).eofIsNext = true := rfl
      have h6 : terminatesNoteLength '\n' = true := by decide
      rw [h3, h4, h5] at h
      rw [h1, h2, h6]
      split at h
      · rename_i hc
        rw [if_pos ⟨hc.1, .inl rfl⟩, advance_then rfl]
        cases h
        rfl
      · rename_i hc
        have hc' : c ≠ 's' := fun e => hc ⟨e, .inr rfl⟩
        rw [if_neg (by simp)] at h
        rw [if_neg (by simp [hc']), if_neg (by simp), dots, whiles]
        cases h
        rfl
    | cons d rest =>
      have h1 : (Lexer.then b ⟨text, c :: d :: rest, pos⟩).peek = c := rfl
      have h2 : (Lexer.then b ⟨text, c :: d :: rest, pos⟩).peekNext = d := rfl
      have h3 : (⟨text, c :: d :: rest, pos⟩ : Lexer).peek = c := rfl
      have h4 : (⟨text, c :: d :: rest, pos⟩ : Lexer).peekNext = d := rfl
      have h5 : (⟨text, c :: d :: rest, pos⟩ : Lexer).eofIsNext = false := by simp [Lexer.eofIsNext]
      have h6 : (Lexer.then b ⟨text, c :: d :: rest, pos⟩).eofIsNext = false := by simp [Lexer.eofIsNext, Lexer.then]
      rw [h3, h4, h5] at h
      rw [h1, h2, h6]
      split at h
      · rename_i hc
        rw [if_pos hc, advance_then rfl]
        cases h
        rfl
      · rename_i hc
        rw [if_neg hc]
        split at h
        · rename_i hm
          rw [if_pos hm, advance_then rfl, advance_then (c := d) (cs := rest) rfl]
          cases h
          rfl
        · rename_i hm
          rw [if_neg hm, dots, whiles]
          cases h
          rfl

theorem match_then {c : Char} (hc : c ≠ '\n') (b : List Char) (l : Lexer) : (l.then b).match? c = (l.match? c).map (Lexer.then b) := by
  obtain ⟨text, rest, pos⟩ := l
  cases rest with
  | nil => simp only [Lexer.match?, Lexer.then, List.nil_append]; rw [if_neg (Ne.symm hc)]; rfl
  | cons d rest =>
    simp only [Lexer.match?, Lexer.then, List.cons_append]
    split <;> rfl

theorem digit_peek_then {b : List Char} {l : Lexer} (h : isDigit l.peek = true) : isDigit (l.then b).peek = true := by
  obtain ⟨c, cs, hr, _⟩ := peek_digit h
  rw [peek_then hr]; exact h

theorem digits_rest_then (b : List Char) (l : Lexer) : (l.then b).rest.takeWhile isDigit = l.rest.takeWhile isDigit := takeWhile_then (by decide) l.rest b

theorem repetitions_then {b : List Char} : ∀ (f f' : Nat) (rs : List (Int × Int)) {l l' : Lexer} {t : Tok}, f ≤ f' → parseRepetitions f rs l = .ok (t, l') →
    parseRepetitions f' rs (l.then b) = .ok (t, l'.then b) := by
  intro f
  induction f with
  | zero => intro f' rs l l' t _ h; simp [parseRepetitions] at h
  | succ f ih =>
    intro f' rs l l' t hf h
    obtain ⟨f', rfl⟩ : ∃ g, f' = g + 1 := ⟨f' - 1, by omega⟩
    simp only [parseRepetitions] at h ⊢
    split at h
    · cases h
    · rename_i hd
      rw [Classical.not_not] at hd
      rw [if_neg (by rw [Classical.not_not]; exact digit_peek_then hd)]
      rw [digits_rest_then, digits_then, match_then (by decide)]
      cases hm : l.consumeDigits.match? '-' with
      | none =>
        rw [hm] at h
        simp only [Option.map_none] at h ⊢
        rw [match_then (by decide)]
        cases hn : l.consumeDigits.match? ',' with
        | none => rw [hn] at h; cases h; rfl
        | some m => rw [hn] at h; exact ih f' _ (by omega) h
      | some m =>
        rw [hm] at h
        simp only [Option.map_some] at h ⊢
        split at h
        · cases h
        · rename_i hd2
          rw [Classical.not_not] at hd2
          rw [if_neg (by rw [Classical.not_not]; exact digit_peek_then hd2)]
          rw [digits_rest_then, digits_then, match_then (by decide)]
          cases hn : m.consumeDigits.match? ',' with
          | none => rw [hn] at h; cases h; rfl
          | some m => rw [hn] at h; exact ih f' _ (by omega) h

theorem end_then {cs : List Char} (hn : '\n' ∈ cs) {b : List Char} {l : Lexer} (h : ¬ (¬ cs.contains l.peek = true ∧ ¬ l.reachedEOF = true)) :
    ¬ (¬ cs.contains (l.then b).peek = true ∧ ¬ (l.then b).reachedEOF = true) := by
  rintro ⟨h1, _⟩
  apply h
  cases hr : l.rest with
  | nil => rw [peek_then_nil hr] at h1; exact absurd (List.contains_iff_mem.mpr hn) h1
  | cons c cs => rw [peek_then hr] at h1; exact ⟨h1, by simp [Lexer.reachedEOF, hr]⟩

theorem repeat_then {b : List Char} {l l' : Lexer} {t : Tok} (h : parseRepeat l = .ok (t, l')) : parseRepeat (l.then b) = .ok (t, l'.then b) := by
  unfold parseRepeat at h ⊢
  simp only [consumeWhile_then (p := fun c => decide (c = ' ')) (by decide) b] at h ⊢
  generalize l.consumeWhile (fun c => decide (c = ' ')) = m at h ⊢
  split at h
  · cases h
  · rename_i hd
    rw [Classical.not_not] at hd
    rw [if_neg (by rw [Classical.not_not]; exact digit_peek_then hd)]
    rw [digits_rest_then, digits_then]
    split at h
    · cases h
    · rename_i he
      rw [if_neg (end_then (by decide) he)]
      cases h
      rfl

theorem octaveSet_then {b : List Char} {l l' : Lexer} {t : Tok} (h : parseOctaveSet l = .ok (t, l')) : parseOctaveSet (l.then b) = .ok (t, l'.then b) := by
  unfold parseOctaveSet at h ⊢
  rw [digits_then]
  simp only at h ⊢
  split at h
  · cases h
  · rename_i he
    rw [if_neg (end_then (by decide) he)]
    cases h
    rfl

theorem peek_is_then {b : List Char} {l : Lexer} {c : Char} (hc : c ≠ '\x00') (h : l.peek = c) : (l.then b).peek = c ∧ (l.then b).advance = l.advance.then b := by
  obtain ⟨cs, hr⟩ := peek_eq hc h
  exact ⟨(peek_then hr).trans h, advance_then hr⟩

theorem voiceMarker_then {b : List Char} {l l' : Lexer} {t : Tok} (h : parseVoiceMarker l = .ok (t, l')) : parseVoiceMarker (l.then b) = .ok (t, l'.then b) := by
  unfold parseVoiceMarker at h ⊢
  rw [digits_then]
  simp only at h ⊢
  split at h
  · cases h
  · rename_i he
    rw [Classical.not_not] at he
    obtain ⟨h1, h2⟩ := peek_is_then (b := b) (by decide) he
    rw [if_neg (by rw [Classical.not_not]; exact h1), h2]
    cases h
    rfl

theorem symbol_then (b : List Char) (l : Lexer) : parseSymbol (l.then b) = .ok (.symbol, (l.consumeWhile isValidSymbolChar).then b) := by
  unfold parseSymbol; rw [consumeWhile_then (by decide)]

theorem name_then (b : List Char) (l : Lexer) : parseName (l.then b) = .ok (.name, (l.consumeWhile isValidNameChar).then b) := by
  unfold parseName; rw [consumeWhile_then (by decide)]

theorem alias_then {b : List Char} {l l' : Lexer} {t : Tok} (h : parseAlias l = .ok (t, l')) : parseAlias (l.then b) = .ok (t, l'.then b) := by
  unfold parseAlias at h ⊢
  rw [consumeWhile_then (by decide)]
  simp only at h ⊢
  split at h
  · cases h
  · rename_i he
    obtain ⟨c, cs, hr⟩ := not_eof he
    rw [if_neg (by simp [Lexer.reachedEOF, Lexer.then]), advance_then hr]
    cases h
    rfl

theorem prefixed_then {mk : String → Tok} {b : List Char} {l l' : Lexer} {t : Tok} (h : parsePrefixedName mk l = .ok (t, l')) :
    parsePrefixedName mk (l.then b) = .ok (t, l'.then b) := by
  unfold parsePrefixedName at h ⊢
  split at h
  · cases h
  · rename_i he
    rw [Classical.not_not] at he
    have : isValidNameChar (l.then b).peek = true := by
      cases hr : l.rest with
      | nil => simp only [Lexer.peek, hr] at he; exact absurd he (by decide)
      | cons c cs => rw [peek_then hr]; exact he
    rw [if_neg (by rw [Classical.not_not]; exact this), consumeWhile_then (by decide)]
    cases h
    rfl

theorem takeWhile_found {p : Char → Bool} : ∀ {r : List Char} (s : List Char), r.dropWhile p ≠ [] → (r ++ s).takeWhile p = r.takeWhile p ∧ (r ++ s).dropWhile p = r.dropWhile p ++ s := by
  intro r
  induction r with
  | nil => intro s h; exact absurd rfl h
  | cons c r ih =>
    intro s h
    simp only [List.dropWhile_cons, List.takeWhile_cons, List.cons_append] at h ⊢
    split
    · rename_i hc
      rw [if_pos hc] at h
      obtain ⟨h1, h2⟩ := ih s h
      exact ⟨by rw [h1], h2⟩
    · exact ⟨rfl, rfl⟩

theorem string_then {b : List Char} {l l' : Lexer} {t : Tok} (h : parseString l = .ok (t, l')) : parseString (l.then b) = .ok (t, l'.then b) := by
  unfold parseString at h ⊢
  simp only at h ⊢
  split at h
  · cases h
  · rename_i he
    obtain ⟨c, cs, hr⟩ := not_eof he
    have hne : l.rest.dropWhile (fun c => decide (c ≠ '"')) ≠ [] := by
      intro e
      simp only [Lexer.consumeWhile] at hr
      rw [e] at hr; cases hr
    obtain ⟨h1, h2⟩ := takeWhile_found ('\n' :: b) hne
    have hw : (l.then b).consumeWhile (fun c => decide (c ≠ '"')) = (l.consumeWhile (fun c => decide (c ≠ '"'))).then b := by
      simp only [Lexer.consumeWhile, Lexer.then, h1, h2]
    rw [hw, if_neg (by simp [Lexer.reachedEOF, Lexer.then]), advance_then hr]
    cases h
    rfl

theorem scanLetter_then {b : List Char} {c : Char} {l l' : Lexer} {t : Tok} (ho : ¬ (c = 'o' ∧ l.rest = [])) (h : scanLetter c l = .ok (t, l')) :
    scanLetter c (l.then b) = .ok (t, l'.then b) := by
  unfold scanLetter at h ⊢
  simp only at h ⊢
  have h0 : (l.then b).reachedEOF = false := by simp [Lexer.reachedEOF, Lexer.then]
  cases hr : l.rest with
  | nil =>
    have hp : l.peek = '\x00' := by simp only [Lexer.peek, hr]
    have he : l.reachedEOF = true := by simp [Lexer.reachedEOF, hr]
    rw [hp, he] at h
    rw [peek_then_nil hr, h0]
    rw [if_neg (by decide)] at h ⊢
    split at h
    · rename_i hc
      rw [if_pos ⟨hc.1, .inl (by decide)⟩]
      cases h
      rfl
    · rename_i hc
      rw [if_neg (fun e => hc ⟨e.1, .inr rfl⟩)]
      split at h
      · rename_i hc
        rw [if_pos ⟨hc.1, .inl (by decide)⟩]
        cases h
        rfl
      · split at h
        · rename_i hc; exact absurd ⟨hc.1, hr⟩ ho
        · rw [if_neg (fun e => absurd e.2 (by decide))] at h
          cases h
  | cons d ds =>
    have he : l.reachedEOF = false := by simp [Lexer.reachedEOF, hr]
    rw [he] at h
    rw [peek_then hr, h0]
    split at h
    · rename_i hc
      rw [if_pos hc, name_then]
      cases h
      rfl
    · rename_i hc
      rw [if_neg hc]
      split at h
      · rename_i hc
        rw [if_pos hc]
        cases h
        rfl
      · rename_i hc
        rw [if_neg hc]
        split at h
        · rename_i hc
          rw [if_pos hc]
          cases h
          rfl
        · rename_i hc
          rw [if_neg hc]
          split at h
          · rename_i hc
            rw [if_pos hc]
            exact octaveSet_then h
          · rename_i hc
            rw [if_neg hc]
            split at h
            · rename_i hc
              rw [if_pos hc]
              exact voiceMarker_then h
            · cases h

theorem scanLisp_then {b : List Char} {before before' : Lexer} {c : Char} {l l' : Lexer} {t : Tok} (h : scanLisp before c l = .ok (t, l')) :
    scanLisp before' c (l.then b) = .ok (t, l'.then b) := by
  unfold scanLisp at h ⊢
  split at h
  · rename_i hc; rw [if_pos hc]; cases h; rfl
  · rename_i hc
    rw [if_neg hc]
    split at h
    · rename_i hc; rw [if_pos hc]; exact string_then h
    · rename_i hc
      rw [if_neg hc]
      split at h
      · rename_i hc
        rw [if_pos hc, number_then]
        cases h
        rfl
      · rename_i hc
        rw [if_neg hc]
        split at h
        · rename_i hc
          rw [if_pos hc, symbol_then]
          cases h
          rfl
        · cases h

theorem scanPlain_then {b : List Char} {before before' : Lexer} {c : Char} {l l' : Lexer} {t : Tok} (ho : ¬ (c = 'o' ∧ l.rest = [])) (h : scanPlain before c l = .ok (t, l')) :
    scanPlain before' c (l.then b) = .ok (t, l'.then b) := by
  unfold scanPlain at h ⊢
  cases hp : punctuation c with
  | some u => rw [hp] at h; cases h; rfl
  | none =>
    rw [hp] at h
    simp only at h ⊢
    split at h
    · rename_i hc; rw [if_pos hc]
      exact repetitions_then _ _ _ (by simp only [Lexer.then, List.length_append]; omega) h
    · rename_i hc
      rw [if_neg hc]
      split at h
      · rename_i hc; rw [if_pos hc]; exact repeat_then h
      · rename_i hc
        rw [if_neg hc]
        split at h
        · rename_i hc; rw [if_pos hc]; exact alias_then h
        · rename_i hc
          rw [if_neg hc]
          split at h
          · rename_i hc; rw [if_pos hc]; exact prefixed_then h
          · rename_i hc
            rw [if_neg hc]
            split at h
            · rename_i hc; rw [if_pos hc]; exact prefixed_then h
            · rename_i hc
              rw [if_neg hc]
              split at h
              · rename_i hc; rw [if_pos hc]; exact noteLength_then h
              · rename_i hc
                rw [if_neg hc]
                split at h
                · rename_i hc; rw [if_pos hc]; exact scanLetter_then ho h
                · cases h

/-- One lexeme stays the same when another line follows, apart from a bare `o` at the end. -/
theorem scanToken_then {b : List Char} {level level' : Int} {before l : Lexer} {t : Option Tok} {c : Char} {cs : List Char} (hc : before.rest = c :: cs)
    (ho : ¬ (c = 'o' ∧ cs = [] ∧ level ≤ 0)) (h : scanToken level before = .ok (t, l, level')) : scanToken level (before.then b) = .ok (t, l.then b, level') := by
  have hp : before.peek = c := by simp only [Lexer.peek, hc]
  have ha : before.advance.rest = cs := by simp only [Lexer.advance, hc]
  unfold scanToken at h ⊢
  simp only at h ⊢
  rw [peek_then hc, advance_then hc]
  rw [hp] at h ⊢
  split at h
  · rename_i hc; rw [if_pos hc]; cases h; rfl
  · rename_i hc
    rw [if_neg hc]
    split at h
    · rename_i hc
      rw [if_pos hc]
      have : skipComment (before.advance.then b) = (skipComment before.advance).then b := consumeWhile_then (by decide) b _
      rw [this]
      cases h
      rfl
    · rename_i hc
      rw [if_neg hc]
      split at h
      · rename_i hc; rw [if_pos hc]; cases h; rfl
      · rename_i hc
        rw [if_neg hc]
        split at h
        · rename_i hc; rw [if_pos hc]; cases h; rfl
        · rename_i hc
          rw [if_neg hc]
          split at h
          · cases h
          · rename_i u m hx
            cases h
            have : (if level > 0 then scanLisp (before.then b) c (before.advance.then b) else scanPlain (before.then b) c (before.advance.then b)) = .ok (u, l.then b) := by
              split at hx
              · rename_i hl; rw [if_pos hl]; exact scanLisp_then hx
              · rename_i hl; rw [if_neg hl]; exact scanPlain_then (fun e => ho ⟨e.1, ha ▸ e.2, by omega⟩) hx
            rw [this]

end Syn
end Alda
