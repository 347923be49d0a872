import Verif.Spec.Scan
import Verif.Lemmas.Text
/-!
Lemmas about the scanner.
-/
namespace Alda
namespace Syn
open Spec

/-! ### Positions -/

theorem position_after (a : List Char) (c : Char) : (position a).after c = position (a ++ [c]) := by
  unfold Pos.after position lineAfter columnAfter
  by_cases h : c = '\n'
  · subst h; simp
  · simp [h, List.count_append]

theorem position_through (a b : List Char) : (position a).through b = position (a ++ b) := by
  induction b generalizing a with
  | nil => simp [Pos.through]
  | cons c b ih =>
    have := ih (a ++ [c])
    simp only [Pos.through, List.foldl_cons, position_after] at this ⊢
    rw [this]; simp

theorem Pos.through_append (p : Pos) (a b : List Char) : p.through (a ++ b) = (p.through a).through b := by
  simp [Pos.through]

/-! ### Reading -/

/-- The scanner has read on: what it read joined the text and left the rest, and the position moved past it. -/
def Reads (l l' : Lexer) : Prop :=
  ∃ xs, l'.text = l.text ++ xs ∧ l.rest = xs ++ l'.rest ∧ l'.pos = l.pos.through xs

theorem Reads.refl (l : Lexer) : Reads l l := ⟨[], by simp, by simp, by simp [Pos.through]⟩

theorem Reads.trans {a b c : Lexer} (h1 : Reads a b) (h2 : Reads b c) : Reads a c := by
  obtain ⟨xs, t1, r1, p1⟩ := h1
  obtain ⟨ys, t2, r2, p2⟩ := h2
  exact ⟨xs ++ ys, by rw [t2, t1, List.append_assoc], by rw [r1, r2, List.append_assoc],
    by rw [p2, p1, Pos.through_append]⟩

theorem Reads.advance (l : Lexer) : Reads l l.advance := by
  unfold Lexer.advance
  split
  · exact Reads.refl l
  · rename_i c cs h
    exact ⟨[c], rfl, by simpa using h, by simp [Pos.through]⟩

theorem Reads.consumeWhile (p : Char → Bool) (l : Lexer) : Reads l (l.consumeWhile p) :=
  ⟨l.rest.takeWhile p, rfl, by simp [Lexer.consumeWhile], rfl⟩

theorem Reads.consumeFraction (l : Lexer) : Reads l l.consumeFraction := by
  unfold Lexer.consumeFraction
  split
  · exact (Reads.advance l).trans (Reads.consumeWhile _ _)
  · exact Reads.refl l

theorem Reads.match? {c : Char} {l l' : Lexer} (h : l.match? c = some l') : Reads l l' := by
  unfold Lexer.match? at h
  split at h
  · cases h
  · split at h
    · injection h with h; subst h; exact Reads.advance l
    · cases h

/-- The error is reported at a place that the scanner, reading on, came to. -/
def Fails (l : Lexer) (e : SynErr) : Prop := ∃ l' msg, Reads l l' ∧ e = .at l'.pos msg

theorem Fails.after {a b : Lexer} {e : SynErr} (h : Reads a b) (f : Fails b e) : Fails a e := by
  obtain ⟨l', m, r, rfl⟩ := f
  exact ⟨l', m, h.trans r, rfl⟩

/-- What the readers of lexemes guarantee, when only `c` has been read so far. -/
def Sound (c : Char) (l : Lexer) : Lexed → Prop
  | .ok (t, l') => Reads l l' ∧ (l.text = [c] → Denotes t l'.text)
  | .error e => Fails l e

/-! ### Characters -/

theorem isLetter_iff (c : Char) : isLetter c = true ↔ c ∈ letters := by
  constructor
  · intro h
    simp only [isLetter, Bool.and_eq_true, Bool.or_eq_true, decide_eq_true_eq, Char.le_def,
      UInt32.le_iff_toNat_le] at h
    have key : ∀ n, n < 26 → Char.ofNat (97 + n) ∈ letters ∧ Char.ofNat (65 + n) ∈ letters := by decide +kernel
    rcases h with ⟨h1, h2⟩ | ⟨h1, h2⟩
    · have h1 : (97 : Nat) ≤ c.toNat := h1
      have h2 : c.toNat ≤ 122 := h2
      have e : c = Char.ofNat (97 + (c.toNat - 97)) := by
        have h3 : 97 + (c.toNat - 97) = c.toNat := by omega
        rw [h3, Char.ofNat_toNat]
      rw [e]; exact (key _ (by omega)).1
    · have h1 : (65 : Nat) ≤ c.toNat := h1
      have h2 : c.toNat ≤ 90 := h2
      have e : c = Char.ofNat (65 + (c.toNat - 65)) := by
        have h3 : 65 + (c.toNat - 65) = c.toNat := by omega
        rw [h3, Char.ofNat_toNat]
      rw [e]; exact (key _ (by omega)).2
  · have h : ∀ c ∈ letters, isLetter c = true := by decide +kernel
    exact h c

theorem isNoteLetter_iff (c : Char) : isNoteLetter c = true ↔ c ∈ ['a', 'b', 'c', 'd', 'e', 'f', 'g'] := by
  constructor
  · intro h
    simp only [isNoteLetter, Bool.and_eq_true, decide_eq_true_eq, Char.le_def, UInt32.le_iff_toNat_le] at h
    have key : ∀ n, n < 7 → Char.ofNat (97 + n) ∈ ['a', 'b', 'c', 'd', 'e', 'f', 'g'] := by decide +kernel
    have h1 : (97 : Nat) ≤ c.toNat := h.1
    have h2 : c.toNat ≤ 103 := h.2
    have e : c = Char.ofNat (97 + (c.toNat - 97)) := by
      have h3 : 97 + (c.toNat - 97) = c.toNat := by omega
      rw [h3, Char.ofNat_toNat]
    rw [e]; exact key _ (by omega)
  · have h : ∀ c ∈ ['a', 'b', 'c', 'd', 'e', 'f', 'g'], isNoteLetter c = true := by decide +kernel
    exact h c

theorem isValidNameChar_iff (c : Char) : isValidNameChar c = true ↔ NameChar c := by
  have e : "_-+'().".toList = ['_', '-', '+', '\'', '(', ')', '.'] := by decide +kernel
  unfold isValidNameChar NameChar
  rw [e, Bool.or_eq_true, Bool.or_eq_true, isLetter_iff, isDigit_iff, List.contains_iff_mem, or_assoc]

theorem isValidSymbolChar_iff (c : Char) : isValidSymbolChar c = true ↔ c ∉ " \t\r\n()[]{}\"".toList := by
  have e : " \t\r\n()[]{}\"".toList = [' ', '\t', '\r', '\n', '(', ')', '[', ']', '{', '}', '"'] := by decide +kernel
  unfold isValidSymbolChar
  rw [e, decide_eq_true_eq, List.contains_iff_mem]

theorem mem_takeWhile {p : Char → Bool} {cs : List Char} {c : Char} (h : c ∈ cs.takeWhile p) : p c = true := by
  induction cs with
  | nil => simp at h
  | cons d cs ih =>
    rw [List.takeWhile_cons] at h
    split at h
    · rcases List.mem_cons.1 h with rfl | h
      · assumption
      · exact ih h
    · simp at h

theorem takeWhile_digits (cs : List Char) : AllDigits (cs.takeWhile isDigit) :=
  fun _ h => (isDigit_iff _).1 (mem_takeWhile h)

theorem takeWhile_names (cs : List Char) : ∀ c ∈ cs.takeWhile isValidNameChar, NameChar c :=
  fun _ h => (isValidNameChar_iff _).1 (mem_takeWhile h)

/-- What stops a reader is not a character it reads. -/
theorem dropWhile_head {p : Char → Bool} {cs ds : List Char} {d : Char} (h : cs.dropWhile p = d :: ds) : p d = false := by
  induction cs with
  | nil => simp at h
  | cons c cs ih =>
    rw [List.dropWhile_cons] at h
    split at h
    · exact ih h
    · injection h with h1 h2; subst h1
      rename_i hn; simpa using hn

theorem peek_eq {l : Lexer} {c : Char} (hc : c ≠ '\x00') (h : l.peek = c) : ∃ cs, l.rest = c :: cs := by
  unfold Lexer.peek at h
  split at h
  · exact absurd h.symm hc
  · rename_i d ds hr; exact ⟨ds, by rw [hr, h]⟩

theorem peekNext_eq {l : Lexer} {c : Char} (hc : c ≠ '\x00') (h : l.peekNext = c) : ∃ b cs, l.rest = b :: c :: cs := by
  unfold Lexer.peekNext at h
  split at h
  · rename_i b d ds hr; exact ⟨b, ds, by rw [hr, h]⟩
  · exact absurd h.symm hc

theorem digit_ne_nul {c : Char} (h : isDigit c = true) : c ≠ '\x00' := by
  rintro rfl; exact absurd h (by decide)

theorem peek_digit {l : Lexer} (h : isDigit l.peek = true) : ∃ c cs, l.rest = c :: cs ∧ isDigit c = true := by
  obtain ⟨cs, hc⟩ := peek_eq (digit_ne_nul h) rfl
  exact ⟨_, cs, hc, h⟩

theorem takeWhile_ne_nil {p : Char → Bool} {c : Char} {cs l : List Char} (h : l = c :: cs) (hp : p c = true) :
    l.takeWhile p ≠ [] := by
  subst h; simp [hp]

/-! ### Numbers -/

theorem parseInt32_eq {ds : List Char} (h : AllDigits ds) : parseInt32 ds = clamp (decimal ds) := by
  unfold parseInt32 clamp
  rw [digitsVal_eq ds h]
  split <;> omega

theorem digits_ne_minus {c : Char} (h : c ∈ digits) : c ≠ '-' := by
  rintro rfl; exact absurd h (by decide)

theorem takeWhile_append_stop {w r : List Char} (hw : AllDigits w) (hr : ∀ c cs, r = c :: cs → isDigit c = false) :
    (w ++ r).takeWhile isDigit = w ∧ (w ++ r).dropWhile isDigit = r := by
  induction w with
  | nil =>
    cases r with
    | nil => simp
    | cons c cs => simp [hr c cs rfl]
  | cons d w ih =>
    have := ih (fun x hx => hw x (List.mem_cons_of_mem _ hx))
    have hd : isDigit d = true := (isDigit_iff d).2 (hw d (List.mem_cons_self ..))
    simp [hd, this]

/-- The value of an unsigned decimal. -/
theorem unsigned_eq {w f : List Char} (hw : AllDigits w) (hf : AllDigits f) :
    decimalVal ((w ++ '.' :: f).takeWhile isDigit) (((w ++ '.' :: f).dropWhile isDigit).drop 1) = decimalValue w f := by
  obtain ⟨h1, h2⟩ := takeWhile_append_stop (w := w) (r := '.' :: f) hw (by rintro c cs ⟨⟩; decide)
  rw [h1, h2]
  simp only [List.drop_succ_cons, List.drop_zero, decimalVal, decimalValue, digitsVal_eq w hw, digitsVal_eq f hf]

theorem unsigned_whole {w : List Char} (hw : AllDigits w) :
    decimalVal (w.takeWhile isDigit) ((w.dropWhile isDigit).drop 1) = decimalValue w [] := by
  obtain ⟨h1, h2⟩ := takeWhile_append_stop (w := w) (r := []) hw (by rintro c cs ⟨⟩)
  rw [List.append_nil] at h1 h2
  rw [h1, h2]
  simp only [decimalVal, decimalValue, digitsVal_eq w hw, List.drop_nil]; rfl

theorem parseFloat_eq {w f : List Char} (h0 : w ≠ []) (hw : AllDigits w) (hf : AllDigits f) :
    parseFloat (w ++ '.' :: f) = decimalValue w f := by
  cases w with
  | nil => exact absurd rfl h0
  | cons d w =>
    have hd : d ≠ '-' := digits_ne_minus (hw d (List.mem_cons_self ..))
    unfold parseFloat
    split
    · rename_i h; injection h with h; exact absurd h hd
    · exact unsigned_eq hw hf

theorem parseFloat_whole {w : List Char} (h0 : w ≠ []) (hw : AllDigits w) : parseFloat w = decimalValue w [] := by
  cases w with
  | nil => exact absurd rfl h0
  | cons d w =>
    have hd : d ≠ '-' := digits_ne_minus (hw d (List.mem_cons_self ..))
    unfold parseFloat
    split
    · rename_i h; injection h with h; exact absurd h hd
    · exact unsigned_whole hw

theorem decimalValue_nil (w : List Char) : decimalValue w [] = (decimal w : Rat) := by
  simp only [decimalValue, decimal]
  grind

/-- Reading digits and an optional fraction: what has been read afterwards. -/
theorem fraction_text (l : Lexer) : ∃ w f, AllDigits w ∧ AllDigits f ∧
    ((f = [] ∧ l.consumeDigits.consumeFraction.text = l.text ++ w) ∨
     (f ≠ [] ∧ l.consumeDigits.consumeFraction.text = l.text ++ w ++ '.' :: f)) := by
  unfold Lexer.consumeFraction
  split
  · rename_i h
    obtain ⟨h1, h2⟩ := h
    obtain ⟨cs, hcs⟩ := peek_eq (by decide) h1
    obtain ⟨b, ds, hb⟩ := peekNext_eq (digit_ne_nul h2) rfl
    refine ⟨l.rest.takeWhile isDigit, cs.takeWhile isDigit, takeWhile_digits _, takeWhile_digits _, .inr ⟨?_, ?_⟩⟩
    · rw [hcs] at hb; injection hb with hb1 hb2
      exact takeWhile_ne_nil hb2 h2
    · have : l.consumeDigits.advance = ⟨l.consumeDigits.text ++ ['.'], cs, l.consumeDigits.pos.after '.'⟩ := by
        unfold Lexer.advance; rw [hcs]
      rw [this]
      simp [Lexer.consumeDigits, Lexer.consumeWhile]
  · exact ⟨l.rest.takeWhile isDigit, [], takeWhile_digits _, by simp [AllDigits], .inl ⟨rfl, rfl⟩⟩

theorem all_cons {c : Char} {w : List Char} (hc : c ∈ digits) (hw : AllDigits w) : AllDigits (c :: w) := by
  intro d hd
  rcases List.mem_cons.1 hd with rfl | hd
  · exact hc
  · exact hw d hd

/-- After a first digit: the number is written as in the grammar, with its value. -/
theorem number_text {c : Char} (hc : c ∈ digits) {l : Lexer} (hl : l.text = [c]) (k : Nat) :
    NoteLengthText (l.consumeDigits.consumeFraction.text ++ List.replicate k '.')
      (parseFloat l.consumeDigits.consumeFraction.text) k := by
  obtain ⟨w, f, hw, hf, ⟨hf0, ht⟩ | ⟨hf0, ht⟩⟩ := fraction_text l
  · have ht : l.consumeDigits.consumeFraction.text = c :: w := by rw [ht, hl]; rfl
    rw [ht, parseFloat_whole (by simp) (all_cons hc hw), decimalValue_nil]
    exact .whole _ _ (by simp) (all_cons hc hw)
  · have ht : l.consumeDigits.consumeFraction.text = c :: w ++ '.' :: f := by rw [ht, hl]; rfl
    rw [ht, parseFloat_eq (by simp) (all_cons hc hw) hf]
    exact .decimal _ _ _ (by simp) (all_cons hc hw) hf0 hf

/-! ### The readers -/

theorem advance_eq {l : Lexer} {c : Char} {cs : List Char} (h : l.rest = c :: cs) :
    l.advance = ⟨l.text ++ [c], cs, l.pos.after c⟩ := by
  unfold Lexer.advance; rw [h]

theorem not_eof {l : Lexer} (h : ¬ l.reachedEOF = true) : ∃ c cs, l.rest = c :: cs := by
  unfold Lexer.reachedEOF at h
  cases hr : l.rest with
  | nil => rw [hr] at h; exact absurd rfl h
  | cons c cs => exact ⟨c, cs, rfl⟩

theorem toList_ofList (cs : List Char) : (String.ofList cs).toList = cs := by simp

theorem parseString_sound (l : Lexer) : Sound '"' l (parseString l) := by
  unfold parseString
  have hr := Reads.consumeWhile (· ≠ '"') l
  by_cases h : (l.consumeWhile (· ≠ '"')).reachedEOF = true
  · simp only [h, ↓reduceIte]
    exact ⟨_, _, hr, rfl⟩
  · simp only [h]
    obtain ⟨c, cs, hc⟩ := not_eof h
    have hcq : c = '"' := by simpa using dropWhile_head (cs := l.rest) (p := (· ≠ '"')) hc
    subst hcq
    refine ⟨hr.trans (Reads.advance _), fun ht => ?_⟩
    rw [advance_eq hc]
    have e : (l.consumeWhile (· ≠ '"')).text = '"' :: l.rest.takeWhile (· ≠ '"') := by
      simp only [Lexer.consumeWhile, ht]; rfl
    have := Denotes.string (String.ofList (l.rest.takeWhile (· ≠ '"'))) (by
      rw [toList_ofList]
      intro hm; exact absurd (mem_takeWhile hm) (by simp))
    rw [toList_ofList] at this
    simp only [e, List.drop_succ_cons, List.drop_zero]
    simpa using this

theorem parseAlias_sound (l : Lexer) : Sound '"' l (parseAlias l) := by
  unfold parseAlias
  have hr := Reads.consumeWhile isValidNameChar l
  by_cases h : (l.consumeWhile isValidNameChar).reachedEOF = true
  · simp only [h, ↓reduceIte]
    exact ⟨_, _, hr, rfl⟩
  · simp only [h]
    obtain ⟨c, cs, hc⟩ := not_eof h
    have hcq : isValidNameChar c = false := dropWhile_head (cs := l.rest) hc
    refine ⟨hr.trans (Reads.advance _), fun ht => ?_⟩
    rw [advance_eq hc]
    have e : (l.consumeWhile isValidNameChar).text = '"' :: l.rest.takeWhile isValidNameChar := by
      simp only [Lexer.consumeWhile, ht]; rfl
    have := Denotes.alias (String.ofList (l.rest.takeWhile isValidNameChar)) c (by
      rw [toList_ofList]; exact takeWhile_names _) (by
      intro hn; rw [(isValidNameChar_iff c).2 hn] at hcq; cases hcq)
    rw [toList_ofList] at this
    simp only [e, List.drop_succ_cons, List.drop_zero]
    simpa using this

theorem parsePrefixedName_sound (c : Char) (mk : String → Tok) (l : Lexer)
    (hd : ∀ name : String, name ≠ "" → (∀ c ∈ name.toList, NameChar c) → Denotes (mk name) (c :: name.toList)) :
    Sound c l (parsePrefixedName mk l) := by
  unfold parsePrefixedName
  by_cases h : isValidNameChar l.peek = true
  · simp only [h, not_true_eq_false, ↓reduceIte]
    refine ⟨Reads.consumeWhile _ l, fun ht => ?_⟩
    have e : (l.consumeWhile isValidNameChar).text = c :: l.rest.takeWhile isValidNameChar := by
      simp only [Lexer.consumeWhile, ht]; rfl
    obtain ⟨cs, hcs⟩ := peek_eq (l := l) (c := l.peek) (by
      intro h0; rw [h0] at h; exact absurd h (by decide)) rfl
    have hne := takeWhile_ne_nil hcs h
    have := hd (String.ofList (l.rest.takeWhile isValidNameChar)) (by
      intro h0
      have := congrArg String.toList h0
      rw [toList_ofList] at this
      exact hne this) (by
      rw [toList_ofList]; exact takeWhile_names _)
    rw [toList_ofList] at this
    simp only [e, List.drop_succ_cons, List.drop_zero]
    exact this
  · simp only [h]
    exact ⟨l, _, Reads.refl l, rfl⟩

theorem parseName_sound (c : Char) (hc : isLetter c = true) (l : Lexer) (hn : isLetter l.peek = true) :
    Sound c l (parseName l) := by
  refine ⟨Reads.consumeWhile _ l, fun ht => ?_⟩
  obtain ⟨cs, hcs⟩ := peek_eq (l := l) (c := l.peek) (by
    intro h0; rw [h0] at hn; exact absurd hn (by decide)) rfl
  have hv : isValidNameChar l.peek = true := by unfold isValidNameChar; rw [hn]; simp
  have e : (l.consumeWhile isValidNameChar).text = c :: l.peek :: cs.takeWhile isValidNameChar := by
    simp only [Lexer.consumeWhile, ht]
    generalize l.peek = n at hcs hv
    rw [hcs]; simp [hv]
  rw [e]
  exact .name _ _ _ ((isLetter_iff _).1 hc) ((isLetter_iff _).1 hn) (takeWhile_names _)

theorem parseSymbol_sound (c : Char) (h1 : c ∉ "'-#".toList) (h2 : c ∉ digits) (h3 : isValidSymbolChar c = true)
    (l : Lexer) : Sound c l (parseSymbol l) := by
  refine ⟨Reads.consumeWhile _ l, fun ht => ?_⟩
  have e : (l.consumeWhile isValidSymbolChar).text = c :: l.rest.takeWhile isValidSymbolChar := by
    simp only [Lexer.consumeWhile, ht]; rfl
  rw [e]
  refine .symbol _ _ h1 h2 ?_
  intro d hd
  rcases List.mem_cons.1 hd with rfl | hd
  · exact (isValidSymbolChar_iff _).1 h3
  · exact (isValidSymbolChar_iff _).1 (mem_takeWhile hd)

theorem parseNumber_sound (c : Char) (hc : c ∈ digits) (l : Lexer) : Sound c l (parseNumber l) := by
  refine ⟨(Reads.consumeWhile isDigit l).trans (Reads.consumeFraction _), fun ht => ?_⟩
  have := number_text hc ht 0
  rw [List.replicate_zero, List.append_nil] at this
  exact .number _ _ this

theorem parseNumber_minus (l : Lexer) : Sound '-' l (parseNumber l) := by
  refine ⟨(Reads.consumeWhile isDigit l).trans (Reads.consumeFraction _), fun ht => ?_⟩
  obtain ⟨w, f, hw, hf, ⟨hf0, h⟩ | ⟨hf0, h⟩⟩ := fraction_text l
  · have h : l.consumeDigits.consumeFraction.text = '-' :: w := by rw [h, ht]; rfl
    rw [h]
    have : parseFloat ('-' :: w) = - decimalValue w [] := by
      simp only [parseFloat, unsigned_whole hw]
    rw [this]
    exact .minus _ hw
  · have h : l.consumeDigits.consumeFraction.text = '-' :: (w ++ '.' :: f) := by rw [h, ht]; rfl
    rw [h]
    have : parseFloat ('-' :: (w ++ '.' :: f)) = - decimalValue w f := by
      simp only [parseFloat, unsigned_eq hw hf]
    rw [this]
    exact .minusFraction _ _ hw hf0 hf

theorem takeWhile_dots (cs : List Char) :
    cs.takeWhile (· = '.') = List.replicate (cs.takeWhile (· = '.')).length '.' := by
  rw [List.eq_replicate_iff]
  exact ⟨rfl, fun b hb => by simpa using mem_takeWhile hb⟩

theorem takeWhile_spaces (cs : List Char) :
    cs.takeWhile (· = ' ') = List.replicate (cs.takeWhile (· = ' ')).length ' ' := by
  rw [List.eq_replicate_iff]
  exact ⟨rfl, fun b hb => by simpa using mem_takeWhile hb⟩

theorem parseNoteLength_sound (c : Char) (hc : c ∈ digits) (l : Lexer) : Sound c l (parseNoteLength l) := by
  have hr : Reads l l.consumeDigits.consumeFraction :=
    (Reads.consumeWhile isDigit l).trans (Reads.consumeFraction _)
  unfold parseNoteLength
  by_cases h1 : l.consumeDigits.consumeFraction.peek = 's' ∧
      (terminatesNoteLength l.consumeDigits.consumeFraction.peekNext ∨ l.consumeDigits.consumeFraction.eofIsNext)
  · simp only [if_pos h1]
    refine ⟨hr.trans (Reads.advance _), fun ht => ?_⟩
    obtain ⟨cs, hcs⟩ := peek_eq (by decide) h1.1
    have := number_text hc ht 0
    rw [List.replicate_zero, List.append_nil] at this
    rw [advance_eq hcs]
    exact .noteLengthSeconds _ _ this
  · simp only [if_neg h1]
    by_cases h2 : l.consumeDigits.consumeFraction.peek = 'm' ∧ l.consumeDigits.consumeFraction.peekNext = 's'
    · simp only [if_pos h2]
      refine ⟨hr.trans ((Reads.advance _).trans (Reads.advance _)), fun ht => ?_⟩
      obtain ⟨cs, hcs⟩ := peek_eq (by decide) h2.1
      obtain ⟨b, ds, hb⟩ := peekNext_eq (by decide) h2.2
      rw [hcs] at hb; injection hb with hb1 hb2
      have := number_text hc ht 0
      rw [List.replicate_zero, List.append_nil] at this
      rw [advance_eq hcs, advance_eq (l := ⟨_, cs, _⟩) hb2, List.append_assoc]
      exact .noteLengthMs _ _ this
    · simp only [if_neg h2]
      refine ⟨hr.trans (Reads.consumeWhile _ _), fun ht => ?_⟩
      simp only [Lexer.consumeWhile]
      have := number_text hc ht
        (l.consumeDigits.consumeFraction.rest.takeWhile (fun x => decide (x = '.'))).length
      rw [← takeWhile_dots] at this
      refine .noteLength _ _ _ _ this ?_ ?_
      · intro hk
        unfold wrap32
        omega
      · unfold wrap32
        omega

theorem contains_iff (c : Char) (cs : List Char) : cs.contains c = true ↔ c ∈ cs := List.contains_iff_mem

theorem consumeDigits_text (l : Lexer) : l.consumeDigits.text = l.text ++ l.rest.takeWhile isDigit := rfl

theorem parseRepeat_sound (l : Lexer) : Sound '*' l (parseRepeat l) := by
  unfold parseRepeat
  have hr := Reads.consumeWhile (· = ' ') l
  by_cases h : isDigit (l.consumeWhile (· = ' ')).peek = true
  · simp only [h, not_true_eq_false, ↓reduceIte]
    have hr2 := hr.trans (Reads.consumeWhile isDigit _)
    split
    · exact ⟨_, _, hr2, rfl⟩
    · refine ⟨hr2, fun ht => ?_⟩
      obtain ⟨c, cs, hcs, hc⟩ := peek_digit h
      rw [parseInt32_eq (takeWhile_digits _)]
      have := Denotes.repeat (l.rest.takeWhile (· = ' ')).length
        ((l.consumeWhile (· = ' ')).rest.takeWhile isDigit) (takeWhile_ne_nil hcs hc) (takeWhile_digits _)
      rw [← takeWhile_spaces] at this
      rw [consumeDigits_text]
      have e : (l.consumeWhile (· = ' ')).text = '*' :: l.rest.takeWhile (· = ' ') := by
        simp only [Lexer.consumeWhile, ht]; rfl
      rw [e]
      exact this
  · simp only [h]
    exact ⟨_, _, hr, rfl⟩

theorem parseOctaveSet_sound (l : Lexer) : Sound 'o' l (parseOctaveSet l) := by
  unfold parseOctaveSet
  have hr := Reads.consumeWhile isDigit l
  dsimp only
  split
  · exact ⟨_, _, hr, rfl⟩
  · refine ⟨hr, fun ht => ?_⟩
    have e : l.consumeDigits.text = 'o' :: l.rest.takeWhile isDigit := by rw [consumeDigits_text, ht]; rfl
    rw [e]
    simp only [List.drop_succ_cons, List.drop_zero, parseInt32_eq (takeWhile_digits _)]
    exact .octaveSet _ (takeWhile_digits _)

theorem parseVoiceMarker_sound (l : Lexer) (hd : isDigit l.peek = true) : Sound 'V' l (parseVoiceMarker l) := by
  unfold parseVoiceMarker
  have hr := Reads.consumeWhile isDigit l
  dsimp only
  split
  · exact ⟨_, _, hr, rfl⟩
  · rename_i h
    refine ⟨hr.trans (Reads.advance _), fun ht => ?_⟩
    obtain ⟨cs, hcs⟩ := peek_eq (l := l.consumeDigits) (c := ':') (by decide) (by simpa using h)
    obtain ⟨d, ds, hds, hd'⟩ := peek_digit hd
    have e : l.consumeDigits.text = 'V' :: l.rest.takeWhile isDigit := by rw [consumeDigits_text, ht]; rfl
    rw [advance_eq hcs, e]
    simp only [List.drop_succ_cons, List.drop_zero, parseInt32_eq (takeWhile_digits _)]
    exact .voiceMarker _ (takeWhile_ne_nil hds hd') (takeWhile_digits _)

theorem match?_some {c : Char} {l l' : Lexer} (h : l.match? c = some l') :
    ∃ cs, l.rest = c :: cs ∧ l' = ⟨l.text ++ [c], cs, l.pos.after c⟩ := by
  unfold Lexer.match? at h
  split at h
  · cases h
  · rename_i d ds hr
    split at h
    · rename_i hd; subst hd
      injection h with h
      exact ⟨ds, hr, by rw [← h, advance_eq hr]⟩
    · cases h

/-- The ranges read before, and how the text so far ends. -/
def SoFar (text : List Char) (ranges : List (Int × Int)) : Prop :=
  (text = ['\''] ∧ ranges = []) ∨ ∃ cs, text = '\'' :: (cs ++ [',']) ∧ RangesText cs ranges

theorem _root_.Alda.Spec.RangesText.snoc {cs ds : List Char} {rs : List (Int × Int)} {r : Int × Int} (h : RangesText cs rs)
    (hr : RangeText ds r) : RangesText (cs ++ ',' :: ds) (rs ++ [r]) := by
  induction h with
  | last cs r' h' => exact .cons _ _ _ _ h' (.last _ _ hr)
  | cons cs r' more rs' h' _ ih =>
    have := RangesText.cons _ _ _ _ h' ih
    simpa using this

theorem SoFar.snoc {text ds : List Char} {rs : List (Int × Int)} {r : Int × Int} (h : SoFar text rs)
    (hr : RangeText ds r) : ∃ cs, text ++ ds = '\'' :: cs ∧ RangesText cs (rs ++ [r]) := by
  rcases h with ⟨rfl, rfl⟩ | ⟨cs, rfl, h⟩
  · exact ⟨ds, rfl, .last _ _ hr⟩
  · exact ⟨cs ++ ',' :: ds, by simp, h.snoc hr⟩

theorem consumeDigits_shorter {l : Lexer} (h : isDigit l.peek = true) :
    l.consumeDigits.rest.length < l.rest.length ∧ l.rest.takeWhile isDigit ≠ [] := by
  obtain ⟨d, ds, hds, hd⟩ := peek_digit h
  have hne : l.rest.takeWhile isDigit ≠ [] := takeWhile_ne_nil hds hd
  refine ⟨?_, hne⟩
  have := congrArg List.length (List.takeWhile_append_dropWhile (p := isDigit) (l := l.rest))
  rw [List.length_append] at this
  have h0 := List.length_pos_iff.2 hne
  have e : l.consumeDigits.rest = l.rest.dropWhile isDigit := rfl
  rw [e]; omega

theorem parseRepetitions_sound (fuel : Nat) (ranges : List (Int × Int)) (l : Lexer) (hf : l.rest.length < fuel) :
    match parseRepetitions fuel ranges l with
    | .ok (t, l') => Reads l l' ∧ (SoFar l.text ranges → Denotes t l'.text)
    | .error e => Fails l e := by
  induction fuel generalizing ranges l with
  | zero => omega
  | succ fuel ih =>
    unfold parseRepetitions
    by_cases h : isDigit l.peek = true
    · simp only [h, not_true_eq_false, ↓reduceIte]
      have hr := Reads.consumeWhile isDigit l
      obtain ⟨hlen, hne⟩ := consumeDigits_shorter h
      -- what follows a range
      have key : ∀ (l2 : Lexer) (first last : Int) (txt : List Char), Reads l l2 → l2.rest.length < l.rest.length →
          l2.text = l.text ++ txt → RangeText txt (first, last) →
          match (match l2.match? ',' with
            | some l => parseRepetitions fuel (ranges ++ [(first, last)]) l
            | none => .ok (.repetitions (ranges ++ [(first, last)]), l2)
            : Lexed) with
          | .ok (t, l') => Reads l l' ∧ (SoFar l.text ranges → Denotes t l'.text)
          | .error e => Fails l e := by
        intro l2 first last txt h1 h2 h3 h4
        cases hm : l2.match? ',' with
        | none =>
          refine ⟨h1, fun hs => ?_⟩
          obtain ⟨cs, e, hc⟩ := hs.snoc h4
          rw [h3, e]; exact .repetitions _ _ hc
        | some l3 =>
          have h5 := Reads.match? hm
          obtain ⟨cs, e1, e2⟩ := match?_some hm
          have := ih (ranges ++ [(first, last)]) l3 (by
            rw [e1, List.length_cons] at h2
            subst e2; dsimp only; omega)
          dsimp only
          split at this
          · rename_i t l' he
            refine ⟨h1.trans (h5.trans this.1), fun hs => this.2 ?_⟩
            obtain ⟨cs', e, hc⟩ := hs.snoc h4
            refine .inr ⟨cs', ?_, hc⟩
            rw [e2]; dsimp only; rw [h3, e]; rfl
          · rename_i e he
            exact this.after (h1.trans h5)
      cases hm : l.consumeDigits.match? '-' with
      | none =>
        dsimp only
        exact key _ _ _ _ hr hlen (consumeDigits_text l) (by
          rw [parseInt32_eq (takeWhile_digits _)]
          exact .one _ hne (takeWhile_digits _))
      | some l2 =>
        dsimp only
        have hr2 := Reads.match? hm
        obtain ⟨cs, e1, e2⟩ := match?_some hm
        by_cases h2 : isDigit l2.peek = true
        · simp only [h2, not_true_eq_false, ↓reduceIte]
          obtain ⟨hlen2, hne2⟩ := consumeDigits_shorter h2
          refine key _ _ _ (l.rest.takeWhile isDigit ++ '-' :: l2.rest.takeWhile isDigit)
            (hr.trans (hr2.trans (Reads.consumeWhile isDigit _))) ?_ ?_ ?_
          · have : l2.rest.length < l.rest.length := by
              rw [e1, List.length_cons] at hlen
              subst e2; dsimp only; omega
            omega
          · rw [consumeDigits_text]
            have : l2.text = l.consumeDigits.text ++ ['-'] := by rw [e2]
            rw [this, consumeDigits_text]; simp
          · rw [parseInt32_eq (takeWhile_digits _), parseInt32_eq (takeWhile_digits _)]
            exact .two _ _ hne (takeWhile_digits _) hne2 (takeWhile_digits _)
        · simp only [h2]
          exact ⟨_, _, hr.trans hr2, rfl⟩
    · simp only [h]
      exact ⟨l, _, Reads.refl l, rfl⟩

theorem scanLetter_sound (c : Char) (hc : isLetter c = true) (l : Lexer) : Sound c l (scanLetter c l) := by
  unfold scanLetter
  dsimp only
  split
  · exact parseName_sound c hc l (by assumption)
  split
  · rename_i h
    refine ⟨Reads.refl l, fun ht => ?_⟩
    rw [ht]; exact .noteLetter c ((isNoteLetter_iff c).1 h.1)
  split
  · rename_i h
    refine ⟨Reads.refl l, fun ht => ?_⟩
    rw [ht, h.1]; exact .restLetter
  split
  · rename_i h; rw [h.1]; exact parseOctaveSet_sound l
  split
  · rename_i h; rw [h.1]; exact parseVoiceMarker_sound l h.2
  · exact ⟨l, _, Reads.refl l, rfl⟩

theorem punctuation_denotes {c : Char} {t : Tok} (h : punctuation c = some t) : Denotes t [c] := by
  unfold punctuation at h
  split at h <;> first | (injection h with h; subst h; constructor) | cases h

/-- What the readers guarantee, as seen from before `c` was read. -/
def SoundFrom (before : Lexer) : Lexed → Prop
  | .ok (t, l') => Reads before.advance l' ∧ Denotes t l'.text
  | .error e => Fails before e

theorem Sound.from {before : Lexer} {c : Char} (ht : before.advance.text = [c]) {r : Lexed}
    (h : Sound c before.advance r) : SoundFrom before r := by
  cases r with
  | error e => exact Fails.after (Reads.advance _) h
  | ok p => exact ⟨h.1, h.2 ht⟩

theorem scanLisp_sound (before : Lexer) (c : Char) (ht : before.advance.text = [c]) (hh : c ≠ '#') :
    SoundFrom before (scanLisp before c before.advance) := by
  unfold scanLisp
  split
  · rename_i h; subst h
    exact ⟨Reads.refl _, by rw [ht]; exact .singleQuote⟩
  split
  · rename_i h; subst h
    exact (parseString_sound _).from ht
  split
  · rename_i h
    rcases h with h | h
    · subst h; exact (parseNumber_minus _).from ht
    · exact (parseNumber_sound c ((isDigit_iff c).1 h) _).from ht
  split
  · rename_i h1 h2 h3 h4
    refine (parseSymbol_sound c ?_ ?_ h4 _).from ht
    · have : "'-#".toList = ['\'', '-', '#'] := by decide +kernel
      rw [this]; simp only [List.mem_cons, List.not_mem_nil, or_false]
      rintro (rfl | rfl | rfl)
      · exact h1 rfl
      · exact h3 (.inl rfl)
      · exact hh rfl
    · intro hd; exact h3 (.inr ((isDigit_iff c).2 hd))
  · exact ⟨before, _, Reads.refl _, rfl⟩

theorem scanPlain_sound (before : Lexer) (c : Char) (ht : before.advance.text = [c]) :
    SoundFrom before (scanPlain before c before.advance) := by
  unfold scanPlain
  split
  · rename_i t h
    exact ⟨Reads.refl _, by rw [ht]; exact punctuation_denotes h⟩
  split
  · rename_i h; subst h
    have := parseRepetitions_sound (before.advance.rest.length + 1) [] before.advance (by omega)
    split at this
    · rename_i he; rw [he]; exact ⟨this.1, this.2 (.inl ⟨ht, rfl⟩)⟩
    · rename_i he; rw [he]; exact this.after (Reads.advance _)
  split
  · rename_i h; subst h; exact (parseRepeat_sound _).from ht
  split
  · rename_i h; subst h; exact (parseAlias_sound _).from ht
  split
  · rename_i h; subst h; exact (parsePrefixedName_sound _ _ _ (fun n h1 h2 => .marker n h1 h2)).from ht
  split
  · rename_i h; subst h; exact (parsePrefixedName_sound _ _ _ (fun n h1 h2 => .atMarker n h1 h2)).from ht
  split
  · rename_i h; exact (parseNoteLength_sound c ((isDigit_iff c).1 h) _).from ht
  split
  · rename_i h; exact (scanLetter_sound c h _).from ht
  · exact ⟨before, _, Reads.refl _, rfl⟩

/-- What `scanToken` guarantees when the next character is `c`. -/
def SoundLexeme (before : Lexer) (c : Char) : Except SynErr (Option Tok × Lexer × Int) → Prop
  | .ok (some t, l, _) => Reads before l ∧ l.rest.length < before.rest.length ∧ Denotes t l.text
  | .ok (none, l, _) => Reads before l ∧ l.rest.length < before.rest.length ∧
      (l.text = [c] ∧ c ∈ [' ', '\t', '\r', '\n'] ∨
        ∃ xs, l.text = '#' :: xs ∧ '\n' ∉ xs ∧ l.rest.head?.all (· = '\n'))
  | .error e => Fails before e

/-- What one lexeme is: a token, white space or a comment. -/
theorem scanToken_sound (level : Int) (before : Lexer) (h0 : before.text = []) {c : Char} {cs : List Char}
    (hc : before.rest = c :: cs) :
    SoundLexeme before c (scanToken level before) := by
  have hp : before.peek = c := by unfold Lexer.peek; rw [hc]
  have ha := advance_eq hc
  have ht : before.advance.text = [c] := by rw [ha, h0]; rfl
  have hl : before.advance.rest.length < before.rest.length := by rw [ha, hc]; simp
  have shorter : ∀ l, Reads before.advance l → l.rest.length < before.rest.length := by
    rintro l ⟨xs, _, hr, _⟩
    rw [hr, List.length_append] at hl; omega
  unfold scanToken
  dsimp only
  rw [hp]
  split
  · rename_i h
    refine ⟨Reads.advance _, hl, .inl ⟨ht, ?_⟩⟩
    have := (contains_iff _ _).1 h
    simp only [List.mem_cons, List.not_mem_nil, or_false] at this ⊢
    grind
  split
  · rename_i h
    have hr := Reads.consumeWhile (· ≠ '\n') before.advance
    refine ⟨(Reads.advance _).trans hr, shorter _ hr, .inr ⟨before.advance.rest.takeWhile (· ≠ '\n'), ?_, ?_, ?_⟩⟩
    · unfold skipComment; simp only [Lexer.consumeWhile, ht, h]; rfl
    · intro hm; exact absurd (mem_takeWhile hm) (by simp)
    · have e : (skipComment before.advance).rest = before.advance.rest.dropWhile (· ≠ '\n') := rfl
      rw [e]
      cases hd : before.advance.rest.dropWhile (· ≠ '\n') with
      | nil => rfl
      | cons d ds => simpa using dropWhile_head hd
  split
  · rename_i h
    exact ⟨Reads.advance _, hl, by rw [ht, h]; exact .leftParen⟩
  split
  · rename_i h
    exact ⟨Reads.advance _, hl, by rw [ht, h]; exact .rightParen⟩
  rename_i hh _ _
  have key : ∀ r : Lexed, SoundFrom before r →
    SoundLexeme before c (match r with
      | .error e => .error e
      | .ok (t, l) => .ok (some t, l, level)) := by
    intro r hr
    cases r with
    | error e => exact hr
    | ok p => exact ⟨(Reads.advance _).trans hr.1, shorter _ hr.1, hr.2⟩
  apply key
  split
  · exact scanLisp_sound before c ht hh
  · exact scanPlain_sound before c ht

end Syn
end Alda
