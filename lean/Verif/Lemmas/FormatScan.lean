import Verif.Lemmas.FormatNumbers
/-!
The scanner reads the pieces of text that the formatter writes as the tokens that they stand for.
-/
namespace Alda
namespace Syn
open Spec Tree

/-- Scanning yields these tokens, with any sufficient fuel. -/
def Scans (level : Int) (pos : Pos) (cs : List Char) (ts : List Token) : Prop :=
  ∀ fuel, cs.length ≤ fuel → scanFrom fuel level pos cs = .ok ts

theorem Scans.nil (level : Int) (pos : Pos) : Scans level pos [] [⟨.eof, [], pos⟩] := by
  intro fuel _
  cases fuel <;> rfl

theorem Scans.step {level level' : Int} {pos : Pos} {cs text rest : List Char} {t : Option Tok} {ts : List Token} {pos' : Pos}
    (h : scanToken level ⟨[], cs, pos⟩ = .ok (t, ⟨text, rest, pos'⟩, level')) (hl : rest.length < cs.length)
    (hs : Scans level' pos' rest ts) : Scans level pos cs (match t with | none => ts | some t => ⟨t, text, pos⟩ :: ts) := by
  intro fuel hf
  cases cs with
  | nil => simp at hl
  | cons c cs =>
    cases fuel with
    | zero => simp at hf
    | succ fuel =>
      simp only [scanFrom, h]
      rw [hs fuel (by simp only [List.length_cons] at hf hl; omega)]
      cases t <;> rfl

theorem Scans.blank {level : Int} {pos : Pos} {c : Char} {cs : List Char} {ts : List Token} (hc : isBlank c = true)
    (hs : Scans level (pos.after c) cs ts) : Scans level pos (c :: cs) ts := by
  have h : scanToken level ⟨[], c :: cs, pos⟩ = .ok (none, ⟨[c], cs, pos.after c⟩, level) := by
    simp only [scanToken, Lexer.peek, Lexer.advance, hc, if_true]; rfl
  exact Scans.step h (by simp) hs

/-- What a piece of text is for the tokens, in this order. -/
def kindsOf (ts : List Token) : List Kind := ts.map fun t => (t.tok, t.text)

theorem kindsOf_append (a b : List Token) : kindsOf (a ++ b) = kindsOf a ++ kindsOf b := by simp [kindsOf]

/-- Before this rest of the input, the text is read as these tokens. -/
def Tokenizes (level : Int) (text : List Char) (ks : List Kind) (level' : Int) (rest : List Char) : Prop :=
  ∀ pos ts, Scans level' (pos.through text) rest ts →
    ∃ us, kindsOf us = ks ∧ Scans level pos (text ++ rest) (us ++ ts) ∧ ∀ u ∈ us.head?, u.pos = pos

theorem Tokenizes.append {l l1 l2 : Int} {a b rest : List Char} {ks ks' : List Kind} (h0 : ks ≠ []) (h1 : Tokenizes l a ks l1 (b ++ rest))
    (h2 : Tokenizes l1 b ks' l2 rest) : Tokenizes l (a ++ b) (ks ++ ks') l2 rest := by
  intro pos ts hs
  rw [Pos.through_append] at hs
  obtain ⟨us2, k2, s2, _⟩ := h2 _ ts hs
  obtain ⟨us1, k1, s1, p1⟩ := h1 pos _ s2
  refine ⟨us1 ++ us2, by rw [kindsOf_append, k1, k2], by rw [List.append_assoc, List.append_assoc]; exact s1, ?_⟩
  cases us1 with
  | nil => exact absurd (by rw [← k1]; rfl) h0
  | cons u us1 => exact p1

theorem Tokenizes.blank {l l1 l2 : Int} {a b rest : List Char} {c : Char} {ks ks' : List Kind} (h0 : ks ≠ []) (hc : isBlank c = true)
    (h1 : Tokenizes l a ks l1 (c :: (b ++ rest))) (h2 : Tokenizes l1 b ks' l2 rest) : Tokenizes l (a ++ c :: b) (ks ++ ks') l2 rest := by
  intro pos ts hs
  rw [Pos.through_append] at hs
  obtain ⟨us2, k2, s2, _⟩ := h2 ((pos.through a).after c) ts hs
  obtain ⟨us1, k1, s1, p1⟩ := h1 pos _ (Scans.blank hc s2)
  refine ⟨us1 ++ us2, by rw [kindsOf_append, k1, k2], by rw [List.append_assoc, List.append_assoc]; exact s1, ?_⟩
  cases us1 with
  | nil => exact absurd (by rw [← k1]; rfl) h0
  | cons u us1 => exact p1

theorem Tokenizes.single {level level' : Int} {text rest : List Char} {t : Tok} (h0 : text ≠ [])
    (h : ∀ pos, scanToken level ⟨[], text ++ rest, pos⟩ = .ok (some t, ⟨text, rest, pos.through text⟩, level')) :
    Tokenizes level text [(t, text)] level' rest := by
  intro pos ts hs
  refine ⟨[⟨t, text, pos⟩], rfl, ?_, by simp⟩
  have : rest.length < (text ++ rest).length := by
    have := List.length_pos_iff.2 h0
    simp only [List.length_append]; omega
  exact Scans.step (h pos) this hs

theorem Tokenizes.nothing (level : Int) (rest : List Char) : Tokenizes level [] [] level rest := by
  intro pos ts hs
  exact ⟨[], rfl, hs, by simp⟩

/-! ### Reading characters -/

/-- The rest does not begin with such a character. -/
def Stops (p : Char → Bool) (rest : List Char) : Prop := ∀ c cs, rest = c :: cs → p c = false

/-- The rest is at the end of a word. -/
def Sep (rest : List Char) : Prop := ∀ c cs, rest = c :: cs → c = ' ' ∨ c = '\n'

theorem Sep.stops {rest : List Char} (h : Sep rest) {p : Char → Bool} (h1 : p ' ' = false) (h2 : p '\n' = false) : Stops p rest := by
  intro c cs e
  rcases h c cs e with rfl | rfl
  · exact h1
  · exact h2

theorem Stops.cons {p : Char → Bool} {c : Char} {cs : List Char} (h : p c = false) : Stops p (c :: cs) := by
  intro d ds e
  injection e with e _
  rw [← e]; exact h

theorem takeWhile_stops {p : Char → Bool} {w rest : List Char} (hw : ∀ c ∈ w, p c = true) (hr : Stops p rest) :
    (w ++ rest).takeWhile p = w ∧ (w ++ rest).dropWhile p = rest := by
  induction w with
  | nil =>
    cases rest with
    | nil => simp
    | cons c cs => simp [hr c cs rfl]
  | cons d w ih =>
    have := ih (fun x hx => hw x (List.mem_cons_of_mem _ hx))
    simp [hw d (List.mem_cons_self ..), this]

theorem consumeWhile_stops {p : Char → Bool} {text w rest : List Char} {pos : Pos} (hw : ∀ c ∈ w, p c = true) (hr : Stops p rest) :
    Lexer.consumeWhile p ⟨text, w ++ rest, pos⟩ = ⟨text ++ w, rest, pos.through w⟩ := by
  obtain ⟨h1, h2⟩ := takeWhile_stops hw hr
  simp only [Lexer.consumeWhile, h1, h2]

theorem allDigits_isDigit {w : List Char} (h : AllDigits w) : ∀ c ∈ w, isDigit c = true := fun c hc => (isDigit_iff c).2 (h c hc)

theorem advance_cons (text : List Char) (c : Char) (cs : List Char) (pos : Pos) :
    Lexer.advance ⟨text, c :: cs, pos⟩ = ⟨text ++ [c], cs, pos.after c⟩ := rfl

theorem through_cons (pos : Pos) (c : Char) (cs : List Char) : pos.through (c :: cs) = (pos.after c).through cs := rfl

theorem through_nil (pos : Pos) : pos.through [] = pos := rfl

/-- A token outside of parentheses. -/
theorem plain_token {c : Char} {cs rest : List Char} {t : Tok} (hb : c ∉ [' ', '\r', '\n', '\t', '#', '(', ')'])
    (h : ∀ pos before, scanPlain before c ⟨[c], cs ++ rest, pos⟩ = .ok (t, ⟨c :: cs, rest, pos.through cs⟩)) : Tokenizes 0 (c :: cs) [(t, c :: cs)] 0 rest := by
  refine Tokenizes.single (by simp) fun pos => ?_
  have h1 : isBlank c = false := by simp [isBlank] at hb ⊢; grind
  have h2 : c ≠ '#' ∧ c ≠ '(' ∧ c ≠ ')' := by simp at hb; grind
  simp only [scanToken, Lexer.peek, List.cons_append, advance_cons, List.nil_append, h1, h2.1, h2.2.1, h2.2.2]
  simp only [Bool.false_eq_true, if_false, Int.lt_irrefl, gt_iff_lt, h, through_cons]

/-- A single character. -/
theorem punct_token {c : Char} {t : Tok} (h : punctuation c = some t) (rest : List Char) : Tokenizes 0 [c] [(t, [c])] 0 rest := by
  refine plain_token ?_ fun pos before => ?_
  · intro hm
    have : ∀ c ∈ [' ', '\r', '\n', '\t', '#', '(', ')'], punctuation c = none := by decide
    rw [this c hm] at h; simp at h
  · simp only [scanPlain, h, List.nil_append, through_nil]

theorem mem_of_peek {l : Lexer} : l.peek = l.rest.headD '\x00' := by
  unfold Lexer.peek; split <;> simp_all

/-! ### Letters -/

theorem letter_plain {c : Char} (h : c ∈ letters) : c ∉ [' ', '\r', '\n', '\t', '#', '(', ')'] ∧ punctuation c = none ∧
    c ∉ ['\'', '*', '"', '%', '@'] ∧ isDigit c = false ∧ isLetter c = true := by
  have : ∀ c ∈ letters, c ∉ [' ', '\r', '\n', '\t', '#', '(', ')'] ∧ punctuation c = none ∧
    c ∉ ['\'', '*', '"', '%', '@'] ∧ isDigit c = false ∧ isLetter c = true := by decide +kernel
  exact this c h

theorem letter_token {c : Char} {cs rest : List Char} {t : Tok} (hc : c ∈ letters)
    (h : ∀ pos, scanLetter c ⟨[c], cs ++ rest, pos⟩ = .ok (t, ⟨c :: cs, rest, pos.through cs⟩)) : Tokenizes 0 (c :: cs) [(t, c :: cs)] 0 rest := by
  obtain ⟨h1, h2, h3, h4, h5⟩ := letter_plain hc
  refine plain_token h1 fun pos before => ?_
  simp only [List.mem_cons, not_or, List.not_mem_nil, not_false_eq_true, and_true] at h3
  simp only [scanPlain, h2, h3, h4, h5, h, if_false, if_true, Bool.false_eq_true]

theorem name_token {s rest : List Char} (h : ∃ a b cs, s = a :: b :: cs ∧ a ∈ letters ∧ b ∈ letters ∧ ∀ c ∈ cs, NameChar c)
    (hr : Stops isValidNameChar rest) : Tokenizes 0 s [(.name, s)] 0 rest := by
  obtain ⟨a, b, cs, rfl, ha, hb, hcs⟩ := h
  refine letter_token ha fun pos => ?_
  have h1 : Lexer.peek ⟨[a], (b :: cs) ++ rest, pos⟩ = b := rfl
  simp only [scanLetter, h1, (isLetter_iff b).2 hb, if_true, parseName]
  rw [consumeWhile_stops (w := b :: cs) ?_ hr]
  · rfl
  · intro d hd
    rcases List.mem_cons.1 hd with rfl | hd
    · exact (isValidNameChar_iff _).2 (Or.inl hb)
    · exact (isValidNameChar_iff _).2 (hcs d hd)

theorem peek_stops {p : Char → Bool} {rest : List Char} (h : Stops p rest) (h0 : p '\x00' = false) (text : List Char) (pos : Pos) :
    p (Lexer.peek ⟨text, rest, pos⟩) = false := by
  cases rest with
  | nil => exact h0
  | cons c cs => exact h c cs rfl

theorem note_token {c : Char} {rest : List Char} (hc : c ∈ ['a', 'b', 'c', 'd', 'e', 'f', 'g'])
    (hr : ∀ d ds, rest = d :: ds → followsNoteLetter d = true) : Tokenizes 0 [c] [(.noteLetter c, [c])] 0 rest := by
  have hl : c ∈ letters := by
    have : ∀ c ∈ ['a', 'b', 'c', 'd', 'e', 'f', 'g'], c ∈ letters := by decide +kernel
    exact this c hc
  refine letter_token hl fun pos => ?_
  simp only [List.nil_append, scanLetter]
  cases rest with
  | nil => simp [Lexer.peek, Lexer.reachedEOF, (isNoteLetter_iff c).2 hc, isLetter, through_nil]
  | cons d ds =>
    have hd := hr d ds rfl
    have hnl : isLetter d = false := by
      by_cases h : d ∈ letters
      · have : ∀ d ∈ letters, followsNoteLetter d = false := by decide +kernel
        rw [this d h] at hd; simp at hd
      · cases h' : isLetter d
        · rfl
        · exact absurd ((isLetter_iff d).1 h') h
    simp [Lexer.peek, hnl, (isNoteLetter_iff c).2 hc, hd, through_nil]

theorem rest_token {rest : List Char} (hr : ∀ d ds, rest = d :: ds → followsRestLetter d = true) : Tokenizes 0 ['r'] [(.restLetter, ['r'])] 0 rest := by
  refine letter_token (by decide) fun pos => ?_
  simp only [List.nil_append, scanLetter]
  have hnote : isNoteLetter 'r' = false := by decide
  cases rest with
  | nil => simp [Lexer.peek, Lexer.reachedEOF, hnote, isLetter, through_nil]
  | cons d ds =>
    have hd := hr d ds rfl
    have hnl : isLetter d = false := by
      by_cases h : d ∈ letters
      · have : ∀ d ∈ letters, followsRestLetter d = false := by decide +kernel
        rw [this d h] at hd; simp at hd
      · cases h' : isLetter d
        · rfl
        · exact absurd ((isLetter_iff d).1 h') h
    simp [Lexer.peek, hnl, hnote, hd, through_nil]

theorem clamp_eq {n : Nat} (h : n ≤ maxInt) : clamp n = n := by
  unfold clamp maxInt at *; rw [if_pos h]

theorem parseInt32_natDigits {n : Nat} (h : n ≤ maxInt) : parseInt32 (natDigits n) = n := by
  rw [parseInt32_eq (natDigits_digits n), natDigits_value, clamp_eq h]

theorem natDigits_cons (n : Nat) : ∃ d ds, natDigits n = d :: ds ∧ d ∈ digits := by
  cases h : natDigits n with
  | nil => exact absurd h (natDigits_ne_nil n)
  | cons d ds => exact ⟨d, ds, rfl, natDigits_digits n d (by rw [h]; exact List.mem_cons_self ..)⟩

theorem digit_facts {d : Char} (h : d ∈ digits) : isLetter d = false ∧ isDigit d = true ∧ followsNoteLetter d = true ∧ followsRestLetter d = true ∧
    isNoteLetter d = false ∧ punctuation d = none ∧ d ∉ [' ', '\r', '\n', '\t', '#', '(', ')'] ∧ d ∉ ['\'', '*', '"', '%', '@'] := by
  have : ∀ d ∈ digits, isLetter d = false ∧ isDigit d = true ∧ followsNoteLetter d = true ∧ followsRestLetter d = true ∧
    isNoteLetter d = false ∧ punctuation d = none ∧ d ∉ [' ', '\r', '\n', '\t', '#', '(', ')'] ∧ d ∉ ['\'', '*', '"', '%', '@'] := by decide +kernel
  exact this d h

theorem scanLetter_octave {l : Lexer} (h : l.peek ∈ digits) : scanLetter 'o' l = parseOctaveSet l := by
  obtain ⟨f1, f2, _⟩ := digit_facts h
  simp [scanLetter, f1, f2, show isNoteLetter 'o' = false from by decide]

theorem scanLetter_voice {l : Lexer} (h : l.peek ∈ digits) : scanLetter 'V' l = parseVoiceMarker l := by
  obtain ⟨f1, f2, _⟩ := digit_facts h
  simp [scanLetter, f1, f2, show isNoteLetter 'V' = false from by decide]

theorem peek_natDigits (n : Nat) (text rest : List Char) (pos : Pos) : Lexer.peek ⟨text, natDigits n ++ rest, pos⟩ ∈ digits := by
  obtain ⟨d, ds, hd, hdig⟩ := natDigits_cons n
  rw [hd]; exact hdig

theorem consumeDigits_natDigits (n : Nat) {text rest : List Char} {pos : Pos} (hr : Stops isDigit rest) :
    Lexer.consumeDigits ⟨text, natDigits n ++ rest, pos⟩ = ⟨text ++ natDigits n, rest, pos.through (natDigits n)⟩ :=
  consumeWhile_stops (allDigits_isDigit (natDigits_digits n)) hr

theorem Sep.digit {rest : List Char} (h : Sep rest) : Stops isDigit rest := h.stops (by decide) (by decide)

theorem octave_token {n : Nat} (h : n ≤ maxInt) {rest : List Char} (hr : Sep rest) :
    Tokenizes 0 ('o' :: natDigits n) [(.octaveSet n, 'o' :: natDigits n)] 0 rest := by
  refine letter_token (by decide) fun pos => ?_
  rw [scanLetter_octave (peek_natDigits ..)]
  unfold parseOctaveSet
  rw [consumeDigits_natDigits n hr.digit]
  cases rest with
  | nil => simp [Lexer.reachedEOF, parseInt32_natDigits h]
  | cons c cs =>
    rcases hr c cs rfl with rfl | rfl <;> simp [Lexer.peek, parseInt32_natDigits h]

theorem voice_token {n : Nat} (h : n ≤ maxInt) {rest : List Char} :
    Tokenizes 0 ('V' :: (natDigits n ++ [':'])) [(.voiceMarker n, 'V' :: (natDigits n ++ [':']))] 0 rest := by
  refine letter_token (by decide) fun pos => ?_
  rw [List.append_assoc, scanLetter_voice (peek_natDigits ..)]
  unfold parseVoiceMarker
  rw [consumeDigits_natDigits n (rest := [':'] ++ rest) (Stops.cons (by decide))]
  simp [Lexer.peek, parseInt32_natDigits h, advance_cons, Pos.through_append, through_cons, through_nil]

/-! ### Others -/

theorem special_token {c : Char} {cs rest : List Char} {t : Tok} (hc : c ∈ ['\'', '*', '"', '%', '@'])
    (h : ∀ pos, (if c = '\'' then parseRepetitions ((cs ++ rest).length + 1) [] ⟨[c], cs ++ rest, pos⟩
      else if c = '*' then parseRepeat ⟨[c], cs ++ rest, pos⟩ else if c = '"' then parseAlias ⟨[c], cs ++ rest, pos⟩
      else if c = '%' then parsePrefixedName .marker ⟨[c], cs ++ rest, pos⟩ else parsePrefixedName .atMarker ⟨[c], cs ++ rest, pos⟩) =
        .ok (t, ⟨c :: cs, rest, pos.through cs⟩)) : Tokenizes 0 (c :: cs) [(t, c :: cs)] 0 rest := by
  have h1 : c ∉ [' ', '\r', '\n', '\t', '#', '(', ')'] ∧ punctuation c = none := by
    have : ∀ c ∈ ['\'', '*', '"', '%', '@'], c ∉ [' ', '\r', '\n', '\t', '#', '(', ')'] ∧ punctuation c = none := by decide
    exact this c hc
  refine plain_token h1.1 fun pos before => ?_
  have := h pos
  simp only [scanPlain, h1.2]
  simp only [List.mem_cons, List.not_mem_nil, or_false] at hc
  rcases hc with rfl | rfl | rfl | rfl | rfl <;> simpa using this

theorem repeat_token {n : Nat} (h : n ≤ maxInt) {rest : List Char} (hr : Sep rest) :
    Tokenizes 0 ('*' :: natDigits n) [(.repeat n, '*' :: natDigits n)] 0 rest := by
  refine special_token (by decide) fun pos => ?_
  simp only [show ('*' = '\'') = False from by decide, if_false, if_true]
  unfold parseRepeat
  have h0 : Lexer.consumeWhile (· = ' ') ⟨['*'], natDigits n ++ rest, pos⟩ = ⟨['*'], natDigits n ++ rest, pos⟩ := by
    have := consumeWhile_stops (p := (· = ' ')) (text := ['*']) (w := []) (rest := natDigits n ++ rest) (pos := pos) (by simp) (by
      obtain ⟨d, ds, hd, hdig⟩ := natDigits_cons n
      rw [hd]
      refine Stops.cons ?_
      have := (digit_facts hdig).2.2.2.2.2.2.1
      simp at this; simp [this])
    simpa [through_nil] using this
  have hp := (isDigit_iff _).2 (peek_natDigits n ['*'] rest pos)
  have ht := (takeWhile_stops (allDigits_isDigit (natDigits_digits n)) hr.digit).1
  simp only [h0, hp, consumeDigits_natDigits n hr.digit, ht, parseInt32_natDigits h]
  cases rest with
  | nil => simp [Lexer.reachedEOF]
  | cons c cs =>
    rcases hr c cs rfl with rfl | rfl <;> simp [Lexer.peek]

theorem label_token {c : Char} {mk : String → Tok} (hc : c = '%' ∧ mk = .marker ∨ c = '@' ∧ mk = .atMarker) {s : String} (hs : isLabel s) {rest : List Char}
    (hr : Sep rest) : Tokenizes 0 (c :: s.toList) [(mk s, c :: s.toList)] 0 rest := by
  have key : ∀ pos, parsePrefixedName mk ⟨[c], s.toList ++ rest, pos⟩ = .ok (mk s, ⟨c :: s.toList, rest, pos.through s.toList⟩) := by
    intro pos
    have hv : ∀ c ∈ s.toList, isValidNameChar c = true := fun c hc => (isValidNameChar_iff c).2 (hs.2 c hc)
    have hp : isValidNameChar (Lexer.peek ⟨[c], s.toList ++ rest, pos⟩) = true := by
      cases h : s.toList with
      | nil => exact absurd (by simpa using h) hs.1
      | cons d ds => exact hv d (by rw [h]; exact List.mem_cons_self ..)
    unfold parsePrefixedName
    rw [consumeWhile_stops hv (hr.stops (by decide) (by decide))]
    simp [hp]
  rcases hc with ⟨rfl, rfl⟩ | ⟨rfl, rfl⟩
  · exact special_token (by decide) fun pos => by simpa using key pos
  · exact special_token (by decide) fun pos => by simpa using key pos

theorem alias_token {s : String} (hs : ∀ c ∈ s.toList, NameChar c) {rest : List Char} :
    Tokenizes 0 ('"' :: (s.toList ++ ['"'])) [(.alias s, '"' :: (s.toList ++ ['"']))] 0 rest := by
  refine special_token (by decide) fun pos => ?_
  have hv : ∀ c ∈ s.toList, isValidNameChar c = true := fun c hc => (isValidNameChar_iff c).2 (hs c hc)
  simp only [show ('"' = '\'') = False from by decide, show ('"' = '*') = False from by decide, if_false, if_true]
  unfold parseAlias
  rw [List.append_assoc, consumeWhile_stops (rest := ['"'] ++ rest) hv (Stops.cons (by decide))]
  simp [Lexer.reachedEOF, advance_cons, Pos.through_append, through_cons, through_nil]

/-! ### Repetitions -/

theorem match?_cons (c : Char) (text cs : List Char) (pos : Pos) : Lexer.match? c ⟨text, c :: cs, pos⟩ = some ⟨text ++ [c], cs, pos.after c⟩ := by
  simp [Lexer.match?, advance_cons]

theorem match?_none {c : Char} {text rest : List Char} {pos : Pos} (h : Stops (· == c) rest) : Lexer.match? c ⟨text, rest, pos⟩ = none := by
  cases rest with
  | nil => rfl
  | cons d ds =>
    have := h d ds rfl
    simp at this
    simp [Lexer.match?, this]

/-- One range. -/
theorem range_read (r : Nat × Nat) (hr : r.1 ≤ maxInt ∧ r.2 ≤ maxInt) {rest : List Char} (hs : Stops isDigit rest) (hd : Stops (· == '-') rest)
    (fuel : Nat) (ranges : List (Int × Int)) (text : List Char) (pos : Pos) :
    parseRepetitions (fuel + 1) ranges ⟨text, rangeText r ++ rest, pos⟩ =
      (match Lexer.match? ',' ⟨text ++ rangeText r, rest, pos.through (rangeText r)⟩ with
        | some l => parseRepetitions fuel (ranges ++ [((r.1 : Int), (r.2 : Int))]) l
        | none => .ok (.repetitions (ranges ++ [((r.1 : Int), (r.2 : Int))]), ⟨text ++ rangeText r, rest, pos.through (rangeText r)⟩)) := by
  obtain ⟨a, b⟩ := r
  simp only at hr
  unfold rangeText
  simp only
  by_cases he : a = b
  · subst he
    rw [if_pos rfl]
    simp only [parseRepetitions]
    have hp := (isDigit_iff _).2 (peek_natDigits a text rest pos)
    have ht := (takeWhile_stops (allDigits_isDigit (natDigits_digits a)) hs).1
    simp only [hp, consumeDigits_natDigits a hs, ht, parseInt32_natDigits hr.1, match?_none hd]
    rfl
  · rw [if_neg he]
    simp only [parseRepetitions]
    have hs' : Stops isDigit ('-' :: (natDigits b ++ rest)) := Stops.cons (by decide)
    have hp := (isDigit_iff _).2 (peek_natDigits a text ('-' :: (natDigits b ++ rest)) pos)
    have ht := (takeWhile_stops (allDigits_isDigit (natDigits_digits a)) hs').1
    rw [List.append_assoc, List.cons_append]
    simp only [hp, consumeDigits_natDigits a hs', ht, parseInt32_natDigits hr.1, match?_cons]
    have ht2 := (takeWhile_stops (allDigits_isDigit (natDigits_digits b)) hs).1
    have hp2 := (isDigit_iff _).2 (peek_natDigits b (text ++ natDigits a ++ ['-']) rest ((pos.through (natDigits a)).after '-'))
    simp only [hp2, consumeDigits_natDigits b hs, ht2, parseInt32_natDigits hr.2]
    simp only [Pos.through_append, through_cons, List.append_assoc, List.cons_append, List.nil_append]
    rfl

theorem ranges_read (rs : List (Nat × Nat)) (h0 : rs ≠ []) (hr : ∀ r ∈ rs, r.1 ≤ maxInt ∧ r.2 ≤ maxInt) {rest : List Char} (hs : Sep rest) :
    ∀ (fuel : Nat), rs.length ≤ fuel → ∀ (ranges : List (Int × Int)) (text : List Char) (pos : Pos),
    parseRepetitions fuel ranges ⟨text, joinWith ',' (rs.map rangeText) ++ rest, pos⟩ =
      .ok (.repetitions (ranges ++ rs.map fun r => ((r.1 : Int), (r.2 : Int))), ⟨text ++ joinWith ',' (rs.map rangeText), rest,
        pos.through (joinWith ',' (rs.map rangeText))⟩) := by
  induction rs with
  | nil => exact absurd rfl h0
  | cons r rs ih =>
    intro fuel hf ranges text pos
    obtain ⟨fuel, rfl⟩ : ∃ k, fuel = k + 1 := ⟨fuel - 1, by simp at hf; omega⟩
    cases rs with
    | nil =>
      simp only [List.map_cons, List.map_nil, joinWith]
      rw [range_read r (hr r (List.mem_cons_self ..)) hs.digit (hs.stops (by decide) (by decide))]
      rw [match?_none (hs.stops (by decide) (by decide))]
    | cons r' rs =>
      have e : joinWith ',' ((r :: r' :: rs).map rangeText) = rangeText r ++ ',' :: joinWith ',' ((r' :: rs).map rangeText) := rfl
      rw [e, List.append_assoc, List.cons_append, range_read r (hr r (List.mem_cons_self ..)) (Stops.cons (by decide)) (Stops.cons (by decide)), match?_cons]
      simp only
      rw [ih (by simp) (fun x hx => hr x (List.mem_cons_of_mem _ hx)) fuel (by simpa using hf)]
      simp [Pos.through_append, through_cons]

theorem ranges_token {rs : List (Nat × Nat)} (h0 : rs ≠ []) (hr : ∀ r ∈ rs, r.1 ≤ maxInt ∧ r.2 ≤ maxInt) {rest : List Char} (hs : Sep rest) :
    Tokenizes 0 (rangesText rs) [(rangesTok rs, rangesText rs)] 0 rest := by
  unfold rangesText rangesTok
  refine special_token (by decide) fun pos => ?_
  simp only [if_true]
  rw [ranges_read rs h0 hr hs]
  · simp
  · have : ∀ rs : List (Nat × Nat), rs.length ≤ (joinWith ',' (rs.map rangeText)).length := by
      intro rs
      have hne : ∀ r : Nat × Nat, 1 ≤ (rangeText r).length := by
        intro r
        have := List.length_pos_iff.2 (natDigits_ne_nil r.1)
        unfold rangeText
        split
        · exact this
        · simp; omega
      induction rs with
      | nil => simp
      | cons r rs ih =>
        cases rs with
        | nil => exact hne r
        | cons r' rs =>
          have e : joinWith ',' ((r :: r' :: rs).map rangeText) = rangeText r ++ ',' :: joinWith ',' ((r' :: rs).map rangeText) := rfl
          rw [e]
          have := hne r
          simp only [List.length_append, List.length_cons] at ih ⊢
          omega
    have := this rs
    simp only [List.length_append]; omega

/-! ### Lengths -/

theorem float_parts {q : Rat} (h0 : 0 ≤ q) (h : IsDecimal q) : ∃ w f, w ≠ [] ∧ AllDigits w ∧ AllDigits f ∧
    formatFloat q = w ++ (if f.isEmpty then [] else '.' :: f) ∧ q = decimalValue w f := by
  have : ¬ q < 0 := by grind
  unfold formatFloat
  rw [if_neg this]
  exact formatUnsigned_spec h0 h

/-- The digits of a number and its decimal part. -/
theorem number_read {w f text rest : List Char} {pos : Pos} (hw : AllDigits w) (hf : AllDigits f) (hr : Stops isDigit rest)
    (hd : ∀ d ds, rest = '.' :: d :: ds → isDigit d = false) :
    (Lexer.consumeDigits ⟨text, (w ++ (if f.isEmpty then [] else '.' :: f)) ++ rest, pos⟩).consumeFraction =
      ⟨text ++ (w ++ (if f.isEmpty then [] else '.' :: f)), rest, pos.through (w ++ (if f.isEmpty then [] else '.' :: f))⟩ := by
  cases f with
  | nil =>
    simp only [List.isEmpty_nil, if_true, List.append_nil]
    have : Lexer.consumeDigits ⟨text, w ++ rest, pos⟩ = ⟨text ++ w, rest, pos.through w⟩ := consumeWhile_stops (allDigits_isDigit hw) hr
    rw [this]
    unfold Lexer.consumeFraction
    rw [if_neg]
    rintro ⟨h1, h2⟩
    unfold Lexer.peek Lexer.peekNext at *
    cases rest with
    | nil => simp at h1
    | cons c cs =>
      simp only at h1
      subst h1
      cases cs with
      | nil => simp only at h2; exact absurd h2 (by decide)
      | cons d ds => simp only at h2; rw [hd d ds rfl] at h2; simp at h2
  | cons d f =>
    simp only [List.isEmpty_cons, Bool.false_eq_true, if_false, List.append_assoc, List.cons_append]
    have : Lexer.consumeDigits ⟨text, w ++ ('.' :: d :: (f ++ rest)), pos⟩ = ⟨text ++ w, '.' :: d :: (f ++ rest), pos.through w⟩ :=
      consumeWhile_stops (allDigits_isDigit hw) (Stops.cons (by decide))
    rw [this]
    unfold Lexer.consumeFraction
    have hdd : isDigit d = true := (isDigit_iff d).2 (hf d (List.mem_cons_self ..))
    rw [if_pos ⟨rfl, hdd⟩, advance_cons]
    have := consumeWhile_stops (p := isDigit) (text := text ++ w ++ ['.']) (w := d :: f) (rest := rest) (pos := (pos.through w).after '.') (allDigits_isDigit hf) hr
    unfold Lexer.consumeDigits
    rw [List.cons_append] at this
    rw [this]
    simp [Pos.through_append, through_cons]

theorem float_value {w f : List Char} (h0 : w ≠ []) (hw : AllDigits w) (hf : AllDigits f) :
    parseFloat (w ++ (if f.isEmpty then [] else '.' :: f)) = decimalValue w f := by
  cases f with
  | nil => simp only [List.isEmpty_nil, if_true, List.append_nil]; exact parseFloat_whole h0 hw
  | cons d f => simp only [List.isEmpty_cons, Bool.false_eq_true, if_false]; exact parseFloat_eq h0 hw hf

theorem digit_token {c : Char} {cs rest : List Char} {t : Tok} (hc : c ∈ digits)
    (h : ∀ pos, parseNoteLength ⟨[c], cs ++ rest, pos⟩ = .ok (t, ⟨c :: cs, rest, pos.through cs⟩)) : Tokenizes 0 (c :: cs) [(t, c :: cs)] 0 rest := by
  obtain ⟨_, f2, _, _, _, f6, f7, f8⟩ := digit_facts hc
  refine plain_token f7 fun pos before => ?_
  simp only [List.mem_cons, not_or, List.not_mem_nil, not_false_eq_true, and_true] at f8
  simp only [scanPlain, f6, f8, f2, h, if_false, if_true]

/-- What may follow a length. -/
def AfterLength (rest : List Char) : Prop := ∀ c cs, rest = c :: cs → c = ' ' ∨ c = '\n' ∨ c = '~'

theorem AfterLength.stops {rest : List Char} (h : AfterLength rest) {p : Char → Bool} (h1 : p ' ' = false) (h2 : p '\n' = false) (h3 : p '~' = false) : Stops p rest := by
  intro c cs e
  rcases h c cs e with rfl | rfl | rfl
  · exact h1
  · exact h2
  · exact h3

theorem Comp.text_token {c : Comp} (hc : c.ok) (hb : c ≠ .bar) {rest : List Char} (hr : AfterLength rest) : Tokenizes 0 c.text [(c.tok, c.text)] 0 rest := by
  have key : ∀ (q : Rat) (suffix : List Char) (t : Tok), IsDecimal q → 0 ≤ q → Stops isDigit (suffix ++ rest) →
      (∀ d ds, suffix ++ rest = '.' :: d :: ds → isDigit d = false) →
      (∀ text pos, (let l : Lexer := ⟨text, suffix ++ rest, pos⟩
        (if l.peek = 's' ∧ (terminatesNoteLength l.peekNext ∨ l.eofIsNext) then .ok (.noteLengthSeconds q, l.advance)
        else if l.peek = 'm' ∧ l.peekNext = 's' then .ok (.noteLengthMs q, l.advance.advance)
        else .ok (.noteLength q (wrap32 (l.rest.takeWhile (· = '.')).length), l.consumeWhile (· = '.')) : Lexed)) =
          .ok (t, ⟨text ++ suffix, rest, pos.through suffix⟩)) →
      Tokenizes 0 (formatFloat q ++ suffix) [(t, formatFloat q ++ suffix)] 0 rest := by
    intro q suffix t hq h0 hs hd h
    obtain ⟨w, f, hw0, hw, hf, e1, e2⟩ := float_parts h0 hq
    cases w with
    | nil => exact absurd rfl hw0
    | cons d w =>
      rw [e1, List.cons_append, List.cons_append]
      refine digit_token (hw d (List.mem_cons_self ..)) fun pos => ?_
      unfold parseNoteLength
      have hw' : AllDigits w := fun x hx => hw x (List.mem_cons_of_mem _ hx)
      have hn := number_read (text := [d]) (pos := pos) hw' hf hs hd
      have hv := float_value hw0 hw hf
      rw [List.append_assoc _ suffix rest]
      simp only [hn]
      have hv' : parseFloat ([d] ++ (w ++ if f.isEmpty = true then [] else '.' :: f)) = q := by rw [e2, ← hv]; rfl
      simp only [hv']
      have := h ([d] ++ (w ++ if f.isEmpty = true then [] else '.' :: f)) (pos.through (w ++ if f.isEmpty = true then [] else '.' :: f))
      simp only at this
      rw [this]
      simp [Pos.through_append]
  cases c with
  | bar => exact absurd rfl hb
  | len d dots =>
    obtain ⟨h1, h2, h3⟩ := hc
    have hdots : ∀ c ∈ List.replicate dots '.', (decide (c = '.')) = true := by intro c hc; simp [(List.mem_replicate.1 hc).2]
    have hst : Stops (fun x => decide (x = '.')) rest := hr.stops (by decide) (by decide) (by decide)
    refine key d (List.replicate dots '.') _ h1 h2 ?_ ?_ ?_
    · cases dots with
      | zero => exact hr.stops (by decide) (by decide) (by decide)
      | succ n => exact Stops.cons (by decide)
    · intro x xs e
      cases dots with
      | zero => rcases hr _ _ (by simpa using e) with h | h | h <;> exact absurd h (by decide)
      | succ n =>
        rw [List.replicate_succ, List.cons_append] at e
        injection e with _ e
        cases n with
        | zero =>
          have : Stops isDigit rest := hr.stops (by decide) (by decide) (by decide)
          exact this x xs (by simpa using e)
        | succ n =>
          rw [List.replicate_succ, List.cons_append] at e
          injection e with e _
          rw [← e]; decide
    · intro text pos
      have hpk : Lexer.peek ⟨text, List.replicate dots '.' ++ rest, pos⟩ ≠ 's' ∧ Lexer.peek ⟨text, List.replicate dots '.' ++ rest, pos⟩ ≠ 'm' := by
        cases dots with
        | succ n => simp [List.replicate_succ, Lexer.peek]
        | zero =>
          cases rest with
          | nil => simp [Lexer.peek]
          | cons c cs =>
            rcases hr c cs rfl with rfl | rfl | rfl <;> simp [Lexer.peek]
      simp only [hpk.1, hpk.2, false_and, if_false]
      rw [consumeWhile_stops hdots hst, (takeWhile_stops hdots hst).1]
      have : wrap32 ((List.replicate dots '.').length : Int) = dots := by
        unfold maxInt at h3
        simp only [List.length_replicate, wrap32]
        omega
      rw [this]; rfl
  | ms q =>
    refine key q ['m', 's'] _ hc.1 hc.2 (Stops.cons (by decide)) (by simp) ?_
    intro text pos
    simp [Lexer.peek, Lexer.peekNext, advance_cons, through_cons, through_nil, Comp.tok]
  | sec q =>
    refine key q ['s'] _ hc.1 hc.2 (Stops.cons (by decide)) (by simp) ?_
    intro text pos
    cases rest with
    | nil => simp [Lexer.peek, Lexer.eofIsNext, advance_cons, through_cons, through_nil, Comp.tok]
    | cons c cs =>
      rcases hr c cs rfl with rfl | rfl | rfl <;>
        simp [Lexer.peek, Lexer.peekNext, terminatesNoteLength, advance_cons, through_cons, through_nil, Comp.tok]

/-! ### Lisp -/

theorem paren_open (level : Int) (rest : List Char) : Tokenizes level ['('] [(.leftParen, ['('])] (level + 1) rest :=
  Tokenizes.single (by simp) fun pos => by simp [scanToken, Lexer.peek, isBlank, advance_cons, through_cons, through_nil]

theorem paren_close (level : Int) (rest : List Char) : Tokenizes level [')'] [(.rightParen, [')'])] (level - 1) rest :=
  Tokenizes.single (by simp) fun pos => by simp [scanToken, Lexer.peek, isBlank, advance_cons, through_cons, through_nil]

/-- A token inside of parentheses. -/
theorem lisp_token {level : Int} (hl : 0 < level) {c : Char} {cs rest : List Char} {t : Tok} (hb : c ∉ [' ', '\r', '\n', '\t', '#', '(', ')'])
    (h : ∀ pos before, scanLisp before c ⟨[c], cs ++ rest, pos⟩ = .ok (t, ⟨c :: cs, rest, pos.through cs⟩)) : Tokenizes level (c :: cs) [(t, c :: cs)] level rest := by
  refine Tokenizes.single (by simp) fun pos => ?_
  have h1 : isBlank c = false := by simp [isBlank] at hb ⊢; grind
  have h2 : c ≠ '#' ∧ c ≠ '(' ∧ c ≠ ')' := by simp at hb; grind
  simp only [scanToken, Lexer.peek, List.cons_append, advance_cons, List.nil_append, h1, h2.1, h2.2.1, h2.2.2]
  simp only [Bool.false_eq_true, if_false, gt_iff_lt, h, through_cons, hl, if_true]

/-- What may follow a form. -/
def AfterForm (rest : List Char) : Prop := ∃ c cs, rest = c :: cs ∧ (c = ' ' ∨ c = ')')

theorem AfterForm.stops {rest : List Char} (h : AfterForm rest) {p : Char → Bool} (h1 : p ' ' = false) (h2 : p ')' = false) : Stops p rest := by
  obtain ⟨c, cs, rfl, rfl | rfl⟩ := h
  · exact Stops.cons h1
  · exact Stops.cons h2

theorem symbol_token {level : Int} (hl : 0 < level) {s : String} (hs : isSymbol s) {rest : List Char} (hr : AfterForm rest) :
    Tokenizes level s.toList [(.symbol, s.toList)] level rest := by
  obtain ⟨c, cs, e, h1, h2, h3⟩ := hs
  rw [e]
  have hc := h3 c (List.mem_cons_self ..)
  have h1' : c ≠ '\'' ∧ c ≠ '-' ∧ c ≠ '#' := by simpa using h1
  have hc' : c ≠ ' ' ∧ c ≠ '\t' ∧ c ≠ '\r' ∧ c ≠ '\n' ∧ c ≠ '(' ∧ c ≠ ')' ∧ c ≠ '[' ∧ c ≠ ']' ∧ c ≠ '{' ∧ c ≠ '}' ∧ c ≠ '"' := by simpa using hc
  refine lisp_token hl (by simp [hc', h1']) fun pos before => ?_
  have hd : isDigit c = false := by
    cases h : isDigit c
    · rfl
    · exact absurd ((isDigit_iff c).1 h) h2
  have hv : isValidSymbolChar c = true := (isValidSymbolChar_iff c).2 hc
  simp only [scanLisp, h1', hc', hd, hv, if_false, if_true, false_or, Bool.false_eq_true, parseSymbol]
  rw [consumeWhile_stops (fun d hd => (isValidSymbolChar_iff d).2 (h3 d (List.mem_cons_of_mem _ hd))) (hr.stops (by decide) (by decide))]
  rfl

theorem string_token {level : Int} (hl : 0 < level) {s : String} (hs : '"' ∉ s.toList) {rest : List Char} :
    Tokenizes level ('"' :: (s.toList ++ ['"'])) [(.string s, '"' :: (s.toList ++ ['"']))] level rest := by
  refine lisp_token hl (by decide) fun pos before => ?_
  simp only [scanLisp, show ('"' = '\'') = False from by decide, if_false, if_true]
  unfold parseString
  rw [List.append_assoc, consumeWhile_stops (rest := ['"'] ++ rest) (fun c hc => by simp; rintro rfl; exact hs hc) (Stops.cons (by decide))]
  simp [Lexer.reachedEOF, advance_cons, Pos.through_append, through_cons, through_nil]

theorem quote_token {level : Int} (hl : 0 < level) (rest : List Char) : Tokenizes level ['\''] [(.singleQuote, ['\''])] level rest :=
  lisp_token hl (by decide) fun pos before => by simp [scanLisp, through_nil]

theorem number_token {level : Int} (hl : 0 < level) {q : Rat} (hq : IsDecimal q) {rest : List Char} (hr : AfterForm rest) :
    Tokenizes level (formatFloat q) [(.number q, formatFloat q)] level rest := by
  have hs : Stops isDigit rest := hr.stops (by decide) (by decide)
  have hd : ∀ d ds, rest = '.' :: d :: ds → isDigit d = false := by
    intro d ds e
    obtain ⟨c, cs, rfl, rfl | rfl⟩ := hr <;> simp at e
  by_cases h0 : q < 0
  · obtain ⟨w, f, hw0, hw, hf, e1, e2⟩ := formatUnsigned_spec (x := -q) (by grind) (isDecimal_neg hq)
    unfold formatFloat
    rw [if_pos h0, e1]
    refine lisp_token hl (by decide) fun pos before => ?_
    simp only [scanLisp, show ('-' = '\'') = False from by decide, show ('-' = '"') = False from by decide, if_false, if_true, true_or, parseNumber]
    rw [number_read hw hf hs hd]
    have hv := float_value hw0 hw hf
    have : parseFloat (['-'] ++ (w ++ if f.isEmpty = true then [] else '.' :: f)) = q := by
      have e : parseFloat ('-' :: (w ++ if f.isEmpty = true then [] else '.' :: f)) = - decimalValue w f := by
        simp only [parseFloat]
        congr 1
        cases f with
        | nil => simp only [List.isEmpty_nil, if_true, List.append_nil]; exact unsigned_whole hw
        | cons d f => simp only [List.isEmpty_cons, Bool.false_eq_true, if_false]; exact unsigned_eq hw hf
      rw [List.singleton_append, e, ← e2]; grind
    rw [this]; rfl
  · obtain ⟨w, f, hw0, hw, hf, e1, e2⟩ := float_parts (by grind) hq
    cases w with
    | nil => exact absurd rfl hw0
    | cons d w =>
      rw [e1, List.cons_append]
      have hdd := hw d (List.mem_cons_self ..)
      obtain ⟨_, f2, _, _, _, f6, f7, f8⟩ := digit_facts hdd
      refine lisp_token hl f7 fun pos before => ?_
      have hw' : AllDigits w := fun x hx => hw x (List.mem_cons_of_mem _ hx)
      simp only [List.mem_cons, not_or, List.not_mem_nil, not_false_eq_true, and_true] at f8
      simp only [scanLisp, f8, f2, if_false, if_true, or_true, parseNumber]
      rw [number_read hw' hf hs hd]
      have hv := float_value hw0 hw hf
      have : parseFloat ([d] ++ (w ++ if f.isEmpty = true then [] else '.' :: f)) = q := by rw [e2, ← hv]; rfl
      rw [this]; rfl

theorem Form.kinds_ne_nil (f : Form) : f.kinds ≠ [] := by cases f <;> simp [Form.kinds]

mutual
theorem Form.text_tokens : ∀ (f : Form), f.ok → ∀ (level : Int), 0 < level → ∀ rest, AfterForm rest → Tokenizes level f.text f.kinds level rest
  | .sym s, h, level, hl, rest, hr => by simp only [Form.text, Form.kinds, Form.ok] at *; exact symbol_token hl h hr
  | .num q, h, level, hl, rest, hr => by simp only [Form.text, Form.kinds, Form.ok] at *; exact number_token hl h hr
  | .str s, h, level, hl, rest, hr => by simp only [Form.text, Form.kinds, Form.ok] at *; exact string_token hl h
  | .list fs, h, level, hl, rest, hr => by
    simp only [Form.text, Form.kinds, Form.ok] at *
    have h2 := formTexts_tokens fs h (level + 1) (by omega) rest
    have : level + 1 - 1 = level := by omega
    rw [this] at h2
    exact Tokenizes.append (a := ['(']) (ks := [(.leftParen, ['('])]) (by simp) (paren_open level _) h2
  | .quoted f, h, level, hl, rest, hr => by
    simp only [Form.text, Form.kinds, Form.ok] at *
    exact Tokenizes.append (a := ['\'']) (ks := [(.singleQuote, ['\''])]) (by simp) (quote_token hl _) (Form.text_tokens f h.1 level hl rest hr)
theorem formTexts_tokens : ∀ (fs : List Form), formsOk fs → ∀ (level : Int), 0 < level → ∀ rest,
    Tokenizes level (formTexts fs ++ [')']) (formKinds fs ++ [(.rightParen, [')'])]) (level - 1) rest
  | [], _, level, hl, rest => by simp only [formTexts, formKinds, List.nil_append]; exact paren_close level rest
  | [f], h, level, hl, rest => by
    simp only [formTexts, formKinds, formsOk, List.isEmpty_nil, if_true, List.append_nil] at *
    exact Tokenizes.append (Form.kinds_ne_nil f) (Form.text_tokens f h.1 level hl _ ⟨')', rest, rfl, Or.inr rfl⟩) (paren_close level rest)
  | f :: g :: fs, h, level, hl, rest => by
    have h2 := formTexts_tokens (g :: fs) (by simp only [formsOk] at h ⊢; exact h.2) level hl rest
    rw [formTexts, formKinds]
    simp only [List.isEmpty_cons, Bool.false_eq_true, if_false, List.append_assoc, List.cons_append]
    refine Tokenizes.blank (Form.kinds_ne_nil f) (by decide) (Form.text_tokens f (by simp only [formsOk] at h; exact h.1) level hl _ ⟨' ', _, rfl, Or.inl rfl⟩) h2
end

end Syn
end Alda
