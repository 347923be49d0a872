import Verif.Lemmas.Text
/-!
C27 (signature dispatch) and C28 (note length strings).
-/
namespace Alda
open Spec

theorem typeOk_iff (t : ArgType) (a : LispForm) : typeOk t a = true ↔ Fits t a := by
  unfold typeOk Fits
  cases t <;> cases a <;> simp [LispForm.hasType, typeName]

theorem fixedArgsMatch_iff (ts : List ArgType) (as : List LispForm) (h : as.length = ts.length)
    (hv : ∀ t, ts.getLast? ≠ some (.variadic t)) :
    fixedArgsMatch ts as = true ↔ SigMatch ts as := by
  induction ts generalizing as with
  | nil =>
    cases as with
    | nil => simp [fixedArgsMatch, SigMatch.nil]
    | cons a as => simp at h
  | cons t ts ih =>
    cases as with
    | nil => simp at h
    | cons a as =>
      simp only [List.length_cons, Nat.add_right_cancel_iff] at h
      have hv' : ∀ u, ts.getLast? ≠ some (.variadic u) := by
        intro u hu
        cases ts with
        | nil => simp at hu
        | cons t' ts => exact hv u (by rw [List.getLast?_cons_cons]; exact hu)
      simp only [fixedArgsMatch, Bool.and_eq_true, typeOk_iff, ih as h hv']
      constructor
      · rintro ⟨h1, h2⟩; exact .cons _ _ _ _ h1 h2
      · intro hm
        cases hm with
        | variadic u _ _ => exact absurd rfl (hv u)
        | cons _ _ _ _ h1 h2 => exact ⟨h1, h2⟩

theorem not_fits_variadic (t : ArgType) (a : LispForm) : ¬ Fits (.variadic t) a := by
  unfold Fits; cases a <;> simp [typeName]

theorem variadicMatch_iff (ts : List ArgType) (t : ArgType) (as : List LispForm) :
    (ts.length ≤ as.length ∧ fixedArgsMatch ts as = true ∧ (as.drop ts.length).all (typeOk t) = true)
      ↔ SigMatch (ts ++ [.variadic t]) as := by
  induction ts generalizing as with
  | nil =>
    simp only [List.length_nil, Nat.zero_le, fixedArgsMatch, List.drop_zero, List.all_eq_true, typeOk_iff,
      true_and, List.nil_append]
    constructor
    · intro h; exact .variadic _ _ h
    · intro h
      cases h with
      | variadic _ _ h => exact h
      | cons _ _ _ _ h1 _ => exact absurd h1 (not_fits_variadic _ _)
  | cons u us ih =>
    cases as with
    | nil =>
      simp only [List.length_cons, List.length_nil, Nat.le_zero_eq, Nat.add_eq_zero_iff, Nat.succ_ne_self,
        and_false, false_and, false_iff]
      intro h
      generalize hts : u :: us ++ [ArgType.variadic t] = ts at h
      cases h with
      | nil => simp at hts
      | variadic v _ _ => simp at hts
    | cons a as =>
      simp only [List.length_cons, Nat.add_le_add_iff_right, fixedArgsMatch, Bool.and_eq_true, List.drop_succ_cons,
        typeOk_iff, List.cons_append]
      constructor
      · rintro ⟨h1, ⟨h2, h3⟩, h4⟩
        exact .cons _ _ _ _ h2 ((ih as).1 ⟨h1, h3, h4⟩)
      · intro h
        generalize hts : u :: (us ++ [ArgType.variadic t]) = ts at h
        cases h with
        | variadic v _ _ => simp at hts
        | cons t' _ ts' _ h1 h2 =>
          simp only [List.cons.injEq] at hts
          obtain ⟨rfl, rfl⟩ := hts
          have := (ih as).2 h2
          exact ⟨this.1, ⟨h1, this.2.1⟩, this.2.2⟩

/-- C27: argument lists are accepted exactly if they match the signature. -/
theorem c27_matching (args : List LispForm) (types : List ArgType) :
    argumentsMatchSignature args types = true ↔ SigMatch types args := by
  unfold argumentsMatchSignature
  by_cases h0 : types.length = 0 ∧ args.length = 0
  · have h1 := List.eq_nil_of_length_eq_zero h0.1
    have h2 := List.eq_nil_of_length_eq_zero h0.2
    subst h1 h2
    simp [SigMatch.nil]
  · simp only [h0, ↓reduceIte]
    split
    · rename_i t ht
      obtain ⟨ys, hys⟩ := List.getLast?_eq_some_iff.1 ht
      subst hys
      simp only [List.length_append, List.length_cons, List.length_nil, Nat.zero_add, Nat.add_sub_cancel,
        List.take_left']
      rw [← variadicMatch_iff]
      by_cases hl : args.length < ys.length
      · have : ¬ (ys.length ≤ args.length) := by omega
        simp [hl, this]
      · have : ys.length ≤ args.length := by omega
        simp [hl, this]
    · rename_i hv
      by_cases hl : args.length = types.length
      · simp only [hl, ne_eq, not_true_eq_false, ↓reduceIte]
        exact fixedArgsMatch_iff types args hl (fun t ht => hv t ht)
      · simp only [hl, ne_eq, not_false_eq_true, ↓reduceIte, Bool.false_eq_true, false_iff]
        intro hm
        have : ∀ ts as, SigMatch ts as → (∀ t, ts.getLast? = some (.variadic t) → False) → as.length = ts.length := by
          intro ts as hm
          induction hm with
          | nil => simp
          | variadic t _ _ => intro h; exact absurd rfl (h t)
          | cons t a ts as _ _ ih =>
            intro h
            simp only [List.length_cons, Nat.add_right_cancel_iff]
            apply ih
            intro u hu
            cases ts with
            | nil => simp at hu
            | cons t' ts => exact h u (by rw [List.getLast?_cons_cons]; exact hu)
        exact hl (this _ _ hm hv)

/-- C27: a call uses the first signature that matches: every earlier one does not match. -/
theorem c27_first_match (before : List Signature) (s : Signature) (after : List Signature) (args : List LispForm)
    (hb : ∀ b ∈ before, ¬ SigMatch b.types args) (hs : SigMatch s.types args) :
    operate (before ++ s :: after) args = s.impl args := by
  induction before with
  | nil => simp [operate, (c27_matching args s.types).2 hs]
  | cons b bs ih =>
    have h1 : argumentsMatchSignature args b.types = false := by
      cases h : argumentsMatchSignature args b.types with
      | false => rfl
      | true => exact absurd ((c27_matching _ _).1 h) (hb b (List.mem_cons_self ..))
    simp only [List.cons_append, operate, h1, Bool.false_eq_true, ↓reduceIte]
    exact ih (fun c hc => hb c (List.mem_cons_of_mem _ hc))

/-- C27: if no signature matches, the call is an error. -/
theorem c27_no_match (sigs : List Signature) (args : List LispForm) (h : ∀ s ∈ sigs, ¬ SigMatch s.types args) :
    ∃ what, operate sigs args = .error (.user what) := by
  induction sigs with
  | nil => exact ⟨_, rfl⟩
  | cons b bs ih =>
    have h1 : argumentsMatchSignature args b.types = false := by
      cases h' : argumentsMatchSignature args b.types with
      | false => rfl
      | true => exact absurd ((c27_matching _ _).1 h') (h b (List.mem_cons_self ..))
    simp only [operate, h1, Bool.false_eq_true, ↓reduceIte]
    exact ih (fun c hc => h c (List.mem_cons_of_mem _ hc))

-- `(list 1 "a")`, a signature with a fixed and a variadic part, and a mismatch
example : SigMatch [.variadic .any] [.num 1, .str "a"] := .variadic _ _ (by simp [Fits])
example : SigMatch [.string, .variadic .number] [.str "a", .num 1, .num 2] :=
  .cons _ _ _ _ (by simp [Fits, typeName]) (.variadic _ _ (by simp [Fits, typeName]))
example : ¬ SigMatch [.string] [.num 1] := by
  intro h; cases h with
  | cons _ _ _ _ h _ => simp [Fits, typeName] at h

/-! ### C28 -/

theorem decimalVal_eq (w f : List Char) (hw : AllDigits w) (hf : AllDigits f) :
    decimalVal w f = decimal w + (decimal f : Rat) / 10 ^ f.length := by
  unfold decimalVal; rw [digitsVal_eq w hw, digitsVal_eq f hf]

theorem dot_not_digit : '.' ∉ digits := by decide

theorem replicate_dot_head (k : Nat) (c : Char) (cs : List Char) (h : List.replicate k '.' = c :: cs) : c = '.' := by
  cases k with
  | zero => simp at h
  | succ k => simp only [List.replicate_succ, List.cons.injEq] at h; exact h.1.symm

/-- C28, first half: every text of the note length grammar is accepted, with that denominator and number of dots. -/
theorem c28_grammar_accepted (cs : List Char) (d : Rat) (k : Nat) (h : NoteLengthText cs d k) :
    noteLength cs = .ok (.length d k) := by
  have hfirst : ∀ w : List Char, w ≠ [] → AllDigits w → ∀ rest, ∃ c tl, w ++ rest = c :: tl ∧ isDigit c = true := by
    intro w hne hw rest
    cases w with
    | nil => exact absurd rfl hne
    | cons c cs => exact ⟨c, cs ++ rest, rfl, (isDigit_iff c).2 (hw c (List.mem_cons_self ..))⟩
  cases h with
  | whole w k hne hw =>
    have hs : spanDigits (w ++ List.replicate k '.') = (w, List.replicate k '.') :=
      spanDigits_append w _ hw (fun c cs h => replicate_dot_head k c cs h ▸ dot_not_digit)
    obtain ⟨c, tl, he, hc⟩ := hfirst w hne hw (List.replicate k '.')
    unfold noteLength
    rw [he] at hs ⊢
    simp only [hc, Bool.not_true, Bool.false_eq_true, ↓reduceIte, hs]
    have hf : decimalPart (List.replicate k '.') = ([], List.replicate k '.') := by
      match k with
      | 0 => rfl
      | 1 => rfl
      | k + 2 => simp only [List.replicate_succ, decimalPart]; rfl
    rw [hf]
    simp only [spanDots_replicate, List.length_nil, Nat.not_lt_zero, ↓reduceIte, gt_iff_lt]
    rw [decimalVal_eq w [] hw (by simp [AllDigits])]
    congr 2
    simp [decimal]; grind
  | decimal w f k hne hw hfne hf =>
    have hs : spanDigits (w ++ '.' :: f ++ List.replicate k '.') = (w, '.' :: f ++ List.replicate k '.') := by
      rw [List.append_assoc]
      exact spanDigits_append w _ hw (fun c cs h => by
        simp only [List.cons_append, List.cons.injEq] at h; rw [← h.1]; exact dot_not_digit)
    have hs2 : spanDigits (f ++ List.replicate k '.') = (f, List.replicate k '.') :=
      spanDigits_append f _ hf (fun c cs h => replicate_dot_head k c cs h ▸ dot_not_digit)
    obtain ⟨c, tl, he, hc⟩ := hfirst w hne hw ('.' :: f ++ List.replicate k '.')
    rw [← List.append_assoc] at he
    obtain ⟨c', tl', he', hc'⟩ := hfirst f hfne hf (List.replicate k '.')
    unfold noteLength
    rw [he] at hs ⊢
    simp only [hc, Bool.not_true, Bool.false_eq_true, ↓reduceIte, hs]
    rw [List.cons_append, he']
    rw [he'] at hs2
    simp only [decimalPart, hc', ↓reduceIte, hs2, spanDots_replicate, List.length_nil, Nat.not_lt_zero, gt_iff_lt]
    rw [decimalVal_eq w f hw hf]

/-- C28, second half, as far as it holds: what is accepted is a text of the grammar, with that denominator and number of dots, possibly followed
by one more arbitrary character. Missing for the full claim: that the extra character is rejected (it is not, see
`c28_trailing_character_witness`). -/
theorem c28_accepted_partial (cs : List Char) (r : DurComp) (h : noteLength cs = .ok r) :
    ∃ (text extra : List Char) (d : Rat) (k : Nat),
      cs = text ++ extra ∧ extra.length ≤ 1 ∧ NoteLengthText text d k ∧ r = .length d k := by
  unfold noteLength at h
  cases cs with
  | nil => simp at h
  | cons c tl =>
    by_cases hc : isDigit c = true
    · simp only [hc, Bool.not_true, Bool.false_eq_true, ↓reduceIte] at h
      have hsp := spanDigits_spec (c :: tl)
      have hne : (spanDigits (c :: tl)).1 ≠ [] := by simp [spanDigits, hc]
      generalize spanDigits (c :: tl) = sd at h hsp hne
      obtain ⟨w, rest⟩ := sd
      simp only at h hsp hne
      have plain : ∀ r', (if (spanDots rest).2.length > 1 then Except.error (Err.user "invalid note length")
          else Except.ok (DurComp.length (decimalVal w []) (spanDots rest).1)) = Except.ok r' →
          ∃ (text extra : List Char) (d : Rat) (k : Nat),
            c :: tl = text ++ extra ∧ extra.length ≤ 1 ∧ NoteLengthText text d k ∧ r' = .length d k := by
        intro r' hr'
        have hd := spanDots_spec rest
        by_cases hl : (spanDots rest).2.length > 1
        · simp [hl] at hr'
        · simp only [hl, ↓reduceIte, Except.ok.injEq] at hr'
          refine ⟨w ++ List.replicate (spanDots rest).1 '.', (spanDots rest).2, decimal w, (spanDots rest).1, ?_, by omega,
            .whole w _ hne hsp.2.1, ?_⟩
          · rw [List.append_assoc, hd.1, hsp.1]
          · rw [← hr', decimalVal_eq w [] hsp.2.1 (by simp [AllDigits])]
            congr 1
            simp [decimal]; grind
      unfold decimalPart at h
      split at h
      · rename_i e rest'
        by_cases he : isDigit e = true
        · simp only [he, ↓reduceIte] at h
          have hsp2 := spanDigits_spec (e :: rest')
          have hne2 : (spanDigits (e :: rest')).1 ≠ [] := by simp [spanDigits, he]
          generalize spanDigits (e :: rest') = sd2 at h hsp2 hne2
          obtain ⟨f, rest2⟩ := sd2
          simp only at h hsp2 hne2
          have hd := spanDots_spec rest2
          by_cases hl : (spanDots rest2).2.length > 1
          · simp [hl] at h
          · simp only [hl, ↓reduceIte, Except.ok.injEq] at h
            refine ⟨w ++ '.' :: f ++ List.replicate (spanDots rest2).1 '.', (spanDots rest2).2, _, (spanDots rest2).1, ?_,
              by omega, .decimal w f _ hne hsp.2.1 hne2 hsp2.2.1, ?_⟩
            · rw [List.append_assoc, hd.1, List.append_assoc, List.cons_append, hsp2.1, hsp.1]
            · rw [← h, decimalVal_eq w f hsp.2.1 hsp2.2.1]
        · simp only [he, Bool.false_eq_true, ↓reduceIte] at h
          exact plain r h
      · exact plain r h
    · simp [hc] at h

/-- C28 is false of the code as it stands: one trailing character of garbage is accepted. -/
theorem c28_trailing_character_witness :
    noteLength "4x".toList = .ok (.length 4 0) ∧ ¬ ∃ d k, NoteLengthText "4x".toList d k := by
  refine ⟨?_, ?_⟩
  · have h : noteLength "4x".toList = .ok (.length (decimalVal ['4'] []) 0) := by rfl
    rw [h]; congr 2; decide +kernel
  rintro ⟨d, k, h⟩
  have hx : ∀ w rest : List Char, w ++ rest = ['4', 'x'] → AllDigits w → w ≠ [] → w = ['4'] ∧ rest = ['x'] := by
    intro w rest h hw hne
    match w, h with
    | [], _ => exact absurd rfl hne
    | [a], h => simp at h; exact ⟨by simp [h.1], h.2⟩
    | a :: b :: w, h =>
      simp at h
      have := hw b (by simp)
      rw [h.2.1] at this
      exact absurd this (by decide)
  have e : "4x".toList = ['4', 'x'] := by decide
  rw [e] at h
  generalize hcs : ['4', 'x'] = cs at h
  cases h with
  | whole w k hne hw =>
    have := hx w _ hcs.symm hw hne
    cases k with
    | zero => simp at this
    | succ k => simp [List.replicate_succ] at this
  | decimal w f k hne hw _ _ =>
    rw [List.append_assoc] at hcs
    have := hx w _ hcs.symm hw hne
    simp at this

-- a dotted decimal note length: 0.5 with two dots
example : NoteLengthText "0.5..".toList (decimal ['0'] + (decimal ['5'] : Rat) / 10 ^ 1) 2 :=
  .decimal ['0'] ['5'] 2 (by decide) (by simp [AllDigits, digits]) (by decide) (by simp [AllDigits, digits])
example : ∃ r, noteLength "16..".toList = .ok r := ⟨_, rfl⟩

end Alda
