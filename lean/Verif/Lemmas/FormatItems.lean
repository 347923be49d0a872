import Verif.Lemmas.FormatScan
/-!
The pieces of text that the formatter makes of a well-formed tree: each is read as its own tokens.
-/
namespace Alda
namespace Syn
open Spec Tree

/-- Before white space or the end, the piece is read as its tokens. -/
def TextOk : Item → Prop
  | .t _ text ks => text ≠ [] ∧ ks ≠ [] ∧ ∀ rest, Sep rest → Tokenizes 0 text ks 0 rest
  | .brk => True

theorem textOk_one {text : List Char} {tok : Tok} (h0 : text ≠ []) (h : ∀ rest, Sep rest → Tokenizes 0 text [(tok, text)] 0 rest) : TextOk (one text tok) :=
  ⟨h0, by simp, h⟩

theorem textOk_punct {c : Char} {t : Tok} (h : punctuation c = some t) : TextOk (one [c] t) := textOk_one (by simp) fun rest _ => punct_token h rest

/-- What may follow a piece that is not finished. -/
def After (shouldTie : Bool) (rest : List Char) : Prop :=
  if shouldTie then AfterLength rest else ∀ c cs, rest = c :: cs → c = ' ' ∨ c = '\n' ∨ c = '~' ∨ c ∈ digits

theorem Sep.afterLength {rest : List Char} (h : Sep rest) : AfterLength rest := fun c cs e => by rcases h c cs e with h | h <;> simp [h]

theorem Sep.after {rest : List Char} (h : Sep rest) (b : Bool) : After b rest := by
  cases b
  · intro c cs e; rcases h c cs e with h | h <;> simp [h]
  · exact h.afterLength

theorem after_tie (b : Bool) (rest : List Char) : After b ('~' :: rest) := by
  cases b
  · intro c cs e; injection e with e _; simp [← e]
  · intro c cs e; injection e with e _; simp [← e]

theorem Comp.text_cons {c : Comp} (hc : c.ok) (hb : c ≠ .bar) : ∃ d ds, c.text = d :: ds ∧ d ∈ digits := by
  have key : ∀ q : Rat, IsDecimal q → 0 ≤ q → ∃ d ds, formatFloat q = d :: ds ∧ d ∈ digits := by
    intro q hq h0
    obtain ⟨w, f, hw0, hw, _, e, _⟩ := float_parts h0 hq
    cases w with
    | nil => exact absurd rfl hw0
    | cons d w => exact ⟨d, _, by rw [e]; rfl, hw d (List.mem_cons_self ..)⟩
  cases c with
  | bar => exact absurd rfl hb
  | len d dots => obtain ⟨x, xs, e, h⟩ := key d hc.1 hc.2.1; exact ⟨x, _, by rw [Comp.text, e]; rfl, h⟩
  | ms q => obtain ⟨x, xs, e, h⟩ := key q hc.1 hc.2; exact ⟨x, _, by rw [Comp.text, e]; rfl, h⟩
  | sec q => obtain ⟨x, xs, e, h⟩ := key q hc.1 hc.2; exact ⟨x, _, by rw [Comp.text, e]; rfl, h⟩

/-- A piece that is not finished yet. -/
def Pending (text : List Char) (ks : List Kind) (shouldTie : Bool) : Prop :=
  (text = [] ∧ ks = [] ∧ shouldTie = true) ∨ (text ≠ [] ∧ ks ≠ [] ∧ ∀ rest, After shouldTie rest → Tokenizes 0 text ks 0 rest)

theorem tie_token (rest : List Char) : Tokenizes 0 ['~'] [tieKind] 0 rest := punct_token (by decide) rest

theorem Pending.slur {text : List Char} {ks : List Kind} {b : Bool} (h : Pending text ks b) (slur : Bool) (h0 : text ++ tieText slur ≠ []) :
    TextOk (.t false (text ++ tieText slur) (ks ++ slurKinds slur)) := by
  cases slur with
  | false =>
    simp only [tieText, slurKinds, Bool.false_eq_true, if_false, List.append_nil] at h0 ⊢
    rcases h with ⟨h, _⟩ | ⟨_, h2, h3⟩
    · exact absurd h h0
    · exact ⟨h0, h2, fun rest hr => h3 rest (hr.after b)⟩
  | true =>
    simp only [tieText, slurKinds, if_true]
    rcases h with ⟨rfl, rfl, _⟩ | ⟨h1, h2, h3⟩
    · exact ⟨by simp, by simp, fun rest _ => tie_token rest⟩
    · exact ⟨by simp, by simp, fun rest _ => Tokenizes.append h2 (h3 _ (after_tie b rest)) (tie_token rest)⟩

theorem textOk_piece {text : List Char} {ks : List Kind} (h : text ≠ [] → TextOk (.t false text ks)) : ∀ i ∈ piece text ks, TextOk i := by
  intro i hi
  unfold piece at hi
  split at hi
  · simp at hi
  · rename_i h0
    simp only [List.mem_singleton] at hi
    rw [hi]; exact h (by simpa using h0)

theorem durItems_ok (slur : Bool) : ∀ (cs : List Comp) (text : List Char) (ks : List Kind) (b : Bool), (∀ c ∈ cs, c.ok) → Pending text ks b →
    (b = false → cs.head? ≠ some .bar) → ∀ i ∈ durItems slur cs text ks b, TextOk i
  | [], text, ks, b, _, hp, _, i, hi => by
    unfold durItems at hi
    split at hi
    · simp at hi
    · rename_i h0
      simp only [List.mem_singleton] at hi
      rw [hi]; exact hp.slur slur (by intro h; exact h0 (by simp [(List.append_eq_nil_iff.1 h).1]))
  | c :: cs, text, ks, b, hok, hp, hb, i, hi => by
    unfold durItems at hi
    have hok' : ∀ c ∈ cs, c.ok := fun x hx => hok x (List.mem_cons_of_mem _ hx)
    split at hi
    · rename_i hc
      subst hc
      have hbt : b = true := by cases b with
        | true => rfl
        | false => exact absurd rfl (hb rfl)
      rcases List.mem_append.1 hi with hi | hi
      · split at hi
        · exact textOk_piece (fun h => hp.slur slur h) i hi
        · refine textOk_piece (fun h => ?_) i hi
          have := hp.slur false (by simpa [tieText] using h)
          simpa [tieText, slurKinds] using this
      · rcases List.mem_cons.1 hi with rfl | hi
        · exact ⟨by simp, by simp, fun rest _ => punct_token (by decide) rest⟩
        · exact durItems_ok slur cs [] [] b hok' (Or.inl ⟨rfl, rfl, hbt⟩) (by simp [hbt]) i hi
    · rename_i hc
      refine durItems_ok slur cs _ _ true hok' (Or.inr ⟨?_, ?_, ?_⟩) (by simp) i hi
      · obtain ⟨d, ds, e, _⟩ := Comp.text_cons (hok c (List.mem_cons_self ..)) hc
        simp [e]
      · simp
      · intro rest hr
        have hct := Comp.text_token (hok c (List.mem_cons_self ..)) hc (rest := rest) hr
        cases b with
        | true =>
          simp only [tieText, tieKinds, if_true]
          have h2 := Tokenizes.append (by simp) (tie_token (c.text ++ rest)) hct
          rcases hp with ⟨rfl, rfl, _⟩ | ⟨_, h2', h3⟩
          · exact h2
          · rw [List.append_assoc, List.append_assoc]
            exact Tokenizes.append h2' (h3 _ (by rw [List.append_assoc]; exact after_tie true _)) h2
        | false =>
          simp only [tieText, tieKinds, Bool.false_eq_true, if_false, List.append_nil]
          rcases hp with ⟨_, _, h⟩ | ⟨_, h2', h3⟩
          · simp at h
          · refine Tokenizes.append h2' (h3 _ ?_) hct
            obtain ⟨d, ds, e, hd⟩ := Comp.text_cons (hok c (List.mem_cons_self ..)) hc
            intro x xs hx
            rw [e] at hx
            injection hx with hx _
            rw [← hx]; simp [hd]

theorem after_false_note {rest : List Char} (h : After false rest) : ∀ d ds, rest = d :: ds → followsNoteLetter d = true ∧ followsRestLetter d = true := by
  intro d ds e
  rcases h d ds e with rfl | rfl | rfl | h
  · decide
  · decide
  · decide
  · exact ⟨(digit_facts h).2.2.1, (digit_facts h).2.2.2.1⟩

theorem accs_tokens : ∀ (accs : List Accidental) (rest : List Char),
    Tokenizes 0 (accs.map accChar) (accs.map fun a => (accTok a, [accChar a])) 0 rest
  | [], rest => Tokenizes.nothing 0 rest
  | a :: accs, rest => by
    have h1 : Tokenizes 0 [accChar a] [(accTok a, [accChar a])] 0 (accs.map accChar ++ rest) := punct_token (by cases a <;> decide) _
    exact Tokenizes.append (by simp) h1 (accs_tokens accs rest)

theorem note_pending {c : Char} (hc : c ∈ ['a', 'b', 'c', 'd', 'e', 'f', 'g']) (accs : List Accidental) :
    Pending (c :: accs.map accChar) ((.noteLetter c, [c]) :: accs.map fun a => (accTok a, [accChar a])) false := by
  refine Or.inr ⟨by simp, by simp, fun rest hr => ?_⟩
  refine Tokenizes.append (a := [c]) (ks := [(.noteLetter c, [c])]) (by simp) (note_token hc ?_) (accs_tokens accs rest)
  intro d ds e
  cases accs with
  | nil => exact (after_false_note hr d ds e).1
  | cons a accs => injection e with e _; rw [← e]; cases a <;> decide

theorem rest_pending : Pending ['r'] [(.restLetter, ['r'])] false :=
  Or.inr ⟨by simp, by simp, fun _ hr => rest_token fun d ds e => (after_false_note hr d ds e).2⟩

theorem cram_pending : Pending ['}'] [(.cramClose, ['}'])] false :=
  Or.inr ⟨by simp, by simp, fun rest _ => punct_token (by decide) rest⟩

theorem sexp_textOk {fs : List Form} (h : formsOk fs) :
    TextOk (.t false ('(' :: (formTexts fs ++ [')'])) ((.leftParen, ['(']) :: (formKinds fs ++ [(.rightParen, [')'])]))) := by
  refine ⟨by simp, by simp, fun rest _ => ?_⟩
  exact Tokenizes.append (a := ['(']) (ks := [(.leftParen, ['('])]) (by simp) (paren_open 0 _) (formTexts_tokens fs h 1 (by decide) rest)

theorem mem_glueAll {i : Item} : ∀ {is : List Item}, i ∈ glueAll is → ∃ j ∈ is, TextOk j → TextOk i
  | [], h => by simp [glueAll] at h
  | .t g text ks :: is, h => by
    simp only [glueAll, List.mem_cons] at h
    rcases h with rfl | h
    · exact ⟨.t g text ks, List.mem_cons_self .., fun h => h⟩
    · obtain ⟨j, hj, hh⟩ := mem_glueAll h
      exact ⟨j, List.mem_cons_of_mem _ hj, hh⟩
  | .brk :: is, h => by
    simp only [glueAll, List.mem_cons] at h
    rcases h with rfl | h
    · exact ⟨.brk, List.mem_cons_self .., fun h => h⟩
    · obtain ⟨j, hj, hh⟩ := mem_glueAll h
      exact ⟨j, List.mem_cons_of_mem _ hj, hh⟩

theorem mem_glueFirst {i : Item} {is : List Item} (h : i ∈ glueFirst is) : ∃ j ∈ is, TextOk j → TextOk i := by
  cases is with
  | nil => simp [glueFirst] at h
  | cons j is =>
    cases j with
    | t g text ks =>
      simp only [glueFirst, List.mem_cons] at h
      rcases h with rfl | h
      · exact ⟨.t g text ks, List.mem_cons_self .., fun h => h⟩
      · exact ⟨i, List.mem_cons_of_mem _ h, id⟩
    | brk => exact ⟨i, h, id⟩

theorem name_textOk {s : String} (h : isName s) : TextOk (one s.toList .name) := by
  refine textOk_one ?_ fun rest hr => name_token h (hr.stops (by decide) (by decide))
  obtain ⟨a, b, cs, e, _⟩ := h
  simp [e]

mutual
theorem Ev.items_ok : ∀ (e : Ev), e.ok → ∀ i ∈ e.items, TextOk i
  | .note c accs d slur, h, i, hi => by
    simp only [Ev.ok, Ev.items] at h hi
    exact durItems_ok slur d _ _ false h.2.1.1 (note_pending h.1 accs) (fun _ => h.2.1.2) i hi
  | .rest d, h, i, hi => by
    simp only [Ev.ok, Ev.items] at h hi
    exact durItems_ok false d _ _ false h.1 rest_pending (fun _ => h.2) i hi
  | .chord es, h, i, hi => by
    simp only [Ev.ok, Ev.items] at h hi
    exact chordItems_ok es h.1 i hi
  | .up, _, i, hi => by simp only [Ev.items, List.mem_singleton] at hi; rw [hi]; exact textOk_punct (by decide)
  | .down, _, i, hi => by simp only [Ev.items, List.mem_singleton] at hi; rw [hi]; exact textOk_punct (by decide)
  | .oct n, h, i, hi => by
    simp only [Ev.ok, Ev.items, List.mem_singleton] at h hi
    rw [hi]; exact textOk_one (by simp) fun rest hr => octave_token h hr
  | .bar, _, i, hi => by simp only [Ev.items, List.mem_singleton] at hi; rw [hi]; exact textOk_punct (by decide)
  | .marker s, h, i, hi => by
    simp only [Ev.ok, Ev.items, List.mem_singleton] at h hi
    rw [hi]; exact textOk_one (by simp) fun rest hr => label_token (Or.inl ⟨rfl, rfl⟩) h hr
  | .at s, h, i, hi => by
    simp only [Ev.ok, Ev.items, List.mem_singleton] at h hi
    rw [hi]; exact textOk_one (by simp) fun rest hr => label_token (Or.inr ⟨rfl, rfl⟩) h hr
  | .ref s, h, i, hi => by
    simp only [Ev.ok, Ev.items, List.mem_singleton] at h hi
    rw [hi]; exact name_textOk h
  | .defn s es, h, i, hi => by
    simp only [Ev.ok, Ev.items, List.cons_append, List.mem_cons, List.mem_append, List.not_mem_nil, or_false] at h hi
    rcases hi with rfl | hi | rfl
    · refine ⟨by simp, by simp, fun rest _ => ?_⟩
      exact Tokenizes.blank (a := s.toList) (ks := [(.name, s.toList)]) (by simp) (by decide)
        (name_token h.1 (Stops.cons (by decide))) (punct_token (by decide) rest)
    · exact defItems_ok es h.2.2.1 i hi
    · trivial
  | .sexp fs, h, i, hi => by
    simp only [Ev.ok, Ev.items, List.mem_singleton] at h hi
    rw [hi]; exact sexp_textOk h
  | .seq es, h, i, hi => by
    simp only [Ev.ok, Ev.items, List.cons_append, List.mem_cons, List.mem_append, List.not_mem_nil, or_false] at h hi
    rcases hi with rfl | hi | rfl
    · exact textOk_punct (by decide)
    · exact items_ok es h.1 i hi
    · exact textOk_punct (by decide)
  | .cram es d, h, i, hi => by
    simp only [Ev.ok, Ev.items, List.cons_append, List.mem_cons, List.mem_append] at h hi
    rcases hi with rfl | hi | hi
    · exact textOk_punct (by decide)
    · exact items_ok es h.2.1 i hi
    · exact durItems_ok false d _ _ false h.2.2.2.1 cram_pending (fun _ => h.2.2.2.2) i hi
  | .voice n es, h, i, hi => by
    simp only [Ev.ok, Ev.items, List.mem_cons] at h hi
    rcases hi with rfl | hi
    · exact textOk_one (by simp) fun rest _ => voice_token h.1
    · exact items_ok es h.2.1 i hi
  | .voiceEnd, _, i, hi => by
    simp only [Ev.items, List.mem_singleton] at hi
    rw [hi]; exact textOk_one (by simp) fun rest _ => voice_token (n := 0) (by decide)
  | .group vs, h, i, hi => by
    simp only [Ev.ok, Ev.items] at h hi
    exact items_ok vs h.2.1 i hi
  | .rep e n, h, i, hi => by
    simp only [Ev.ok, Ev.items, List.mem_append, List.mem_singleton] at h hi
    rcases hi with hi | rfl
    · exact Ev.items_ok e h.1 i hi
    · exact textOk_one (by simp) fun rest hr => repeat_token h.2.1 hr
  | .onReps e rs, h, i, hi => by
    simp only [Ev.ok, Ev.items, List.mem_append, List.mem_singleton] at h hi
    rcases hi with hi | rfl
    · exact Ev.items_ok e h.1 i hi
    · exact textOk_one (by simp [rangesText]) fun rest hr => ranges_token h.2.1 h.2.2.1 hr
theorem items_ok : ∀ (es : List Ev), allOk es → ∀ i ∈ items es, TextOk i
  | [], _, i, hi => by simp [items] at hi
  | e :: es, h, i, hi => by
    simp only [allOk, items, List.mem_append] at h hi
    rcases hi with hi | hi
    · exact Ev.items_ok e h.1 i hi
    · exact items_ok es h.2 i hi
theorem chordItems_ok : ∀ (es : List Ev), allOk es → ∀ i ∈ chordItems es, TextOk i
  | [], _, i, hi => by simp [chordItems] at hi
  | e :: es, h, i, hi => by
    simp only [allOk, chordItems, List.mem_append] at h hi
    rcases hi with hi | hi | hi
    · exact Ev.items_ok e h.1 i hi
    · split at hi
      · simp only [List.mem_singleton] at hi; rw [hi]; exact textOk_punct (by decide)
      · simp at hi
    · exact chordItems_ok es h.2 i hi
theorem defItems_ok : ∀ (es : List Ev), allOk es → ∀ i ∈ defItems es, TextOk i
  | [], _, i, hi => by simp [defItems] at hi
  | [e], h, i, hi => by
    simp only [allOk, defItems] at h hi
    obtain ⟨j, hj, hh⟩ := mem_glueFirst hi
    exact hh (Ev.items_ok e h.1 j hj)
  | e :: e' :: es, h, i, hi => by
    have h2 := defItems_ok (e' :: es)
    simp only [allOk, defItems, List.mem_append] at h hi h2
    rcases hi with hi | hi
    · obtain ⟨j, hj, hh⟩ := mem_glueAll hi
      exact hh (Ev.items_ok e h.1 j hj)
    · exact h2 h.2 i hi
end

theorem names_tokens : ∀ (n : String) (ns : List String), isName n → (∀ s ∈ ns, isName s) → ∀ rest, Stops isValidNameChar rest →
    Tokenizes 0 (joinWith '/' (n.toList :: ns.map String.toList)) ((.name, n.toList) :: (ns.flatMap fun s => [(.separator, ['/']), (.name, s.toList)])) 0 rest
  | n, [], hn, _, rest, hr => name_token hn hr
  | n, m :: ns, hn, hns, rest, hr => by
    have h2 := names_tokens m ns (hns m (List.mem_cons_self ..)) (fun s hs => hns s (List.mem_cons_of_mem _ hs)) rest hr
    have h1 := Tokenizes.append (by simp) (punct_token (c := '/') (t := .separator) (by decide) _) h2
    exact Tokenizes.append (a := n.toList) (ks := [(.name, n.toList)]) (by simp) (name_token hn (Stops.cons (by decide))) h1

theorem decl_textOk {n : String} {ns : List String} {alias : Option String} (hn : isName n) (hns : ∀ s ∈ ns, isName s)
    (ha : ∀ a ∈ alias, ∀ c ∈ a.toList, NameChar c) (g : Bool) : TextOk (.t g (declText n ns alias) (declKinds n ns alias)) := by
  have colon := fun rest => punct_token (c := ':') (t := .colon) (by decide) rest
  refine ⟨by cases alias <;> simp [declText], by simp [declKinds], fun rest _ => ?_⟩
  cases alias with
  | none =>
    simp only [declText, declKinds, List.append_nil]
    exact Tokenizes.append (by simp) (names_tokens n ns hn hns _ (Stops.cons (by decide))) (colon rest)
  | some a =>
    simp only [declText, declKinds]
    have h1 := Tokenizes.append (by simp) (alias_token (s := a) (ha a rfl)) (colon rest)
    rw [List.append_assoc]
    simp only [List.cons_append, List.append_assoc, List.nil_append] at h1
    exact Tokenizes.blank (by simp) (by decide) (names_tokens n ns hn hns _ (Stops.cons (by decide))) h1

theorem partItems_ok {p : Tree.Part} (h : p.ok) : ∀ i ∈ p.items, TextOk i := by
  cases p with
  | implicit es => exact Alda.Syn.items_ok es h.2.1
  | declared n ns alias es =>
    intro i hi
    rcases List.mem_cons.1 hi with rfl | hi
    · exact decl_textOk h.1 h.2.1 h.2.2.1 false
    · exact Alda.Syn.items_ok es h.2.2.2.1 i hi

end Syn
end Alda
