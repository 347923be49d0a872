import Verif.Lemmas.FormatParse
/-!
The parser on the tokens of well-formed trees: what a tree begins with, and chords.
-/
namespace Alda
namespace Syn
open Spec Tree

/-- The tokens that an event may begin with. -/
def startTok : Tok → Bool
  | .leftParen => true
  | .name => true
  | .octaveSet _ => true
  | .octaveUp => true
  | .octaveDown => true
  | .noteLetter _ => true
  | .restLetter => true
  | .barline => true
  | .eventSeqOpen => true
  | .cramOpen => true
  | .voiceMarker _ => true
  | .marker _ => true
  | .atMarker _ => true
  | _ => false

/-- The tokens that may come after an event. -/
def freshTok (t : Tok) : Bool := startTok t || match t with
  | .eof => true
  | .eventSeqClose => true
  | .cramClose => true
  | .repetitions _ => true
  | _ => false

/-! ### Beginnings -/

theorem note_kinds {c : Char} {accs : List Accidental} {d : List Comp} {slur : Bool} (h : Ev.ok (.note c accs d slur)) :
    itemKinds (Ev.items (.note c accs d slur)) = (.noteLetter c, [c]) :: ((accs.map fun a => (accTok a, [accChar a])) ++ durKinds false d ++ slurKinds slur) := by
  simp only [Ev.ok] at h
  simp only [Ev.items]
  rw [durItems_kinds slur d _ _ _ (by simp) h.2.2 (by simp) (comp_text_ne h.2.1.1)]
  simp

theorem rest_kinds {d : List Comp} (h : Ev.ok (.rest d)) : itemKinds (Ev.items (.rest d)) = (.restLetter, ['r']) :: durKinds false d := by
  simp only [Ev.ok] at h
  simp only [Ev.items]
  rw [durItems_kinds false d _ _ _ (by simp) (by simp) (by simp) (comp_text_ne h.1)]
  simp [slurKinds]

theorem cram_kinds {d : List Comp} (h : durOk d) : itemKinds (durItems false d ['}'] [(.cramClose, ['}'])] false) = (.cramClose, ['}']) :: durKinds false d := by
  rw [durItems_kinds false d _ _ _ (by simp) (by simp) (by simp) (comp_text_ne h.1)]
  simp [slurKinds]

/-- What the tokens of an event begin with. -/
def BeginsWith (e : Ev) : Prop := ∃ k t ks, itemKinds e.items = (k, t) :: ks ∧ startTok k = true ∧ (k = .barline → e.headBar = true) ∧
  ((∃ n, k = .voiceMarker n) → e.allowed .voice = false ∨ ∃ e' rs, e = .onReps e' rs)

theorem Ev.begins : ∀ (e : Ev), e.ok → BeginsWith e
  | .note c accs d slur, h => ⟨_, _, _, note_kinds h, rfl, by simp, by simp⟩
  | .rest d, h => ⟨_, _, _, rest_kinds h, rfl, by simp, by simp⟩
  | .chord [], h => by simp [Ev.ok, chordShape] at h
  | .chord (e :: es), h => by
    simp only [Ev.ok, allOk] at h
    have hnr : e.isNR = true := h.2.2.2.1 e rfl
    have hi : itemKinds (Ev.items (.chord (e :: es))) = itemKinds e.items ++ itemKinds ((if e.isNR && es.any Ev.isNR then [one ['/'] .separator] else []) ++ chordItems es) := by
      simp only [Ev.items, chordItems, itemKinds_append]
    cases e with
    | note c accs d slur =>
      refine ⟨_, _, _, by rw [hi, note_kinds h.1.1]; rfl, rfl, by simp, by simp⟩
    | rest d => exact ⟨_, _, _, by rw [hi, rest_kinds h.1.1]; rfl, rfl, by simp, by simp⟩
    | _ => simp [Ev.isNR] at hnr
  | .up, _ => ⟨_, _, _, rfl, rfl, by simp, by simp⟩
  | .down, _ => ⟨_, _, _, rfl, rfl, by simp, by simp⟩
  | .oct n, _ => ⟨_, _, _, rfl, rfl, by simp, by simp⟩
  | .bar, _ => ⟨_, _, _, rfl, rfl, fun _ => rfl, by simp⟩
  | .marker s, _ => ⟨_, _, _, rfl, rfl, by simp, by simp⟩
  | .at s, _ => ⟨_, _, _, rfl, rfl, by simp, by simp⟩
  | .ref s, _ => ⟨_, _, _, rfl, rfl, by simp, by simp⟩
  | .defn s es, _ => ⟨.name, s.toList, _, by simp only [Ev.items, List.cons_append, itemKinds]; rfl, rfl, by simp, by simp⟩
  | .sexp fs, _ => ⟨.leftParen, ['('], _, by simp only [Ev.items, itemKinds]; rfl, rfl, by simp, by simp⟩
  | .seq es, _ => ⟨.eventSeqOpen, ['['], _, by simp only [Ev.items, one, List.cons_append, itemKinds]; rfl, rfl, by simp, by simp⟩
  | .cram es d, _ => ⟨.cramOpen, ['{'], _, by simp only [Ev.items, one, List.cons_append, itemKinds]; rfl, rfl, by simp, by simp⟩
  | .voice n es, _ => ⟨.voiceMarker n, _, _, by simp only [Ev.items, one, itemKinds]; rfl, rfl, by simp, fun _ => Or.inl rfl⟩
  | .voiceEnd, _ => ⟨.voiceMarker 0, _, _, by simp only [Ev.items, one, itemKinds]; rfl, rfl, by simp, fun _ => Or.inl rfl⟩
  | .group [], h => by simp [Ev.ok] at h
  | .group (e :: es), h => by
    simp only [Ev.ok, groupShape] at h
    cases e with
    | voice n vs => exact ⟨.voiceMarker n, _, _, by simp only [Ev.items, items, one, List.cons_append, itemKinds]; rfl, rfl, by simp, fun _ => Or.inl rfl⟩
    | voiceEnd => simp at h
    | _ => simp at h
  | .rep e n, h => by
    simp only [Ev.ok] at h
    obtain ⟨k, t, ks, e1, e2, e3, e4⟩ := Ev.begins e h.1
    refine ⟨k, t, ks ++ itemKinds [one ('*' :: natDigits n) (.repeat n)], by simp only [Ev.items, itemKinds_append, e1]; rfl, e2, fun hk => ?_, fun hk => ?_⟩
    · have := e3 hk
      have hm := h.2.2
      cases e <;> simp [Ev.headBar, Ev.mayRepeat] at this hm
    · have := e4 hk
      have hm := h.2.2
      cases e <;> simp [Ev.allowed, Ev.mayRepeat] at this hm
  | .onReps e rs, h => by
    simp only [Ev.ok] at h
    obtain ⟨k, t, ks, e1, e2, e3, e4⟩ := Ev.begins e h.1
    exact ⟨k, t, ks ++ itemKinds [one (rangesText rs) (rangesTok rs)], by simp only [Ev.items, itemKinds_append, e1]; rfl, e2, e3, fun _ => Or.inr ⟨e, rs, rfl⟩⟩

/-! ### What may come after a note -/

/-- After a note without a repeat, what follows is neither an error nor a further note of a chord. -/
structure Calm (R : List Token) : Prop where
  between : ∃ ns R', (∀ fuel, R.length + 1 ≤ fuel → nodesBetween fuel R = .ok (ns, R')) ∧ ∀ u us, R' = u :: us → u.tok ≠ .separator
  settled : Settled R

/-- Tokens that do not matter to `Calm`. -/
def plainTok : Tok → Bool
  | .octaveUp => false
  | .octaveDown => false
  | .octaveSet _ => false
  | .leftParen => false
  | .separator => false
  | .barline => false
  | .tie => false
  | .noteLength _ _ => false
  | .noteLengthMs _ => false
  | .noteLengthSeconds _ => false
  | _ => true

/-- Tokens that do not stand between the notes of a chord. -/
def notBetween : Tok → Bool
  | .octaveUp => false
  | .octaveDown => false
  | .octaveSet _ => false
  | .leftParen => false
  | _ => true

theorem nodesBetween_stop {u : Token} {us : List Token} (h : notBetween u.tok = true) (fuel : Nat) : nodesBetween (fuel + 1) (u :: us) = .ok ([], u :: us) := by
  obtain ⟨t, x, p⟩ := u
  cases t <;> first | rfl | simp [notBetween] at h

theorem calm_plain {u : Token} (us : List Token) (h : plainTok u.tok = true) : Calm (u :: us) := by
  refine ⟨⟨[], u :: us, fun fuel hf => ?_, fun v vs e => ?_⟩, ?_⟩
  · obtain ⟨fuel, rfl⟩ : ∃ k, fuel = k + 1 := ⟨fuel - 1, by simp at hf; omega⟩
    refine nodesBetween_stop ?_ fuel
    obtain ⟨t, x, p⟩ := u
    cases t <;> first | rfl | simp [plainTok] at h
  · injection e with e _
    subst e
    intro h'
    rw [h'] at h; simp [plainTok] at h
  · obtain ⟨t, x, p⟩ := u
    unfold Settled
    cases t <;> first | rfl | simp [plainTok] at h

theorem calm_bar {u : Token} {us : List Token} (h : u.tok = .barline) (hc : Calm us) : Calm (u :: us) := by
  obtain ⟨t, x, p⟩ := u
  simp only at h
  subst h
  refine ⟨⟨[], ⟨.barline, x, p⟩ :: us, fun fuel hf => ?_, fun v vs e => ?_⟩, ?_⟩
  · obtain ⟨fuel, rfl⟩ : ∃ k, fuel = k + 1 := ⟨fuel - 1, by simp at hf; omega⟩
    exact nodesBetween_stop rfl fuel
  · injection e with e _
    rw [← e]; simp
  · have := hc.settled
    unfold Settled at this ⊢
    simpa only [matchBarlines] using this

theorem calm_octave {u : Token} {us : List Token} (h : u.tok = .octaveUp ∨ u.tok = .octaveDown ∨ ∃ n, u.tok = .octaveSet n) (hc : Calm us) : Calm (u :: us) := by
  obtain ⟨ns, R', h1, h2⟩ := hc.between
  obtain ⟨t, x, p⟩ := u
  simp only at h
  have key : (∃ n, ∀ fuel, us.length + 1 ≤ fuel → nodesBetween (fuel + 1) (⟨t, x, p⟩ :: us) = .ok (n :: ns, R')) → Settled (⟨t, x, p⟩ :: us) →
      Calm (⟨t, x, p⟩ :: us) := by
    rintro ⟨n, hn⟩ hs
    refine ⟨⟨n :: ns, R', fun fuel hf => ?_, h2⟩, hs⟩
    obtain ⟨fuel, rfl⟩ : ∃ k, fuel = k + 1 := ⟨fuel - 1, by simp at hf; omega⟩
    exact hn fuel (by simp at hf; omega)
  rcases h with rfl | rfl | ⟨n, rfl⟩
  · exact key ⟨leafNode .octaveUp, fun fuel hf => by simp only [nodesBetween, h1 fuel hf]⟩ rfl
  · exact key ⟨leafNode .octaveDown, fun fuel hf => by simp only [nodesBetween, h1 fuel hf]⟩ rfl
  · exact key ⟨leafNode .octaveSet (.int n), fun fuel hf => by simp only [nodesBetween, h1 fuel hf]⟩ rfl

theorem calm_sexp {u : Token} {us R : List Token} {fs : List Form} (h : u.tok = .leftParen) (hf : formsOk fs)
    (hk : kindsOf us = formKinds fs ++ [(.rightParen, [')'])]) (hc : Calm R) : Calm (u :: (us ++ R)) := by
  obtain ⟨ns, R', h1, h2⟩ := hc.between
  obtain ⟨t, x, p⟩ := u
  simp only at h
  subst h
  refine ⟨⟨branch .lispList (formNodes fs) :: ns, R', fun fuel hfu => ?_, h2⟩, rfl⟩
  obtain ⟨fuel, rfl⟩ : ∃ k, fuel = k + 1 := ⟨fuel - 1, by simp at hfu; omega⟩
  simp only [nodesBetween, lispList_run hf hk, h1 fuel (by simp at hfu; omega)]

theorem Ev.calm : ∀ (e : Ev), e.ok → ∀ (us R : List Token), kindsOf us = itemKinds e.items → Calm R → Calm (us ++ R) := by
  have key : ∀ (e : Ev), e.ok → (∀ k t ks, itemKinds e.items = (k, t) :: ks → plainTok k = true) →
      ∀ (us R : List Token), kindsOf us = itemKinds e.items → Calm R → Calm (us ++ R) := by
    intro e h hp us R hk _
    obtain ⟨k, t, ks, e1, _⟩ := Ev.begins e h
    rw [e1] at hk
    obtain ⟨p, us', rfl, _⟩ := kindsOf_cons hk
    exact calm_plain _ (hp k t ks e1)
  intro e
  induction e using Ev.rec (motive_2 := fun _ => True) with
  | note c accs d slur =>
    intro h
    refine key _ h fun k t ks e1 => ?_
    rw [note_kinds h] at e1
    injection e1 with e1 _; injection e1 with e1 _; rw [← e1]; rfl
  | rest d =>
    intro h
    refine key _ h fun k t ks e1 => ?_
    rw [rest_kinds h] at e1
    injection e1 with e1 _; injection e1 with e1 _; rw [← e1]; rfl
  | chord es _ =>
    intro h
    refine key _ h fun k t ks e1 => ?_
    cases es with
    | nil => simp [Ev.ok, chordShape] at h
    | cons e es =>
      simp only [Ev.ok, allOk] at h
      have hnr : e.isNR = true := h.2.2.2.1 e rfl
      simp only [Ev.items, chordItems, itemKinds_append] at e1
      cases e with
      | note c accs d slur =>
        rw [note_kinds h.1.1] at e1
        injection e1 with e1 _; injection e1 with e1 _; rw [← e1]; rfl
      | rest d =>
        rw [rest_kinds h.1.1] at e1
        injection e1 with e1 _; injection e1 with e1 _; rw [← e1]; rfl
      | _ => simp [Ev.isNR] at hnr
  | up =>
    intro _ us R hk hc
    obtain ⟨p, us', rfl, h'⟩ := kindsOf_cons (k := .octaveUp) (t := ['>']) (ks := []) hk
    obtain rfl := kindsOf_nil h'
    exact calm_octave (Or.inl rfl) hc
  | down =>
    intro _ us R hk hc
    obtain ⟨p, us', rfl, h'⟩ := kindsOf_cons (k := .octaveDown) (t := ['<']) (ks := []) hk
    obtain rfl := kindsOf_nil h'
    exact calm_octave (Or.inr (Or.inl rfl)) hc
  | oct n =>
    intro _ us R hk hc
    obtain ⟨p, us', rfl, h'⟩ := kindsOf_cons (k := .octaveSet n) (t := 'o' :: natDigits n) (ks := []) hk
    obtain rfl := kindsOf_nil h'
    exact calm_octave (Or.inr (Or.inr ⟨n, rfl⟩)) hc
  | bar =>
    intro _ us R hk hc
    obtain ⟨p, us', rfl, h'⟩ := kindsOf_cons (k := .barline) (t := ['|']) (ks := []) hk
    obtain rfl := kindsOf_nil h'
    exact calm_bar rfl hc
  | marker s =>
    intro h
    refine key _ h fun k t ks e1 => ?_
    injection e1 with e1 _; injection e1 with e1 _; rw [← e1]; rfl
  | «at» s =>
    intro h
    refine key _ h fun k t ks e1 => ?_
    injection e1 with e1 _; injection e1 with e1 _; rw [← e1]; rfl
  | ref s =>
    intro h
    refine key _ h fun k t ks e1 => ?_
    injection e1 with e1 _; injection e1 with e1 _; rw [← e1]; rfl
  | defn s es _ =>
    intro h
    refine key _ h fun k t ks e1 => ?_
    simp only [Ev.items, List.cons_append, itemKinds] at e1
    injection e1 with e1 _; injection e1 with e1 _; rw [← e1]; rfl
  | sexp fs =>
    intro h us R hk hc
    simp only [Ev.items, itemKinds, List.append_nil] at hk
    obtain ⟨p, us', rfl, h'⟩ := kindsOf_cons hk
    exact calm_sexp rfl (by simpa only [Ev.ok] using h) h' hc
  | seq es _ =>
    intro h
    refine key _ h fun k t ks e1 => ?_
    simp only [Ev.items, one, List.cons_append, itemKinds] at e1
    injection e1 with e1 _; injection e1 with e1 _; rw [← e1]; rfl
  | cram es d _ =>
    intro h
    refine key _ h fun k t ks e1 => ?_
    simp only [Ev.items, one, List.cons_append, itemKinds] at e1
    injection e1 with e1 _; injection e1 with e1 _; rw [← e1]; rfl
  | voice n es _ =>
    intro h
    refine key _ h fun k t ks e1 => ?_
    simp only [Ev.items, one, itemKinds] at e1
    injection e1 with e1 _; injection e1 with e1 _; rw [← e1]; rfl
  | voiceEnd =>
    intro h
    refine key _ h fun k t ks e1 => ?_
    injection e1 with e1 _; injection e1 with e1 _; rw [← e1]; rfl
  | group vs _ =>
    intro h
    refine key _ h fun k t ks e1 => ?_
    cases vs with
    | nil => simp [Ev.ok] at h
    | cons e es =>
      simp only [Ev.ok, groupShape] at h
      cases e with
      | voice n vs =>
        simp only [Ev.items, items, one, List.cons_append, itemKinds] at e1
        injection e1 with e1 _; injection e1 with e1 _; rw [← e1]; rfl
      | _ => simp at h
  | rep e n ih =>
    intro h us R hk hc
    simp only [Ev.ok] at h
    simp only [Ev.items, itemKinds_append] at hk
    obtain ⟨u1, u2, rfl, h1, h2⟩ := kindsOf_split hk
    obtain ⟨p, us', rfl, h'⟩ := kindsOf_cons (k := .repeat n) (t := '*' :: natDigits n) (ks := []) h2
    rw [List.append_assoc]
    exact ih h.1 u1 _ h1 (calm_plain _ rfl)
  | onReps e rs ih =>
    intro h us R hk hc
    simp only [Ev.ok] at h
    simp only [Ev.items, itemKinds_append] at hk
    obtain ⟨u1, u2, rfl, h1, h2⟩ := kindsOf_split hk
    obtain ⟨p, us', rfl, h'⟩ := kindsOf_cons (k := rangesTok rs) (t := rangesText rs) (ks := []) h2
    rw [List.append_assoc]
    exact ih h.1 u1 _ h1 (calm_plain _ rfl)
  | nil => trivial
  | cons => trivial

theorem items_calm : ∀ (es : List Ev), allOk es → ∀ (us R : List Token), kindsOf us = itemKinds (items es) → Calm R → Calm (us ++ R)
  | [], _, us, R, hk, hc => by
    obtain rfl := kindsOf_nil hk
    exact hc
  | e :: es, h, us, R, hk, hc => by
    simp only [allOk] at h
    simp only [items, itemKinds_append] at hk
    obtain ⟨u1, u2, rfl, h1, h2⟩ := kindsOf_split hk
    rw [List.append_assoc]
    exact Ev.calm e h.1 u1 _ h1 (items_calm es h.2 u2 R h2 hc)

/-! ### Chords -/

theorem between_run : ∀ (es : List Ev), allOk es → (∀ e ∈ es, e.inChord = true) → (∀ e ∈ es.getLast?, e.isNR = true) → es ≠ [] →
    ∀ (us R : List Token), kindsOf us = itemKinds (chordItems es) →
    ∃ xs ys u1 u2, es = xs ++ ys ∧ us = u1 ++ u2 ∧ kindsOf u2 = itemKinds (chordItems ys) ∧ (∀ e ∈ ys.head?, e.isNR = true) ∧ ys ≠ [] ∧
      ∀ fuel, us.length + 1 ≤ fuel → nodesBetween fuel (us ++ R) = .ok (nodes xs, u2 ++ R)
  | [], _, _, _, h0, _, _, _ => absurd rfl h0
  | e :: es, h, hin, hlast, h0, us, R, hk => by
    simp only [allOk] at h
    by_cases hnr : e.isNR = true
    · refine ⟨[], e :: es, [], us, rfl, rfl, hk, by simpa using hnr, by simp, fun fuel hf => ?_⟩
      obtain ⟨fuel, rfl⟩ : ∃ k, fuel = k + 1 := ⟨fuel - 1, by omega⟩
      have hk' := hk
      simp only [chordItems, itemKinds_append] at hk'
      obtain ⟨u1, u2, rfl, h1, h2⟩ := kindsOf_split hk'
      cases e with
      | note c accs d slur =>
        rw [note_kinds h.1] at h1
        obtain ⟨p, us', rfl, h'⟩ := kindsOf_cons h1
        exact nodesBetween_stop rfl fuel
      | rest d =>
        rw [rest_kinds h.1] at h1
        obtain ⟨p, us', rfl, h'⟩ := kindsOf_cons h1
        exact nodesBetween_stop rfl fuel
      | _ => simp [Ev.isNR] at hnr
    · have hes : es ≠ [] := by
        rintro rfl
        exact hnr (hlast e rfl)
      have hnr' : e.isNR = false := by simpa using hnr
      simp only [chordItems, itemKinds_append, hnr', Bool.false_and] at hk
      obtain ⟨u1, u2, rfl, h1, h2⟩ := kindsOf_split hk
      have hlast' : ∀ e ∈ es.getLast?, e.isNR = true := by
        intro x hx
        refine hlast x ?_
        rw [List.getLast?_cons]
        simp only [Option.mem_def] at hx
        simp [hx]
      obtain ⟨xs, ys, v1, v2, rfl, rfl, hy, hh, hne, hrun⟩ := between_run es h.2 (fun x hx => hin x (List.mem_cons_of_mem _ hx)) hlast' hes u2 R (by simpa [itemKinds] using h2)
      refine ⟨e :: xs, ys, u1 ++ v1, v2, rfl, by simp, hy, hh, hne, fun fuel hf => ?_⟩
      obtain ⟨fuel, rfl⟩ : ∃ k, fuel = k + 1 := ⟨fuel - 1, by omega⟩
      have hine := hin e (List.mem_cons_self ..)
      rw [List.append_assoc]
      cases e with
      | note => simp [Ev.isNR] at hnr
      | rest => simp [Ev.isNR] at hnr
      | up =>
        obtain ⟨p, us', rfl, h'⟩ := kindsOf_cons (k := .octaveUp) (t := ['>']) (ks := []) h1
        obtain rfl := kindsOf_nil h'
        simp only [List.cons_append, List.nil_append, nodesBetween, hrun fuel (by simp at hf ⊢; omega)]
        rfl
      | down =>
        obtain ⟨p, us', rfl, h'⟩ := kindsOf_cons (k := .octaveDown) (t := ['<']) (ks := []) h1
        obtain rfl := kindsOf_nil h'
        simp only [List.cons_append, List.nil_append, nodesBetween, hrun fuel (by simp at hf ⊢; omega)]
        rfl
      | oct n =>
        obtain ⟨p, us', rfl, h'⟩ := kindsOf_cons (k := .octaveSet n) (t := 'o' :: natDigits n) (ks := []) h1
        obtain rfl := kindsOf_nil h'
        simp only [List.cons_append, List.nil_append, nodesBetween, hrun fuel (by simp at hf ⊢; omega)]
        rfl
      | sexp fs =>
        simp only [Ev.items, itemKinds, List.append_nil] at h1
        obtain ⟨p, us', rfl, h'⟩ := kindsOf_cons h1
        simp only [List.cons_append, nodesBetween]
        rw [lispList_run (by simpa only [Ev.ok] using h.1) h']
        simp only [hrun fuel (by simp at hf ⊢; omega)]
        rfl
      | _ => simp [Ev.inChord] at hine

theorem allOk_append {xs ys : List Ev} : allOk (xs ++ ys) ↔ allOk xs ∧ allOk ys := by
  induction xs with
  | nil => simp [allOk]
  | cons x xs ih => simp [allOk, ih, and_assoc]

theorem nodes_append (xs ys : List Ev) : nodes (xs ++ ys) = nodes xs ++ nodes ys := by
  induction xs with
  | nil => rfl
  | cons x xs ih => simp [nodes, ih]

theorem lastTail_append {xs ys : List Ev} (h : ys ≠ []) : lastTail (xs ++ ys) = lastTail ys := by
  induction xs with
  | nil => rfl
  | cons x xs ih =>
    cases hc : xs ++ ys with
    | nil => simp at hc; exact absurd hc.2 h
    | cons z zs => rw [List.cons_append, hc, lastTail, ← hc, ih]; simp

theorem getLast?_append_ne {xs ys : List Ev} (h : ys ≠ []) : (xs ++ ys).getLast? = ys.getLast? := by
  rw [List.getLast?_append]
  cases hy : ys.getLast? with
  | none => simp at hy; exact absurd hy h
  | some => simp

/-- The repeat that follows, as `chordLoop` gives it. -/
def timesAfter : List Token → Int × List Token
  | ⟨.repeat n, _, _⟩ :: R => (n, R)
  | R => (0, R)

theorem chordLoop_last {e : Ev} (he : e.isNR = true) (hok : e.ok) {us R : List Token} (hk : kindsOf us = itemKinds e.items) (hR : AfterNote e.tailDur R)
    (hc : Calm R) (fuel : Nat) : chordLoop (fuel + 1) (us ++ R) = .ok ([e.node], timesAfter R) := by
  have hb : (∃ n x p R', R = ⟨.repeat n, x, p⟩ :: R') ∨ timesAfter R = (0, R) ∧ ∀ n x p R', R ≠ ⟨.repeat n, x, p⟩ :: R' := by
    cases R with
    | nil => exact Or.inr ⟨rfl, by simp⟩
    | cons u us =>
      obtain ⟨t, x, p⟩ := u
      cases t with
      | «repeat» n => exact Or.inl ⟨n, x, p, us, rfl⟩
      | _ => exact Or.inr ⟨rfl, by simp⟩
  obtain ⟨ns, R', h1, h2⟩ := hc.between
  unfold chordLoop
  rw [noteOrRest_run he hok hk hR]
  rcases hb with ⟨n, x, p, R', rfl⟩ | ⟨ht, hne⟩
  · rfl
  · rw [ht]
    simp only
    rw [h1 _ (Nat.le_refl _)]
    split
    · rename_i heq; cases heq
    · rename_i heq
      injection heq with heq
      injection heq with _ heq
      exact absurd rfl (h2 _ _ heq)
    · rfl

theorem afterNote_sep (tail : Bool) {u : Token} (h : u.tok = .separator) (us : List Token) : AfterNote tail (u :: us) := by
  obtain ⟨t, x, p⟩ := u
  simp only at h
  subst h
  refine ⟨fun u us e => ?_, fun u us e => ?_, fun _ u us e => ?_, rfl⟩
  all_goals
    injection e with e _
    rw [← e]
    simp [notLength]

theorem chordLoop_run : ∀ (n : Nat) (es : List Ev), es.length = n → allOk es → (∀ e ∈ es, e.inChord = true) → (∀ e ∈ es.head?, e.isNR = true) →
    (∀ e ∈ es.getLast?, e.isNR = true) → es ≠ [] → ∀ (us R : List Token), kindsOf us = itemKinds (chordItems es) → AfterNote (lastTail es) R → Calm R →
    ∀ fuel, n ≤ fuel → chordLoop fuel (us ++ R) = .ok (nodes es, timesAfter R) := by
  intro n
  induction n using Nat.strongRecOn with
  | ind n ih =>
    intro es hn h hin hhead hlast h0 us R hk hR hc fuel hf
    cases es with
    | nil => exact absurd rfl h0
    | cons e es =>
      obtain ⟨fuel, rfl⟩ : ∃ k, fuel = k + 1 := ⟨fuel - 1, by simp at hn; omega⟩
      have hnr : e.isNR = true := hhead e rfl
      simp only [allOk] at h
      by_cases hes : es = []
      · subst hes
        simp only [chordItems, List.any_nil, Bool.and_false, Bool.false_eq_true, if_false, List.append_nil] at hk
        exact chordLoop_last hnr h.1 hk hR hc fuel
      · have hlast' : ∀ e ∈ es.getLast?, e.isNR = true := by
          intro x hx
          refine hlast x ?_
          rw [List.getLast?_cons]
          simp only [Option.mem_def] at hx
          simp [hx]
        have hany : es.any Ev.isNR = true := by
          rw [List.any_eq_true]
          exact ⟨es.getLast hes, List.getLast_mem hes, hlast' _ (by simp [List.getLast?_eq_some_getLast hes])⟩
        simp only [chordItems, itemKinds_append, hnr, hany, Bool.and_self, if_true] at hk
        obtain ⟨u1, u2, rfl, h1, h2⟩ := kindsOf_split hk
        obtain ⟨p, u3, rfl, h3⟩ := kindsOf_cons (k := .separator) (t := ['/']) (ks := itemKinds (chordItems es)) h2
        obtain ⟨xs, ys, v1, v2, rfl, rfl, hy, hh, hne, hrun⟩ := between_run es h.2 (fun x hx => hin x (List.mem_cons_of_mem _ hx)) hlast' hes u3 R h3
        have hloop : chordLoop fuel (v2 ++ R) = .ok (nodes ys, timesAfter R) := by
          refine ih ys.length (by simp at hn; omega) ys rfl (allOk_append.1 h.2).2 (fun x hx => hin x (by simp [hx])) hh ?_ hne v2 R hy ?_ hc fuel (by simp at hn; omega)
          · rwa [getLast?_append_ne hne] at hlast'
          · rw [← List.cons_append, lastTail_append hne] at hR; exact hR
        rw [List.append_assoc, List.cons_append]
        unfold chordLoop
        rw [noteOrRest_run hnr h.1 h1 (afterNote_sep (u := ⟨.separator, ['/'], p⟩) _ rfl _)]
        simp only
        rw [nodesBetween_stop rfl]
        simp only
        rw [hrun _ (by simp)]
        simp only
        rw [hloop]
        simp [nodes, nodes_append]

theorem isNR_isNoteOrRest {e : Ev} (h : e.isNR = true) : isNoteOrRest e.node = true := by
  cases e <;> simp [Ev.isNR] at h <;> rfl

theorem singleOrRepeated_rep (n : Node) {k : Int} {x : List Char} {p : Pos} {R : List Token} :
    singleOrRepeated n (⟨.repeat k, x, p⟩ :: R) = (.mk .repeat .none [n, leafNode .times (.int k)], R) := rfl

theorem singleOrRepeated_single (n : Node) {R : List Token} (h : ∀ u us k, R = u :: us → u.tok ≠ .repeat k) : singleOrRepeated n R = (n, R) := by
  cases R with
  | nil => rfl
  | cons u us =>
    obtain ⟨t, x, p⟩ := u
    cases t with
    | «repeat» k => exact absurd rfl (h _ _ k rfl)
    | _ => rfl

/-- A repeat of a note or chord, with the times above 0. -/
theorem noteRestOrChord_times {toks R : List Token} {ns : List Node} {node : Node}
    (h : chordLoop (toks.length + 1) toks = .ok (ns, timesAfter R))
    (hn : (if (ns.filter isNoteOrRest).length > 1 then [.mk .chord .none ns] else ns) = [node])
    (hR : ∀ u us n, R = u :: us → u.tok = .repeat n → 0 < n) : noteRestOrChord toks = .ok (singleOrRepeated node R) := by
  have hb : (∃ n x p R', R = ⟨.repeat n, x, p⟩ :: R') ∨ timesAfter R = (0, R) ∧ ∀ u us k, R = u :: us → u.tok ≠ .repeat k := by
    cases R with
    | nil => exact Or.inr ⟨rfl, by simp⟩
    | cons u us =>
      obtain ⟨t, x, p⟩ := u
      cases t with
      | «repeat» n => exact Or.inl ⟨n, x, p, us, rfl⟩
      | _ =>
        refine Or.inr ⟨rfl, fun u us k e => ?_⟩
        injection e with e _
        rw [← e]; simp
  unfold noteRestOrChord
  rw [h]
  rcases hb with ⟨n, x, p, R', rfl⟩ | ⟨ht, hne⟩
  · simp only [timesAfter, hn, singleOrRepeated_rep]
    rw [if_pos (hR _ _ n rfl rfl)]
  · rw [ht, singleOrRepeated_single _ hne]
    simp only [hn]
    simp

theorem chordItems_length : ∀ (es : List Ev), allOk es → ∀ (us : List Token), kindsOf us = itemKinds (chordItems es) → es.length ≤ us.length
  | [], _, us, _ => by simp
  | e :: es, h, us, hk => by
    simp only [allOk] at h
    simp only [chordItems, itemKinds_append] at hk
    obtain ⟨u1, u23, rfl, h1, h2⟩ := kindsOf_split hk
    obtain ⟨u2, u3, rfl, h2, h3⟩ := kindsOf_split h2
    have ih := chordItems_length es h.2 u3 h3
    obtain ⟨k, t, ks, e1, _⟩ := Ev.begins e h.1
    rw [e1] at h1
    obtain ⟨p, us', rfl, _⟩ := kindsOf_cons h1
    simp
    omega

theorem nr_run {e : Ev} (he : e.isNR = true) (hok : e.ok) {us R : List Token} (hk : kindsOf us = itemKinds e.items) (hR : AfterNote e.tailDur R)
    (hc : Calm R) (ht : ∀ u us n, R = u :: us → u.tok = .repeat n → 0 < n) : noteRestOrChord (us ++ R) = .ok (singleOrRepeated e.node R) := by
  refine noteRestOrChord_times (chordLoop_last he hok hk hR hc _) ?_ ht
  simp [isNR_isNoteOrRest he]

theorem chord_run {es : List Ev} (hok : Ev.ok (.chord es)) {us R : List Token} (hk : kindsOf us = itemKinds (Ev.items (.chord es)))
    (hR : AfterNote (lastTail es) R) (hc : Calm R) (ht : ∀ u us n, R = u :: us → u.tok = .repeat n → 0 < n) :
    noteRestOrChord (us ++ R) = .ok (singleOrRepeated (Ev.node (.chord es)) R) := by
  simp only [Ev.ok] at hok
  obtain ⟨h, hlen, hin, hhead, hlast⟩ := hok
  simp only [Ev.items] at hk
  have hl := chordItems_length es h us hk
  refine noteRestOrChord_times (chordLoop_run _ es rfl h hin hhead hlast (by rintro rfl; simp at hlen) us R hk hR hc _ (by simp; omega)) ?_ ht
  have : ((nodes es).filter isNoteOrRest).length > 1 := by
    match es, hlen with
    | a :: b :: es, _ =>
      have ha := isNR_isNoteOrRest (hhead a rfl)
      rw [List.getLast?_eq_some_getLast (by simp)] at hlast
      have hb := hlast _ rfl
      rw [List.getLast_cons (by simp)] at hb
      have hm := List.getLast_mem (l := b :: es) (by simp)
      have hn : ∀ (xs : List Ev) (x : Ev), x ∈ xs → x.isNR = true → 0 < ((nodes xs).filter isNoteOrRest).length := by
        intro xs
        induction xs with
        | nil => simp
        | cons y ys ih =>
          intro x hx hxn
          rcases List.mem_cons.1 hx with rfl | hx
          · simp [nodes, isNR_isNoteOrRest hxn]
          · have := ih x hx hxn
            simp only [nodes, List.filter_cons]
            split <;> simp <;> first | omega | exact List.length_pos_iff.1 this |>.elim | (simpa using this)
      have := hn _ _ hm hb
      rw [nodes, List.filter_cons, if_pos ha, List.length_cons]
      omega
  rw [if_pos this]
  simp only [Ev.node]
  rfl

end Syn
end Alda
