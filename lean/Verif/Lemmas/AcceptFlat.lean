import Verif.Lemmas.AcceptNotes
/-!
The tokens of events of the grammar, as the parser meets them: a voice marker or the beginning of a variable's definition is
followed by events, whatever they belong to.
-/
namespace Alda
namespace Syn
namespace Accept
open Spec

/-- Nothing, or a repeat. -/
def Rep (ts : List Token) : Prop := ts = [] ∨ ∃ r k, ts = [r] ∧ r.tok = .repeat k

/-- Tokens of events; with `true`, of events of a sequence, where repetitions may come after an event. -/
inductive Flat : Bool → List Token → Prop where
  | nil : Flat false []
  | voice (v : Token) (k : Int) (ts : List Token) : v.tok = .voiceMarker k → Flat false ts → Flat false (v :: ts)
  | var (n eq t : Token) (ts : List Token) : n.tok = .name → eq.tok = .equals → t.pos.line = n.pos.line →
      Flat false (t :: ts) → Flat false (n :: eq :: t :: ts)
  | bar (t : Token) (ts : List Token) : t.tok = .barline → Flat false ts → Flat false (t :: ts)
  | octave (os : List Token) (n : Node) (ts : List Token) : OctaveG os n → Flat false ts → Flat false (os ++ ts)
  | mark (t : Token) (s : String) (ts : List Token) : t.tok = .marker s ∨ t.tok = .atMarker s → Flat false ts →
      Flat false (t :: ts)
  | ref (n : Token) (rep ts : List Token) : n.tok = .name → Rep rep → Flat false ts → Flat false (n :: (rep ++ ts))
  | sexp (us : List Token) (n : Node) (rep ts : List Token) : SexpG us n → Rep rep → Flat false ts →
      Flat false (us ++ (rep ++ ts))
  | notes (us : List Token) (n : Node) (rep ts : List Token) : NotesG us n → Rep rep → Flat false ts →
      Flat false (us ++ (rep ++ ts))
  | seq (o c : Token) (inner rep ts : List Token) : o.tok = .eventSeqOpen → c.tok = .eventSeqClose → Flat true inner →
      Rep rep → Flat false ts → Flat false (o :: (inner ++ c :: (rep ++ ts)))
  | cram (o c : Token) (inner ds : List Token) (dn : List Node) (rep ts : List Token) : o.tok = .cramOpen →
      c.tok = .cramClose → inner ≠ [] → Flat false inner → DurationG ds dn → Rep rep → Flat false ts →
      Flat false (o :: (inner ++ c :: (ds ++ (rep ++ ts))))
  | last (ts : List Token) : Flat false ts → Flat true ts
  | reps (ts : List Token) (r : Token) (us : List Token) : ts ≠ [] → Flat false ts → Reps r → Flat true us →
      Flat true (ts ++ r :: us)

theorem Flat.append {b : Bool} {ts us : List Token} (h : Flat b ts) (hb : b = false) (hu : Flat false us) :
    Flat false (ts ++ us) := by
  induction h with
  | nil => exact hu
  | voice v k ts hv _ ih => exact .voice v k _ hv (ih hb)
  | var n eq t ts h1 h2 h3 _ ih => exact .var n eq t _ h1 h2 h3 (ih hb)
  | bar t ts h1 _ ih => exact .bar t _ h1 (ih hb)
  | octave os n ts h1 _ ih => rw [List.append_assoc]; exact .octave os n _ h1 (ih hb)
  | mark t s ts h1 _ ih => exact .mark t s _ h1 (ih hb)
  | ref n rep ts h1 h2 _ ih => rw [List.cons_append, List.append_assoc]; exact .ref n rep _ h1 h2 (ih hb)
  | sexp os n rep ts h1 h2 _ ih => rw [List.append_assoc, List.append_assoc]; exact .sexp os n rep _ h1 h2 (ih hb)
  | notes os n rep ts h1 h2 _ ih => rw [List.append_assoc, List.append_assoc]; exact .notes os n rep _ h1 h2 (ih hb)
  | seq o c inner rep ts h1 h2 h3 h4 _ _ ih =>
    have := Flat.seq o c inner rep _ h1 h2 h3 h4 (ih hb)
    simpa using this
  | cram o c inner ds dn rep ts h1 h2 h3 h4 h5 h6 _ _ ih =>
    have := Flat.cram o c inner ds dn rep _ h1 h2 h3 h4 h5 h6 (ih hb)
    simpa using this
  | last => cases hb
  | reps => cases hb

theorem Flat.cons_seq {ts us : List Token} (h : Flat false ts) (hu : Flat true us) : Flat true (ts ++ us) := by
  cases hu with
  | last _ hu => exact .last _ (h.append rfl hu)
  | reps us r vs hne hu hr hv =>
    rw [← List.append_assoc]
    exact .reps _ r vs (by simp [hne]) (h.append rfl hu) hr hv

theorem _root_.Alda.Spec.RepeatedG.rep {ts us : List Token} {n m : Node} (h : RepeatedG ts n us m) :
    ∃ rep, us = ts ++ rep ∧ Rep rep := by
  cases h with
  | once => exact ⟨[], by simp, .inl rfl⟩
  | times t k ht => exact ⟨[t], rfl, .inr ⟨t, k, rfl, ht⟩⟩

mutual
theorem event_flat : ∀ {ts : List Token} {n : Node}, EventG ts n → Flat false ts ∧ ts ≠ []
  | _, _, .sexp ts us n m h hr => by
    obtain ⟨rep, rfl, hp⟩ := hr.rep
    have := Flat.sexp ts n rep [] h hp .nil
    exact ⟨by simpa using this, by simp [h.1.ne_nil]⟩
  | _, _, .octave ts n h => by
    have := Flat.octave ts n [] h .nil
    obtain ⟨t, rfl, _⟩ := h.head
    exact ⟨by simpa using this, by simp⟩
  | _, _, .notes ts n h => by
    have := Flat.notes ts n [] [] h (.inl rfl) .nil
    refine ⟨by simpa using this, ?_⟩
    cases h with
    | single _ h => exact h.ne_nil
    | chord ns h => cases h <;> simp
  | _, _, .notesTimes ts n t k h ht _ => by
    have := Flat.notes ts n [t] [] h (.inr ⟨t, k, rfl, ht⟩) .nil
    exact ⟨by simpa using this, by simp⟩
  | _, _, .notesZero ts n t k h ht _ => by
    have := Flat.notes ts n [t] [] h (.inr ⟨t, k, rfl, ht⟩) .nil
    exact ⟨by simpa using this, by simp⟩
  | _, _, .barline t h => ⟨.bar t [] h .nil, by simp⟩
  | _, _, .marker t s h => ⟨.mark t s [] (.inl h) .nil, by simp⟩
  | _, _, .atMarker t s h => ⟨.mark t s [] (.inr h) .nil, by simp⟩
  | _, _, .varRef t us m h hr => by
    obtain ⟨rep, rfl, hp⟩ := hr.rep
    have := Flat.ref t rep [] h hp .nil
    exact ⟨by simpa using this, by simp⟩
  | _, _, .varDef t eq ts ns h1 h2 hne hl => by
    obtain ⟨a, b⟩ := line_flat hl
    obtain ⟨u, us, rfl, hu⟩ := b hne
    exact ⟨.var t eq u us h1 h2 hu a, by simp⟩
  | _, _, .seq o c ts us ns m h1 h2 hs hr => by
    obtain ⟨rep, rfl, hp⟩ := hr.rep
    have := Flat.seq o c ts rep [] h1 h2 (seq_flat hs) hp .nil
    exact ⟨by simpa using this, by simp⟩
  | _, _, .cram o c ts ds us ns dn m h1 h2 hne hs hd hr => by
    obtain ⟨rep, rfl, hp⟩ := hr.rep
    obtain ⟨a, b⟩ := events_flat hs
    have := Flat.cram o c ts ds dn rep [] h1 h2 (b hne) a hd hp .nil
    exact ⟨by simpa using this, by simp⟩
  | _, _, .voices ts ns h => voices_flat h
theorem events_flat : ∀ {ts : List Token} {ns : List Node}, EventsG ts ns → Flat false ts ∧ (ns ≠ [] → ts ≠ [])
  | _, _, .nil => ⟨.nil, fun h => absurd rfl h⟩
  | _, _, .cons ts us n ns h1 h2 => by
    obtain ⟨a, b⟩ := event_flat h1
    exact ⟨a.append rfl (events_flat h2).1, fun _ => by simp [b]⟩
theorem line_flat : ∀ {line : Nat} {ts : List Token} {ns : List Node}, LineG line ts ns →
    Flat false ts ∧ (ns ≠ [] → ∃ t us, ts = t :: us ∧ t.pos.line = line)
  | _, _, _, .nil _ => ⟨.nil, fun h => absurd rfl h⟩
  | _, _, _, .cons line ts us n ns h1 hl h2 => by
    obtain ⟨a, b⟩ := event_flat h1
    refine ⟨a.append rfl (line_flat h2).1, fun _ => ?_⟩
    cases ts with
    | nil => exact absurd rfl b
    | cons t ts => exact ⟨t, ts ++ us, rfl, hl t rfl⟩
theorem seq_flat : ∀ {ts : List Token} {ns : List Node}, SeqG ts ns → Flat true ts
  | _, _, .nil => .last _ .nil
  | _, _, .cons ts us n ns h1 h2 => (event_flat h1).1.cons_seq (seq_flat h2)
  | _, _, .onReps ts us n ns t rs h1 ht h2 => .reps ts t us (event_flat h1).2 (event_flat h1).1 ⟨rs, ht⟩ (seq_flat h2)
theorem voices_flat : ∀ {ts : List Token} {ns : List Node}, VoicesG ts ns → Flat false ts ∧ ts ≠ []
  | _, _, .last v k ts ns hv h => ⟨.voice v k ts hv (events_flat h).1, by simp⟩
  | _, _, .ended v z k ts ns hv h hz =>
    ⟨.voice v k _ hv ((events_flat h).1.append rfl (.voice z 0 [] hz .nil)), by simp⟩
  | _, _, .cons v k ts us ns vs hv h h2 => ⟨.voice v k _ hv ((events_flat h).1.append rfl (voices_flat h2).1), by simp⟩
end

/-- An event may begin with this. -/
def starts : Tok → Bool
  | .leftParen | .name | .octaveUp | .octaveDown | .octaveSet _ | .noteLetter _ | .restLetter | .barline | .eventSeqOpen
  | .cramOpen | .voiceMarker _ | .marker _ | .atMarker _ => true
  | _ => false

theorem _root_.Alda.Spec.NotesG.head {ts : List Token} {n : Node} (h : NotesG ts n) :
    ∃ t us, ts = t :: us ∧ (t.tok = .restLetter ∨ ∃ c, t.tok = .noteLetter c) := by
  cases h with
  | single _ h => exact h.head
  | chord ns h =>
    cases h with
    | two ts bs cs us sep n m bn cn h => obtain ⟨t, us, rfl, hk⟩ := h.head; exact ⟨t, _, rfl, hk⟩
    | more ts bs cs us sep n bn cn ns h => obtain ⟨t, us, rfl, hk⟩ := h.head; exact ⟨t, _, rfl, hk⟩

theorem Flat.starts {b : Bool} {ts : List Token} (h : Flat b ts) : ts = [] ∨ ∃ t us, ts = t :: us ∧ Accept.starts t.tok = true := by
  induction h with
  | nil => exact .inl rfl
  | voice v k ts hv _ ih => exact .inr ⟨_, _, rfl, by rw [hv]; rfl⟩
  | var n eq t ts h1 h2 h3 _ ih => exact .inr ⟨_, _, rfl, by rw [h1]; rfl⟩
  | bar t ts h1 _ ih => exact .inr ⟨_, _, rfl, by rw [h1]; rfl⟩
  | octave os n ts h1 _ ih =>
    obtain ⟨t, rfl, h⟩ := h1.head
    exact .inr ⟨_, _, rfl, by rcases h with h | h | ⟨k, h⟩ <;> rw [h] <;> rfl⟩
  | mark t s ts h1 _ ih => exact .inr ⟨_, _, rfl, by rcases h1 with h | h <;> rw [h] <;> rfl⟩
  | ref n rep ts h1 h2 _ ih => exact .inr ⟨_, _, rfl, by rw [h1]; rfl⟩
  | sexp os n rep ts h1 h2 _ ih =>
    obtain ⟨l, us, rfl, hl, _⟩ := lispList_complete h1
    exact .inr ⟨_, _, rfl, by rw [hl]; rfl⟩
  | notes os n rep ts h1 h2 _ ih =>
    obtain ⟨l, us, rfl, hl⟩ := h1.head
    exact .inr ⟨_, _, rfl, by rcases hl with h | ⟨c, h⟩ <;> rw [h] <;> rfl⟩
  | seq o c inner rep ts h1 h2 h3 h4 _ _ ih => exact .inr ⟨_, _, rfl, by rw [h1]; rfl⟩
  | cram o c inner ds dn rep ts h1 h2 h3 h4 h5 h6 _ _ ih => exact .inr ⟨_, _, rfl, by rw [h1]; rfl⟩
  | last ts _ ih => exact ih
  | reps ts r us hne _ _ _ ih _ =>
    rcases ih with rfl | ⟨t, us, rfl, h⟩
    · exact absurd rfl hne
    · exact .inr ⟨_, _, rfl, h⟩

/-- What comes after events: the end of the file, a closing bracket, repetitions or a part's declaration. -/
def Tail (tail : List Token) : Prop :=
  ∃ t more, tail = t :: more ∧ (t.tok = .eof ∨ Closes t ∨ Reps t ∨ Declares t more)

/-- Such a token may come after an event. -/
def follows : Tok → Bool
  | .eof | .eventSeqClose | .cramClose | .repetitions _ => true
  | k => starts k

theorem Tail.follows {tail : List Token} (h : Tail tail) : ∃ t more, tail = t :: more ∧ Accept.follows t.tok = true ∧
    t.tok ≠ .barline ∧ t.tok ≠ .octaveUp ∧ t.tok ≠ .octaveDown ∧ (∀ k, t.tok ≠ .octaveSet k) ∧ t.tok ≠ .leftParen := by
  obtain ⟨t, more, rfl, h⟩ := h
  refine ⟨t, more, rfl, ?_⟩
  rcases h with h | (h | h) | ⟨rs, h⟩ | ⟨h, _⟩ <;> rw [h] <;> simp [Accept.follows, Accept.starts]

theorem starts_follows {k : Tok} (h : starts k = true) : follows k = true := by
  cases k <;> first | rfl | (exfalso; revert h; simp [starts])

theorem Flat.follows {ts tail : List Token} (h : Flat false ts) (ht : Tail tail) :
    ∃ t more, ts ++ tail = t :: more ∧ Accept.follows t.tok = true := by
  rcases h.starts with rfl | ⟨t, us, rfl, hk⟩
  · obtain ⟨t, more, rfl, hk, _⟩ := ht.follows; exact ⟨t, more, rfl, hk⟩
  · exact ⟨t, us ++ tail, rfl, starts_follows hk⟩

/-- Dropping barlines leaves events. -/
theorem Flat.bars {b : Bool} {ts : List Token} (h : Flat b ts) (hb : b = false) {tail : List Token} (ht : Tail tail) :
    ∃ ts', (matchBarlines (ts ++ tail)).2 = ts' ++ tail ∧ Flat false ts' ∧ ts' <:+ ts := by
  have stay : ∀ {ts : List Token}, Flat false ts → (∀ t more, ts = t :: more → t.tok ≠ .barline) →
      ∃ ts', (matchBarlines (ts ++ tail)).2 = ts' ++ tail ∧ Flat false ts' ∧ ts' <:+ ts := by
    intro ts hf hn
    refine ⟨ts, matchBarlines_none ?_, hf, List.suffix_refl _⟩
    intro t more e
    cases ts with
    | nil =>
      obtain ⟨u, m, rfl, _, hu, _⟩ := ht.follows
      cases e; exact hu
    | cons a ts => cases e; exact hn _ _ rfl
  induction h with
  | nil => exact stay .nil (by simp)
  | bar t ts h1 _ ih =>
    obtain ⟨ts', e1, e2, e3⟩ := ih hb
    obtain ⟨k, x, p⟩ := t
    cases h1
    exact ⟨ts', by simpa [matchBarlines] using e1, e2, e3.trans (List.suffix_cons _ _)⟩
  | voice v k ts hv h _ => exact stay (.voice v k ts hv h) (by intro t m e; cases e; simp [hv])
  | var n eq t ts h1 h2 h3 h ih => exact stay (.var n eq t ts h1 h2 h3 h) (by intro t m e; cases e; simp [h1])
  | octave os n ts h1 h ih =>
    refine stay (.octave os n ts h1 h) ?_
    obtain ⟨t, rfl, h⟩ := h1.head
    intro t m e; cases e; rcases h with h | h | ⟨k, h⟩ <;> simp [h]
  | mark t s ts h1 h ih =>
    exact stay (.mark t s ts h1 h) (by intro t m e; cases e; rcases h1 with h | h <;> simp [h])
  | ref n rep ts h1 h2 h ih => exact stay (.ref n rep ts h1 h2 h) (by intro t m e; cases e; simp [h1])
  | sexp os n rep ts h1 h2 h ih =>
    refine stay (.sexp os n rep ts h1 h2 h) ?_
    obtain ⟨l, us, rfl, hl, _⟩ := lispList_complete h1
    intro t m e; cases e; simp [hl]
  | notes os n rep ts h1 h2 h ih =>
    refine stay (.notes os n rep ts h1 h2 h) ?_
    obtain ⟨l, us, rfl, hl⟩ := h1.head
    intro t m e; cases e; rcases hl with h | ⟨c, h⟩ <;> simp [h]
  | seq o c inner rep ts h1 h2 h3 h4 h _ ih =>
    exact stay (.seq o c inner rep ts h1 h2 h3 h4 h) (by intro t m e; cases e; simp [h1])
  | cram o c inner ds dn rep ts h1 h2 h3 h4 h5 h6 h _ ih =>
    exact stay (.cram o c inner ds dn rep ts h1 h2 h3 h4 h5 h6 h) (by intro t m e; cases e; simp [h1])
  | last => cases hb
  | reps => cases hb

theorem noLength_of {R : List Token} (h : ∃ t more, R = t :: more ∧ follows t.tok = true) : NoLength R := by
  obtain ⟨⟨k, x, p⟩, more, rfl, h⟩ := h
  unfold NoLength matchDurationComponent
  split
  · rename_i heq; cases heq; cases h
  · rename_i heq; cases heq; cases h
  · rename_i heq; cases heq; cases h
  · rfl

theorem Flat.after {ts tail : List Token} (h : Flat false ts) (ht : Tail tail) : After (ts ++ tail) := by
  obtain ⟨ts', e1, e2, _⟩ := h.bars rfl ht
  refine ⟨?_, noLength_of (h.follows ht), ?_, ?_⟩
  · intro t more e
    obtain ⟨t', more', e', hf⟩ := h.follows ht
    rw [e] at e'; cases e'
    refine ⟨?_, ?_, ?_, ?_⟩ <;> intro hk <;> rw [hk] at hf <;> cases hf
  · intro t more e
    rw [e1] at e
    obtain ⟨t', more', e', hf⟩ := e2.follows ht
    rw [e] at e'; cases e'
    intro hk; rw [hk] at hf; cases hf
  · rw [e1]; exact noLength_of (e2.follows ht)

/-- Looking for another note of a chord succeeds and finds none. -/
theorem Flat.look {b : Bool} {ts : List Token} (h : Flat b ts) (hb : b = false) {tail : List Token} (ht : Tail tail) :
    ∀ fuel, (ts ++ tail).length < fuel → ∃ ns R', nodesBetween fuel (ts ++ tail) = .ok (ns, R') ∧
      ∀ t more, R' = t :: more → t.tok ≠ .separator := by
  have stay : ∀ {ts : List Token}, Flat false ts → NoBetween (ts ++ tail) → ∀ fuel, (ts ++ tail).length < fuel →
      ∃ ns R', nodesBetween fuel (ts ++ tail) = .ok (ns, R') ∧ ∀ t more, R' = t :: more → t.tok ≠ .separator := by
    intro ts hf hn fuel hl
    cases fuel with
    | zero => omega
    | succ fuel =>
      refine ⟨_, _, between_none hn fuel, ?_⟩
      intro t more e
      obtain ⟨t', more', e', hf⟩ := hf.follows ht
      rw [e] at e'; cases e'
      intro hk; rw [hk] at hf; cases hf
  induction h with
  | nil =>
    refine stay .nil ?_
    obtain ⟨u, m, rfl, _, _, hu⟩ := ht.follows
    intro t more e; cases e; exact hu
  | bar t ts h1 h ih => exact stay (.bar t ts h1 h) (by intro t m e; cases e; simp [h1])
  | voice v k ts hv h _ => exact stay (.voice v k ts hv h) (by intro t m e; cases e; simp [hv])
  | var n eq t ts h1 h2 h3 h ih => exact stay (.var n eq t ts h1 h2 h3 h) (by intro t m e; cases e; simp [h1])
  | octave os n ts h1 h ih =>
    intro fuel hf
    obtain ⟨t, rfl, _⟩ := h1.head
    cases fuel with
    | zero => omega
    | succ fuel =>
      obtain ⟨ns, R', e1, e2⟩ := ih hb fuel (by simp at hf ⊢; omega)
      exact ⟨_, R', by rw [List.append_assoc]; exact between_octave h1 e1, e2⟩
  | mark t s ts h1 h ih =>
    exact stay (.mark t s ts h1 h) (by intro t m e; cases e; rcases h1 with h | h <;> simp [h])
  | ref n rep ts h1 h2 h ih => exact stay (.ref n rep ts h1 h2 h) (by intro t m e; cases e; simp [h1])
  | sexp os n rep ts h1 h2 h ih =>
    intro fuel hf
    have hl : 0 < os.length := List.length_pos_iff.2 h1.1.ne_nil
    cases fuel with
    | zero => omega
    | succ fuel =>
      rcases h2 with rfl | ⟨r, k, rfl, hr⟩
      · obtain ⟨ns, R', e1, e2⟩ := ih hb fuel (by simp at hf ⊢; omega)
        exact ⟨_, R', by rw [List.append_assoc]; exact between_sexp h1 e1, e2⟩
      · cases fuel with
        | zero => simp at hf
        | succ fuel =>
          have e1 := between_none (R := r :: (ts ++ tail)) (by intro t m e; cases e; simp [hr]) fuel
          refine ⟨_, _, by rw [List.append_assoc]; exact between_sexp h1 e1, ?_⟩
          intro t m e; cases e; simp [hr]
  | notes os n rep ts h1 h2 h ih =>
    refine stay (.notes os n rep ts h1 h2 h) ?_
    obtain ⟨l, us, rfl, hl⟩ := h1.head
    intro t m e; cases e; rcases hl with h | ⟨c, h⟩ <;> simp [h]
  | seq o c inner rep ts h1 h2 h3 h4 h _ ih =>
    exact stay (.seq o c inner rep ts h1 h2 h3 h4 h) (by intro t m e; cases e; simp [h1])
  | cram o c inner ds dn rep ts h1 h2 h3 h4 h5 h6 h _ ih =>
    exact stay (.cram o c inner ds dn rep ts h1 h2 h3 h4 h5 h6 h) (by intro t m e; cases e; simp [h1])
  | last => cases hb
  | reps => cases hb

theorem Flat.next {ts tail : List Token} (h : Flat false ts) (ht : Tail tail) : Next (ts ++ tail) := by
  refine ⟨?_, h.look rfl ht _ (Nat.lt_succ_self _)⟩
  intro t more k e
  obtain ⟨t', more', e', hf⟩ := h.follows ht
  rw [e] at e'; cases e'
  intro hk; rw [hk] at hf; cases hf

/-- Events are not taken for a part's declaration. -/
theorem Flat.looks {ts tail : List Token} (h : Flat false ts) (hne : ts ≠ []) (ht : Tail tail) :
    looksLikePartDeclaration (ts ++ tail) = false := by
  have other : ∀ {X : List Token} {t : Token} {more : List Token}, X = t :: more → t.tok ≠ .name →
      looksLikePartDeclaration X = false := by
    intro X t more e hn
    subst e
    unfold looksLikePartDeclaration
    split
    · rename_i heq; cases heq; exact absurd rfl hn
    · rfl
  have name : ∀ {n u : Token} {more : List Token}, (Accept.follows u.tok = true ∨ u.tok = .equals ∨ ∃ k, u.tok = .repeat k) →
      looksLikePartDeclaration (n :: u :: more) = false := by
    intro n u more h
    unfold looksLikePartDeclaration
    split
    · rename_i heq
      cases heq
      split
      · rename_i heq; rw [heq] at h; simp [Accept.follows, Accept.starts] at h
      · rename_i heq; rw [heq] at h; simp [Accept.follows, Accept.starts] at h
      · rename_i heq; rw [heq] at h; simp [Accept.follows, Accept.starts] at h
      · rfl
    · rfl
  cases h with
  | nil => exact absurd rfl hne
  | voice v k ts hv _ => exact other rfl (by simp [hv])
  | var n eq t ts h1 h2 h3 _ => exact name (.inr (.inl h2))
  | bar t ts h1 _ => exact other rfl (by simp [h1])
  | octave os n ts h1 _ =>
    obtain ⟨t, rfl, h⟩ := h1.head
    exact other rfl (by rcases h with h | h | ⟨k, h⟩ <;> simp [h])
  | mark t s ts h1 _ => exact other rfl (by rcases h1 with h | h <;> simp [h])
  | ref n rep ts h1 h2 h =>
    rcases h2 with rfl | ⟨r, k, rfl, hr⟩
    · obtain ⟨t, more, e, hf⟩ := h.follows ht
      rw [List.cons_append, List.nil_append, e]
      exact name (.inl hf)
    · exact name (.inr (.inr ⟨k, hr⟩))
  | sexp os n rep ts h1 h2 _ =>
    obtain ⟨l, us, rfl, hl, _⟩ := lispList_complete h1
    exact other rfl (by simp [hl])
  | notes os n rep ts h1 h2 _ =>
    obtain ⟨l, us, rfl, hl⟩ := h1.head
    exact other rfl (by rcases hl with h | ⟨c, h⟩ <;> simp [h])
  | seq o c inner rep ts h1 h2 h3 h4 _ => exact other rfl (by simp [h1])
  | cram o c inner ds dn rep ts h1 h2 h3 h4 h5 h6 _ => exact other rfl (by simp [h1])

end Accept
end Syn
end Alda
