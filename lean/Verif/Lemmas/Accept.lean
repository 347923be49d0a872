import Verif.Lemmas.AcceptFlat
/-!
The parser accepts the tidy programs of the grammar.
-/
namespace Alda
namespace Syn
namespace Accept
open Spec

/-- Tokens without brackets. -/
def NoBrackets (ts : List Token) : Prop := ∀ t ∈ ts, ¬ Opens t ∧ ¬ Closes t

theorem NoBrackets.append {ts us : List Token} (h1 : NoBrackets ts) (h2 : NoBrackets us) : NoBrackets (ts ++ us) := by
  intro t ht
  rcases List.mem_append.1 ht with h | h
  · exact h1 t h
  · exact h2 t h

theorem NoBrackets.cons {t : Token} {us : List Token} (h1 : ¬ Opens t ∧ ¬ Closes t) (h2 : NoBrackets us) :
    NoBrackets (t :: us) := by
  intro x hx
  rcases List.mem_cons.1 hx with rfl | h
  · exact h1
  · exact h2 x h

theorem NoBrackets.nil : NoBrackets [] := by intro t ht; cases ht

theorem noBracket {t : Token} (h1 : t.tok ≠ .eventSeqOpen) (h2 : t.tok ≠ .cramOpen)
    (h3 : t.tok ≠ .eventSeqClose) (h4 : t.tok ≠ .cramClose) : ¬ Opens t ∧ ¬ Closes t := by
  constructor
  · rintro (h | h)
    · exact h1 h
    · exact h2 h
  · rintro (h | h)
    · exact h3 h
    · exact h4 h

theorem noBracket_of {t : Token} {k : Tok} (h : t.tok = k) (h1 : k ≠ .eventSeqOpen ∧ k ≠ .cramOpen ∧ k ≠ .eventSeqClose ∧
    k ≠ .cramClose) : ¬ Opens t ∧ ¬ Closes t := by
  subst h
  exact noBracket h1.1 h1.2.1 h1.2.2.1 h1.2.2.2

mutual
theorem form_noBrackets : ∀ {ts : List Token} {n : Node}, FormG ts n → NoBrackets ts
  | _, _, .symbol t h => .cons (noBracket_of h (by simp)) .nil
  | _, _, .number t q h => .cons (noBracket_of h (by simp)) .nil
  | _, _, .string t q h => .cons (noBracket_of h (by simp)) .nil
  | _, _, .list l r ts ns hl hr h =>
    .cons (noBracket_of hl (by simp)) ((forms_noBrackets h).append (.cons (noBracket_of hr (by simp)) .nil))
theorem forms_noBrackets : ∀ {ts : List Token} {ns : List Node}, FormsG ts ns → NoBrackets ts
  | _, _, .nil => .nil
  | _, _, .cons ts us n ns h1 h2 => (form_noBrackets h1).append (forms_noBrackets h2)
  | _, _, .quoted q ts us n ns hq h1 h2 =>
    .cons (noBracket_of hq (by simp)) ((form_noBrackets h1).append (forms_noBrackets h2))
end

theorem NoBrackets.all {k : Tok} {ts : List Token} (h : All k ts) (h1 : k ≠ .eventSeqOpen ∧ k ≠ .cramOpen ∧
    k ≠ .eventSeqClose ∧ k ≠ .cramClose) : NoBrackets ts := fun t ht => noBracket_of (h t ht) h1

theorem length_noBrackets {t : Token} {n : Node} (h : LengthG t n) : ¬ Opens t ∧ ¬ Closes t := by
  cases h with
  | plain d k h hk => exact noBracket_of h (by simp)
  | dotted d k h hk => exact noBracket_of h (by simp)
  | ms q h => exact noBracket_of h (by simp)
  | seconds q h => exact noBracket_of h (by simp)

theorem duration_noBrackets {ts : List Token} {ns : List Node} (h : DurationG ts ns) : NoBrackets ts := by
  cases h with
  | none => exact .nil
  | some t n ts ns hl hs =>
    refine .cons (length_noBrackets hl) ?_
    clear hl
    induction hs with
    | done bars hb => exact .all hb (by simp)
    | tied bars bars' ties tie t n ts ns hb ht hb' hts hl _ ih =>
      have := (NoBrackets.all hb (by simp)).append (.cons (noBracket_of ht (by simp)) ((NoBrackets.all hb' (by simp)).append
        ((NoBrackets.all hts (by simp)).append (.cons (length_noBrackets hl) ih))))
      simpa using this

theorem octave_noBrackets {ts : List Token} {n : Node} (h : OctaveG ts n) : NoBrackets ts := by
  cases h with
  | up t h => exact .cons (noBracket_of h (by simp)) .nil
  | down t h => exact .cons (noBracket_of h (by simp)) .nil
  | set t k h => exact .cons (noBracket_of h (by simp)) .nil

theorem note_noBrackets {ts : List Token} {n : Node} (h : NoteG ts n) : NoBrackets ts := by
  cases h with
  | rest l ds dn hl hd => exact .cons (noBracket_of hl (by simp)) (duration_noBrackets hd)
  | note l c as ds ss an dn sn hl ha hd hs =>
    have h1 : NoBrackets as := by
      induction ha with
      | nil => exact .nil
      | flat t ts ns ht _ ih => exact .cons (noBracket_of ht (by simp)) ih
      | natural t ts ns ht _ ih => exact .cons (noBracket_of ht (by simp)) ih
      | sharp t ts ns ht _ ih => exact .cons (noBracket_of ht (by simp)) ih
    have h2 : NoBrackets ss := by
      cases hs with
      | none => exact .nil
      | some s hs => exact .cons (noBracket_of hs (by simp)) .nil
    exact ((NoBrackets.cons (noBracket_of hl (by simp)) h1).append (duration_noBrackets hd)).append h2

theorem between_noBrackets {ts : List Token} {ns : List Node} (h : BetweenG ts ns) : NoBrackets ts := by
  induction h with
  | nil => exact .nil
  | octave ts us n ns h _ ih => exact (octave_noBrackets h).append ih
  | sexp ts us n ns h _ ih => exact (form_noBrackets h.1).append ih

theorem notes_noBrackets {ts : List Token} {n : Node} (h : NotesG ts n) : NoBrackets ts := by
  cases h with
  | single _ h => exact note_noBrackets h
  | chord ns h =>
    induction h with
    | two ts bs cs us sep n m bn cn h1 h2 hs h3 h4 =>
      exact (((note_noBrackets h1).append (between_noBrackets h2)).append (.cons (noBracket_of hs (by simp))
        (between_noBrackets h3))).append (note_noBrackets h4)
    | more ts bs cs us sep n bn cn ns h1 h2 hs h3 _ ih =>
      exact (((note_noBrackets h1).append (between_noBrackets h2)).append (.cons (noBracket_of hs (by simp))
        (between_noBrackets h3))).append ih

theorem NoBrackets.balanced {ts us : List Token} (h : NoBrackets ts) (hu : Balanced us) : Balanced (ts ++ us) := by
  induction ts with
  | nil => exact hu
  | cons t ts ih =>
    exact .other t _ (h t (List.mem_cons_self ..)).1 (h t (List.mem_cons_self ..)).2
      (ih fun x hx => h x (List.mem_cons_of_mem _ hx))

theorem _root_.Alda.Spec.Balanced.append {ts us : List Token} (h : Balanced ts) (hu : Balanced us) : Balanced (ts ++ us) := by
  induction h with
  | nil => exact hu
  | other t ts h1 h2 _ ih => exact .other t _ h1 h2 ih
  | pair o c ts vs h1 h2 h3 _ _ ih => have := Balanced.pair o c ts _ h1 h2 h3 ih; simpa using this

theorem Rep.noBrackets {ts : List Token} (h : Rep ts) : NoBrackets ts := by
  rcases h with rfl | ⟨r, k, rfl, hr⟩
  · exact .nil
  · exact .cons (noBracket_of hr (by simp)) .nil

theorem Flat.balanced {b : Bool} {ts : List Token} (h : Flat b ts) : Balanced ts := by
  have other : ∀ {t : Token} {k : Tok} {ts : List Token}, t.tok = k → (k ≠ .eventSeqOpen ∧ k ≠ .cramOpen ∧
      k ≠ .eventSeqClose ∧ k ≠ .cramClose) → Balanced ts → Balanced (t :: ts) :=
    fun h h1 h2 => .other _ _ (noBracket_of h h1).1 (noBracket_of h h1).2 h2
  induction h with
  | nil => exact .nil
  | voice v k ts hv _ ih => exact other hv (by simp) ih
  | var n eq t ts h1 h2 h3 _ ih => exact other h1 (by simp) (other h2 (by simp) ih)
  | bar t ts h1 _ ih => exact other h1 (by simp) ih
  | octave os n ts h1 _ ih => exact (octave_noBrackets h1).balanced ih
  | mark t s ts h1 _ ih => rcases h1 with h | h <;> exact other h (by simp) ih
  | ref n rep ts h1 h2 _ ih => exact other h1 (by simp) (h2.noBrackets.balanced ih)
  | sexp os n rep ts h1 h2 _ ih => exact (form_noBrackets h1.1).balanced (h2.noBrackets.balanced ih)
  | notes os n rep ts h1 h2 _ ih => exact (notes_noBrackets h1).balanced (h2.noBrackets.balanced ih)
  | seq o c inner rep ts h1 h2 h3 h4 _ ih1 ih =>
    exact .pair o c _ _ (.inl h1) (.inl h2) ih1 (h4.noBrackets.balanced ih)
  | cram o c inner ds dn rep ts h1 h2 h3 h4 h5 h6 _ ih1 ih =>
    exact .pair o c _ _ (.inr h1) (.inr h2) ih1 ((duration_noBrackets h5).balanced (h6.noBrackets.balanced ih))
  | last ts _ ih => exact ih
  | reps ts r us hne _ hr _ ih1 ih2 =>
    obtain ⟨rs, hr⟩ := hr
    exact ih1.append (other hr (by simp) ih2)

theorem _root_.Alda.Spec.Tidy.suffix {ts us : List Token} (h : Tidy us) (hs : ts <:+ us) : Tidy ts := by
  obtain ⟨a, rfl⟩ := hs
  refine ⟨?_, ?_⟩
  · intro pre n eq mid c post e
    exact h.defs (a ++ pre) n eq mid c post (by rw [e]; simp)
  · intro pre v k mid c post e
    exact h.voices (a ++ pre) v k mid c post (by rw [e]; simp)

theorem singleOrRepeated_complete {rep R : List Token} (hr : Rep rep) (n : Node)
    (hR : ∀ t more k, R = t :: more → t.tok ≠ .repeat k) : (singleOrRepeated n (rep ++ R)).2 = R := by
  rcases hr with rfl | ⟨⟨k, x, p⟩, m, rfl, hr⟩
  · unfold singleOrRepeated
    split
    · rename_i heq; exact absurd rfl (hR _ _ _ heq)
    · rfl
  · cases hr; rfl

/-- One more round of a loop. -/
theorem events_step {fuel : Nat} {L : EventLoop} {toks X Y : List Token} {n : Node} {ns : List Node}
    (h1 : L.stop toks = .ok none) (h2 : innerEvent fuel toks = .ok (n, X)) {n' : Node} {X' : List Token}
    (h3 : L.decorate n X = (n', X')) (h4 : events fuel L X' = .ok (ns, Y)) : events (fuel + 1) L toks = .ok (n' :: ns, Y) := by
  unfold events
  rw [h1]
  dsimp only
  rw [h2]
  dsimp only
  rw [h3]
  dsimp only
  rw [h4]

theorem events_end {fuel : Nat} {L : EventLoop} {toks X : List Token} (h1 : L.stop toks = .ok (some X)) :
    events (fuel + 1) L toks = .ok ([], X) := by
  unfold events
  rw [h1]

/-- What ends a voice: the end of the file, a closing bracket or a part's declaration. -/
def VoiceTail (tail : List Token) : Prop :=
  ∃ t more, tail = t :: more ∧ (t.tok = .eof ∨ Closes t ∨ Declares t more)

theorem VoiceTail.tail {tail : List Token} (h : VoiceTail tail) : Tail tail := by
  obtain ⟨t, more, rfl, h⟩ := h
  refine ⟨t, more, rfl, ?_⟩
  rcases h with h | h | h
  · exact .inl h
  · exact .inr (.inl h)
  · exact .inr (.inr (.inr h))

theorem _root_.Alda.Spec.Declares.looks {t : Token} {more : List Token} (h : Declares t more) :
    looksLikePartDeclaration (t :: more) = true := by
  obtain ⟨k, x, p⟩ := t
  obtain ⟨ht, ⟨k', x', p'⟩, rest, rfl, hu⟩ := h
  cases ht
  rcases hu with hu | hu | ⟨a, hu⟩ <;> cases hu <;> rfl

/-- With this much fuel, the parser reads events. -/
structure ReadsEvents (fuel : Nat) : Prop where
  inner : ∀ ts tail, Flat false ts → ts ≠ [] → Tail tail → Tidy (ts ++ tail) → 3 * (ts ++ tail).length ≤ fuel →
    ∃ n ts', innerEvent fuel (ts ++ tail) = .ok (n, ts' ++ tail) ∧ Flat false ts' ∧ ts' <:+ ts ∧ ts'.length < ts.length
  seq : ∀ ts c more, Flat true ts → c.tok = .eventSeqClose → Tidy (ts ++ c :: more) →
    3 * (ts ++ c :: more).length + 1 ≤ fuel → ∃ ns, events fuel .seq (ts ++ c :: more) = .ok (ns, more)
  cram : ∀ ts c more, Flat false ts → c.tok = .cramClose → Tidy (ts ++ c :: more) →
    3 * (ts ++ c :: more).length + 1 ≤ fuel → ∃ ns, events fuel .cram (ts ++ c :: more) = .ok (ns, more) ∧ (ts ≠ [] → ns ≠ [])
  var : ∀ line ts t more, Flat false ts → Tail (t :: more) → (t.tok = .eof ∨ t.pos.line ≠ line) → Tidy (ts ++ t :: more) →
    3 * (ts ++ t :: more).length + 1 ≤ fuel → ∃ ns ts', events fuel (.varDef line) (ts ++ t :: more) = .ok (ns, ts' ++ t :: more) ∧
      Flat false ts' ∧ ts' <:+ ts
  voice : ∀ ts tail, Flat false ts → VoiceTail tail → Tidy (ts ++ tail) → 3 * (ts ++ tail).length + 1 ≤ fuel →
    ∃ ns ts', events fuel .voice (ts ++ tail) = .ok (ns, ts' ++ tail) ∧ Flat false ts' ∧ ts' <:+ ts
  voices : ∀ k ts tail, Flat false ts → VoiceTail tail → Tidy (ts ++ tail) → 3 * (ts ++ tail).length + 2 ≤ fuel →
    ∃ ns ts', voices fuel k (ts ++ tail) = .ok (ns, ts' ++ tail) ∧ Flat false ts' ∧ ts' <:+ ts
  part : ∀ ts t more, Flat false ts → (t.tok = .eof ∨ Declares t more) → Tidy (ts ++ t :: more) →
    3 * (ts ++ t :: more).length + 1 ≤ fuel → ∃ ns, events fuel .part (ts ++ t :: more) = .ok (ns, t :: more)

theorem suffix_append {a b tail : List Token} (h : a <:+ b) : a ++ tail <:+ b ++ tail := by
  obtain ⟨x, rfl⟩ := h
  exact ⟨x, by simp⟩

theorem Flat.cons_starts {t : Token} {ts : List Token} (h : Flat false (t :: ts)) : Accept.starts t.tok = true := by
  rcases h.starts with h | ⟨t', us, e, h⟩
  · cases h
  · cases e; exact h

theorem reads_part {fuel : Nat} (ih : ReadsEvents fuel) : ∀ ts t more, Flat false ts → (t.tok = .eof ∨ Declares t more) →
    Tidy (ts ++ t :: more) → 3 * (ts ++ t :: more).length + 1 ≤ fuel + 1 →
    ∃ ns, events (fuel + 1) .part (ts ++ t :: more) = .ok (ns, t :: more) := by
  intro ts t more hf ht hd hl
  have htail : Tail (t :: more) := by
    refine ⟨t, more, rfl, ?_⟩
    rcases ht with h | h
    · exact .inl h
    · exact .inr (.inr (.inr h))
  cases ts with
  | nil =>
    refine ⟨[], events_end ?_⟩
    rcases ht with h | h
    · obtain ⟨k, x, p⟩ := t; cases h; rfl
    · have := h.looks
      unfold EventLoop.stop
      simp only [List.nil_append]
      split <;> simp [this]
  | cons a ts =>
    obtain ⟨n, ts', e1, e2, e3, e4⟩ := ih.inner _ _ hf (by simp) htail hd (by omega)
    obtain ⟨ns, e5⟩ := ih.part ts' t more e2 ht (hd.suffix (suffix_append e3)) (by simp at hl e4 ⊢; omega)
    refine ⟨n :: ns, events_step ?_ e1 rfl e5⟩
    have := hf.looks (by simp) htail
    have hs := hf.cons_starts
    unfold EventLoop.stop
    simp only [Except.ok.injEq]
    split
    · rename_i heq; cases heq; cases hs
    · rw [this]; rfl

theorem reads_cram {fuel : Nat} (ih : ReadsEvents fuel) : ∀ ts c more, Flat false ts → c.tok = .cramClose → Tidy (ts ++ c :: more) →
    3 * (ts ++ c :: more).length + 1 ≤ fuel + 1 →
    ∃ ns, events (fuel + 1) .cram (ts ++ c :: more) = .ok (ns, more) ∧ (ts ≠ [] → ns ≠ []) := by
  intro ts c more hf hc hd hl
  have htail : Tail (c :: more) := ⟨c, more, rfl, .inr (.inl (.inr hc))⟩
  cases ts with
  | nil =>
    obtain ⟨k, x, p⟩ := c; cases hc
    exact ⟨[], events_end rfl, by simp⟩
  | cons a ts =>
    obtain ⟨n, ts', e1, e2, e3, e4⟩ := ih.inner _ _ hf (by simp) htail hd (by omega)
    obtain ⟨ns, e5, _⟩ := ih.cram ts' c more e2 hc (hd.suffix (suffix_append e3)) (by simp at hl e4 ⊢; omega)
    refine ⟨n :: ns, events_step ?_ e1 rfl e5, by simp⟩
    have hs := hf.cons_starts
    simp only [EventLoop.stop]
    split
    · rename_i heq; cases heq; cases hs
    · rename_i heq; cases heq; cases hs
    · rfl

theorem reads_var {fuel : Nat} (ih : ReadsEvents fuel) : ∀ line ts t more, Flat false ts → Tail (t :: more) →
    (t.tok = .eof ∨ t.pos.line ≠ line) → Tidy (ts ++ t :: more) → 3 * (ts ++ t :: more).length + 1 ≤ fuel + 1 →
    ∃ ns ts', events (fuel + 1) (.varDef line) (ts ++ t :: more) = .ok (ns, ts' ++ t :: more) ∧ Flat false ts' ∧ ts' <:+ ts := by
  intro line ts t more hf htail ht hd hl
  cases ts with
  | nil =>
    refine ⟨[], [], events_end ?_, .nil, List.suffix_refl _⟩
    simp only [EventLoop.stop, List.nil_append]
    split
    · rfl
    · rename_i heq hn
      cases hn
      rcases ht with h | h
      · obtain ⟨k, x, p⟩ := t; cases h; exact (heq _ _ rfl).elim
      · simp [h]
    · rename_i heq; cases heq
  | cons a ts =>
    have hs := hf.cons_starts
    by_cases ha : a.pos.line = line
    · obtain ⟨n, ts', e1, e2, e3, e4⟩ := ih.inner _ _ hf (by simp) htail hd (by omega)
      obtain ⟨ns, ts'', e5, e6, e7⟩ := ih.var line ts' t more e2 htail ht (hd.suffix (suffix_append e3))
        (by simp at hl e4 ⊢; omega)
      refine ⟨n :: ns, ts'', events_step ?_ e1 rfl e5, e6, e7.trans e3⟩
      simp only [EventLoop.stop, List.cons_append]
      split
      · rename_i heq; cases heq; cases hs
      · rename_i heq; cases heq; simp [ha]
      · rename_i heq; cases heq
    · refine ⟨[], a :: ts, events_end ?_, hf, List.suffix_refl _⟩
      simp only [EventLoop.stop, List.cons_append]
      split
      · rename_i heq; cases heq; cases hs
      · rename_i heq; cases heq; simp [ha]
      · rename_i heq; cases heq

theorem reads_voice {fuel : Nat} (ih : ReadsEvents fuel) : ∀ ts tail, Flat false ts → VoiceTail tail → Tidy (ts ++ tail) →
    3 * (ts ++ tail).length + 1 ≤ fuel + 1 →
    ∃ ns ts', events (fuel + 1) .voice (ts ++ tail) = .ok (ns, ts' ++ tail) ∧ Flat false ts' ∧ ts' <:+ ts := by
  intro ts tail hf ht hd hl
  cases ts with
  | nil =>
    refine ⟨[], [], events_end ?_, .nil, List.suffix_refl _⟩
    obtain ⟨⟨k, x, p⟩, more, rfl, h⟩ := ht
    rcases h with h | (h | h) | h
    · cases h; rfl
    · cases h; rfl
    · cases h; rfl
    · have := h.looks
      simp only [EventLoop.stop, List.nil_append]
      split <;> simp [this]
  | cons a ts =>
    have hs := hf.cons_starts
    have hlk := hf.looks (by simp) ht.tail
    by_cases ha : ∃ k, a.tok = .voiceMarker k
    · refine ⟨[], a :: ts, events_end ?_, hf, List.suffix_refl _⟩
      obtain ⟨k, ha⟩ := ha
      obtain ⟨k, x, p⟩ := a
      cases ha
      rfl
    · obtain ⟨n, ts', e1, e2, e3, e4⟩ := ih.inner _ _ hf (by simp) ht.tail hd (by omega)
      obtain ⟨ns, ts'', e5, e6, e7⟩ := ih.voice ts' tail e2 ht (hd.suffix (suffix_append e3)) (by simp at hl e4 ⊢; omega)
      refine ⟨n :: ns, ts'', events_step ?_ e1 rfl e5, e6, e7.trans e3⟩
      simp only [EventLoop.stop, Except.ok.injEq]
      split
      · rename_i heq; cases heq; cases hs
      · rename_i heq; cases heq; exact absurd ⟨_, rfl⟩ ha
      · rename_i heq; cases heq; cases hs
      · rename_i heq; cases heq; cases hs
      · rw [hlk]; rfl

theorem reads_voices {fuel : Nat} (ih : ReadsEvents fuel) : ∀ k ts tail, Flat false ts → VoiceTail tail → Tidy (ts ++ tail) →
    3 * (ts ++ tail).length + 2 ≤ fuel + 1 →
    ∃ ns ts', voices (fuel + 1) k (ts ++ tail) = .ok (ns, ts' ++ tail) ∧ Flat false ts' ∧ ts' <:+ ts := by
  intro k ts tail hf ht hd hl
  obtain ⟨ns, ts', e1, e2, e3⟩ := ih.voice ts tail hf ht hd (by omega)
  have hlen := e3.length_le
  unfold voices
  rw [e1]
  dsimp only
  by_cases hv : ∃ x p m us, ts' = ⟨.voiceMarker m, x, p⟩ :: us
  · obtain ⟨x, p, m, us, rfl⟩ := hv
    have hu : Flat false us := by
      generalize hw : (⟨.voiceMarker m, x, p⟩ :: us : List Token) = w at e2
      generalize hb : false = b at e2
      cases e2 with
      | nil => cases hw
      | voice v k ts hv h => cases hw; exact h
      | var n eq t ts h1 => cases hw; cases h1
      | bar t ts h1 => cases hw; cases h1
      | octave os n ts h1 =>
        obtain ⟨t, rfl, h⟩ := h1.head
        cases hw; rcases h with h | h | ⟨k, h⟩ <;> cases h
      | mark t s ts h1 => cases hw; rcases h1 with h | h <;> cases h
      | ref n rep ts h1 => cases hw; cases h1
      | sexp os n rep ts h1 =>
        obtain ⟨l, us, rfl, hl, _⟩ := lispList_complete h1
        cases hw; cases hl
      | notes os n rep ts h1 =>
        obtain ⟨l, us, rfl, hl⟩ := h1.head
        cases hw; rcases hl with h | ⟨c, h⟩ <;> cases h
      | seq o c inner rep ts h1 => cases hw; cases h1
      | cram o c inner ds dn rep ts h1 => cases hw; cases h1
      | last => cases hb
      | reps => cases hb
    simp only [List.cons_append]
    by_cases hm : m = 0
    · simp only [hm, if_true]
      exact ⟨_, us, rfl, hu, (List.suffix_cons _ _).trans e3⟩
    · simp only [hm, if_false]
      obtain ⟨ns', ts'', f1, f2, f3⟩ := ih.voices m us tail hu ht
        (hd.suffix (suffix_append ((List.suffix_cons _ _).trans e3))) (by simp at hl hlen ⊢; omega)
      rw [f1]
      exact ⟨_, ts'', rfl, f2, f3.trans ((List.suffix_cons _ _).trans e3)⟩
  · refine ⟨[.mk .voice .none [leafNode .voiceNumber (.int k), .mk .eventSequence .none ns]], ts', ?_, e2, e3⟩
    split
    · rename_i x heq
      exfalso
      cases ts' with
      | nil =>
        obtain ⟨t, more, rfl, h⟩ := ht
        cases heq
        rcases h with h | (h | h) | ⟨h, _⟩ <;> cases h
      | cons a ts' => cases heq; exact hv ⟨_, _, _, _, rfl⟩
    · rfl

theorem reads_seq {fuel : Nat} (ih : ReadsEvents fuel) : ∀ ts c more, Flat true ts → c.tok = .eventSeqClose →
    Tidy (ts ++ c :: more) → 3 * (ts ++ c :: more).length + 1 ≤ fuel + 1 →
    ∃ ns, events (fuel + 1) .seq (ts ++ c :: more) = .ok (ns, more) := by
  intro ts c more hf hc hd hl
  have htail : Tail (c :: more) := ⟨c, more, rfl, .inr (.inl (.inl hc))⟩
  have go : ∀ {a : Token} {ts : List Token} (X : List Token), starts a.tok = true → EventLoop.stop .seq (a :: ts ++ X) = .ok none := by
    intro a ts X hs
    simp only [EventLoop.stop, List.cons_append]
    split
    · rename_i heq; cases heq; cases hs
    · rename_i heq; cases heq; cases hs
    · rfl
  have plain : ∀ (n : Node) {X : List Token}, (∀ t more rs, X = t :: more → t.tok ≠ .repetitions rs) →
      EventLoop.decorate .seq n X = (n, X) := by
    intro n X hX
    simp only [EventLoop.decorate]
    unfold withRepetitions
    split
    · exact absurd rfl (hX _ _ _ rfl)
    · rfl
  cases hf with
  | last _ hf =>
    cases ts with
    | nil =>
      obtain ⟨k, x, p⟩ := c; cases hc
      exact ⟨[], events_end rfl⟩
    | cons a ts =>
      obtain ⟨n, ts', e1, e2, e3, e4⟩ := ih.inner _ _ hf (by simp) htail hd (by omega)
      obtain ⟨ns, e5⟩ := ih.seq ts' c more (.last _ e2) hc (hd.suffix (suffix_append e3)) (by simp at hl e4 ⊢; omega)
      refine ⟨n :: ns, events_step (go _ hf.cons_starts) e1 (plain n ?_) e5⟩
      intro t m rs e
      rcases e2.starts with rfl | ⟨t', us, rfl, h⟩
      · cases e; simp [hc]
      · cases e; intro hk; rw [hk] at h; cases h
  | reps ts r us hne hf hr hu =>
    cases ts with
    | nil => exact absurd rfl hne
    | cons a ts =>
      have htail' : Tail (r :: (us ++ c :: more)) := ⟨r, _, rfl, .inr (.inr (.inl hr))⟩
      have ea : (a :: ts ++ r :: us) ++ c :: more = (a :: ts) ++ r :: (us ++ c :: more) := by simp
      rw [ea] at hd hl ⊢
      obtain ⟨n, ts', e1, e2, e3, e4⟩ := ih.inner _ _ hf (by simp) htail' hd (by omega)
      rcases e2.starts with rfl | ⟨t', vs, rfl, h⟩
      · obtain ⟨ns, e5⟩ := ih.seq us c more hu hc (hd.suffix ⟨a :: ts ++ [r], by simp⟩) (by simp at hl ⊢; omega)
        obtain ⟨rs, hr⟩ := hr
        obtain ⟨k, x, p⟩ := r
        cases hr
        exact ⟨_, events_step (go _ hf.cons_starts) e1 rfl e5⟩
      · obtain ⟨ns, e5⟩ := ih.seq (t' :: vs ++ r :: us) c more (.reps _ r us (by simp) e2 hr hu) hc
          (by have := hd.suffix (suffix_append (tail := r :: (us ++ c :: more)) e3); simpa using this)
          (by simp at hl e4 ⊢; omega)
        refine ⟨n :: ns, events_step (go _ hf.cons_starts) e1 (plain n ?_) (by simpa using e5)⟩
        intro t m rs e
        cases e; intro hk; rw [hk] at h; cases h

theorem ok_pair {p : Node × List Token} {R : List Token} (h : p.2 = R) : (.ok p : Parsed Node) = .ok (p.1, R) := by
  subst h; rfl

theorem reads_inner {fuel : Nat} (ih : ReadsEvents fuel) : ∀ ts tail, Flat false ts → ts ≠ [] → Tail tail → Tidy (ts ++ tail) →
    3 * (ts ++ tail).length ≤ fuel + 1 → ∃ n ts', innerEvent (fuel + 1) (ts ++ tail) = .ok (n, ts' ++ tail) ∧
      Flat false ts' ∧ ts' <:+ ts ∧ ts'.length < ts.length := by
  intro ts tail hf hne ht hd hl
  have noRep : ∀ {us : List Token}, Flat false us → ∀ t more k, us ++ tail = t :: more → t.tok ≠ .repeat k :=
    fun h t more k e => (h.next ht).head t more k e
  generalize hb : false = b at hf
  cases hf with
  | nil => exact absurd rfl hne
  | last => cases hb
  | reps => cases hb
  | voice v k ts hv h =>
    obtain ⟨k', x, p⟩ := v
    cases hv
    have hvt : VoiceTail tail := by
      obtain ⟨t, more, rfl, h'⟩ := ht
      refine ⟨t, more, rfl, ?_⟩
      rcases h' with h' | h' | h' | h'
      · exact .inl h'
      · exact .inr (.inl h')
      · exact absurd h' (hd.voices [] _ k ts t more rfl rfl h.balanced)
      · exact .inr (.inr h')
    obtain ⟨ns, ts', e1, e2, e3⟩ := ih.voices k ts tail h hvt (hd.suffix (suffix_append (List.suffix_cons _ _)))
      (by simp at hl ⊢; omega)
    refine ⟨.mk .voiceGroup .none ns, ts', ?_, e2, e3.trans (List.suffix_cons _ _), by have := e3.length_le; simp; omega⟩
    simp only [List.cons_append, innerEvent, e1]
  | var n eq t us h1 h2 h3 h =>
    obtain ⟨k', x, p⟩ := n
    obtain ⟨k'', x', p'⟩ := eq
    cases h1; cases h2
    obtain ⟨u, more, rfl, hu⟩ := ht
    have hu' : u.tok = .eof ∨ u.pos.line ≠ p.line := by
      rcases hu with hu | hu
      · exact .inl hu
      · exact .inr (hd.defs [] _ _ (t :: us) u more rfl rfl rfl h.balanced hu)
    obtain ⟨ns, ts', e1, e2, e3⟩ := ih.var p.line (t :: us) u more h ⟨u, more, rfl, hu⟩ hu'
      (hd.suffix ⟨[_, _], rfl⟩) (by simp at hl ⊢; omega)
    refine ⟨.mk .variableDefinition .none [leafNode .variableName (.str (String.ofList x)), .mk .eventSequence .none ns], ts', ?_,
      e2, e3.trans ⟨[_, _], rfl⟩, by have := e3.length_le; simp at this ⊢; omega⟩
    have hs := h.cons_starts
    have hc : ¬ (t.tok = .eof ∨ t.pos.line > p.line) := by
      rintro (hk | hk)
      · rw [hk] at hs; cases hs
      · simp only at h3; omega
    simp only [List.cons_append] at e1 ⊢
    simp only [innerEvent, hc, if_false, e1]
  | bar t ts h1 h =>
    obtain ⟨k', x, p⟩ := t
    cases h1
    exact ⟨_, ts, rfl, h, List.suffix_cons _ _, by simp⟩
  | octave os n ts h1 h =>
    cases h1 with
    | up t h1 => obtain ⟨k', x, p⟩ := t; cases h1; exact ⟨_, ts, rfl, h, List.suffix_cons _ _, by simp⟩
    | down t h1 => obtain ⟨k', x, p⟩ := t; cases h1; exact ⟨_, ts, rfl, h, List.suffix_cons _ _, by simp⟩
    | set t k h1 => obtain ⟨k', x, p⟩ := t; cases h1; exact ⟨_, ts, rfl, h, List.suffix_cons _ _, by simp⟩
  | mark t s ts h1 h =>
    obtain ⟨k', x, p⟩ := t
    rcases h1 with h1 | h1 <;> cases h1 <;> exact ⟨_, ts, rfl, h, List.suffix_cons _ _, by simp⟩
  | ref n rep ts h1 h2 h =>
    obtain ⟨k', x, p⟩ := n
    cases h1
    have e := singleOrRepeated_complete h2 (leafNode .variableReference (.str (String.ofList x))) (noRep h)
    refine ⟨(singleOrRepeated (leafNode .variableReference (.str (String.ofList x))) (rep ++ (ts ++ tail))).1, ts, ?_, h,
      ⟨(⟨.name, x, p⟩ : Token) :: rep, by simp⟩, by simp; omega⟩
    simp only [List.cons_append, List.append_assoc]
    unfold innerEvent
    split
    · rename_i heq; cases heq
    · rename_i heq
      exfalso
      simp only [List.cons.injEq] at heq
      have heq := heq.2
      rcases h2 with rfl | ⟨r, k, rfl, hr⟩
      · obtain ⟨t, more, e, hf⟩ := h.follows ht
        rw [List.nil_append, e] at heq
        cases heq; cases hf
      · cases heq; cases hr
    all_goals first
      | (rename_i heq; cases heq; done)
      | skip
    · rename_i heq; cases heq; exact ok_pair e
    · rename_i hn _ _ _ _ _ _ _ _ _ _ _
      exact absurd rfl (hn _ _ _)
  | sexp os n rep ts h1 h2 h =>
    have e := singleOrRepeated_complete h2 n (noRep h)
    obtain ⟨⟨k', x, p⟩, us, rfl, hl', hc⟩ := lispList_complete h1
    cases hl'
    refine ⟨(singleOrRepeated n (rep ++ (ts ++ tail))).1, ts, ?_, h, ⟨(⟨.leftParen, x, p⟩ : Token) :: us ++ rep, by simp⟩, by simp; omega⟩
    simp only [List.cons_append, List.append_assoc, innerEvent, sexp, hc]
    exact ok_pair e
  | notes os n rep ts h1 h2 h =>
    let Q : List Token → Prop := fun R => ∃ ts', R = ts' ++ tail ∧ Flat false ts' ∧ ts' <:+ ts
    have key : ∃ n' R', noteRestOrChord (os ++ (rep ++ (ts ++ tail))) = .ok (n', R') ∧ Q R' := by
      rcases h2 with rfl | ⟨r, k, rfl, hr⟩
      · obtain ⟨ts', b1, b2, b3⟩ := h.bars rfl ht
        refine notes_complete h1 (h.after ht) (.inr ⟨h.next ht, ts, rfl, h, List.suffix_refl _⟩) ?_
        simp only [List.nil_append]
        rw [b1]
        exact .inr ⟨b2.next ht, ts', rfl, b2, b3⟩
      · have hm : (matchBarlines ([r] ++ (ts ++ tail))).2 = r :: (ts ++ tail) :=
          matchBarlines_none (by intro t more e; cases e; simp [hr])
        have hfin : Fin Q (r :: (ts ++ tail)) := .inl ⟨r, k, _, rfl, hr, ts, rfl, h, List.suffix_refl _⟩
        refine notes_complete h1 ?_ hfin (by rw [hm]; exact hfin)
        obtain ⟨k', x, p⟩ := r
        cases hr
        exact After.of_head (by simp) (by simp) rfl
    obtain ⟨n', R', e1, ts', rfl, e2, e3⟩ := key
    obtain ⟨⟨k', x, p⟩, us, rfl, hh⟩ := h1.head
    refine ⟨n', ts', ?_, e2, e3.trans ⟨(⟨k', x, p⟩ : Token) :: us ++ rep, by simp⟩, by have := e3.length_le; simp; omega⟩
    simp only [List.cons_append, List.append_assoc] at e1 ⊢
    rcases hh with hh | ⟨c, hh⟩ <;> cases hh <;> simp only [innerEvent, e1]
  | seq o c inner rep ts h1 h2 h3 h4 h =>
    obtain ⟨k', x, p⟩ := o
    cases h1
    obtain ⟨ns, e1⟩ := ih.seq inner c (rep ++ (ts ++ tail)) h3 h2 (hd.suffix ⟨[⟨.eventSeqOpen, x, p⟩], by simp⟩) (by simp at hl ⊢; omega)
    have e := singleOrRepeated_complete h4 (.mk .eventSequence .none ns) (noRep h)
    refine ⟨(singleOrRepeated (.mk .eventSequence .none ns) (rep ++ (ts ++ tail))).1, ts, ?_, h,
      ⟨(⟨.eventSeqOpen, x, p⟩ : Token) :: inner ++ c :: rep, by simp⟩, by simp; omega⟩
    simp only [List.cons_append, List.append_assoc, innerEvent, e1]
    exact ok_pair e
  | cram o c inner ds dn rep ts h1 h2 h3 h4 h5 h6 h =>
    obtain ⟨k', x, p⟩ := o
    cases h1
    obtain ⟨ns, e1, e2⟩ := ih.cram inner c (ds ++ (rep ++ (ts ++ tail))) h4 h2 (hd.suffix ⟨[⟨.cramOpen, x, p⟩], by simp⟩)
      (by simp at hl ⊢; omega)
    obtain ⟨m, ns, rfl⟩ : ∃ m ns', ns = m :: ns' := List.exists_cons_of_ne_nil (e2 h3)
    have key : ∃ ts', (∀ node, (singleOrRepeated node (optionalDuration (ds ++ (rep ++ (ts ++ tail)))).2).2 = ts' ++ tail) ∧
        Flat false ts' ∧ ts' <:+ ts := by
      rcases h6 with rfl | ⟨r, k, rfl, hr⟩
      · obtain ⟨ts', b1, b2, b3⟩ := h.bars rfl ht
        have hA := h.after ht
        rcases duration_complete h5 hA.calm hA.length with hx | hx
        · refine ⟨ts, fun node => ?_, h, List.suffix_refl _⟩
          rw [List.nil_append, hx]
          exact singleOrRepeated_complete (rep := []) (.inl rfl) node (noRep h)
        · refine ⟨ts', fun node => ?_, b2, b3⟩
          rw [List.nil_append, hx, b1]
          exact singleOrRepeated_complete (rep := []) (.inl rfl) node (noRep b2)
      · refine ⟨ts, fun node => ?_, h, List.suffix_refl _⟩
        have hA : After ([r] ++ (ts ++ tail)) := by
          obtain ⟨k', x, p⟩ := r
          cases hr
          exact After.of_head (by simp) (by simp) rfl
        have hm : (matchBarlines ([r] ++ (ts ++ tail))).2 = [r] ++ (ts ++ tail) :=
          matchBarlines_none (by intro t more e; cases e; simp [hr])
        have hx := duration_complete h5 hA.calm hA.length
        rw [hm, or_self] at hx
        rw [hx]
        exact singleOrRepeated_complete (rep := [r]) (.inr ⟨r, k, rfl, hr⟩) node (noRep h)
    obtain ⟨ts', k1, k2, k3⟩ := key
    refine ⟨?_, ts', ?_, k2, k3.trans ⟨(⟨.cramOpen, x, p⟩ : Token) :: inner ++ c :: (ds ++ rep), by simp⟩, by have := k3.length_le; simp; omega⟩
    · exact (singleOrRepeated (.mk .cram .none (.mk .eventSequence .none (m :: ns) ::
        (optionalDuration (ds ++ (rep ++ (ts ++ tail)))).1)) (optionalDuration (ds ++ (rep ++ (ts ++ tail)))).2).1
    · simp only [List.cons_append, List.append_assoc, innerEvent, e1]
      exact ok_pair (k1 _)

theorem reads (fuel : Nat) : ReadsEvents fuel := by
  induction fuel with
  | zero =>
    refine ⟨?_, ?_, ?_, ?_, ?_, ?_, ?_⟩
    · intro ts tail _ hne _ _ hl
      cases ts with
      | nil => exact absurd rfl hne
      | cons a ts => simp at hl
    all_goals (intros; omega)
  | succ fuel ih =>
    exact ⟨reads_inner ih, reads_seq ih, reads_cram ih, reads_var ih, reads_voice ih, reads_voices ih, reads_part ih⟩

end Accept
end Syn
end Alda
