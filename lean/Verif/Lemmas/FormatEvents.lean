import Verif.Lemmas.FormatChord
import Verif.Lemmas.FormatLines
/-!
The parser on the tokens of well-formed trees: events.
-/
namespace Alda
namespace Syn
open Spec Tree

/-- Where voices end without `V0:`. -/
def Closers (R : List Token) : Prop :=
  (∃ u us, R = u :: us ∧ (u.tok = .eof ∨ u.tok = .eventSeqClose ∨ u.tok = .cramClose)) ∨ looksLikePartDeclaration R = true

/-- What may come after an event. -/
structure Next (rep : Nat → Bool) (tail opn : Bool) (L : Nat) (o : Bool) (R : List Token) : Prop where
  fresh : ∃ u us, R = u :: us ∧ (freshTok u.tok = true ∨ ∃ n : Nat, u.tok = .repeat n ∧ rep n = true)
  calm : Calm R
  bar : tail = true → ∀ u us, R = u :: us → u.tok ≠ .barline
  close : opn = true → Closers R
  line : o = true → ∀ u us, R = u :: us → u.tok = .eof ∨ L < u.pos.line

def noRep (_ : Nat) : Bool := false

theorem Next.afterNote {rep : Nat → Bool} {tail opn : Bool} {L : Nat} {o : Bool} {R : List Token} (h : Next rep tail opn L o R) : AfterNote tail R := by
  obtain ⟨u, us, rfl, hu⟩ := h.fresh
  refine ⟨?_, ?_, h.bar, h.calm.settled⟩
  all_goals
    intro v vs e
    injection e with e _
    subst e
    rcases hu with hu | ⟨n, hu, _⟩
    · obtain ⟨t, x, p⟩ := u
      cases t <;> simp [freshTok, startTok] at hu <;> simp [notLength]
    · rw [hu]; simp [notLength]

theorem Next.noRepeat {tail opn : Bool} {L : Nat} {o : Bool} {R : List Token} (h : Next noRep tail opn L o R) : ∀ u us k, R = u :: us → u.tok ≠ .repeat k := by
  obtain ⟨u, us, rfl, hu⟩ := h.fresh
  intro v vs k e hv
  injection e with e _
  subst e
  rcases hu with hu | ⟨n, _, hu⟩
  · rw [hv] at hu; simp [freshTok, startTok] at hu
  · simp [noRep] at hu

theorem Next.times {rep : Nat → Bool} {tail opn : Bool} {L : Nat} {o : Bool} {R : List Token} (h : Next rep tail opn L o R) (hr : ∀ n, rep n = true → 0 < n) :
    ∀ u us n, R = u :: us → u.tok = .repeat n → 0 < n := by
  obtain ⟨u, us, rfl, hu⟩ := h.fresh
  intro v vs k e hv
  injection e with e _
  subst e
  rcases hu with hu | ⟨n, hu, h'⟩
  · rw [hv] at hu; simp [freshTok, startTok] at hu
  · rw [hv] at hu
    injection hu with hu
    have := hr n h'
    omega

theorem Next.weaken {rep rep' : Nat → Bool} {tail tail' opn opn' : Bool} {L : Nat} {o o' : Bool} {R : List Token} (h : Next rep tail opn L o R)
    (hr : ∀ n, rep n = true → rep' n = true) (ht : tail' = true → tail = true) (hop : opn' = true → opn = true) (ho : o' = true → o = true) :
    Next rep' tail' opn' L o' R := by
  refine ⟨?_, h.calm, fun e => h.bar (ht e), fun e => h.close (hop e), fun e => h.line (ho e)⟩
  obtain ⟨u, us, rfl, hu⟩ := h.fresh
  exact ⟨u, us, rfl, hu.imp id fun ⟨n, a, b⟩ => ⟨n, a, hr n b⟩⟩

/-- After an event, a single token that is no barline and no note of a chord. -/
theorem next_plain {rep : Nat → Bool} {tail : Bool} {L : Nat} {o : Bool} {u : Token} (us : List Token)
    (hf : freshTok u.tok = true ∨ ∃ n : Nat, u.tok = .repeat n ∧ rep n = true) (hp : plainTok u.tok = true) (hl : o = true → L < u.pos.line) :
    Next rep tail false L o (u :: us) := by
  refine ⟨⟨u, us, rfl, hf⟩, calm_plain _ hp, fun _ v vs e => ?_, by simp, fun ho v vs e => ?_⟩
  · injection e with e _
    subst e
    intro hb
    rw [hb] at hp; simp [plainTok] at hp
  · injection e with e _
    subst e
    exact Or.inr (hl ho)

theorem notDecl_head {u : Token} {us : List Token} (h : u.tok ≠ .name) : looksLikePartDeclaration (u :: us) = false := by
  obtain ⟨t, x, p⟩ := u
  cases t <;> first | rfl | exact absurd rfl h

/-- The tokens of an event do not look like the declaration of a part. -/
theorem Ev.notDecl : ∀ (e : Ev), e.ok → ∀ (us R : List Token), kindsOf us = itemKinds e.items →
    (∃ u vs, R = u :: vs ∧ (∀ a, u.tok ≠ .alias a) ∧ u.tok ≠ .separator ∧ u.tok ≠ .colon) → looksLikePartDeclaration (us ++ R) = false := by
  have key : ∀ (e : Ev), (∃ k t ks, itemKinds e.items = (k, t) :: ks ∧ k ≠ .name) → ∀ (us R : List Token), kindsOf us = itemKinds e.items →
      looksLikePartDeclaration (us ++ R) = false := by
    rintro e ⟨k, t, ks, e1, hk⟩ us R hu
    rw [e1] at hu
    obtain ⟨p, us', rfl, _⟩ := kindsOf_cons hu
    exact notDecl_head hk
  intro e
  induction e using Ev.rec (motive_2 := fun _ => True) with
  | note c accs d slur => exact fun h us R hu _ => key _ ⟨_, _, _, note_kinds h, by simp⟩ us R hu
  | rest d => exact fun h us R hu _ => key _ ⟨_, _, _, rest_kinds h, by simp⟩ us R hu
  | chord es _ =>
    intro h us R hu _
    refine key _ ?_ us R hu
    cases es with
    | nil => simp [Ev.ok, chordShape] at h
    | cons e es =>
      simp only [Ev.ok, allOk] at h
      have hnr : e.isNR = true := h.2.2.2.1 e rfl
      simp only [Ev.items, chordItems, itemKinds_append]
      cases e with
      | note c accs d slur => exact ⟨_, _, _, by rw [note_kinds h.1.1]; rfl, by simp⟩
      | rest d => exact ⟨_, _, _, by rw [rest_kinds h.1.1]; rfl, by simp⟩
      | _ => simp [Ev.isNR] at hnr
  | up => exact fun _ us R hu _ => key _ ⟨_, _, _, rfl, by simp⟩ us R hu
  | down => exact fun _ us R hu _ => key _ ⟨_, _, _, rfl, by simp⟩ us R hu
  | oct n => exact fun _ us R hu _ => key _ ⟨_, _, _, rfl, by simp⟩ us R hu
  | bar => exact fun _ us R hu _ => key _ ⟨_, _, _, rfl, by simp⟩ us R hu
  | marker s => exact fun _ us R hu _ => key _ ⟨_, _, _, rfl, by simp⟩ us R hu
  | «at» s => exact fun _ us R hu _ => key _ ⟨_, _, _, rfl, by simp⟩ us R hu
  | ref s =>
    rintro _ us R hu ⟨u, vs, rfl, h1, h2, h3⟩
    obtain ⟨p, us', rfl, h'⟩ := kindsOf_cons (k := .name) (t := s.toList) (ks := []) hu
    obtain rfl := kindsOf_nil h'
    obtain ⟨t, x, q⟩ := u
    cases t <;> first | rfl | exact absurd rfl h2 | exact absurd rfl h3 | exact absurd rfl (h1 _)
  | defn s es _ =>
    rintro _ us R hu _
    simp only [Ev.items, List.cons_append, itemKinds] at hu
    obtain ⟨p, us', rfl, h'⟩ := kindsOf_cons hu
    obtain ⟨p', us'', rfl, _⟩ := kindsOf_cons h'
    rfl
  | sexp fs => exact fun _ us R hu _ => key _ ⟨.leftParen, ['('], _, by simp only [Ev.items, itemKinds]; rfl, by simp⟩ us R hu
  | seq es _ => exact fun _ us R hu _ => key _ ⟨.eventSeqOpen, ['['], _, by simp only [Ev.items, one, List.cons_append, itemKinds]; rfl, by simp⟩ us R hu
  | cram es d _ => exact fun _ us R hu _ => key _ ⟨.cramOpen, ['{'], _, by simp only [Ev.items, one, List.cons_append, itemKinds]; rfl, by simp⟩ us R hu
  | voice n es _ => exact fun _ us R hu _ => key _ ⟨.voiceMarker n, _, _, by simp only [Ev.items, one, itemKinds]; rfl, by simp⟩ us R hu
  | voiceEnd => exact fun _ us R hu _ => key _ ⟨_, _, _, rfl, by simp⟩ us R hu
  | group vs _ =>
    intro h us R hu _
    refine key _ ?_ us R hu
    cases vs with
    | nil => simp [Ev.ok] at h
    | cons e es =>
      simp only [Ev.ok, groupShape] at h
      cases e with
      | voice n vs => exact ⟨.voiceMarker n, _, _, by simp only [Ev.items, items, one, List.cons_append, itemKinds]; rfl, by simp⟩
      | _ => simp at h
  | rep e n ih =>
    intro h us R hu _
    simp only [Ev.ok] at h
    simp only [Ev.items, itemKinds_append] at hu
    obtain ⟨u1, u2, rfl, h1, h2⟩ := kindsOf_split hu
    obtain ⟨p, us', rfl, h'⟩ := kindsOf_cons (k := .repeat n) (t := '*' :: natDigits n) (ks := []) h2
    rw [List.append_assoc]
    exact ih h.1 u1 _ h1 ⟨_, _, rfl, by simp, by simp, by simp⟩
  | onReps e rs ih =>
    intro h us R hu _
    simp only [Ev.ok] at h
    simp only [Ev.items, itemKinds_append] at hu
    obtain ⟨u1, u2, rfl, h1, h2⟩ := kindsOf_split hu
    obtain ⟨p, us', rfl, h'⟩ := kindsOf_cons (k := rangesTok rs) (t := rangesText rs) (ks := []) h2
    rw [List.append_assoc]
    exact ih h.1 u1 _ h1 ⟨_, _, rfl, by simp [rangesTok], by simp [rangesTok], by simp [rangesTok]⟩
  | nil => trivial
  | cons => trivial

theorem Next.notDecl {rep : Nat → Bool} {tail opn : Bool} {L : Nat} {o : Bool} {R : List Token} (h : Next rep tail opn L o R) :
    ∃ u vs, R = u :: vs ∧ (∀ a, u.tok ≠ .alias a) ∧ u.tok ≠ .separator ∧ u.tok ≠ .colon := by
  obtain ⟨u, us, rfl, hu⟩ := h.fresh
  refine ⟨u, us, rfl, ?_⟩
  rcases hu with hu | ⟨n, hu, _⟩
  · obtain ⟨t, x, p⟩ := u
    cases t <;> simp [freshTok, startTok] at hu <;> simp
  · rw [hu]; simp

/-- The loop that reads the events of a list. -/
def Ctx.loop : Ctx → EventLoop
  | .part => .part
  | .defn => .varDef 0
  | .seq => .seq
  | .cram => .cram
  | .voice => .voice

theorem stop_none {x : Ctx} (hx : x ≠ .defn) {e : Ev} (hok : e.ok) (ha : e.allowed x = true) {us R : List Token} (hk : kindsOf us = itemKinds e.items)
    (hR : ∃ u vs, R = u :: vs ∧ (∀ a, u.tok ≠ .alias a) ∧ u.tok ≠ .separator ∧ u.tok ≠ .colon) : (Ctx.loop x).stop (us ++ R) = .ok none := by
  have hd := Ev.notDecl e hok us R hk hR
  obtain ⟨k, t, ks, e1, e2, _, e4⟩ := Ev.begins e hok
  rw [e1] at hk
  obtain ⟨p, us', rfl, _⟩ := kindsOf_cons hk
  rw [List.cons_append] at hd ⊢
  cases x with
  | defn => exact absurd rfl hx
  | part =>
    cases k with
    | eof => simp [startTok] at e2
    | _ => simp only [Ctx.loop, EventLoop.stop]; rw [hd]; rfl
  | seq => cases k <;> simp [startTok] at e2 <;> rfl
  | cram => cases k <;> simp [startTok] at e2 <;> rfl
  | voice =>
    cases k with
    | voiceMarker n =>
      rcases e4 ⟨n, rfl⟩ with h | ⟨e', rs, rfl⟩
      · rw [h] at ha; simp at ha
      · simp [Ev.allowed] at ha
    | name => simp only [Ctx.loop, EventLoop.stop]; rw [hd]; rfl
    | _ => first | (simp [startTok] at e2; done) | (simp only [Ctx.loop, EventLoop.stop]; rw [hd]; rfl)

/-- What reading an event gives: an event with repetitions is put together by the loop. -/
def EvReads (e : Ev) (R : List Token) (r : Node × List Token) : Prop :=
  match e with
  | .onReps _ _ => withRepetitions r.1 r.2 = (e.node, R)
  | _ => r = singleOrRepeated e.node R

theorem allowed_seq {x : Ctx} {e : Ev} (h : e.allowed x = true) : e.allowed .seq = true := by
  cases e <;> simp [Ev.allowed] at h ⊢

theorem Stream.starts {L L' : Nat} {o o' : Bool} {e : Ev} (hok : e.ok) {us : List Token} (h : Stream L o e.items us L' o') :
    ∃ u vs, us = u :: vs ∧ startTok u.tok = true ∧ L ≤ u.pos.line ∧ (o = true → L < u.pos.line) ∧ (u.tok = .barline → e.headBar = true) := by
  obtain ⟨g, text, ks, is, hi⟩ := Ev.items_starts e hok
  have hk := h.kinds
  rw [hi] at h
  obtain ⟨u, vs, rfl, a1, _, a2, _⟩ := h.head
  obtain ⟨k, t, ks', e1, e2, e3, _⟩ := Ev.begins e hok
  rw [e1] at hk
  obtain ⟨p, us', e5, _⟩ := kindsOf_cons hk
  injection e5 with e5 _
  refine ⟨u, vs, rfl, by rw [e5]; exact e2, a1, a2, fun hb => e3 ?_⟩
  rw [e5] at hb
  exact hb

/-- What comes after an event of a list. -/
theorem next_in_list {x : Ctx} {e : Ev} {es : List Ev} (hok : allOk (e :: es)) (hs : shape x (e :: es)) {L L' : Nat} {o o' : Bool} {us R : List Token}
    (h : Stream L o (items es) us L' o') (hR : Next noRep (lastTail (e :: es)) (lastOpen (e :: es)) L' o' R) :
    Next noRep e.tailDur e.open L o (us ++ R) := by
  cases es with
  | nil =>
    cases h
    exact hR
  | cons e' es =>
    simp only [allOk] at hok
    simp only [shape] at hs
    have hk := h.kinds
    have hc := items_calm (e' :: es) (by simp only [allOk]; exact hok.2) us R hk hR.calm
    simp only [items] at h
    obtain ⟨u1, u2, L1, o1, rfl, h1, h2⟩ := h.split
    obtain ⟨u, vs, rfl, a1, a2, a3, a4⟩ := h1.starts hok.2.1
    refine ⟨⟨u, _, rfl, Or.inl (by simp [freshTok, a1])⟩, hc, fun ht v ws e1 hb => ?_, fun ho => ?_, fun ho v ws e1 => ?_⟩
    · injection e1 with e1 _
      subst e1
      exact hs.2.2.1 e' rfl ⟨ht, a4 hb⟩
    · rw [hs.2.1 (by simp)] at ho; simp at ho
    · injection e1 with e1 _
      subst e1
      exact Or.inr (a3 ho)

theorem seqHead {e : Ev} (hok : e.ok) {us R : List Token} (hk : kindsOf us = itemKinds e.items) : ∀ u vs, us ++ R = u :: vs → startTok u.tok = true := by
  intro u vs h
  obtain ⟨k, t, ks', e1, e2, _⟩ := Ev.begins e hok
  rw [e1] at hk
  obtain ⟨p, us', rfl, _⟩ := kindsOf_cons hk
  injection h with h _
  rw [← h]
  exact e2

theorem withRepetitions_none {n : Node} {R : List Token} (h : ∀ u vs rs, R = u :: vs → u.tok ≠ .repetitions rs) : withRepetitions n R = (n, R) := by
  cases R with
  | nil => rfl
  | cons u vs =>
    obtain ⟨t, x, p⟩ := u
    cases t <;> first | rfl | exact absurd rfl (h _ _ _ rfl)

/-- After an event of a list there are no repetitions that the event does not have. -/
theorem no_repetitions {x : Ctx} {es : List Ev} (hok : allOk es) {us R : List Token} (hk : kindsOf us = itemKinds (items es)) {R' : List Token}
    (hx : x = .seq) (hR : (Ctx.loop x).stop R = .ok (some R')) : ∀ u vs rs, us ++ R = u :: vs → u.tok ≠ .repetitions rs := by
  subst hx
  cases es with
  | nil =>
    obtain rfl := kindsOf_nil hk
    intro u vs rs e hu
    rw [List.nil_append] at e
    subst e
    obtain ⟨t, x, p⟩ := u
    simp only at hu
    subst hu
    simp [Ctx.loop, EventLoop.stop] at hR
  | cons e es =>
    simp only [allOk] at hok
    simp only [items, itemKinds_append] at hk
    obtain ⟨u1, u2, rfl, h1, h2⟩ := kindsOf_split hk
    intro u vs rs e1 hu
    rw [List.append_assoc] at e1
    have := seqHead hok.1 h1 u vs e1
    rw [hu] at this
    simp [startTok] at this

theorem decorate_reads {x : Ctx} {e : Ev} (ha : e.allowed x = true) {R : List Token} {r : Node × List Token} (h : EvReads e R r)
    (hR : ∀ u us k, R = u :: us → u.tok ≠ .repeat k) (hr : x = .seq → ∀ u vs rs, R = u :: vs → u.tok ≠ .repetitions rs) :
    (Ctx.loop x).decorate r.1 r.2 = (e.node, R) := by
  have plain : r = singleOrRepeated e.node R → (Ctx.loop x).decorate r.1 r.2 = (e.node, R) := by
    intro h
    rw [singleOrRepeated_single _ hR] at h
    subst h
    cases x with
    | seq => exact withRepetitions_none (hr rfl)
    | _ => rfl
  cases e with
  | onReps e rs =>
    have hx : x = .seq := by simpa [Ev.allowed] using ha
    subst hx
    exact h
  | _ => exact plain h

theorem eof_not_start {t : Tok} (h : startTok t = true) : t ≠ .eof := by
  rintro rfl
  simp [startTok] at h

/-- The loop of a definition goes on at a token on the line of the name. -/
theorem varDef_go {u : Token} {us : List Token} {N : Nat} (h : u.tok ≠ .eof) (hl : u.pos.line = N) : (EventLoop.varDef N).stop (u :: us) = .ok none := by
  obtain ⟨t, x, p⟩ := u
  simp only at hl
  cases t <;> first | exact absurd rfl h | simp [EventLoop.stop, hl]

theorem varDef_stop {u : Token} {us : List Token} {N : Nat} (h : u.tok = .eof ∨ N < u.pos.line) : (EventLoop.varDef N).stop (u :: us) = .ok (some (u :: us)) := by
  obtain ⟨t, x, p⟩ := u
  rcases h with h | h
  · simp only at h
    subst h
    rfl
  · have : ¬ p.line = N := by
      have : N < p.line := h
      omega
    cases t <;> simp [EventLoop.stop, this]

theorem voice_stop {R : List Token} (h : Closers R) : EventLoop.voice.stop R = .ok (some R) := by
  rcases h with ⟨u, us, rfl, h⟩ | h
  · obtain ⟨t, x, p⟩ := u
    simp only at h
    rcases h with rfl | rfl | rfl <;> rfl
  · simp only [EventLoop.stop, h]
    split <;> first | rfl | simp

theorem closers_voice {R : List Token} (h : Closers R) : ∀ u us n, R = u :: us → u.tok ≠ .voiceMarker n := by
  rintro u us n rfl hu
  rcases h with ⟨v, vs, e, h⟩ | h
  · injection e with e _
    subst e
    rw [hu] at h
    simp at h
  · obtain ⟨t, x, p⟩ := u
    simp only at hu
    subst hu
    simp [looksLikePartDeclaration] at h

theorem closers_plain {R : List Token} (h : Closers R) : ∃ u us, R = u :: us := by
  rcases h with ⟨v, vs, e, h⟩ | h
  · exact ⟨v, vs, e⟩
  · cases R with
    | nil => simp [looksLikePartDeclaration] at h
    | cons u us => exact ⟨u, us, rfl⟩

end Syn
end Alda
