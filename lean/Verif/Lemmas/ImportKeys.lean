import Verif.Lemmas.ImportPasses
/-!
The pass over accidentals, the one over repeats, and what imported events leave alone.
-/
namespace Alda
open Spec Importer

theorem Spec.NothingGlobal.framed {s t : Score} (h : NothingGlobal s) (f : Framed s t) : NothingGlobal t := by unfold NothingGlobal; rw [f.glob]; exact h

/-! ### What imported events leave alone -/

theorem attr_framed (u : PartUpd) (hu : u.kind ≠ .keySignature) (s : Score) : Framed s (attrUpd u s).s := by
  refine Framed.forIds ?_ _ s
  intro i t
  unfold attrPart
  split
  · exact .refl t
  · rename_i p hp
    refine ⟨rfl, rfl, fun j => ?_⟩
    simp only [Out.ok, Score.setPart]
    split
    · rename_i e; rw [e]; show p.keySig = _; exact updatePart_keySig hu hp
    · rfl

theorem member_framed {deref : List Upd → Score → Out} {e : Upd} (h : Member e) {s : Score} (hn : NothingGlobal s) : Framed s (updWith deref e s).s := by
  match e, h with
  | .leaf (.note p d sl), _ => exact (noteUpd_timed p d sl hn).toFramed
  | .leaf (.rest d), _ => exact (restUpd_timed d hn).toFramed
  | .leaf (.attr u), h => exact attr_framed u h.1 s
  | .barline, _ => exact .refl s

theorem chordEvents_framed {deref : List Upd → Score → Out} : ∀ (es : List Upd), (∀ e ∈ es, Member e) → ∀ (m : Shortest) (s : Score), NothingGlobal s →
    Framed s (chordEvents deref es m s).out.s := by
  intro es
  induction es with
  | nil => intro _ m s _; exact .refl s
  | cons e es ih =>
    intro h m s hn
    simp only [chordEvents]
    have hf := member_framed (deref := deref) (h e (by simp)) hn
    split
    · exact .refl s
    · split
      · rename_i ho; rw [ho] at hf; exact hf
      · rename_i ho; rw [ho] at hf; exact hf.trans (ih (fun e he => h e (by simp [he])) _ _ (hn.framed hf))

theorem setRepetition_framed (r : Int) (i : Nat) (s : Score) : Framed s (setRepetition r i s).s := Framed.mod s i (fun p => { p with repetition := r }) (fun _ => rfl)
theorem chordAdvance_framed (m : Shortest) (i : Nat) (s : Score) : Framed s (chordAdvance m i s).s :=
  Framed.mod s i (fun p => { p with lastOffset := p.offset, offset := p.offset + (m i).getD maxFloat }) (fun _ => rfl)

theorem repLoop_framed {b : Score → Out} (hb : ∀ s, NothingGlobal s → Framed s (b s).s) : ∀ (k : Nat) (r : Int) (s : Score), NothingGlobal s → Framed s (repLoop b k r s).s := by
  intro k
  induction k with
  | zero => intro r s _; exact .refl s
  | succ k ih =>
    intro r s hn
    simp only [repLoop]
    refine Framed.andThen (Framed.forIds (setRepetition_framed r) _ s) ?_
    intro t ht
    have hnt := hn.framed ht
    refine Framed.andThen (hb t hnt) ?_
    intro u hu
    exact ih _ u (hnt.framed hu)

theorem forIdx_framed {g : Nat → Score → Out} (hg : ∀ i s, NothingGlobal s → Framed s (g i s).s) : ∀ (l : List Nat) (s : Score), NothingGlobal s → Framed s (forIds g l s).s := by
  intro l
  induction l with
  | nil => intro s _; exact .refl s
  | cons i l ih =>
    intro s hn
    simp only [forIds]
    exact (hg i s hn).andThen (fun t ht => ih t (hn.framed ht))

theorem onRepsAt_framed {b : Score → Out} (hb : ∀ s, NothingGlobal s → Framed s (b s).s) (rs : List (Int × Int)) (i : Nat) (s : Score) (hn : NothingGlobal s) :
    Framed s (onRepsAt rs b i s).s := by
  unfold onRepsAt
  split
  · exact .refl s
  · split
    · exact hb s hn
    · exact .refl s

mutual
theorem upd_framed {deref : List Upd → Score → Out} : ∀ (e : Upd), Imported e → ∀ s, NothingGlobal s → Framed s (updWith deref e s).s
  | .leaf (.note p d sl), h, s, hn => member_framed (e := .leaf (.note p d sl)) h hn
  | .leaf (.rest d), h, s, hn => member_framed (e := .leaf (.rest d)) h hn
  | .leaf (.attr u), h, s, hn => member_framed (e := .leaf (.attr u)) h hn
  | .barline, h, s, hn => member_framed (e := .barline) h hn
  | .chord es, h, s, hn => by
    simp only [updWith]
    refine Framed.andThen (applyGlobals_timed hn).toFramed ?_
    intro t ht
    have hx : Framed t (chordEvents deref es (fun i => if t.current.contains i then none else some 0) { t with chordMode := true }).out.s := by
      have := chordEvents_framed (deref := deref) es h (fun i => if t.current.contains i then none else some 0) { t with chordMode := true } (show NothingGlobal t from hn.framed ht)
      exact ⟨this.cur, this.glob, this.key⟩
    refine Framed.andThen hx ?_
    intro u hu
    have := Framed.forIds (g := chordAdvance (chordEvents deref es (fun i => if t.current.contains i then none else some 0) { t with chordMode := true }).shortest)
      (chordAdvance_framed _) u.current { u with chordMode := false }
    exact ⟨this.cur, this.glob, this.key⟩
  | .seq es, h, s, hn => by simp only [updWith]; exact list_framed es h s hn
  | .rep (.seq es) n, h, s, hn => by
    have hb : ∀ s, NothingGlobal s → Framed s (updWith deref (.seq es) s).s := fun s hn => by simp only [updWith]; exact list_framed es h.2 s hn
    simp only [updWith] at hb ⊢
    exact repLoop_framed hb _ _ s hn
  | .onReps rs (.seq es), h, s, hn => by
    have hb : ∀ s, NothingGlobal s → Framed s (updWith deref (.seq es) s).s := fun s hn => by simp only [updWith]; exact list_framed es h s hn
    simp only [updWith] at hb ⊢
    exact forIdx_framed (fun i s hn => onRepsAt_framed hb rs i s hn) _ s hn
theorem list_framed {deref : List Upd → Score → Out} : ∀ (es : List Upd), ImportedL es → ∀ s, NothingGlobal s → Framed s (updListWith deref es s).s
  | [], _, s, _ => .refl s
  | e :: es, h, s, hn => by
    simp only [updListWith]
    exact (upd_framed e h.1 s hn).andThen (fun t ht => list_framed es h.2 t (hn.framed ht))
end

/-! ### Accidentals -/

theorem reset_fst (r : Upd × Opt) : (resetAtBarline r).1 = r.1 := by unfold resetAtBarline; split <;> rfl
theorem reset_key (r : Upd × Opt) : (resetAtBarline r).2.key = r.2.key := by unfold resetAtBarline; split <;> rfl


/-- The active parts are `c` and have the key signature `K`; there are no global changes. -/
structure InKey (K : KeySig) (c : List Nat) (s : Score) : Prop where
  none : NothingGlobal s
  cur : s.current = c
  key : ∀ i ∈ c, (s.heap i).keySig = K

theorem InKey.framed {K : KeySig} {c : List Nat} {s t : Score} (h : InKey K c s) (f : Framed s t) : InKey K c t :=
  ⟨h.none.framed f, f.cur.trans h.cur, fun i hi => (f.key i).trans (h.key i hi)⟩

/-- The two do the same in this key. -/
def SameIn (K : KeySig) (c : List Nat) (b b' : Score → Out) : Prop := ∀ s, InKey K c s → b' s = b s

theorem notePart_key {l : Letter} {K : KeySig} (d : Dur) (sl : Bool) (i : Nat) (s : Score) (hk : (s.heap i).keySig = K) :
    notePart (.letter l none) d sl i s = notePart (.letter l (K l)) d sl i s := by
  unfold notePart emitNote
  have : ∀ o t, calculateMidiNote (.letter l none) o (s.heap i).keySig t = calculateMidiNote (.letter l (K l)) o (s.heap i).keySig t := by
    intro o t
    unfold calculateMidiNote
    rw [hk]
    simp only [KeySig.read]
    cases K l <;> rfl
  simp only [this]

theorem forIds_same {g g' : Nat → Score → Out} {I : Score → Prop} (hg : ∀ i s, I s → g' i s = g i s) (hI : ∀ i s, I s → I (g i s).s) :
    ∀ (l : List Nat) (s : Score), I s → forIds g' l s = forIds g l s := by
  intro l
  induction l with
  | nil => intro s _; rfl
  | cons i l ih =>
    intro s h
    simp only [forIds]
    rw [hg i s h]
    have h2 := hI i s h
    rcases hx : g i s with ⟨e, t⟩
    rw [hx] at h2
    cases e with
    | some e => rfl
    | none => exact ih t h2

theorem forMem_same {g g' : Nat → Score → Out} {I : Score → Prop} : ∀ (l : List Nat), (∀ i ∈ l, ∀ s, I s → g' i s = g i s) → (∀ i s, I s → I (g i s).s) → ∀ (s : Score), I s →
    forIds g' l s = forIds g l s := by
  intro l
  induction l with
  | nil => intro _ _ s _; rfl
  | cons i l ih =>
    intro hg hI s h
    simp only [forIds]
    rw [hg i (by simp) s h]
    have h2 := hI i s h
    rcases hx : g i s with ⟨e, t⟩
    rw [hx] at h2
    cases e with
    | some e => rfl
    | none => exact ih (fun i hi => hg i (by simp [hi])) hI t h2

theorem noteUpd_key {l : Letter} {K : KeySig} {c : List Nat} (d : Dur) (sl : Bool) : SameIn K c (noteUpd (.letter l (K l)) d sl) (noteUpd (.letter l none) d sl) := by
  intro s h
  unfold noteUpd
  have ht := beforeNote_timed d h.none
  rcases ho : beforeNote d s with ⟨e, t⟩
  rw [ho] at ht
  cases e with
  | some e => rfl
  | none =>
    have h2 := h.framed ht.toFramed
    simp only at h2
    simp only [Out.andThen]
    rw [h2.cur]
    exact forMem_same (I := InKey K c) c (fun i hi u hu => notePart_key d sl i u (hu.key i hi)) (fun i u hu => hu.framed (notePart_timed _ d sl i u).toFramed) t h2

theorem acc_member {K : KeySig} {c : List Nat} {deref : List Upd → Score → Out} (o : Opt) (hk : o.key = K) (e : Upd) (h : Member e) :
    SameIn K c (updWith deref e) (updWith deref (accUpd o e).1) ∧ (accUpd o e).2.key = K ∧ specifiedDuration (accUpd o e).1 = specifiedDuration e := by
  match e, h with
  | .leaf (.note (.midi n) d sl), _ =>
    simp only [accUpd, modifyAccidentals, reset_fst, reset_key]
    exact ⟨fun _ _ => rfl, hk, by first | trivial | rfl⟩
  | .leaf (.note (.letter l acc) d sl), _ =>
    simp only [accUpd, modifyAccidentals, reset_fst, reset_key]
    by_cases h1 : acc ≠ o.key l
    · simp only [if_pos h1]
      exact ⟨fun _ _ => rfl, hk, by first | trivial | rfl⟩
    · simp only [if_neg h1]
      have h1 : acc = K l := by rw [← hk]; exact Decidable.not_not.1 h1
      by_cases h2 : o.noteState l = false
      · simp only [if_pos h2]
        have : SameIn K c (updWith deref (.leaf (.note (.letter l acc) d sl))) (updWith deref (.leaf (.note (.letter l none) d sl))) := by
          rw [h1]; exact noteUpd_key d sl
        exact ⟨this, hk, rfl⟩
      · simp only [if_neg h2]
        exact ⟨fun _ _ => rfl, hk, by first | trivial | rfl⟩
  | .leaf (.rest d), _ =>
    simp only [accUpd, modifyAccidentals, reset_fst, reset_key]
    exact ⟨fun _ _ => rfl, hk, by first | trivial | rfl⟩
  | .leaf (.attr u), h =>
    cases u with
    | keySignature k => exact absurd rfl h.1
    | _ =>
      simp only [accUpd, modifyAccidentals, reset_fst, reset_key]
      exact ⟨fun _ _ => rfl, hk, by first | trivial | rfl⟩
  | .barline, _ =>
    simp only [accUpd, modifyAccidentals, reset_fst, reset_key]
    exact ⟨fun _ _ => rfl, hk, by first | trivial | rfl⟩

theorem acc_chord {K : KeySig} {c : List Nat} {deref : List Upd → Score → Out} : ∀ (es : List Upd), (∀ e ∈ es, Member e) → ∀ (o : Opt), o.key = K →
    (∀ m s, InKey K c s → chordEvents deref (accList o es).1 m s = chordEvents deref es m s) ∧ (accList o es).2.key = K := by
  intro es
  induction es with
  | nil => intro _ o hk; exact ⟨fun _ _ _ => rfl, hk⟩
  | cons e es ih =>
    intro h o hk
    have hm := h e (by simp)
    obtain ⟨h1, h2, h3⟩ := acc_member (c := c) (deref := deref) o hk e hm
    obtain ⟨i1, i2⟩ := ih (fun e he => h e (by simp [he])) _ h2
    refine ⟨?_, i2⟩
    intro m s hs
    simp only [accList, chordEvents, h3, h1 s hs]
    cases shortestLoop s (specifiedDuration e) s.current m with
    | none => rfl
    | some m1 =>
      simp only
      have hf := member_framed (deref := deref) hm hs.none
      rcases hx : updWith deref e s with ⟨err, t⟩
      rw [hx] at hf
      cases err with
      | some x => rfl
      | none => exact i1 m1 t (hs.framed hf)

theorem SameIn.chord {K : KeySig} {c : List Nat} {deref : List Upd → Score → Out} {es es' : List Upd}
    (h : ∀ m s, InKey K c s → chordEvents deref es' m s = chordEvents deref es m s) : SameIn K c (updWith deref (.chord es)) (updWith deref (.chord es')) := by
  intro s hs
  simp only [updWith]
  have hf := (applyGlobals_timed hs.none).toFramed
  rcases hx : applyGlobals s with ⟨e, t⟩
  rw [hx] at hf
  cases e with
  | some e => rfl
  | none =>
    have ht := hs.framed hf
    simp only at ht
    simp only [Out.andThen]
    rw [h _ { t with chordMode := true } ⟨ht.none, ht.cur, ht.key⟩]

theorem SameIn.seq {K : KeySig} {c : List Nat} {deref : List Upd → Score → Out} {es es' : List Upd} (h : SameIn K c (updListWith deref es) (updListWith deref es')) :
    SameIn K c (updWith deref (.seq es)) (updWith deref (.seq es')) := by
  intro s hs; simp only [updWith]; exact h s hs

theorem SameIn.rep {K : KeySig} {c : List Nat} {deref : List Upd → Score → Out} {e e' : Upd} (n : Int) (hb : ∀ s, NothingGlobal s → Framed s (updWith deref e s).s)
    (h : SameIn K c (updWith deref e) (updWith deref e')) : SameIn K c (updWith deref (.rep e n)) (updWith deref (.rep e' n)) := by
  intro s hs
  simp only [updWith]
  generalize n.toNat = k, (1 : Int) = r
  induction k generalizing r s with
  | zero => rfl
  | succ k ih =>
    simp only [repLoop]
    have hf : Framed s (forIds (setRepetition r) s.current s).s := Framed.forIds (setRepetition_framed r) _ s
    rcases hx : forIds (setRepetition r) s.current s with ⟨err, t⟩
    rw [hx] at hf
    cases err with
    | some e => rfl
    | none =>
      have ht := hs.framed hf
      simp only at ht
      simp only [Out.andThen]
      rw [h t ht]
      have hf2 := hb t ht.none
      rcases hx : updWith deref e t with ⟨err, u⟩
      rw [hx] at hf2
      cases err with
      | some e => rfl
      | none => exact ih u (ht.framed hf2) _

theorem SameIn.onReps {K : KeySig} {c : List Nat} {deref : List Upd → Score → Out} {e e' : Upd} (rs : List (Int × Int)) (hb : ∀ s, NothingGlobal s → Framed s (updWith deref e s).s)
    (h : SameIn K c (updWith deref e) (updWith deref e')) : SameIn K c (updWith deref (.onReps rs e)) (updWith deref (.onReps rs e')) := by
  intro s hs
  simp only [updWith]
  refine forIds_same (I := InKey K c) ?_ (fun i t ht => ht.framed (onRepsAt_framed hb rs i t ht.none)) _ s hs
  intro i t ht
  unfold onRepsAt
  rw [h t ht]

mutual
theorem acc_upd {K : KeySig} {c : List Nat} {deref : List Upd → Score → Out} : ∀ (e : Upd) (o : Opt), o.key = K → Imported e →
    SameIn K c (updWith deref e) (updWith deref (accUpd o e).1) ∧ (accUpd o e).2.key = K
  | .leaf (.note p d sl), o, hk, h => by obtain ⟨a, b, _⟩ := acc_member (c := c) (deref := deref) o hk (.leaf (.note p d sl)) h; exact ⟨a, b⟩
  | .leaf (.rest d), o, hk, h => by obtain ⟨a, b, _⟩ := acc_member (c := c) (deref := deref) o hk (.leaf (.rest d)) h; exact ⟨a, b⟩
  | .leaf (.attr u), o, hk, h => by obtain ⟨a, b, _⟩ := acc_member (c := c) (deref := deref) o hk (.leaf (.attr u)) h; exact ⟨a, b⟩
  | .barline, o, hk, h => by obtain ⟨a, b, _⟩ := acc_member (c := c) (deref := deref) o hk .barline h; exact ⟨a, b⟩
  | .chord es, o, hk, h => by
    obtain ⟨a, b⟩ := acc_chord (c := c) (deref := deref) es h o hk
    simp only [accUpd]
    exact ⟨SameIn.chord a, b⟩
  | .seq es, o, hk, h => by
    obtain ⟨a, b⟩ := acc_list (c := c) (deref := deref) es o hk h
    simp only [accUpd]
    exact ⟨SameIn.seq a, b⟩
  | .rep (.seq es) n, o, hk, h => by
    obtain ⟨a, b⟩ := acc_list (c := c) (deref := deref) es o hk h.2
    simp only [accUpd]
    exact ⟨SameIn.rep n (fun s hn => by simp only [updWith]; exact list_framed es h.2 s hn) (SameIn.seq a), b⟩
  | .onReps rs (.seq es), o, hk, h => by
    obtain ⟨a, b⟩ := acc_list (c := c) (deref := deref) es o hk h
    simp only [accUpd]
    exact ⟨SameIn.onReps rs (fun s hn => by simp only [updWith]; exact list_framed es h s hn) (SameIn.seq a), b⟩
theorem acc_list {K : KeySig} {c : List Nat} {deref : List Upd → Score → Out} : ∀ (es : List Upd) (o : Opt), o.key = K → ImportedL es →
    SameIn K c (updListWith deref es) (updListWith deref (accList o es).1) ∧ (accList o es).2.key = K
  | [], o, hk, _ => ⟨fun _ _ => rfl, hk⟩
  | e :: es, o, hk, h => by
    obtain ⟨a, b⟩ := acc_upd (c := c) (deref := deref) e o hk h.1
    obtain ⟨a2, b2⟩ := acc_list (c := c) (deref := deref) es _ b h.2
    simp only [accList]
    refine ⟨?_, b2⟩
    intro s hs
    simp only [updListWith]
    rw [a s hs]
    have hf := upd_framed (deref := deref) e h.1 s hs.none
    rcases hx : updWith deref e s with ⟨err, t⟩
    rw [hx] at hf
    cases err with
    | some x => rfl
    | none => exact a2 t (hs.framed hf)
end

end Alda
