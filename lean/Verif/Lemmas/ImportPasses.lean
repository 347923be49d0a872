import Verif.Lemmas.ImportChords
/-!
The passes of the importer's clean-up do not change what is heard.
-/
namespace Alda
open Spec Importer

/-! ### Durations -/

mutual
theorem dur_upd {c : List Nat} {deref : List Upd → Score → Out} : ∀ (e : Upd) (o : Opt), Imported e → DurStep c deref e (durUpd o e).1 o.dur (durUpd o e).2.dur
  | .leaf (.note p d sl), o, h => (dur_member o (.leaf (.note p d sl)) h).1
  | .leaf (.rest d), o, h => (dur_member o (.leaf (.rest d)) h).1
  | .leaf (.attr u), o, h => (dur_member o (.leaf (.attr u)) h).1
  | .barline, o, h => (dur_member o .barline h).1
  | .chord es, o, h => by
    intro s s' hr hc _
    simp only [durUpd]
    exact ⟨chord_rel (fun m s s' hr hc => dur_chord es h _ m s s' hr hc (.inl rfl)) s s' hr hc, fun _ => .inl rfl⟩
  | .seq es, o, h => by
    intro s s' hr hc _
    simp only [durUpd]
    exact ⟨seq_rel (fun s s' hr hc => (dur_list es o.resetDuration h s s' hr hc (.inl rfl)).1) s s' hr hc, fun _ => .inl rfl⟩
  | .rep (.seq es) n, o, h => by
    intro s s' hr hc _
    simp only [durUpd]
    exact ⟨rep_rel n (seq_rel (fun s s' hr hc => (dur_list es o.resetDuration h.2 s s' hr hc (.inl rfl)).1)) s s' hr hc, fun _ => .inl rfl⟩
  | .onReps rs (.seq es), o, h => by
    intro s s' hr hc _
    simp only [durUpd]
    exact ⟨onReps_rel rs (seq_rel (fun s s' hr hc => (dur_list es o.resetDuration h s s' hr hc (.inl rfl)).1)) s s' hr hc, fun _ => .inl rfl⟩
theorem dur_list {c : List Nat} {deref : List Upd → Score → Out} : ∀ (es : List Upd) (o : Opt), ImportedL es → ∀ s s', DurRel s s' → s.current = c → Lasting o.dur c s' →
    DurOut c (updListWith deref es s) (updListWith deref (durList o es).1 s') ∧
      ((updListWith deref (durList o es).1 s').err = none → Lasting (durList o es).2.dur c (updListWith deref (durList o es).1 s').s)
  | [], o, _, s, s', hr, hc, hl => ⟨⟨rfl, hr, hc⟩, fun _ => hl⟩
  | e :: es, o, h, s, s', hr, hc, hl => by
    obtain ⟨a, b⟩ := dur_upd (deref := deref) e o h.1 s s' hr hc hl
    simp only [durList, updListWith]
    constructor
    · refine a.andThen ?_
      intro t t' ht htc he e1 e2
      subst e1 e2
      exact (dur_list es _ h.2 _ _ ht htc (b (a.err.trans he))).1
    · intro he
      rcases ho : updWith deref (durUpd o e).1 s' with ⟨err, t'⟩
      rw [ho] at he b a
      cases err with
      | some x => simp [Out.andThen] at he
      | none =>
        simp only [Out.andThen] at he ⊢
        exact (dur_list es _ h.2 _ _ a.rel a.cur (b rfl)).2 he
end

/-! ### Barlines -/

theorem toMsFrom_barline (T : Rat) : ∀ (d : Dur) (acc : Rat), Dur.toMsFrom T acc (d ++ [.barline]) = Dur.toMsFrom T acc d := by
  intro d
  induction d with
  | nil => intro acc; simp only [List.nil_append, Dur.toMsFrom, DurComp.toMs, Rat.add_zero]
  | cons c d ih =>
    intro acc
    simp only [List.cons_append, Dur.toMsFrom]
    cases c.toMs T with
    | none => rfl
    | some x => exact ih _

theorem validList_barline : ∀ d : Dur, Dur.validList (d ++ [.barline]) = Dur.validList d := by
  intro d
  induction d with
  | nil => rfl
  | cons c d ih => simp only [List.cons_append, Dur.validList, ih]

theorem removeBarline_cases (d : Dur) : (d = (removeBarline d).1 ++ [.barline] ∧ (removeBarline d).2 = true) ∨ removeBarline d = (d, false) := by
  unfold removeBarline
  split
  · rename_i h
    left
    refine ⟨?_, rfl⟩
    have hne : d ≠ [] := by intro h0; subst h0; simp at h
    have := List.dropLast_concat_getLast hne
    rw [List.getLast?_eq_some_getLast hne, Option.some.injEq] at h
    rw [h] at this
    exact this.symm
  · exact .inr rfl

theorem std_only {d : Dur} (hd : NotOnlyBars d) : NotOnlyBars (removeBarline d).1 := by
  rcases removeBarline_cases d with ⟨h, -⟩ | h
  · generalize (removeBarline d).1 = x at h
    subst h
    rcases hd with hd | ⟨y, hy, hn⟩
    · simp at hd
    · refine .inr ⟨y, ?_, hn⟩
      rcases List.mem_append.1 hy with hy | hy
      · exact hy
      · simp only [List.mem_singleton] at hy; exact absurd hy hn
  · rw [h]; exact hd

theorem std_fits {d : Dur} (hd0 : NotOnlyBars d) (c : List Nat) (s : Score) : Fits d (removeBarline d).1 c s ∧ (removeBarline d).1.valid = d.valid := by
  have hd : d ≠ [.barline] := by
    intro h0
    subst h0
    rcases hd0 with h | ⟨x, hx, hn⟩
    · simp at h
    · simp only [List.mem_singleton] at hx; exact hn hx
  rcases removeBarline_cases d with ⟨h, -⟩ | h
  · generalize hx : (removeBarline d).1 = x at h
    have hne : x ≠ [] := by intro h0; subst h0; exact hd h
    refine ⟨.given (by rw [h]; simp) hne ?_, ?_⟩
    · intro T; rw [h]; exact (toMsFrom_barline T x 0).symm
    · rw [h]; exact (validList_barline x).symm
  · rw [h]; exact ⟨.refl d c s, rfl⟩

theorem thenBarline {deref : List Upd → Score → Out} (b : Bool) (e : Upd) (s : Score) :
    updListWith deref (e :: (if b then [.barline] else [])) s = updWith deref e s := by
  cases b with
  | true =>
    simp only [updListWith, if_true, updWith]
    rcases updWith deref e s with ⟨err, t⟩
    cases err <;> rfl
  | false =>
    simp only [updListWith, Bool.false_eq_true, if_false]
    rcases updWith deref e s with ⟨err, t⟩
    cases err <;> rfl

theorem updList_append {deref : List Upd → Score → Out} : ∀ (xs ys : List Upd) (s : Score), updListWith deref (xs ++ ys) s = (updListWith deref xs s).andThen (updListWith deref ys) := by
  intro xs
  induction xs with
  | nil => intro ys s; rfl
  | cons x xs ih =>
    intro ys s
    simp only [List.cons_append, updListWith]
    rcases updWith deref x s with ⟨err, t⟩
    cases err with
    | none => exact ih ys t
    | some e => rfl

theorem updList_one {deref : List Upd → Score → Out} (e : Upd) (s : Score) : updListWith deref [e] s = updWith deref e s := by
  simp only [updListWith]
  rcases updWith deref e s with ⟨err, t⟩
  cases err <;> rfl

theorem DurRel.nothing {s s' : Score} (h : DurRel s s') : NothingGlobal s' := by obtain ⟨h0, f, rfl, _⟩ := h; exact h0

/-- One note or rest of a chord, with its barline after it. -/
theorem std_member {c : List Nat} {deref : List Upd → Score → Out} {e e' : Upd} (b : Bool)
    (hu : ∀ s s', DurRel s s' → s.current = c → DurOut c (updWith deref e s) (updWith deref e' s') ∧
      ((updWith deref e' s').err = none → After (specifiedDuration e') c s' (updWith deref e' s').s))
    (hf : ∀ s, Fits (specifiedDuration e) (specifiedDuration e') c s)
    (htm : ∀ s, NothingGlobal s → Timed s (updWith deref e' s).s) (es es' : List Upd)
    (ih : ∀ m s s', DurRel s s' → s.current = c → ChordRel c (chordEvents deref es m s) (chordEvents deref es' m s'))
    (m : Shortest) (s s' : Score) (hr : DurRel s s') (hc : s.current = c) :
    ChordRel c (chordEvents deref (e :: es) m s) (chordEvents deref (e' :: (if b then [.barline] else []) ++ es') m s') := by
  obtain ⟨a, af⟩ := hu s s' hr hc
  simp only [chordEvents, List.cons_append]
  have hsr := shortest_rel hr (hf s') m
  rw [hr.current, hc, hsr]
  cases hm : shortestLoop s (specifiedDuration e) c m with
  | none => exact ⟨⟨rfl, hr, hc⟩, fun he => by simp [Out.fail] at he⟩
  | some m1 =>
    simp only
    have ht := htm s' hr.nothing
    rcases ho : updWith deref e s with ⟨err, t⟩
    rcases ho' : updWith deref e' s' with ⟨err', t'⟩
    rw [ho, ho'] at a
    rw [ho'] at af ht
    have := a.err
    simp only at this
    subst this
    cases err' with
    | some x => exact ⟨⟨rfl, a.rel, a.cur⟩, fun he => by simp [Out.fail] at he⟩
    | none =>
      cases b with
      | false => exact ih m1 t t' a.rel a.cur
      | true =>
        simp only [if_true, List.cons_append, List.nil_append, chordEvents]
        have hcur : t'.current = c := a.rel.current.trans a.cur
        have hagain : shortestLoop t' (specifiedDuration .barline) c m1 = some m1 := by
          refine shortest_absorbed c m1 ?_
          intro i hi
          obtain ⟨ms, e1, e2⟩ := (shortest_absorbs c m m1 (hsr.trans hm)).2 i hi
          refine ⟨ms, ?_, ?_⟩
          · rw [ht.tempo i, ← e1]
            show Dur.toMs (t'.heap i).dur _ = _
            rw [af rfl i hi]
          · rw [ht.scale i]; exact e2
        rw [hcur, hagain]
        simp only [updWith, Out.ok]
        exact ih m1 t t' a.rel a.cur

theorem std_chord {c : List Nat} {deref : List Upd → Score → Out} : ∀ (es : List Upd), (∀ e ∈ es, Member e) → ∀ (m : Shortest) (s s' : Score),
    DurRel s s' → s.current = c → ChordRel c (chordEvents deref es m s) (chordEvents deref (standardizeBarlines es) m s') := by
  intro es
  induction es with
  | nil => intro _ m s s' hr hc; exact ⟨⟨rfl, hr, hc⟩, fun _ => rfl⟩
  | cons e es ih =>
    intro h m s s' hr hc
    have ih' := fun m s s' hr hc => ih (fun e he => h e (by simp [he])) m s s' hr hc
    have he := h e (by simp)
    simp only [standardizeBarlines]
    match e, he with
    | .leaf (.note p d sl), hd =>
      refine std_member (e := .leaf (.note p d sl)) (e' := .leaf (.note p (removeBarline d).1 sl)) _ ?_ (fun s => (std_fits hd c s).1) ?_ es _ ih' m s s' hr hc
      · intro s s' hr hc
        obtain ⟨f1, f2⟩ := std_fits hd c s'
        obtain ⟨x, y⟩ := noteUpd_rel p d _ sl f2 hr hc f1
        exact ⟨x, fun he => (y he).1⟩
      · intro s hs; exact noteUpd_timed _ _ _ hs
    | .leaf (.rest d), hd =>
      refine std_member (e := .leaf (.rest d)) (e' := .leaf (.rest (removeBarline d).1)) _ ?_ (fun s => (std_fits hd c s).1) ?_ es _ ih' m s s' hr hc
      · intro s s' hr hc
        obtain ⟨f1, f2⟩ := std_fits hd c s'
        obtain ⟨x, y⟩ := restUpd_rel d _ f2 hr hc f1
        exact ⟨x, fun he => (y he).1⟩
      · intro s hs; exact restUpd_timed _ hs
    | .leaf (.attr u), hd =>
      simp only [stdUpd, List.singleton_append, chordEvents]
      rw [hr.current, hc, shortest_rel hr (Fits.refl (specifiedDuration (.leaf (.attr u))) c s')]
      cases shortestLoop s (specifiedDuration (.leaf (.attr u))) c m with
      | none => exact ⟨⟨rfl, hr, hc⟩, fun he => by simp [Out.fail] at he⟩
      | some m1 =>
        simp only
        have a := (attr_rel (d := []) u hd.2 hr hc (.inl rfl)).1
        rcases ho : attrUpd u s with ⟨err, t⟩
        rcases ho' : attrUpd u s' with ⟨err', t'⟩
        rw [ho, ho'] at a
        simp only [updWith, leafUpd, ho, ho']
        have := a.err
        simp only at this
        subst this
        cases err' with
        | some x => exact ⟨⟨rfl, a.rel, a.cur⟩, fun he => by simp [Out.fail] at he⟩
        | none => exact ih' m1 t t' a.rel a.cur
    | .barline, _ =>
      simp only [stdUpd, List.singleton_append, chordEvents]
      rw [hr.current, hc, shortest_rel hr (Fits.refl (specifiedDuration .barline) c s')]
      cases shortestLoop s (specifiedDuration .barline) c m with
      | none => exact ⟨⟨rfl, hr, hc⟩, fun he => by simp [Out.fail] at he⟩
      | some m1 => simp only [updWith, Out.ok]; exact ih' m1 s s' hr hc

mutual
theorem std_upd {c : List Nat} {deref : List Upd → Score → Out} : ∀ (e : Upd), Imported e → RelBody c (updWith deref e) (updListWith deref (stdUpd e))
  | .leaf (.note p d sl), h => by
    intro s s' hr hc
    simp only [stdUpd]
    rw [thenBarline]
    obtain ⟨f1, f2⟩ := std_fits h c s'
    exact (noteUpd_rel p d _ sl f2 hr hc f1).1
  | .leaf (.rest d), h => by
    intro s s' hr hc
    simp only [stdUpd]
    rw [thenBarline]
    obtain ⟨f1, f2⟩ := std_fits h c s'
    exact (restUpd_rel d _ f2 hr hc f1).1
  | .leaf (.attr u), h => by
    intro s s' hr hc
    simp only [stdUpd]
    rw [updList_one]
    exact (attr_rel (d := []) u h.2 hr hc (.inl rfl)).1
  | .barline, h => by
    intro s s' hr hc
    simp only [stdUpd]
    rw [updList_one]
    exact ⟨rfl, hr, hc⟩
  | .chord es, h => by
    intro s s' hr hc
    simp only [stdUpd]
    rw [updList_one]
    exact chord_rel (fun m s s' hr hc => std_chord es h m s s' hr hc) s s' hr hc
  | .seq es, h => by
    intro s s' hr hc
    simp only [stdUpd]
    rw [updList_one]
    exact seq_rel (std_list es h) s s' hr hc
  | .rep (.seq es) n, h => by
    intro s s' hr hc
    simp only [stdUpd]
    rw [updList_one]
    exact rep_rel n (seq_rel (std_list es h.2)) s s' hr hc
  | .onReps rs (.seq es), h => by
    intro s s' hr hc
    simp only [stdUpd]
    rw [updList_one]
    exact onReps_rel rs (seq_rel (std_list es h)) s s' hr hc
theorem std_list {c : List Nat} {deref : List Upd → Score → Out} : ∀ (es : List Upd), ImportedL es → RelBody c (updListWith deref es) (updListWith deref (standardizeBarlines es))
  | [], _ => fun _ _ hr hc => ⟨rfl, hr, hc⟩
  | e :: es, h => by
    intro s s' hr hc
    simp only [standardizeBarlines]
    rw [updList_append]
    simp only [updListWith]
    exact (std_upd e h.1 s s' hr hc).andThen (fun t t' ht htc _ _ _ => std_list es h.2 t t' ht htc)
end

end Alda
