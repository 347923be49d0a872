import Verif.Lemmas.ImportNotes
/-!
Chords, repeats and the pass over durations on scores that differ in the default durations only.
-/
namespace Alda
open Spec Importer

theorem Fits.refl (d : Dur) (c : List Nat) (s : Score) : Fits d d c s := by
  by_cases h : d = []
  · exact .same h h
  · exact .given h h (fun _ => rfl)

/-! ### The shortest member of a chord -/

theorem shortest_congr {s s' : Score} {d d' : Dur} : ∀ (l : List Nat) (m : Shortest),
    (∀ i ∈ l, (effectiveDuration d' (s'.heap i)).toMs (s'.heap i).tempo = (effectiveDuration d (s.heap i)).toMs (s.heap i).tempo ∧ (s'.heap i).timeScale = (s.heap i).timeScale) →
    shortestLoop s' d' l m = shortestLoop s d l m := by
  intro l
  induction l with
  | nil => intro m _; rfl
  | cons i l ih =>
    intro m h
    obtain ⟨h1, h2⟩ := h i (by simp)
    simp only [shortestLoop, h1, h2]
    cases (effectiveDuration d (s.heap i)).toMs (s.heap i).tempo with
    | none => rfl
    | some ms => exact ih _ (fun j hj => h j (by simp [hj]))

theorem shortest_rel {c : List Nat} {s s' : Score} {d d' : Dur} (h : DurRel s s') (hf : Fits d d' c s') (m : Shortest) :
    shortestLoop s' d' c m = shortestLoop s d c m := by
  refine shortest_congr c m ?_
  intro i hi
  have := hf.length h hi
  obtain ⟨_, f, rfl, _⟩ := h
  exact ⟨this _, rfl⟩

theorem minOpt_again (a : Option Rat) (x : Rat) : minOpt (minOpt a x) x = minOpt a x := by
  cases a with
  | none => simp [minOpt, Rat.lt_irrefl]
  | some y => simp only [minOpt]; congr 1; grind

theorem minOpt_keep {a : Option Rat} {x : Rat} (h : minOpt a x = a) (y : Rat) : minOpt (minOpt a y) x = minOpt a y := by
  cases a with
  | none => simp [minOpt] at h
  | some z => simp only [minOpt, Option.some.injEq] at h ⊢; grind

theorem shortest_absorbs {s : Score} {d : Dur} : ∀ (l : List Nat) (m m' : Shortest), shortestLoop s d l m = some m' →
    (∀ i x, minOpt (m i) x = m i → minOpt (m' i) x = m' i) ∧
    ∀ i ∈ l, ∃ ms, (effectiveDuration d (s.heap i)).toMs (s.heap i).tempo = some ms ∧ minOpt (m' i) (ms * (s.heap i).timeScale) = m' i := by
  intro l
  induction l with
  | nil => intro m m' h; simp only [shortestLoop, Option.some.injEq] at h; subst h; exact ⟨fun _ _ h => h, fun _ h => by cases h⟩
  | cons i l ih =>
    intro m m' h
    simp only [shortestLoop] at h
    cases hx : (effectiveDuration d (s.heap i)).toMs (s.heap i).tempo with
    | none => rw [hx] at h; simp at h
    | some ms =>
      rw [hx] at h
      simp only at h
      obtain ⟨h1, h2⟩ := ih _ _ h
      constructor
      · intro j x hj
        refine h1 j x ?_
        split
        · rename_i e; subst e; exact minOpt_keep hj _
        · exact hj
      · intro j hj
        rcases List.mem_cons.1 hj with rfl | hj
        · refine ⟨ms, hx, h1 j _ ?_⟩
          simp only [if_true]
          exact minOpt_again _ _
        · exact h2 j hj

theorem shortest_absorbed {s : Score} {d : Dur} : ∀ (l : List Nat) (m : Shortest),
    (∀ i ∈ l, ∃ ms, (effectiveDuration d (s.heap i)).toMs (s.heap i).tempo = some ms ∧ minOpt (m i) (ms * (s.heap i).timeScale) = m i) → shortestLoop s d l m = some m := by
  intro l
  induction l with
  | nil => intro m _; rfl
  | cons i l ih =>
    intro m h
    obtain ⟨ms, h1, h2⟩ := h i (by simp)
    simp only [shortestLoop, h1, h2]
    rw [show (fun j => if j = i then m i else m j) = m from by funext j; split; (rename_i e; rw [e]); rfl]
    exact ih m (fun j hj => h j (by simp [hj]))

/-! ### Chords -/

/-- Related results of the loop over the members of a chord. -/
structure ChordRel (c : List Nat) (r r' : ChordOut) : Prop where
  out : DurOut c r.out r'.out
  short : r.out.err = none → r'.shortest = r.shortest

/-- Two bodies do the same to related scores. -/
def RelBody (c : List Nat) (b b' : Score → Out) : Prop := ∀ s s', DurRel s s' → s.current = c → DurOut c (b s) (b' s')

theorem DurRel.mode {s s' : Score} (h : DurRel s s') (b : Bool) : DurRel { s with chordMode := b } { s' with chordMode := b } := by
  obtain ⟨h0, f, rfl, hf⟩ := h
  exact ⟨h0, f, rfl, hf⟩

theorem chord_rel {c : List Nat} {deref : List Upd → Score → Out} {es es' : List Upd}
    (h : ∀ m s s', DurRel s s' → s.current = c → ChordRel c (chordEvents deref es m s) (chordEvents deref es' m s')) :
    RelBody c (updWith deref (.chord es)) (updWith deref (.chord es')) := by
  intro s s' hr hc
  simp only [updWith]
  refine (applyGlobals_same hr hc).1.andThen ?_
  intro t t' ht htc _ _ _
  have hcont : (fun i => if t'.current.contains i then none else some 0 : Shortest) = (fun i => if t.current.contains i then none else some 0) := by rw [ht.current]
  rw [hcont]
  have hx := h (fun i => if t.current.contains i then none else some 0) { t with chordMode := true } { t' with chordMode := true } (ht.mode true) htc
  refine DurOut.andThen hx.out ?_
  intro u u' hu huc he _ _
  have key : ∀ (l l' : List Nat) (m m' : Shortest), l = c → l' = c → m' = m →
      DurOut c (forIds (chordAdvance m) l { u with chordMode := false }) (forIds (chordAdvance m') l' { u' with chordMode := false }) := by
    intro l l' m m' e1 e2 e3
    subst e1 e2 e3
    refine (DurOut.forIds (fun _ => True) ?_ _ _ _ (fun _ h => h) (hu.mode false) huc trivial).1
    intro i _ v v' hv hvc _
    exact ⟨⟨rfl, hv.mod i _ (fun _ _ => rfl) (fun _ => rfl), hvc⟩, fun _ => trivial⟩
  exact key _ _ _ _ huc (hu.current.trans huc) (hx.short he)

theorem seq_rel {c : List Nat} {deref : List Upd → Score → Out} {es es' : List Upd} (h : RelBody c (updListWith deref es) (updListWith deref es')) :
    RelBody c (updWith deref (.seq es)) (updWith deref (.seq es')) := by
  intro s s' hr hc; simp only [updWith]; exact h s s' hr hc

theorem repLoop_rel {c : List Nat} {b b' : Score → Out} (h : RelBody c b b') : ∀ (k : Nat) (r : Int), RelBody c (repLoop b k r) (repLoop b' k r) := by
  intro k
  induction k with
  | zero => intro r s s' hr hc; exact ⟨rfl, hr, hc⟩
  | succ k ih =>
    intro r s s' hr hc
    simp only [repLoop]
    rw [hr.current, hc]
    refine DurOut.andThen (DurOut.forIds (fun _ => True) ?_ c s s' (fun _ h => h) hr hc trivial).1 ?_
    · intro i _ v v' hv hvc _
      exact ⟨⟨rfl, hv.mod i _ (fun _ _ => rfl) (fun _ => rfl), hvc⟩, fun _ => trivial⟩
    · intro t t' ht htc _ _ _
      exact (h t t' ht htc).andThen (fun u u' hu huc _ _ _ => ih _ u u' hu huc)

theorem rep_rel {c : List Nat} {deref : List Upd → Score → Out} {e e' : Upd} (n : Int) (h : RelBody c (updWith deref e) (updWith deref e')) :
    RelBody c (updWith deref (.rep e n)) (updWith deref (.rep e' n)) := by
  intro s s' hr hc; simp only [updWith]; exact repLoop_rel h _ _ s s' hr hc

theorem forIdx_rel {c : List Nat} {g g' : Nat → Score → Out} (hg : ∀ i, RelBody c (g i) (g' i)) : ∀ l, RelBody c (forIds g l) (forIds g' l) := by
  intro l
  induction l with
  | nil => intro s s' hr hc; exact ⟨rfl, hr, hc⟩
  | cons i l ih =>
    intro s s' hr hc
    simp only [forIds]
    exact (hg i s s' hr hc).andThen (fun t t' ht htc _ _ _ => ih t t' ht htc)

theorem onReps_rel {c : List Nat} {deref : List Upd → Score → Out} {e e' : Upd} (rs : List (Int × Int)) (h : RelBody c (updWith deref e) (updWith deref e')) :
    RelBody c (updWith deref (.onReps rs e)) (updWith deref (.onReps rs e')) := by
  intro s s' hr hc
  simp only [updWith]
  rw [hr.current]
  refine forIdx_rel ?_ _ s s' hr hc
  intro i t t' ht htc
  unfold onRepsAt
  rw [ht.current]
  cases t.current[i]? with
  | none => exact ⟨rfl, ht, htc⟩
  | some id =>
    simp only
    rw [show (t'.heap id).repetition = (t.heap id).repetition from by obtain ⟨_, f, rfl, _⟩ := ht; rfl]
    split
    · exact h t t' ht htc
    · exact ⟨rfl, ht, htc⟩

/-! ### The pass over durations -/

mutual
theorem sameComp_eq : ∀ (a b : DurComp), sameComp a b = true → a = b
  | .length d k, .length d' k', h => by simp only [sameComp, Bool.and_eq_true, beq_iff_eq] at h; rw [h.1, h.2]
  | .beats q, .beats q', h => by simp only [sameComp, beq_iff_eq] at h; rw [h]
  | .ms q, .ms q', h => by simp only [sameComp, beq_iff_eq] at h; rw [h]
  | .seconds q, .seconds q', h => by simp only [sameComp, beq_iff_eq] at h; rw [h]
  | .nested cs, .nested cs', h => by simp only [sameComp] at h; rw [sameDur_eq cs cs' h]
  | .barline, .barline, _ => rfl
  | .length .., .beats .., h | .length .., .ms .., h | .length .., .seconds .., h | .length .., .nested .., h | .length .., .barline, h
  | .beats .., .length .., h | .beats .., .ms .., h | .beats .., .seconds .., h | .beats .., .nested .., h | .beats .., .barline, h
  | .ms .., .length .., h | .ms .., .beats .., h | .ms .., .seconds .., h | .ms .., .nested .., h | .ms .., .barline, h
  | .seconds .., .length .., h | .seconds .., .beats .., h | .seconds .., .ms .., h | .seconds .., .nested .., h | .seconds .., .barline, h
  | .nested .., .length .., h | .nested .., .beats .., h | .nested .., .ms .., h | .nested .., .seconds .., h | .nested .., .barline, h
  | .barline, .length .., h | .barline, .beats .., h | .barline, .ms .., h | .barline, .seconds .., h | .barline, .nested .., h => by simp [sameComp] at h
theorem sameDur_eq : ∀ (a b : List DurComp), sameDur a b = true → a = b
  | [], [], _ => rfl
  | c :: cs, c' :: cs', h => by
    simp only [sameDur, Bool.and_eq_true] at h
    rw [sameComp_eq c c' h.1, sameDur_eq cs cs' h.2]
  | [], _ :: _, h | _ :: _, [], h => by simp [sameDur] at h
end

/-- What the pass over durations does to a duration: the new one, and the one remembered. -/
def modDur (last d : Dur) : Dur × Dur :=
  if d.any isBarlineComp then (d, [])
  else if d.isEmpty then (d, last)
  else (if !last.isEmpty && sameDur last d then [] else d, d)

theorem durUpd_note (o : Opt) (p : Pitch) (d : Dur) (sl : Bool) :
    durUpd o (.leaf (.note p d sl)) = (.leaf (.note p (modDur o.dur d).1 sl), { o with dur := (modDur o.dur d).2 }) := by
  simp only [durUpd, modifyDuration, isOrContainsBarline, noteOrRestDuration, modDur, Bool.false_or]
  by_cases h1 : d.any isBarlineComp = true
  · simp only [h1, if_true]; rfl
  · simp only [h1]
    cases d with
    | nil => rfl
    | cons x xs =>
      by_cases h3 : (!o.dur.isEmpty && sameDur o.dur (x :: xs)) = true
      · simp only [h3]; rfl
      · simp only [h3]; rfl

theorem durUpd_rest (o : Opt) (d : Dur) : durUpd o (.leaf (.rest d)) = (.leaf (.rest (modDur o.dur d).1), { o with dur := (modDur o.dur d).2 }) := by
  simp only [durUpd, modifyDuration, isOrContainsBarline, noteOrRestDuration, modDur, Bool.false_or]
  by_cases h1 : d.any isBarlineComp = true
  · simp only [h1, if_true]; rfl
  · simp only [h1]
    cases d with
    | nil => rfl
    | cons x xs =>
      by_cases h3 : (!o.dur.isEmpty && sameDur o.dur (x :: xs)) = true
      · simp only [h3]; rfl
      · simp only [h3]; rfl

theorem modDur_fits {last d : Dur} {c : List Nat} {s : Score} (h : Lasting last c s) :
    Fits d (modDur last d).1 c s ∧ (modDur last d).1.valid = d.valid ∧
      ∀ r, After (modDur last d).1 c s r → (modDur last d).1.valid = true → Lasting (modDur last d).2 c r := by
  unfold modDur
  split
  · exact ⟨.refl d c s, rfl, fun _ _ _ => .inl rfl⟩
  · split
    · rename_i hd
      refine ⟨.refl d c s, rfl, fun r hr _ => ?_⟩
      rw [List.isEmpty_iff] at hd
      subst hd
      rcases h with h | ⟨h1, h2⟩
      · exact .inl h
      · exact .inr ⟨h1, fun i hi => by rw [hr i hi]; exact h2 i hi⟩
    · rename_i hd
      rw [List.isEmpty_iff] at hd
      split
      · rename_i hs
        simp only [Bool.and_eq_true, Bool.not_eq_true', List.isEmpty_eq_false_iff] at hs
        have := sameDur_eq _ _ hs.2
        subst this
        rcases h with h | ⟨h1, h2⟩
        · exact absurd h hd
        · refine ⟨.left hd rfl h2, by rw [h1]; rfl, fun r hr _ => .inr ⟨h1, fun i hi => ?_⟩⟩
          rw [hr i hi]; exact h2 i hi
      · refine ⟨.refl d c s, rfl, fun r hr hv => .inr ⟨hv, fun i hi => ?_⟩⟩
        rw [hr i hi, eff_cons hd]
        intro T; rfl

/-- What the pass over durations must do at one event. -/
def DurStep (c : List Nat) (deref : List Upd → Score → Out) (e e' : Upd) (last last' : Dur) : Prop :=
  ∀ s s', DurRel s s' → s.current = c → Lasting last c s' →
    DurOut c (updWith deref e s) (updWith deref e' s') ∧ ((updWith deref e' s').err = none → Lasting last' c (updWith deref e' s').s)

theorem dur_member {c : List Nat} {deref : List Upd → Score → Out} (o : Opt) (e : Upd) (h : Member e) :
    DurStep c deref e (durUpd o e).1 o.dur (durUpd o e).2.dur ∧
      ∀ s, Lasting o.dur c s → Fits (specifiedDuration e) (specifiedDuration (durUpd o e).1) c s := by
  match e, h with
  | .leaf (.note p d sl), h =>
    rw [durUpd_note]
    refine ⟨?_, fun s hl => (modDur_fits hl).1⟩
    intro s s' hr hc hl
    obtain ⟨h1, h2, h3⟩ := modDur_fits (d := d) hl
    simp only [updWith, leafUpd]
    obtain ⟨a, b⟩ := noteUpd_rel p d _ sl h2 hr hc h1
    exact ⟨a, fun he => h3 _ (b he).1 (b he).2⟩
  | .leaf (.rest d), h =>
    rw [durUpd_rest]
    refine ⟨?_, fun s hl => (modDur_fits hl).1⟩
    intro s s' hr hc hl
    obtain ⟨h1, h2, h3⟩ := modDur_fits (d := d) hl
    simp only [updWith, leafUpd]
    obtain ⟨a, b⟩ := restUpd_rel d _ h2 hr hc h1
    exact ⟨a, fun he => h3 _ (b he).1 (b he).2⟩
  | .leaf (.attr u), h =>
    refine ⟨?_, fun s _ => .same rfl rfl⟩
    intro s s' hr hc hl
    exact attr_rel u h.2 hr hc hl
  | .barline, _ =>
    refine ⟨?_, fun s _ => .same rfl rfl⟩
    intro s s' hr hc hl
    exact ⟨⟨rfl, hr, hc⟩, fun _ => .inl rfl⟩

theorem dur_chord {c : List Nat} {deref : List Upd → Score → Out} : ∀ (es : List Upd), (∀ e ∈ es, Member e) → ∀ (o : Opt) (m : Shortest) (s s' : Score),
    DurRel s s' → s.current = c → Lasting o.dur c s' → ChordRel c (chordEvents deref es m s) (chordEvents deref (durList o es).1 m s') := by
  intro es
  induction es with
  | nil => intro _ o m s s' hr hc _; exact ⟨⟨rfl, hr, hc⟩, fun _ => rfl⟩
  | cons e es ih =>
    intro h o m s s' hr hc hl
    obtain ⟨h1, h2⟩ := dur_member (c := c) (deref := deref) o e (h e (by simp))
    obtain ⟨a, b⟩ := h1 s s' hr hc hl
    simp only [durList, chordEvents]
    rw [hr.current, hc, shortest_rel hr (h2 s' hl)]
    cases shortestLoop s (specifiedDuration e) c m with
    | none => exact ⟨⟨rfl, hr, hc⟩, fun he => by simp [Out.fail] at he⟩
    | some m1 =>
      simp only
      rcases ho : updWith deref e s with ⟨err, t⟩
      rcases ho' : updWith deref (durUpd o e).1 s' with ⟨err', t'⟩
      rw [ho, ho'] at a
      rw [ho'] at b
      have := a.err
      simp only at this
      subst this
      cases err' with
      | some x => exact ⟨⟨rfl, a.rel, a.cur⟩, fun he => by simp [Out.fail] at he⟩
      | none => exact ih (fun e he => h e (by simp [he])) _ m1 t t' a.rel a.cur (b rfl)

end Alda
