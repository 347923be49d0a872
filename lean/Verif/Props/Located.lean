import Verif.Lemmas.LocatedTrace
/-!
# C71: the line and column in the message of an error

`lupdate` (Verif/Model/Located.lean) is the evaluator with the places of the events and the contexts of the errors.  It does what the evaluator without places does (`c71_same`).
When a program fails, the place in the message is that of an event of the program that was run and failed with this error, and it is the event at fault or one around it, with
nothing but members of chords, of cram expressions and of variables in between (`c71_near`).  Without those, it is the event at fault (`c71_exact_partial`); with them it need not be
(`c71_cram_witness`, `c71_variable_witness`).
-/
namespace Alda
namespace Located

theorem agree_new : Agree lnew := fun _ => rfl

theorem done_agree {es : List LUpd} {st st' : LState} (h : Done es st st') : Agree st → Agree st' := by
  induction h with
  | nil => exact id
  | @cons e _ st _ _ h1 _ ih =>
    intro ha
    have := (run_refines e st ha).agree
    rw [h1] at this
    exact ih this

theorem members_agree {es : List LUpd} {m m' : Shortest} {st st' : LState} (h : Members es m st m' st') : Agree st → Agree st' := by
  induction h with
  | nil => exact id
  | @cons e _ _ _ _ st _ _ _ h1 _ ih =>
    intro ha
    have := (run_refines e st ha).agree
    rw [h1] at this
    exact ih this

theorem number_agree {r : Int} {st : LState} (h : Agree st) : Agree (number r st).st := (keep_refines h ((setRepetition_comm r).vars st.score)).agree

theorem rounds_agree {e : LUpd} {k : Nat} {r : Int} {st st' : LState} (h : Rounds e k r st st') : Agree st → Agree st' := by
  induction h with
  | zero => exact id
  | @succ _ r st st1 _ _ h0 h1 _ ih =>
    intro ha
    have h2 := number_agree (r := r) ha
    rw [h0] at h2
    have := (run_refines e _ h2).agree
    rw [h1] at this
    exact ih this

theorem turns_agree {rs : List (Int × Int)} {e : LUpd} {is : List Nat} {st st' : LState} (h : Turns rs e is st st') : Agree st → Agree st' := by
  induction h with
  | nil => exact id
  | skip _ _ ih => exact ih
  | take _ h1 _ ih =>
    intro ha
    have := (run_refines e _ ha).agree
    rw [h1] at this
    exact ih this

theorem sub_agree {e e1 : LUpd} {st st1 : LState} (h : Sub e st e1 st1) (ha : Agree st) : Agree st1 := by
  cases h with
  | seq h => exact done_agree h ha
  | @rep _ _ _ k _ _ _ h1 _ h2 =>
    have := number_agree (r := 1 + k) (rounds_agree h1 ha)
    rw [h2] at this
    exact this
  | onReps _ h _ => exact turns_agree h ha
  | chord h1 h2 _ =>
    have := (keep_refines ha (applyGlobals_comm.vars st.score)).agree
    rw [h1] at this
    exact members_agree h2 this
  | @cram _ pre post _ d _ _ _ h1 h2 =>
    have := (keep_refines ha ((cramScale_comm st.score.vars (erases (pre ++ e1 :: post)) d).vars st.score)).agree
    rw [h1] at this
    exact done_agree h2 this
  | var _ h => exact done_agree h ha

theorem run_err {e : LUpd} {st : LState} (ha : Agree st) : (upd e.erase st.score).err = (lupd e st).err.map (·.1) := by rw [← (run_refines e st ha).out]; rfl

theorem innermost_culprit {e : LUpd} {st : LState} {err : Err} {c : List Place} (ha : Agree st) (h : (lupd e st).err = some (err, c)) (hi : Innermost e st) : Culprit err e st :=
  ⟨by rw [run_err ha, h]; rfl, fun e1 st1 hs => by rw [run_err (sub_agree hs ha), hi e1 st1 hs]; rfl⟩

mutual
theorem fine_places {P : Place → Prop} : ∀ (e : LUpd), (∀ p ∈ e.places, P p) → Fine true P e
  | .simple p _, h => .inr (h p (by simp [LUpd.places]))
  | .chord p es, h => ⟨.inr (h p (by simp [LUpd.places])), fine_placesL es fun q hq => h q (by simp [LUpd.places, hq])⟩
  | .cram p es _, h => ⟨.inr (h p (by simp [LUpd.places])), fine_placesL es fun q hq => h q (by simp [LUpd.places, hq])⟩
  | .seq p es, h => ⟨.inr (h p (by simp [LUpd.places])), fine_placesL es fun q hq => h q (by simp [LUpd.places, hq])⟩
  | .rep p e _, h => ⟨.inr (h p (by simp [LUpd.places])), fine_places e fun q hq => h q (by simp [LUpd.places, hq])⟩
  | .onReps p _ e, h => ⟨.inr (h p (by simp [LUpd.places])), fine_places e fun q hq => h q (by simp [LUpd.places, hq])⟩
  | .varDef p _ es, h => ⟨.inr (h p (by simp [LUpd.places])), fine_placesL es fun q hq => h q (by simp [LUpd.places, hq])⟩
  | .varRef p _, h => ⟨.inr (h p (by simp [LUpd.places])), rfl⟩
theorem fine_placesL {P : Place → Prop} : ∀ (es : List LUpd), (∀ p ∈ placesL es, P p) → FineL true P es
  | [], _ => trivial
  | e :: es, h => ⟨fine_places e fun q hq => h q (by simp [placesL, hq]), fine_placesL es fun q hq => h q (by simp [placesL, hq])⟩
end

/-- The evaluator with places has the outcome of the one without. -/
theorem c71_same (us : List LUpd) :
    (lupdate us lnew).err.map (·.1) = (update (erases us) newScore).err ∧ (lupdate us lnew).st.score = (update (erases us) newScore).s := by
  have h := (lupdate_refines us lnew agree_new).out
  exact ⟨congrArg Out.err h, congrArg Out.s h⟩

/-- The place in the message of an error is that of an event that was run and failed with it, and that is the event at fault, or one around it with nothing but members of chords,
of cram expressions and of variables in between. -/
theorem c71_near (us : List LUpd) (hk : ∀ u ∈ us, u.place.1 ≠ 0) {err : Err} {chain : List Place} (h : (lupdate us lnew).err = some (err, chain)) :
    ∃ e st e' st', report chain = e.place ∧ e.place.1 ≠ 0 ∧ e.place ∈ placesL us ∧ Reached us lnew e st ∧ (upd e.erase st.score).err = some err ∧ Near e st e' st' ∧ Culprit err e' st' := by
  have hi : Inv (· ∈ placesL us) lnew := ⟨agree_new, fun _ _ h => by cases h⟩
  obtain ⟨u, st0, c, ⟨pre, post, h1, h2, h3, h4, h5⟩, rfl, hf⟩ := (traced us (fine_placesL us fun _ hp => hp) lnew hi).2 err chain h
  have hu : u.place.1 ≠ 0 := hk u (by rw [h1]; simp)
  have hr : report (u.place :: c) = reportFrom u.place c := by simp only [report, reportFrom]; rw [if_pos hu]
  rw [hr]
  obtain ⟨e2, st2, ⟨c2, k1⟩, k2, k3, k4⟩ := h5
  have hcul := innermost_culprit k3.agree k1 k2
  rcases k4 with ⟨g1, g2⟩ | ⟨e1, st1, g1, g2, g3, g4, g5, g6, c1, g7⟩
  · exact ⟨u, st0, e2, st2, g1 _, hu, hf.place.resolve_left hu, ⟨pre, u, post, st0, h1, h2, .self⟩, by rw [run_err h3.agree, h4]; rfl, g2, hcul⟩
  · exact ⟨e1, st1, e2, st2, g3 _, g1, g2, ⟨pre, u, post, st0, h1, h2, g4⟩, by rw [run_err g6.agree, g7]; rfl, g5, hcul⟩

theorem bare_append : ∀ {pre : List LUpd} {e : LUpd} {post : List LUpd}, BareL (pre ++ e :: post) → Bare e
  | [], _, _, h => h.1
  | _ :: pre, _, _, h => bare_append (pre := pre) h.2

theorem bare_place : ∀ {e : LUpd}, Bare e → e.place.1 ≠ 0 ∧ ¬ e.Masks
  | .simple .., h => ⟨h, id⟩
  | .seq .., h => ⟨h.1, id⟩
  | .rep .., h => ⟨h.1, id⟩
  | .onReps .., h => ⟨h.1, id⟩
  | .varDef .., h => ⟨h, id⟩

theorem bare_sub {e e1 : LUpd} {st st1 : LState} (h : Sub e st e1 st1) (hb : Bare e) : Bare e1 := by
  cases h with
  | seq _ => exact bare_append hb.2
  | rep _ _ _ => exact hb.2
  | onReps _ _ _ => exact hb.2
  | chord _ _ _ => exact hb.elim
  | cram _ _ => exact hb.elim
  | var _ _ => exact hb.elim

theorem bare_reach {e e1 : LUpd} {st st1 : LState} (h : Reach e st e1 st1) : Bare e → Bare e1 := by
  induction h with
  | self => exact id
  | sub hs _ ih => exact fun hb => ih (bare_sub hs hb)

/-- What a user expects: the place in the message is that of the event at fault. -/
def Exact (us : List LUpd) : Prop :=
  ∀ err chain, (lupdate us lnew).err = some (err, chain) → ∃ e st, report chain = e.place ∧ Reached us lnew e st ∧ Culprit err e st

/-- Without chords, cram expressions and variables, the place in the message is that of the event at fault.  Missing: those three, whose members are run without the context of the
member being added to the error (`c71_near` is what holds for them). -/
theorem c71_exact_partial (us : List LUpd) (hb : BareL us) : Exact us := by
  intro err chain h
  have hk : ∀ u ∈ us, u.place.1 ≠ 0 := fun u hu => by
    obtain ⟨a, b, rfl⟩ := List.append_of_mem hu
    exact (bare_place (bare_append hb)).1
  obtain ⟨e, st, e', st', h1, h2, _, ⟨pre, u, post, st1, rfl, h4, h5⟩, _, h7, h8⟩ := c71_near us hk h
  have hbe := bare_reach h5 (bare_append hb)
  cases h7 with
  | self => exact ⟨e, st, h1, ⟨pre, u, post, st1, rfl, h4, h5⟩, h8⟩
  | step hs hm _ =>
    rcases hm with hm | hm
    · exact absurd hm (bare_place hbe).2
    · exact absurd hm (bare_place (bare_sub hs hbe)).1

theorem done_leach {es : List LUpd} {st st' : LState} (h : Done es st st') : leach lderef es st = ⟨none, st'⟩ := by
  induction h with
  | nil => rfl
  | cons h1 _ ih =>
    simp only [leach]
    rw [show lupdWith lderef _ _ = lupd _ _ from rfl, h1]
    exact ih

/-- In such a program only the last event has this place. -/
theorem only {ds : List LUpd} {w : LUpd} {p : Place} (hd : ∀ d ∈ ds, d.place ≠ p ∧ ∀ st e1 st1, ¬ Sub d st e1 st1)
    (hw : ∀ st e1 st1, Done ds lnew st → Sub w st e1 st1 → e1.place ≠ p ∧ ∀ st e2 st2, ¬ Sub e1 st e2 st2) {e : LUpd} {st : LState}
    (h : Reached (ds ++ [w]) lnew e st) (hp : e.place = p) : e = w ∧ Done ds lnew st := by
  obtain ⟨pre, u, post, st1, h1, h2, h3⟩ := h
  have hc : (u ∈ ds) ∨ (pre = ds ∧ u = w) := by
    rcases List.append_eq_append_iff.1 h1 with ⟨a, g1, g2⟩ | ⟨a, g1, g2⟩
    · cases a with
      | nil => simp at g1 g2; exact .inr ⟨g1, g2.1.symm⟩
      | cons x a => simp at g2
    · cases a with
      | nil => simp at g1 g2; exact .inr ⟨g1.symm, g2.1⟩
      | cons x a => simp at g2; rw [g1, g2.1]; exact .inl (by simp)
  rcases hc with hu | ⟨hpre, huw⟩
  · cases h3 with
    | self => exact absurd hp (hd _ hu).1
    | sub hs _ => exact absurd hs ((hd _ hu).2 _ _ _)
  · subst hpre huw
    cases h3 with
    | self => exact ⟨rfl, h2⟩
    | sub hs hr =>
      cases hr with
      | self => exact absurd hp (hw _ _ _ h2 hs).1
      | sub hs' _ => exact absurd hs' ((hw _ _ _ h2 hs).2 _ _ _)

/-- A member of the last event fails, but the place of the last event is reported. -/
theorem not_exact {ds : List LUpd} {w e1 : LUpd} {p : Place} {st st1 : LState} (hd : ∀ d ∈ ds, d.place ≠ p ∧ ∀ st e1 st1, ¬ Sub d st e1 st1)
    (hw : ∀ st e1 st1, Done ds lnew st → Sub w st e1 st1 → e1.place ≠ p ∧ ∀ st e2 st2, ¬ Sub e1 st e2 st2)
    (hr : (lupdate (ds ++ [w]) lnew).err.map (fun x => report x.2) = some p) (hst : Done ds lnew st) (hs : Sub w st e1 st1) (hf : (upd e1.erase st1.score).err ≠ none) :
    ¬ Exact (ds ++ [w]) := by
  intro h
  cases he : (lupdate (ds ++ [w]) lnew).err with
  | none => rw [he] at hr; cases hr
  | some x =>
    obtain ⟨err, chain⟩ := x
    rw [he] at hr
    obtain ⟨e, st', h1, h2, h3⟩ := h err chain he
    simp only [Option.map_some, Option.some.injEq] at hr
    obtain ⟨rfl, h4⟩ := only hd hw h2 (h1.symm.trans hr)
    have := (done_leach h4).symm.trans (done_leach hst)
    cases this
    exact hf (h3.2 _ _ hs)

/-- A rest. -/
def restAt (p : Place) : LUpd := .simple p (.leaf (.rest []))

/-- `piano:` -/
def pianoAt (p : Place) : LUpd := .simple p (.partDecl ["piano"] "")

/-- `@nope` -/
def nopeAt (p : Place) : LUpd := .simple p (.atMarker "nope")

theorem simple_sub {p : Place} {u : Simple} {st st1 : LState} {e : LUpd} : ¬ Sub (.simple p u) st e st1 := fun h => by cases h

theorem members_two {a b e : LUpd} {pre post : List LUpd} (h : pre ++ e :: post = [a, b]) : e = a ∨ e = b := by
  have : e ∈ [a, b] := by rw [← h]; simp
  simpa using this

/-- `piano: {r @nope}`: the place is that of the cram expression, not that of `@nope`. -/
theorem c71_cram_witness : ∃ us : List LUpd, (∀ u ∈ us, u.place.1 ≠ 0) ∧ ¬ Exact us := by
  refine ⟨[pianoAt (1, 1)] ++ [.cram (1, 8) [restAt (1, 9), nopeAt (1, 11)] []], by decide, ?_⟩
  have hst : Done [pianoAt (1, 1)] lnew (lupd (pianoAt (1, 1)) lnew).st := .cons (out_none (by decide +kernel)) .nil
  refine not_exact (p := (1, 8)) (e1 := nopeAt (1, 11)) ?_ ?_ (by decide +kernel) hst
    (.cram (pre := [restAt (1, 9)]) (post := []) (out_none (by decide +kernel)) (.cons (out_none (by decide +kernel)) .nil)) (by decide +kernel)
  · intro d hd
    simp only [List.mem_singleton] at hd
    subst hd
    exact ⟨by decide, fun _ _ _ => simple_sub⟩
  · intro st e1 st1 _ hs
    generalize hg : [restAt (1, 9), nopeAt (1, 11)] = l at hs
    cases hs with
    | cram _ _ =>
      rcases members_two hg.symm with rfl | rfl
      · exact ⟨by decide, fun _ _ _ => simple_sub⟩
      · exact ⟨by decide, fun _ _ _ => simple_sub⟩

/-- `x = @nope` and `piano: x`: the place is that of the use of the variable. -/
theorem c71_variable_witness : ∃ us : List LUpd, (∀ u ∈ us, u.place.1 ≠ 0) ∧ (∃ p, LUpd.varRef p "x" ∈ us) ∧ ¬ Exact us := by
  refine ⟨[.varDef (1, 1) "x" [nopeAt (1, 5)], pianoAt (2, 1)] ++ [.varRef (2, 8) "x"], by decide, ⟨(2, 8), by simp⟩, ?_⟩
  have hst : Done [.varDef (1, 1) "x" [nopeAt (1, 5)], pianoAt (2, 1)] lnew (lupd (pianoAt (2, 1)) (lupd (.varDef (1, 1) "x" [nopeAt (1, 5)]) lnew).st).st :=
    .cons (out_none (by decide +kernel)) (.cons (out_none (by decide +kernel)) .nil)
  have hx : (lupd (pianoAt (2, 1)) (lupd (.varDef (1, 1) "x" [nopeAt (1, 5)]) lnew).st).st.vars "x" = some [nopeAt (1, 5)] := by rfl
  refine not_exact (p := (2, 8)) (e1 := nopeAt (1, 5)) ?_ ?_ (by decide +kernel) hst (.var (pre := []) (post := []) hx .nil) (by decide +kernel)
  · intro d hd
    simp only [List.mem_cons, List.not_mem_nil, or_false] at hd
    rcases hd with rfl | rfl
    · exact ⟨by decide, fun _ _ _ h => by cases h⟩
    · exact ⟨by decide, fun _ _ _ => simple_sub⟩
  · intro st e1 st1 hd hs
    have := (done_leach hd).symm.trans (done_leach hst)
    cases this
    cases hs with
    | @var _ _ pre post _ _ _ h1 _ =>
      rw [hx] at h1
      have he : e1 ∈ [nopeAt (1, 5)] := by rw [Option.some.inj h1]; simp
      simp only [List.mem_singleton] at he
      subst he
      exact ⟨by decide, fun _ _ _ => simple_sub⟩

/-- `piano: [r [r @nope]*2]`, with the places of the notes: the error is at `@nope`, in the first round. -/
example : BareL [pianoAt (1, 1), .seq (1, 8) [restAt (1, 9), .rep (1, 21) (.seq (1, 11) [restAt (1, 12), nopeAt (1, 14)]) 2]] ∧
    (lupdate [pianoAt (1, 1), .seq (1, 8) [restAt (1, 9), .rep (1, 21) (.seq (1, 11) [restAt (1, 12), nopeAt (1, 14)]) 2]] lnew).err.map (fun x => report x.2) = some (1, 14) :=
  ⟨by simp [BareL, Bare, pianoAt, restAt, nopeAt], by decide +kernel⟩

/-- `piano: [r {r [r @nope]}]`: inside of the cram expression there is a sequence, whose member is reported. -/
example : (lupdate [pianoAt (1, 1), .seq (1, 8) [restAt (1, 9), .cram (1, 11) [restAt (1, 12), .seq (1, 14) [restAt (1, 15), nopeAt (1, 17)]] []]] lnew).err.map (fun x => report x.2) =
    some (1, 17) := by decide +kernel

end Located
end Alda
