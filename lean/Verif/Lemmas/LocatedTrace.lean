import Verif.Spec.Located
import Verif.Lemmas.Located
/-!
Every context of an error is the place of an event that was run and failed with this error.
-/
namespace Alda
namespace Located

/-- The place is one of `P`, or it is not known. -/
def In (P : Place → Prop) (p : Place) : Prop := p.1 = 0 ∨ P p

mutual
/-- All places in the event are of `P`; there are no references to variables unless `b`. -/
def Fine (b : Bool) (P : Place → Prop) : LUpd → Prop
  | .simple p _ => In P p
  | .chord p es => In P p ∧ FineL b P es
  | .cram p es _ => In P p ∧ FineL b P es
  | .seq p es => In P p ∧ FineL b P es
  | .rep p e _ => In P p ∧ Fine b P e
  | .onReps p _ e => In P p ∧ Fine b P e
  | .varDef p _ es => In P p ∧ FineL b P es
  | .varRef p _ => In P p ∧ b = true
/-- The same for a list. -/
def FineL (b : Bool) (P : Place → Prop) : List LUpd → Prop
  | [] => True
  | e :: es => Fine b P e ∧ FineL b P es
end

theorem Fine.place {b : Bool} {P : Place → Prop} : ∀ {e : LUpd}, Fine b P e → In P e.place
  | .simple .., h => h
  | .chord .., h => h.1
  | .cram .., h => h.1
  | .seq .., h => h.1
  | .rep .., h => h.1
  | .onReps .., h => h.1
  | .varDef .., h => h.1
  | .varRef .., h => h.1

theorem keep_chain {vars : String → Option (List LUpd)} {o : Out} {err : Err} {c : List Place} (h : (keep vars o).err = some (err, c)) : c = [] := by
  simp only [keep] at h
  cases hu : o.err with
  | none => rw [hu] at h; cases h
  | some e => rw [hu] at h; cases h; rfl

theorem in_nowhere (P : Place → Prop) : In P nowhere := .inl rfl

mutual
theorem fine_value {b : Bool} {P : Place → Prop} {vars : String → Option (List LUpd)} (hv : ∀ n es, vars n = some es → FineL false P es) :
    ∀ (e v : LUpd), lvarValue vars e = .ok v → Fine b P e → Fine false P v
  | .simple p u, v, h, hf => by
    cases u with
    | lisp es =>
      simp only [lvarValue] at h
      cases hl : lispUpdate es with
      | error e => rw [hl] at h; cases h
      | ok o => cases o <;> (rw [hl] at h; cases h; exact in_nowhere P)
    | partDecl ns a => simp only [lvarValue] at h; cases h
    | _ => simp only [lvarValue] at h; cases h; exact hf
  | .chord p es, v, h, hf => by
    simp only [lvarValue] at h
    split at h
    · cases h
    · rename_i vs hvs; cases h; exact ⟨hf.1, fine_values hv es vs hvs hf.2⟩
  | .cram p es d, v, h, hf => by
    simp only [lvarValue] at h
    split at h
    · cases h
    · rename_i vs hvs; cases h; exact ⟨hf.1, fine_values hv es vs hvs hf.2⟩
  | .seq p es, v, h, hf => by
    simp only [lvarValue] at h
    split at h
    · cases h
    · rename_i vs hvs; cases h; exact ⟨hf.1, fine_values hv es vs hvs hf.2⟩
  | .rep p e n, v, h, hf => by
    simp only [lvarValue] at h
    split at h
    · cases h
    · rename_i x hx; cases h; exact ⟨hf.1, fine_value hv e x hx hf.2⟩
  | .onReps p rs e, v, h, hf => by
    simp only [lvarValue] at h
    split at h
    · cases h
    · rename_i x hx; cases h; exact ⟨hf.1, fine_value hv e x hx hf.2⟩
  | .varDef p n es, v, h, hf => by
    simp only [lvarValue] at h
    split at h
    · cases h
    · rename_i vs hvs; cases h; exact ⟨hf.1, fine_values hv es vs hvs hf.2⟩
  | .varRef p n, v, h, hf => by
    simp only [lvarValue] at h
    split at h
    · cases h
    · rename_i es hes; cases h; exact ⟨in_nowhere P, hv n es hes⟩
theorem fine_values {b : Bool} {P : Place → Prop} {vars : String → Option (List LUpd)} (hv : ∀ n es, vars n = some es → FineL false P es) :
    ∀ (es vs : List LUpd), lvarValues vars es = .ok vs → FineL b P es → FineL false P vs
  | [], vs, h, _ => by simp only [lvarValues] at h; cases h; trivial
  | e :: es, vs, h, hf => by
    simp only [lvarValues] at h
    split at h
    · cases h
    · rename_i x hx
      split at h
      · cases h
      · rename_i xs hxs; cases h; exact ⟨fine_value hv e x hx hf.1, fine_values hv es xs hxs hf.2⟩
end

section
variable (d d' : List LUpd → LState → LOut)

mutual
theorem noRef {P : Place → Prop} : ∀ (e : LUpd), Fine false P e → lupdWith d e = lupdWith d' e
  | .simple p u, _ => by funext st; simp only [lupdWith]
  | .chord p es, h => by funext st; simp only [lupdWith, noRefC es h.2]
  | .cram p es _, h => by funext st; simp only [lupdWith, noRefE es h.2]
  | .seq p es, h => by funext st; simp only [lupdWith, noRefL es h.2]
  | .rep p e n, h => by funext st; simp only [lupdWith, noRef e h.2]
  | .onReps p rs e, h => by funext st; simp only [lupdWith, noRef e h.2]
  | .varDef p n es, _ => by funext st; simp only [lupdWith]
  | .varRef p n, h => absurd h.2 (by decide)
theorem noRefL {P : Place → Prop} : ∀ (es : List LUpd), FineL false P es → lupdListWith d es = lupdListWith d' es
  | [], _ => by funext st; simp only [lupdListWith]
  | e :: es, h => by funext st; simp only [lupdListWith, noRef e h.1, noRefL es h.2]
theorem noRefE {P : Place → Prop} : ∀ (es : List LUpd), FineL false P es → leach d es = leach d' es
  | [], _ => by funext st; simp only [leach]
  | e :: es, h => by funext st; simp only [leach, noRef e h.1, noRefE es h.2]
theorem noRefC {P : Place → Prop} : ∀ (es : List LUpd), FineL false P es → lchordEvents d es = lchordEvents d' es
  | [], _ => by funext m st; simp only [lchordEvents]
  | e :: es, h => by funext m st; simp only [lchordEvents, noRef e h.1, noRefC es h.2]
end
end

/-- The variables agree, and what is in them has places of `P` and no references. -/
structure Inv (P : Place → Prop) (st : LState) : Prop where
  agree : Agree st
  fine : ∀ n es, st.vars n = some es → FineL false P es

theorem keep_inv {P : Place → Prop} {st : LState} {o : Out} (h : Inv P st) (hv : o.s.vars = st.score.vars) : Inv P (keep st.vars o).st :=
  ⟨(keep_refines h.agree hv).agree, h.fine⟩

/-- The event fails with this error, and none of the events in it does; the run with places. -/
def Innermost (e : LUpd) (st : LState) : Prop := ∀ e1 st1, Sub e st e1 st1 → (lupd e1 st1).err = none

/-- What is known about an error: the place reported is that of an event near the one at fault. -/
def Explained (P : Place → Prop) (e : LUpd) (st : LState) (err : Err) (chain : List Place) : Prop :=
  ∃ e2 st2, (∃ c, (lupd e2 st2).err = some (err, c)) ∧ Innermost e2 st2 ∧ Inv P st2 ∧
    (((∀ b, reportFrom b chain = b) ∧ Near e st e2 st2) ∨
      ∃ e1 st1, e1.place.1 ≠ 0 ∧ P e1.place ∧ (∀ b, reportFrom b chain = e1.place) ∧ Reach e st e1 st1 ∧ Near e1 st1 e2 st2 ∧ Inv P st1 ∧ ∃ c, (lupd e1 st1).err = some (err, c))

/-- Running the event keeps the invariant, and its errors are explained. -/
structure Traced (P : Place → Prop) (e : LUpd) (st : LState) : Prop where
  inv : Inv P (lupd e st).st
  expl : ∀ err chain, (lupd e st).err = some (err, chain) → Explained P e st err chain

theorem explained_nil {P : Place → Prop} {e : LUpd} {st : LState} {err : Err} (h : (lupd e st).err = some (err, [])) (hi : Inv P st) (hn : Innermost e st) : Explained P e st err [] :=
  ⟨e, st, ⟨_, h⟩, hn, hi, .inl ⟨fun _ => rfl, .self⟩⟩

theorem explained_same {P : Place → Prop} {u e : LUpd} {st st1 : LState} {err : Err} {c : List Place} (hs : Sub u st e st1) (hm : u.Masks ∨ e.place.1 = 0) (h : Explained P e st1 err c) :
    Explained P u st err c := by
  obtain ⟨e2, st2, h1, h2, h3, h4⟩ := h
  refine ⟨e2, st2, h1, h2, h3, ?_⟩
  rcases h4 with ⟨g1, g2⟩ | ⟨e1, st1', g1, g2, g3, g4, g5⟩
  · exact .inl ⟨g1, .step hs hm g2⟩
  · exact .inr ⟨e1, st1', g1, g2, g3, .sub hs g4, g5⟩

theorem explained_cons {P : Place → Prop} {b : Bool} {u e : LUpd} {st st1 : LState} {err : Err} {c : List Place} (hs : Sub u st e st1) (hf : Fine b P e) (hi : Inv P st1)
    (he : (lupd e st1).err = some (err, c)) (h : Explained P e st1 err c) : Explained P u st err (e.place :: c) := by
  by_cases hp : e.place.1 = 0
  · obtain ⟨e2, st2, h1, h2, h3, h4⟩ := explained_same hs (.inr hp) h
    have hr : ∀ b, reportFrom b (e.place :: c) = reportFrom b c := fun b => by simp only [reportFrom]; rw [if_neg (by simpa using hp)]
    refine ⟨e2, st2, h1, h2, h3, ?_⟩
    rcases h4 with ⟨g1, g2⟩ | ⟨e1, st1', g1, g2, g3, g4⟩
    · exact .inl ⟨fun b => by rw [hr, g1], g2⟩
    · exact .inr ⟨e1, st1', g1, g2, fun b => by rw [hr, g3], g4⟩
  · obtain ⟨e2, st2, h1, h2, h3, h4⟩ := h
    have hr : ∀ b, reportFrom b (e.place :: c) = reportFrom e.place c := fun b => by simp only [reportFrom]; rw [if_pos (by simpa using hp)]
    refine ⟨e2, st2, h1, h2, h3, .inr ?_⟩
    rcases h4 with ⟨g1, g2⟩ | ⟨e1, st1', g1, g2, g3, g4, g5⟩
    · exact ⟨e, st1, hp, hf.place.resolve_left hp, fun b => by rw [hr, g1], .sub hs .self, g2, hi, c, he⟩
    · exact ⟨e1, st1', g1, g2, fun b => by rw [hr, g3], .sub hs g4, g5⟩

/-- An error in a list of events. -/
def FailsIn (P : Place → Prop) (es : List LUpd) (st : LState) (err : Err) (e : LUpd) (st1 : LState) (c : List Place) : Prop :=
  ∃ pre post, es = pre ++ e :: post ∧ Done pre st st1 ∧ Inv P st1 ∧ (lupd e st1).err = some (err, c) ∧ Explained P e st1 err c

theorem FailsIn.cons {P : Place → Prop} {es : List LUpd} {u : LUpd} {st st0 : LState} {err : Err} {e : LUpd} {st1 : LState} {c : List Place} (hu : lupd u st = ⟨none, st0⟩)
    (h : FailsIn P es st0 err e st1 c) : FailsIn P (u :: es) st err e st1 c := by
  obtain ⟨pre, post, rfl, h1, h2⟩ := h
  exact ⟨u :: pre, post, rfl, .cons hu h1, h2⟩

/-- An error of a member of a chord. -/
def FailsInC (P : Place → Prop) (es : List LUpd) (m : Shortest) (st : LState) (err : Err) (e : LUpd) (st1 : LState) (c : List Place) : Prop :=
  ∃ pre post m1 m2, es = pre ++ e :: post ∧ Members pre m st m1 st1 ∧ shortestLoop st1.score (specifiedDuration e.erase) st1.score.current m1 = some m2 ∧ Inv P st1 ∧
    (lupd e st1).err = some (err, c) ∧ Explained P e st1 err c

/-- No member of the chord that is run fails. -/
def Quiet (es : List LUpd) (m : Shortest) (st : LState) : Prop :=
  ∀ pre e post m1 m2 st1, es = pre ++ e :: post → Members pre m st m1 st1 → shortestLoop st1.score (specifiedDuration e.erase) st1.score.current m1 = some m2 → (lupd e st1).err = none

theorem out_none {o : LOut} (h : o.err = none) : o = ⟨none, o.st⟩ := by
  obtain ⟨e, st⟩ := o
  cases h
  rfl

theorem wrap_st (p : Place) (o : LOut) : (wrap p o).st = o.st := rfl

theorem andThen_none {o : LOut} {k : LState → LOut} (h : o.err = none) : o.andThen k = k o.st := by unfold LOut.andThen; rw [h]

theorem andThen_some {o : LOut} {k : LState → LOut} {x : Err × List Place} (h : o.err = some x) : o.andThen k = ⟨some x, o.st⟩ := by unfold LOut.andThen; rw [h]

theorem each_none : ∀ {es : List LUpd} {st : LState}, (leach lderef es st).err = none → ∀ {pre post : List LUpd} {e : LUpd} {st1 : LState}, es = pre ++ e :: post → Done pre st st1 → (lupd e st1).err = none
  | [], _, _, pre, _, _, _, h, _ => by cases pre <;> cases h
  | u :: es, st, hn, pre, post, e, st1, h, hd => by
    simp only [leach] at hn
    cases hu : (lupdWith lderef u st).err with
    | some x => rw [andThen_some hu] at hn; cases hn
    | none =>
      rw [andThen_none hu] at hn
      cases hd with
      | nil => cases h; exact hu
      | cons k1 k2 =>
        cases h
        rw [show (lupdWith lderef u st) = lupd u st from rfl, k1] at hn
        exact each_none hn rfl k2

theorem wrap_none {p : Place} {o : LOut} (h : o.err = none) : (wrap p o).err = none := by unfold wrap; rw [h]; rfl

theorem wrap_some {p : Place} {o : LOut} {err : Err} {c : List Place} (h : o.err = some (err, c)) : (wrap p o).err = some (err, p :: c) := by unfold wrap; rw [h]; rfl

/-- The loop of a repeat. -/
theorem rep_trace {P : Place → Prop} {e : LUpd} (he : ∀ st, Inv P st → Traced P e st) : ∀ (k : Nat) (r : Int) (st : LState), Inv P st →
    Inv P (lrepLoop (fun st => wrap e.place (lupd e st)) k r st).st ∧
    ∀ err chain, (lrepLoop (fun st => wrap e.place (lupd e st)) k r st).err = some (err, chain) →
      ∃ j st1 st2 c, j < k ∧ Rounds e j r st st1 ∧ number (r + j) st1 = ⟨none, st2⟩ ∧ Inv P st2 ∧ (lupd e st2).err = some (err, c) ∧ chain = e.place :: c
  | 0, r, st, hi => by
    simp only [lrepLoop]
    exact ⟨hi, fun _ _ h => by cases h⟩
  | k + 1, r, st, hi => by
    simp only [lrepLoop]
    have hn : (number r st).err = none := by
      unfold number keep
      have : ∀ (l : List Nat) (s : Score), (forIds (setRepetition r) l s).err = none := by
        intro l
        induction l with
        | nil => intro s; rfl
        | cons i l ih => intro s; exact ih _
      rw [this]; rfl
    have hni : Inv P (number r st).st := keep_inv hi ((setRepetition_comm r).vars st.score)
    rw [andThen_none hn]
    have ht := he _ hni
    cases hb : (lupd e (number r st).st).err with
    | some x =>
      obtain ⟨err, c⟩ := x
      rw [andThen_some (wrap_some hb)]
      refine ⟨ht.inv, fun err' chain h => ?_⟩
      cases h
      exact ⟨0, st, _, c, by omega, .zero, by simpa using out_none hn, hni, hb, rfl⟩
    | none =>
      rw [andThen_none (wrap_none hb)]
      obtain ⟨h1, h2⟩ := rep_trace he k (r + 1) _ ht.inv
      refine ⟨h1, fun err chain h => ?_⟩
      obtain ⟨j, st1, st2, c, g1, g2, g3, g4, g5, g6⟩ := h2 err chain h
      refine ⟨j + 1, st1, st2, c, by omega, .succ (out_none hn) (out_none hb) g2, ?_, g4, g5, g6⟩
      rw [← g3]; congr 1; omega

/-- The loop of an event with repetitions. -/
theorem onReps_trace {P : Place → Prop} {rs : List (Int × Int)} {e : LUpd} (he : ∀ st, Inv P st → Traced P e st) : ∀ (is : List Nat) (st : LState), Inv P st →
    Inv P (lonReps rs (fun st => wrap e.place (lupd e st)) is st).st ∧
    ∀ err chain, (lonReps rs (fun st => wrap e.place (lupd e st)) is st).err = some (err, chain) →
      ∃ is1 i is2 st1 c, is = is1 ++ i :: is2 ∧ Turns rs e is1 st st1 ∧ turn rs i st1.score = true ∧ Inv P st1 ∧ (lupd e st1).err = some (err, c) ∧ chain = e.place :: c
  | [], st, hi => by
    simp only [lonReps]
    exact ⟨hi, fun _ _ h => by cases h⟩
  | i :: is, st, hi => by
    simp only [lonReps]
    cases ht : turn rs i st.score with
    | false =>
      simp only [Bool.false_eq_true, if_false]
      rw [andThen_none (by rfl)]
      obtain ⟨h1, h2⟩ := onReps_trace he is st hi
      refine ⟨h1, fun err chain h => ?_⟩
      obtain ⟨is1, j, is2, st1, c, rfl, g⟩ := h2 err chain h
      exact ⟨i :: is1, j, is2, st1, c, rfl, .skip ht g.1, g.2⟩
    | true =>
      simp only [if_true]
      have htr := he st hi
      cases hb : (lupd e st).err with
      | some x =>
        obtain ⟨err, c⟩ := x
        rw [andThen_some (wrap_some hb)]
        refine ⟨htr.inv, fun err' chain h => ?_⟩
        cases h
        exact ⟨[], i, is, st, c, rfl, .nil, ht, hi, hb, rfl⟩
      | none =>
        rw [andThen_none (wrap_none hb)]
        obtain ⟨h1, h2⟩ := onReps_trace he is _ htr.inv
        refine ⟨h1, fun err chain h => ?_⟩
        obtain ⟨is1, j, is2, st1, c, rfl, g⟩ := h2 err chain h
        exact ⟨i :: is1, j, is2, st1, c, rfl, .take ht (out_none hb) g.1, g.2⟩

set_option linter.unusedSectionVars false
section
variable {b : Bool} {P : Place → Prop} (hv : b = true → ∀ p n st, Inv P st → Traced P (.varRef p n) st)
include hv

mutual
theorem trace : ∀ (e : LUpd), Fine b P e → ∀ st, Inv P st → Traced P e st
  | .simple p u, _, st, hi => by
    refine ⟨?_, ?_⟩
    · simp only [lupd, lupdWith]; exact keep_inv hi ((simple_comm u).vars st.score)
    · intro err chain h
      have h' := h
      simp only [lupd, lupdWith] at h
      cases keep_chain h
      exact explained_nil h' hi (fun _ _ hs => by cases hs)
  | .chord p es, hf, st, hi => by
    have h0 : Inv P (keep st.vars (applyGlobals st.score)).st := keep_inv hi (applyGlobals_comm.vars st.score)
    have hrun : lupd (.chord p es) st = (keep st.vars (applyGlobals st.score)).andThen fun st =>
        (lchordEvents lderef es (chordStart st).1 (chordStart st).2).1.andThen fun st1 =>
          keep st1.vars (forIds (chordAdvance (lchordEvents lderef es (chordStart st).1 (chordStart st).2).2) st1.score.current { st1.score with chordMode := false }) := by
      simp only [lupd, lupdWith]
    cases hg : (keep st.vars (applyGlobals st.score)).err with
    | some x =>
      rw [andThen_some hg] at hrun
      refine ⟨by rw [hrun]; exact h0, fun err chain h => ?_⟩
      have h' := h
      rw [hrun] at h'
      cases h'
      cases keep_chain hg
      refine explained_nil h hi fun e1 st1 hs => ?_
      cases hs with
      | chord k1 _ _ => rw [k1] at hg; cases hg
    | none =>
      have hc := traceC es hf.2 (chordStart (keep st.vars (applyGlobals st.score)).st).1 (chordStart (keep st.vars (applyGlobals st.score)).st).2 ⟨h0.agree, h0.fine⟩
      rw [andThen_none hg] at hrun
      have hall : ∀ e1 st1, Sub (.chord p es) st e1 st1 → ∃ pre post m m', es = pre ++ e1 :: post ∧ Members pre (chordStart (keep st.vars (applyGlobals st.score)).st).1 (chordStart (keep st.vars (applyGlobals st.score)).st).2 m st1 ∧
          shortestLoop st1.score (specifiedDuration e1.erase) st1.score.current m = some m' := by
        intro e1 st1 hs
        cases hs with
        | @chord _ pre post _ m m' _ _ _ k1 k2 k3 => rw [k1]; exact ⟨pre, post, m, m', rfl, k2, k3⟩
      cases hl : (lchordEvents lderef es (chordStart (keep st.vars (applyGlobals st.score)).st).1 (chordStart (keep st.vars (applyGlobals st.score)).st).2).1.err with
      | some x =>
        rw [andThen_some hl] at hrun
        refine ⟨by rw [hrun]; exact hc.1, fun err chain h => ?_⟩
        have h' := h
        rw [hrun] at h'
        cases h'
        rcases hc.2.2 err chain hl with ⟨rfl, hq⟩ | ⟨e, st1, pre, post, m, m', rfl, g1, g1', g2, g3, g4⟩
        · refine explained_nil h hi fun e1 st1 hs => ?_
          obtain ⟨pre, post, m, m', k1, k2, k3⟩ := hall e1 st1 hs
          exact hq pre e1 post m m' st1 k1 k2 k3
        · exact explained_same (.chord (out_none hg) g1 g1') (.inl trivial) g4
      | none =>
        rw [andThen_none hl] at hrun
        refine ⟨by rw [hrun]; exact keep_inv hc.1 ((chordAdvance_comm _).vars _), fun err chain h => ?_⟩
        have h' := h
        rw [hrun] at h'
        cases keep_chain h'
        refine explained_nil h hi fun e1 st1 hs => ?_
        obtain ⟨pre, post, m, m', k1, k2, k3⟩ := hall e1 st1 hs
        exact hc.2.1 hl pre e1 post m m' st1 k1 k2 k3
  | .cram p es d, hf, st, hi => by
    have h0 : Inv P (keep st.vars (forIds (cramScalePart st.score.vars (erases es) d) st.score.current st.score)).st := keep_inv hi ((cramScale_comm _ _ _).vars st.score)
    have hrun : lupd (.cram p es d) st = (keep st.vars (forIds (cramScalePart st.score.vars (erases es) d) st.score.current st.score)).andThen fun st1 =>
        (leach lderef es st1).andThen fun st2 => keep st2.vars (forIds (cramRestorePart st.score.heap st.score.current d) st2.score.current st2.score) := by
      simp only [lupd, lupdWith]
    cases hg : (keep st.vars (forIds (cramScalePart st.score.vars (erases es) d) st.score.current st.score)).err with
    | some x =>
      rw [andThen_some hg] at hrun
      refine ⟨by rw [hrun]; exact h0, fun err chain h => ?_⟩
      have h' := h
      rw [hrun] at h'
      cases h'
      cases keep_chain hg
      refine explained_nil h hi fun e1 st1 hs => ?_
      cases hs with
      | cram k1 _ => rw [k1] at hg; cases hg
    | none =>
      have hc := traceE es hf.2 _ h0
      rw [andThen_none hg] at hrun
      cases hl : (leach lderef es (keep st.vars (forIds (cramScalePart st.score.vars (erases es) d) st.score.current st.score)).st).err with
      | some x =>
        rw [andThen_some hl] at hrun
        refine ⟨by rw [hrun]; exact hc.1, fun err chain h => ?_⟩
        have h' := h
        rw [hrun] at h'
        cases h'
        obtain ⟨e, st1, pre, post, rfl, g1, g2, g3, g4⟩ := hc.2 err chain hl
        exact explained_same (.cram (out_none hg) g1) (.inl trivial) g4
      | none =>
        rw [andThen_none hl] at hrun
        refine ⟨by rw [hrun]; exact keep_inv hc.1 ((cramRestore_comm _ _ _).vars _), fun err chain h => ?_⟩
        have h' := h
        rw [hrun] at h'
        cases keep_chain h'
        refine explained_nil h hi fun e1 st1 hs => ?_
        cases hs with
        | cram k1 k2 =>
          rw [k1] at hl
          exact each_none hl rfl k2
  | .seq p es, hf, st, hi => by
    have hc := traceL es hf.2 st hi
    refine ⟨?_, ?_⟩ <;> simp only [lupd, lupdWith]
    · exact hc.1
    · intro err chain h
      obtain ⟨e, st1, c, ⟨pre, post, rfl, g1, g2, g3, g4⟩, rfl, hfe⟩ := hc.2 err chain h
      exact explained_cons (.seq g1) hfe g2 g3 g4
  | .rep p e n, hf, st, hi => by
    have he := fun st hi => trace e hf.2 st hi
    have hc := rep_trace he n.toNat 1 st hi
    refine ⟨?_, ?_⟩ <;> simp only [lupd, lupdWith]
    · exact hc.1
    · intro err chain h
      obtain ⟨j, st1, st2, c, g1, g2, g3, g4, g5, rfl⟩ := hc.2 err chain h
      exact explained_cons (.rep g2 g1 g3) hf.2 g4 g5 ((he st2 g4).expl _ _ g5)
  | .onReps p rs e, hf, st, hi => by
    have he := fun st hi => trace e hf.2 st hi
    have hc := onReps_trace (rs := rs) he (List.range st.score.current.length) st hi
    refine ⟨?_, ?_⟩ <;> simp only [lupd, lupdWith]
    · exact hc.1
    · intro err chain h
      obtain ⟨is1, i, is2, st1, c, g0, g1, g2, g4, g5, rfl⟩ := hc.2 err chain h
      exact explained_cons (.onReps g0 g1 g2) hf.2 g4 g5 ((he st1 g4).expl _ _ g5)
  | .varDef p n es, hf, st, hi => by
    refine ⟨⟨(run_refines _ st hi.agree).agree, ?_⟩, ?_⟩ <;> simp only [lupd, lupdWith, lvarDef]
    · intro m us hm
      cases hw : lvarValues st.vars es with
      | error e => rw [hw] at hm; exact hi.fine m us hm
      | ok vs =>
        rw [hw] at hm
        simp only at hm
        split at hm
        · cases hm; exact fine_values hi.fine es us hw hf.2
        · exact hi.fine m us hm
    · intro err chain h
      have h' : (lupd (.varDef p n es) st).err = some (err, chain) := by simp only [lupd, lupdWith, lvarDef]; exact h
      cases hw : lvarValues st.vars es with
      | error e => rw [hw] at h; cases h; exact explained_nil h' hi (fun _ _ hs => by cases hs)
      | ok vs => rw [hw] at h; cases h
  | .varRef p n, hf, st, hi => hv hf.2 p n st hi
theorem traceL : ∀ (es : List LUpd), FineL b P es → ∀ st, Inv P st → Inv P (lupdListWith lderef es st).st ∧
    ∀ err chain, (lupdListWith lderef es st).err = some (err, chain) → ∃ e st1 c, FailsIn P es st err e st1 c ∧ chain = e.place :: c ∧ Fine b P e
  | [], _, st, hi => by simp only [lupdListWith]; exact ⟨hi, fun _ _ h => by cases h⟩
  | e :: es, hf, st, hi => by
    have ht := trace e hf.1 st hi
    simp only [lupdListWith]
    cases hb : (lupdWith lderef e st).err with
    | some x =>
      obtain ⟨err, c⟩ := x
      rw [andThen_some (wrap_some hb)]
      refine ⟨ht.inv, fun err' chain h => ?_⟩
      cases h
      exact ⟨e, st, c, ⟨[], es, rfl, .nil, hi, hb, ht.expl _ _ hb⟩, rfl, hf.1⟩
    | none =>
      rw [andThen_none (wrap_none hb)]
      obtain ⟨h1, h2⟩ := traceL es hf.2 _ ht.inv
      refine ⟨h1, fun err chain h => ?_⟩
      obtain ⟨e', st1, c, g1, g2, g3⟩ := h2 err chain h
      exact ⟨e', st1, c, g1.cons (out_none hb), g2, g3⟩
theorem traceE : ∀ (es : List LUpd), FineL b P es → ∀ st, Inv P st → Inv P (leach lderef es st).st ∧
    ∀ err chain, (leach lderef es st).err = some (err, chain) → ∃ e st1, FailsIn P es st err e st1 chain
  | [], _, st, hi => by simp only [leach]; exact ⟨hi, fun _ _ h => by cases h⟩
  | e :: es, hf, st, hi => by
    have ht := trace e hf.1 st hi
    simp only [leach]
    cases hb : (lupdWith lderef e st).err with
    | some x =>
      obtain ⟨err, c⟩ := x
      rw [andThen_some hb]
      refine ⟨ht.inv, fun err' chain h => ?_⟩
      cases h
      exact ⟨e, st, [], es, rfl, .nil, hi, hb, ht.expl _ _ hb⟩
    | none =>
      rw [andThen_none hb]
      obtain ⟨h1, h2⟩ := traceE es hf.2 _ ht.inv
      refine ⟨h1, fun err chain h => ?_⟩
      obtain ⟨e', st1, g1⟩ := h2 err chain h
      exact ⟨e', st1, g1.cons (out_none hb)⟩
theorem traceC : ∀ (es : List LUpd), FineL b P es → ∀ m st, Inv P st → Inv P (lchordEvents lderef es m st).1.st ∧
    ((lchordEvents lderef es m st).1.err = none → Quiet es m st) ∧
    ∀ err chain, (lchordEvents lderef es m st).1.err = some (err, chain) → (chain = [] ∧ Quiet es m st) ∨ ∃ e st1, FailsInC P es m st err e st1 chain
  | [], _, m, st, hi => by
    simp only [lchordEvents]
    exact ⟨hi, fun _ => (fun pre e post _ _ _ h => by cases pre <;> cases h), fun _ _ h => by cases h⟩
  | e :: es, hf, m, st, hi => by
    have ht := trace e hf.1 st hi
    simp only [lchordEvents]
    cases hm : shortestLoop st.score (specifiedDuration e.erase) st.score.current m with
    | none =>
      refine ⟨hi, fun h => (by cases h), fun _ _ h => ?_⟩
      cases h
      refine .inl ⟨rfl, fun pre e1 post m1 m2 st1 h1 h2 h3 => ?_⟩
      cases h2 with
      | nil => cases h1; rw [hm] at h3; cases h3
      | cons k1 _ _ => cases h1; rw [hm] at k1; cases k1
    | some m1 =>
      simp only
      rcases ho : lupdWith lderef e st with ⟨err0, st0⟩
      have ho' : lupd e st = ⟨err0, st0⟩ := ho
      have hi' := ht.inv
      rw [ho'] at hi'
      cases err0 with
      | some x =>
        refine ⟨hi', fun h => (by cases h), fun err chain h => .inr ?_⟩
        cases h
        have hb : (lupd e st).err = some (err, chain) := by rw [ho']
        exact ⟨e, st, [], es, m, m1, rfl, .nil, hm, hi, hb, ht.expl _ _ hb⟩
      | none =>
        obtain ⟨h1, h2, h3⟩ := traceC es hf.2 m1 st0 hi'
        have hq : Quiet es m1 st0 → Quiet (e :: es) m st := by
          intro hq pre e1 post m2 m3 st1 g1 g2 g3
          cases g2 with
          | nil => cases g1; rw [ho']
          | cons k1 k2 k3 =>
            cases g1
            rw [hm] at k1
            cases k1
            rw [ho'] at k2
            cases k2
            exact hq _ e1 post m2 m3 st1 rfl k3 g3
        refine ⟨h1, fun h => hq (h2 h), fun err chain h => ?_⟩
        rcases h3 err chain h with ⟨h, g⟩ | ⟨e', st1, pre, post, m2, m3, rfl, g1, g2⟩
        · exact .inl ⟨h, hq g⟩
        · exact .inr ⟨e', st1, e :: pre, post, m2, m3, rfl, .cons hm ho' g1, g2⟩
end
end

theorem trace_noRef {P : Place → Prop} (e : LUpd) (hf : Fine false P e) (st : LState) (hi : Inv P st) : Traced P e st :=
  trace (b := false) (fun h => by cases h) e hf st hi

theorem trace_var {P : Place → Prop} (p : Place) (n : String) (st : LState) (hi : Inv P st) : Traced P (.varRef p n) st := by
  cases hn : st.vars n with
  | none =>
    have h : lupd (.varRef p n) st = ⟨some (.user "undefined variable", []), st⟩ := by simp only [lupd, lupdWith, hn]
    refine ⟨by rw [h]; exact hi, fun err chain he => ?_⟩
    have he' := he
    rw [h] at he'
    cases he'
    refine explained_nil he hi fun e1 st1 hs => ?_
    cases hs with
    | var k1 _ => rw [hn] at k1; cases k1
  | some es =>
    have h : lupd (.varRef p n) st = leach lderef es st := by
      simp only [lupd, lupdWith, hn]
      unfold lderef
      rw [noRefE _ _ es (hi.fine n es hn)]
    have ht := traceE (b := false) (fun h => by cases h) es (hi.fine n es hn) st hi
    refine ⟨by rw [h]; exact ht.1, fun err chain he => ?_⟩
    rw [h] at he
    obtain ⟨e, st1, pre, post, rfl, g1, g2, g3, g4⟩ := ht.2 err chain he
    exact explained_same (.var hn g1) (.inl trivial) g4

/-- Every event of every program. -/
theorem traced {P : Place → Prop} (us : List LUpd) (hf : FineL true P us) (st : LState) (hi : Inv P st) : Inv P (lupdate us st).st ∧
    ∀ err chain, (lupdate us st).err = some (err, chain) → ∃ e st1 c, FailsIn P us st err e st1 c ∧ chain = e.place :: c ∧ Fine true P e :=
  traceL (b := true) (fun _ p n st hi => trace_var p n st hi) us hf st hi



end Located
end Alda
