import Verif.Model.Located
import Verif.Lemmas.VarComm
/-!
Places do not change what the updates do.
-/
namespace Alda
namespace Located

/-- The outcome without places. -/
def LOut.out (o : LOut) : Out := ⟨o.err.map (·.1), o.st.score⟩

/-- The variables with places are those of the score. -/
def Agree (st : LState) : Prop := ∀ n, st.score.vars n = (st.vars n).map erases

/-- The outcome is this one, and the variables agree. -/
structure Refines (o : LOut) (o' : Out) : Prop where
  out : o.out = o'
  agree : Agree o.st

theorem keep_refines {st : LState} {o : Out} (h : Agree st) (hv : o.s.vars = st.score.vars) : Refines (keep st.vars o) o := by
  obtain ⟨e, s⟩ := o
  refine ⟨?_, fun n => ?_⟩
  · cases e <;> rfl
  · simp only at hv
    show s.vars n = _
    rw [hv]; exact h n

theorem Refines.andThen {o : LOut} {o' : Out} {k : LState → LOut} {k' : Score → Out} (h : Refines o o') (hk : ∀ st, Agree st → Refines (k st) (k' st.score)) :
    Refines (o.andThen k) (o'.andThen k') := by
  obtain ⟨h1, h2⟩ := h
  subst h1
  obtain ⟨e, st⟩ := o
  cases e with
  | none => exact hk st h2
  | some e => exact ⟨rfl, h2⟩

theorem wrap_refines {o : LOut} {o' : Out} (p : Place) (h : Refines o o') : Refines (wrap p o) o' := by
  obtain ⟨h1, h2⟩ := h
  subst h1
  obtain ⟨e, st⟩ := o
  exact ⟨by cases e <;> rfl, h2⟩

mutual
theorem lvarValue_erase {vars : String → Option (List LUpd)} {evars : String → Option (List Upd)} (h : ∀ n, evars n = (vars n).map erases) :
    ∀ u, (lvarValue vars u).map LUpd.erase = varValue evars u.erase
  | .simple p u => by
    cases u <;> simp only [lvarValue, LUpd.erase, Simple.upd, varValue, Except.map]
    rename_i es
    cases lispUpdate es with
    | error e => rfl
    | ok o => cases o <;> rfl
  | .chord p es => by
    simp only [lvarValue, LUpd.erase, varValue, ← lvarValues_erase h es]
    cases lvarValues vars es <;> simp only [Except.map, LUpd.erase]
  | .cram p es d => by
    simp only [lvarValue, LUpd.erase, varValue, ← lvarValues_erase h es]
    cases lvarValues vars es <;> simp only [Except.map, LUpd.erase]
  | .seq p es => by
    simp only [lvarValue, LUpd.erase, varValue, ← lvarValues_erase h es]
    cases lvarValues vars es <;> simp only [Except.map, LUpd.erase]
  | .rep p e n => by
    simp only [lvarValue, LUpd.erase, varValue, ← lvarValue_erase h e]
    cases lvarValue vars e <;> simp only [Except.map, LUpd.erase]
  | .onReps p rs e => by
    simp only [lvarValue, LUpd.erase, varValue, ← lvarValue_erase h e]
    cases lvarValue vars e <;> simp only [Except.map, LUpd.erase]
  | .varDef p n es => by
    simp only [lvarValue, LUpd.erase, varValue, ← lvarValues_erase h es]
    cases lvarValues vars es <;> simp only [Except.map, LUpd.erase]
  | .varRef p n => by
    simp only [lvarValue, LUpd.erase, varValue, h n]
    cases vars n <;> simp only [Except.map, Option.map, LUpd.erase]
theorem lvarValues_erase {vars : String → Option (List LUpd)} {evars : String → Option (List Upd)} (h : ∀ n, evars n = (vars n).map erases) :
    ∀ us, (lvarValues vars us).map erases = varValues evars (erases us)
  | [] => by simp only [lvarValues, erases, varValues, Except.map]
  | u :: us => by
    simp only [lvarValues, erases, varValues, ← lvarValue_erase h u, ← lvarValues_erase h us]
    cases lvarValue vars u with
    | error e => simp only [Except.map]
    | ok v => cases lvarValues vars us <;> simp only [Except.map, erases]
end

theorem lvarDef_refines (n : String) (es : List LUpd) {st : LState} (h : Agree st) : Refines (lvarDef n es st) (varDefUpd n (erases es) st.score) := by
  unfold lvarDef varDefUpd
  rw [← lvarValues_erase h es]
  cases lvarValues st.vars es with
  | error e => exact ⟨rfl, h⟩
  | ok vs =>
    refine ⟨rfl, fun m => ?_⟩
    simp only
    split
    · rfl
    · exact h m

theorem number_refines (r : Int) {st : LState} (h : Agree st) : Refines (number r st) (forIds (setRepetition r) st.score.current st.score) :=
  keep_refines h ((setRepetition_comm r).vars st.score)

theorem lrepLoop_refines {body : LState → LOut} {body' : Score → Out} (hb : ∀ st, Agree st → Refines (body st) (body' st.score)) :
    ∀ (k : Nat) (r : Int) (st : LState), Agree st → Refines (lrepLoop body k r st) (repLoop body' k r st.score)
  | 0, _, st, h => ⟨rfl, h⟩
  | k + 1, r, st, h => by
    rw [lrepLoop, repLoop]
    exact (number_refines r h).andThen fun st h => (hb st h).andThen fun st h => lrepLoop_refines hb k (r + 1) st h

theorem onRepsAt_turn (rs : List (Int × Int)) (body : Score → Out) (i : Nat) (s : Score) : onRepsAt rs body i s = if turn rs i s then body s else .ok s := by
  unfold onRepsAt turn
  cases s.current[i]? with
  | none => rfl
  | some id => rfl

theorem lonReps_refines {rs : List (Int × Int)} {body : LState → LOut} {body' : Score → Out} (hb : ∀ st, Agree st → Refines (body st) (body' st.score)) :
    ∀ (is : List Nat) (st : LState), Agree st → Refines (lonReps rs body is st) (forIds (onRepsAt rs body') is st.score)
  | [], st, h => ⟨rfl, h⟩
  | i :: is, st, h => by
    rw [lonReps, forIds, onRepsAt_turn]
    refine Refines.andThen ?_ (fun st h => lonReps_refines hb is st h)
    split
    · exact hb st h
    · exact ⟨rfl, h⟩

theorem simple_comm (u : Simple) : Comm (upd u.upd) := by
  cases u <;> simp only [Simple.upd]
  case leaf l => intro s v; simp only [upd, updWith]; exact leaf_comm l s v
  case lisp es =>
    intro s v
    simp only [upd, updWith]
    cases lispUpdate es with
    | error e => rfl
    | ok o =>
      cases o with
      | none => rfl
      | some l => exact leaf_comm l s v
  case lispNil => intro s v; simp only [upd, updWith]; rfl
  case barline => intro s v; simp only [upd, updWith]; rfl
  case voice n => intro s v; simp only [upd, updWith]; exact voice_comm n s v
  case voiceEnd => intro s v; simp only [upd, updWith]; exact voiceEnd_comm s v
  case marker n => intro s v; simp only [upd, updWith]; exact marker_comm n s v
  case atMarker n => intro s v; simp only [upd, updWith]; exact atMarker_comm n s v
  case partDecl ns a => intro s v; simp only [upd, updWith]; exact partDecl_comm ns a s v

theorem simple_deref (d : List Upd → Score → Out) (u : Simple) (s : Score) : updWith d u.upd s = upd u.upd s := by
  cases u <;> simp only [Simple.upd, upd, updWith]

set_option linter.unusedSectionVars false

section
variable {deref : List LUpd → LState → LOut} {deref' : List Upd → Score → Out} (hd : ∀ es st, Agree st → Refines (deref es st) (deref' (erases es) st.score))
include hd

mutual
theorem lupd_refines : ∀ (u : LUpd) (st : LState), Agree st → Refines (lupdWith deref u st) (updWith deref' u.erase st.score)
  | .simple p u, st, h => by
    simp only [lupdWith, LUpd.erase, simple_deref]
    exact keep_refines h ((simple_comm u).vars st.score)
  | .chord p es, st, h => by
    simp only [lupdWith, LUpd.erase, updWith]
    refine (keep_refines h (applyGlobals_comm.vars st.score)).andThen fun st h => ?_
    have hc := lchord_refines es (chordStart st).1 (chordStart st).2 h
    simp only [chordStart] at hc ⊢
    rw [hc.2]
    exact hc.1.andThen fun st h => keep_refines h ((chordAdvance_comm _).vars st.score)
  | .cram p es d, st, h => by
    simp only [lupdWith, LUpd.erase, updWith]
    refine (keep_refines h ((cramScale_comm st.score.vars (erases es) d).vars st.score)).andThen fun st1 h1 => ?_
    refine (leach_refines es st1 h1).andThen fun st2 h2 => ?_
    exact keep_refines h2 ((cramRestore_comm st.score.heap st.score.current d).vars st2.score)
  | .seq p es, st, h => by simp only [lupdWith, LUpd.erase, updWith]; exact lupdList_refines es st h
  | .rep p e n, st, h => by
    simp only [lupdWith, LUpd.erase, updWith]
    exact lrepLoop_refines (fun st h => wrap_refines _ (lupd_refines e st h)) _ _ st h
  | .onReps p rs e, st, h => by
    simp only [lupdWith, LUpd.erase, updWith]
    exact lonReps_refines (fun st h => wrap_refines _ (lupd_refines e st h)) _ st h
  | .varDef p n es, st, h => by simp only [lupdWith, LUpd.erase, updWith]; exact lvarDef_refines n es h
  | .varRef p n, st, h => by
    simp only [lupdWith, LUpd.erase, updWith, h n]
    cases st.vars n with
    | none => exact ⟨rfl, h⟩
    | some es => exact hd es st h
theorem lupdList_refines : ∀ (us : List LUpd) (st : LState), Agree st → Refines (lupdListWith deref us st) (updListWith deref' (erases us) st.score)
  | [], st, h => by simp only [lupdListWith, erases, updListWith]; exact ⟨rfl, h⟩
  | u :: us, st, h => by
    simp only [lupdListWith, erases, updListWith]
    exact (wrap_refines _ (lupd_refines u st h)).andThen fun st h => lupdList_refines us st h
theorem leach_refines : ∀ (us : List LUpd) (st : LState), Agree st → Refines (leach deref us st) (updListWith deref' (erases us) st.score)
  | [], st, h => by simp only [leach, erases, updListWith]; exact ⟨rfl, h⟩
  | u :: us, st, h => by
    simp only [leach, erases, updListWith]
    exact (lupd_refines u st h).andThen fun st h => leach_refines us st h
theorem lchord_refines : ∀ (us : List LUpd) (m : Shortest) (st : LState), Agree st →
    Refines (lchordEvents deref us m st).1 (chordEvents deref' (erases us) m st.score).out ∧ (lchordEvents deref us m st).2 = (chordEvents deref' (erases us) m st.score).shortest
  | [], m, st, h => by simp only [lchordEvents, erases, chordEvents]; exact ⟨⟨rfl, h⟩, trivial⟩
  | u :: us, m, st, h => by
    simp only [lchordEvents, erases, chordEvents]
    cases shortestLoop st.score (specifiedDuration u.erase) st.score.current m with
    | none => exact ⟨⟨rfl, h⟩, rfl⟩
    | some m =>
      have h1 := lupd_refines u st h
      rcases ho : lupdWith deref u st with ⟨err, st1⟩
      rw [ho] at h1
      simp only
      rw [← h1.out]
      cases err with
      | some err => exact ⟨⟨rfl, h1.agree⟩, rfl⟩
      | none => exact lchord_refines us m st1 h1.agree
end
end

theorem lderef_refines (es : List LUpd) (st : LState) (h : Agree st) : Refines (lderef es st) (derefUpd (erases es) st.score) :=
  leach_refines (fun _ _ h => ⟨rfl, h⟩) es st h

/-- The located score update is the score update. -/
theorem lupdate_refines (us : List LUpd) (st : LState) (h : Agree st) : Refines (lupdate us st) (update (erases us) st.score) :=
  lupdList_refines lderef_refines us st h

theorem run_refines (u : LUpd) (st : LState) (h : Agree st) : Refines (lupd u st) (upd u.erase st.score) :=
  lupd_refines lderef_refines u st h

end Located
end Alda
