import Verif.Model.Located
/-!
# Specification of where an error is (C71)

Which events are run while a program is run, and from which score.
-/
namespace Alda
namespace Located

mutual
/-- The places of an event and of the events in it. -/
def LUpd.places : LUpd → List Place
  | .simple p _ => [p]
  | .chord p es => p :: placesL es
  | .cram p es _ => p :: placesL es
  | .seq p es => p :: placesL es
  | .rep p e _ => p :: e.places
  | .onReps p _ e => p :: e.places
  | .varDef p _ es => p :: placesL es
  | .varRef p _ => [p]
/-- The places in a program. -/
def placesL : List LUpd → List Place
  | [] => []
  | e :: es => e.places ++ placesL es
end

/-- These events have been run, one after the other, without an error. -/
inductive Done : List LUpd → LState → LState → Prop where
  | nil {st : LState} : Done [] st st
  | cons {e : LUpd} {es : List LUpd} {st st1 st2 : LState} : lupd e st = ⟨none, st1⟩ → Done es st1 st2 → Done (e :: es) st st2

/-- The event has been run in so many rounds, of which the first one was the `r`-th. -/
inductive Rounds (e : LUpd) : Nat → Int → LState → LState → Prop where
  | zero {r : Int} {st : LState} : Rounds e 0 r st st
  | succ {k : Nat} {r : Int} {st st1 st2 st3 : LState} : number r st = ⟨none, st1⟩ → lupd e st1 = ⟨none, st2⟩ → Rounds e k (r + 1) st2 st3 → Rounds e (k + 1) r st st3

/-- The event has been run for those of these active parts to which it applies. -/
inductive Turns (rs : List (Int × Int)) (e : LUpd) : List Nat → LState → LState → Prop where
  | nil {st : LState} : Turns rs e [] st st
  | skip {i : Nat} {is : List Nat} {st st' : LState} : turn rs i st.score = false → Turns rs e is st st' → Turns rs e (i :: is) st st'
  | take {i : Nat} {is : List Nat} {st st1 st' : LState} : turn rs i st.score = true → lupd e st = ⟨none, st1⟩ → Turns rs e is st1 st' → Turns rs e (i :: is) st st'

/-- These members of a chord have been run without an error; `m` is the shortest length so far, before and after. -/
inductive Members : List LUpd → Shortest → LState → Shortest → LState → Prop where
  | nil {m : Shortest} {st : LState} : Members [] m st m st
  | cons {e : LUpd} {es : List LUpd} {m m1 m2 : Shortest} {st st1 st2 : LState} : shortestLoop st.score (specifiedDuration e.erase) st.score.current m = some m1 → lupd e st = ⟨none, st1⟩ →
      Members es m1 st1 m2 st2 → Members (e :: es) m st m2 st2

/-- While this event is run from this score, that event in it is run from that score. -/
inductive Sub : LUpd → LState → LUpd → LState → Prop where
  | seq {p : Place} {pre post : List LUpd} {e : LUpd} {st st1 : LState} : Done pre st st1 → Sub (.seq p (pre ++ e :: post)) st e st1
  | rep {p : Place} {e : LUpd} {n : Int} {k : Nat} {st st1 st2 : LState} : Rounds e k 1 st st1 → k < n.toNat → number (1 + k) st1 = ⟨none, st2⟩ → Sub (.rep p e n) st e st2
  | onReps {p : Place} {rs : List (Int × Int)} {e : LUpd} {is is' : List Nat} {i : Nat} {st st1 : LState} :
      List.range st.score.current.length = is ++ i :: is' → Turns rs e is st st1 → turn rs i st1.score = true → Sub (.onReps p rs e) st e st1
  | chord {p : Place} {pre post : List LUpd} {e : LUpd} {m m' : Shortest} {st st1 st2 : LState} : keep st.vars (applyGlobals st.score) = ⟨none, st1⟩ → Members pre (chordStart st1).1 (chordStart st1).2 m st2 →
      shortestLoop st2.score (specifiedDuration e.erase) st2.score.current m = some m' →
      Sub (.chord p (pre ++ e :: post)) st e st2
  | cram {p : Place} {pre post : List LUpd} {e : LUpd} {d : Dur} {st st1 st2 : LState} :
      keep st.vars (forIds (cramScalePart st.score.vars (erases (pre ++ e :: post)) d) st.score.current st.score) = ⟨none, st1⟩ → Done pre st1 st2 →
      Sub (.cram p (pre ++ e :: post) d) st e st2
  | var {p : Place} {n : String} {pre post : List LUpd} {e : LUpd} {st st1 : LState} : st.vars n = some (pre ++ e :: post) → Done pre st st1 → Sub (.varRef p n) st e st1

/-- The same at any depth, including the event itself. -/
inductive Reach : LUpd → LState → LUpd → LState → Prop where
  | self {e : LUpd} {st : LState} : Reach e st e st
  | sub {e e1 e' : LUpd} {st st1 st' : LState} : Sub e st e1 st1 → Reach e1 st1 e' st' → Reach e st e' st'

/-- While this program is run from this score, that event is run from that score. -/
def Reached (us : List LUpd) (st : LState) (e' : LUpd) (st' : LState) : Prop :=
  ∃ pre e post st1, us = pre ++ e :: post ∧ Done pre st st1 ∧ Reach e st1 e' st'

/-- Chords, cram expressions and variables. -/
def LUpd.Masks : LUpd → Prop
  | .chord _ _ | .cram _ _ _ | .varRef _ _ => True
  | _ => False

/-- The event is the other one, or it is around it, and on the way from one to the other there are only the members of chords, cram expressions and variables, and events whose place is not known. -/
inductive Near : LUpd → LState → LUpd → LState → Prop where
  | self {e : LUpd} {st : LState} : Near e st e st
  | step {e e1 e' : LUpd} {st st1 st' : LState} : Sub e st e1 st1 → e.Masks ∨ e1.place.1 = 0 → Near e1 st1 e' st' → Near e st e' st'

/-- The event fails with this error, and none of the events in it does. -/
def Culprit (err : Err) (e : LUpd) (st : LState) : Prop :=
  (upd e.erase st.score).err = some err ∧ ∀ e1 st1, Sub e st e1 st1 → (upd e1.erase st1.score).err = none

mutual
/-- Events all of whose places are known, without chords, cram expressions and uses of variables. -/
def Bare : LUpd → Prop
  | .simple p _ => p.1 ≠ 0
  | .seq p es => p.1 ≠ 0 ∧ BareL es
  | .rep p e _ => p.1 ≠ 0 ∧ Bare e
  | .onReps p _ e => p.1 ≠ 0 ∧ Bare e
  | .varDef p _ _ => p.1 ≠ 0
  | .chord _ _ | .cram _ _ _ | .varRef _ _ => False
/-- The same for a list. -/
def BareL : List LUpd → Prop
  | [] => True
  | e :: es => Bare e ∧ BareL es
end

end Located
end Alda
