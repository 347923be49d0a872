import Verif.Lemmas.VarComm
import Verif.Lemmas.Demo
/-!
C17: variables are bound when they are defined.
-/
namespace Alda
open Spec

/-- C17: after a definition `v = es`, however many events follow that do not define `v` again, using `v` does exactly what the events `es` do in its place with
every variable mentioned in them replaced by what it stood for when `v` was defined. -/
theorem c17_bound (s : Score) (hr : Reachable s) (v : String) (es : List Upd) (hc : ChordsPlainL es) (hok : (update [.varDef v es] s).err = none)
    (hs : NoDef v s.vars) (hes : ¬ DefinesL v es) (between : List Upd) (hb : ¬ DefinesL v between) :
    let s' := (update between (update [.varDef v es] s).s).s
    update [.varRef v] s' = update (expandL s.vars es) s' := by
  intro s'
  have hp : ∀ n us, s.vars n = some us → PlainL us := fun n us h => (hr.good.vars n us h).2
  cases hw : varValues s.vars es with
  | error e =>
    simp only [update, updListWith, updWith, varDefUpd, hw, Out.andThen, Out.fail] at hok
    cases hok
  | ok ws =>
    have e0 : update [.varDef v es] s = .ok { s with vars := fun m => if m = v then some ws else s.vars m } := by
      simp only [update, updListWith, updWith, varDefUpd, hw, Out.andThen, Out.ok]
    have hn : NoDef v (update [.varDef v es] s).s.vars := by
      rw [e0]
      intro m us hu
      simp only [Out.ok] at hu
      by_cases hm : m = v
      · rw [if_pos hm, Option.some.injEq] at hu; subst hu; exact values_noDef hs es ws hes hw
      · rw [if_neg hm] at hu; exact hs m us hu
    have hv : s'.vars v = some ws := by
      rw [show s'.vars v = _ from (keeps_varL (deref_keepsVar v) between hb _ hn).1, e0]
      simp only [Out.ok, if_pos]
    have hg : Good (fun _ => True) True s' := by
      have g1 := (update_all_steps [.varDef v es] s hr.good).good hr.good
      exact (update_all_steps between _ g1).good g1
    have e1 : update [.varRef v] s' = derefUpd ws s' := by
      simp only [update, updListWith, updWith, hv]
      rcases derefUpd ws s' with ⟨e, t⟩
      cases e <;> rfl
    have e2 : derefUpd ws s' = update ws s' := plain_derefL _ _ ws (hg.vars v ws hv).2 s'
    rw [e1, e2]
    exact (value_updL s.vars hp derefUpd es ws hw hc s').symm

/-- C17: whatever the other variables stand for, using `v` does the same. -/
theorem c17_independent (s : Score) (hr : Reachable s) (v : String) (others : String → Option (List Upd)) (hv : others v = s.vars v) :
    (update [.varRef v] (withVars s others)).err = (update [.varRef v] s).err ∧
    ∃ g, (update [.varRef v] (withVars s others)).s = withVars (update [.varRef v] s).s g := by
  simp only [update, updListWith, updWith]
  rw [show (withVars s others).vars v = s.vars v from hv]
  cases h : s.vars v with
  | none => exact ⟨rfl, others, rfl⟩
  | some es =>
    have := plain_blindL (fun _ s => .fail .unreachable s) es (hr.good.vars v es h).2 s others
    exact ⟨(this.andThen (fun s w => ⟨rfl, w, rfl⟩)).err, (this.andThen (fun s w => ⟨rfl, w, rfl⟩)).same⟩

/-- C17: using variables always terminates: the events stored in a variable contain no references, so following a reference is needed only once, and it does not
matter what an interpreter would do with a reference met inside a stored value. -/
theorem c17_terminates (s : Score) (hr : Reachable s) (es : List Upd) (inner : List Upd → Score → Out) :
    updListWith (updListWith inner) es s = update es s := by
  refine (agreeL (d1 := updListWith inner) (d2 := derefUpd) ?_ ?_ es s hr.good).1
  · intro us hu
    exact funext (plain_derefL _ _ us hu)
  · intro us t hu g
    have := update_all_steps us t g
    rw [show derefUpd us t = update us t from plain_derefL _ _ us hu t]
    exact this.good g

/-- C17: no event in a stored value mentions a variable. -/
theorem c17_stored (s : Score) (hr : Reachable s) (v : String) (es : List Upd) (h : s.vars v = some es) (w : String) : ¬ MentionsL w es := by
  have hp := (hr.good.vars v es h).2
  have key : (∀ e : Upd, Plain e → ¬ Mentions w e) ∧ (∀ es : List Upd, PlainL es → ¬ MentionsL w es) := by
    refine ⟨fun e => ?_, fun es => ?_⟩
    · exact plain_mentions w e
    · exact plain_mentionsL w es
  exact key.2 es hp
where
  plain_mentions (w : String) : ∀ e : Upd, Plain e → ¬ Mentions w e
    | .leaf _, _ | .lispNil, _ | .barline, _ | .voice _, _ | .voiceEnd, _ | .marker _, _ | .atMarker _, _ => by
      simp only [Mentions, not_false_eq_true]
    | .lisp _, h | .varRef _, h | .partDecl _ _, h => h.elim
    | .chord es, h | .cram es _, h | .seq es, h | .varDef _ es, h => by simp only [Mentions]; exact plain_mentionsL w es h
    | .rep e _, h | .onReps _ e, h => by simp only [Mentions]; exact plain_mentions w e h
  plain_mentionsL (w : String) : ∀ es : List Upd, PlainL es → ¬ MentionsL w es
    | [], _ => by simp only [MentionsL, not_false_eq_true]
    | e :: es, h => by
      simp only [MentionsL, not_or]
      exact ⟨plain_mentions w e h.1, plain_mentionsL w es h.2⟩

/-- C17: using an undefined variable is an error. -/
theorem c17_undefined_use (s : Score) (v : String) (h : s.vars v = none) : (update [.varRef v] s).err ≠ none := by
  simp only [update, updListWith, updWith, h, Out.andThen, Out.fail]
  exact fun h => by cases h

mutual
theorem mention_undefined {v : String} {vars : String → Option (List Upd)} (h : vars v = none) : ∀ e, Mentions v e → ∀ w, varValue vars e ≠ .ok w
  | .varRef n, hm, w => by simp only [Mentions] at hm; subst hm; simp only [varValue, h]; exact fun h => by cases h
  | .chord es, hm, w | .cram es _, hm, w | .seq es, hm, w | .varDef _ es, hm, w => by
    simp only [Mentions] at hm
    simp only [varValue]
    cases hw : varValues vars es with
    | error e => exact fun h => by cases h
    | ok ws => exact (mentions_undefined h es hm ws hw).elim
  | .rep e _, hm, w | .onReps _ e, hm, w => by
    simp only [Mentions] at hm
    simp only [varValue]
    cases hw : varValue vars e with
    | error e => exact fun h => by cases h
    | ok ws => exact (mention_undefined h e hm ws hw).elim
  | .leaf _, hm, _ | .lisp _, hm, _ | .lispNil, hm, _ | .barline, hm, _ | .voice _, hm, _ | .voiceEnd, hm, _ | .marker _, hm, _ | .atMarker _, hm, _
  | .partDecl _ _, hm, _ => by simp only [Mentions] at hm
theorem mentions_undefined {v : String} {vars : String → Option (List Upd)} (h : vars v = none) : ∀ es, MentionsL v es → ∀ ws, varValues vars es ≠ .ok ws
  | [], hm, _ => by simp only [MentionsL] at hm
  | e :: es, hm, ws => by
    simp only [MentionsL] at hm
    simp only [varValues]
    cases hw : varValue vars e with
    | error e => exact fun h => by cases h
    | ok x =>
      cases hx : varValues vars es with
      | error e => exact fun h => by cases h
      | ok xs =>
        rcases hm with hm | hm
        · exact (mention_undefined h e hm x hw).elim
        · exact (mentions_undefined h es hm xs hx).elim
end

/-- C17: mentioning an undefined variable in a definition, at any depth, is an error, and nothing is defined. -/
theorem c17_undefined_mention (s : Score) (v : String) (h : s.vars v = none) (n : String) (es : List Upd) (hm : MentionsL v es) :
    (update [.varDef n es] s).err ≠ none ∧ (update [.varDef n es] s).s = s := by
  simp only [update, updListWith, updWith, varDefUpd]
  cases hw : varValues s.vars es with
  | error e => exact ⟨(fun h => by cases h), rfl⟩
  | ok ws => exact (mentions_undefined h es hm ws hw).elim

/-- A variable `b` that mentions `a`; then `a` is defined anew. -/
def demoVars : List Upd := [.varDef "a" [.leaf (.note (.letter .C none) [] false)],
  .varDef "b" [.varRef "a", .chord [.varRef "a", .leaf (.note (.letter .E none) [] false)]]]

/-- The hypotheses of C17 hold, and `b` plays the old `a`. -/
example :
    let s := (update (demoVars.take 1) newScore).s
    let es : List Upd := [.varRef "a", .chord [.varRef "a", .leaf (.note (.letter .E none) [] false)]]
    let between : List Upd := [.varDef "a" [.leaf (.note (.letter .D none) [] false), .varRef "b"], .partDecl ["piano"] ""]
    Reachable s ∧ ChordsPlainL es ∧ (update [.varDef "b" es] s).err = none ∧ NoDef "b" s.vars ∧ ¬ DefinesL "b" es ∧ ¬ DefinesL "b" between ∧
    (update (demoVars ++ between ++ [.varRef "b"]) newScore).s.events.map (·.note) = [60, 60, 64] := by
  refine ⟨⟨_, rfl⟩, by simp [ChordsPlainL, ChordsPlain, notLisp], by decide +kernel, ?_, by simp [DefinesL, Defines], by simp [DefinesL, Defines], by decide +kernel⟩
  intro n es h
  have : (update (demoVars.take 1) newScore).s.vars n = if n = "a" then some [.leaf (.note (.letter .C none) [] false)] else none := by with_unfolding_all rfl
  rw [this] at h
  by_cases hn : n = "a"
  · rw [if_pos hn] at h; cases h; simp [DefinesL, Defines]
  · rw [if_neg hn] at h; cases h

/-- Why lisp notes in chords are excluded from `c17_bound`: in `c1/(note (midi-note 64) (note-length 2)) d4` the lisp note does not count for the length of the
chord, but it does when the chord is stored in a variable. -/
theorem c17_lisp_chord_witness :
    let n : Upd := .lisp [.sym "note", .list [.sym "midi-note", .num 64], .list [.sym "note-length", .num 2]]
    let ch : Upd := .chord [.leaf (.note (.letter .C none) [.length 1 0] false), n]
    let d : Upd := .leaf (.note (.letter .D none) [] false)
    (update [.partDecl ["piano"] "", ch, d] newScore).s.events.map (·.offset) = [0, 0, 2000] ∧
    (update [.varDef "v" [ch], .partDecl ["piano"] "", .varRef "v", d] newScore).s.events.map (·.offset) = [0, 0, 1000] := by decide +kernel

end Alda
