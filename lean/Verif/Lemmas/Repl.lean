import Verif.Spec.Repl
import Verif.Props.Transmit
/-!
Invariants of the REPL server.
-/
namespace Alda

theorem dedup_prefix (l : List Nat) : ∀ acc, acc <+: dedup acc l := by
  induction l with
  | nil => intro acc; exact List.prefix_refl _
  | cons x l ih =>
    intro acc
    simp only [dedup]
    split
    · exact ih acc
    · exact (List.prefix_append acc [x]).trans (ih _)

theorem Step.instances_prefix {L D} {s t : Score} (h : Step L D s t) (w : WF s) : instances s <+: instances t := by
  have view : SameView s t → instances s <+: instances t := by
    intro h
    rw [instances_view t, h.1, ← instances_view]
    exact List.prefix_refl _
  cases h with
  | attr hid hL hu => exact view (Step.view (L := L) (.attr hid hL hu) w)
  | globals hid => exact view (Step.view (L := L) (.globals hid) w)
  | record o u hL => exact view (Step.view (L := L) (.record o u hL) w)
  | emit d a hid ha hn hd hc => exact view (Step.view (L := L) (.emit d a hid ha hn hd hc) w)
  | timing o l t d r hid => exact view (Step.view (L := L) (.timing o l t d r hid) w)
  | chordMode b => exact view (Step.view (L := L) (.chordMode b) w)
  | marker n o => exact view (Step.view (L := L) (.marker n o) w)
  | setVar n es hes hpl => exact view (Step.view (L := L) (.setVar n es hes hpl) w)
  | template hid hv ht => exact view (Step.view (L := L) (.template hid hv ht) w)
  | newVoice n hid ht hn => exact view (Step.view (L := L) (.newVoice n hid ht hn) w)
  | enterVoice hid hv => exact view (Step.view (L := L) (.enterVoice hid hv) w)
  | endVoices i => exact view (Step.view (L := L) (.endVoices i) w)
  | newPart hD name h => exact view (newPart_view w h)
  | declare hD parts alias hp hn hne hg =>
    have e : instances (declareParts parts alias s) = (dedup s.parts parts).map (fun i => (s.heap i).origin) := by
      unfold instances
      rw [declareParts_parts, declareParts_heap]
      refine List.map_congr_left (fun i _ => ?_)
      rcases markMaster_heap parts s i with h | ⟨_, _, h⟩ <;> rw [h]
    rw [e]
    exact (dedup_prefix parts s.parts).map _

/-- Changing the order of the events changes nothing else. -/
theorem Good.setEvents {L D} {s : Score} (g : Good L D s) (es : List NoteEvent) : Good L D { s with events := es } := by
  have sh : SameShape s { s with events := es } := ⟨fun _ => .refl _, rfl, rfl, rfl, rfl, rfl, rfl⟩
  exact ⟨sh.wf g.wf, g.vars, sh.voicesOk g.voices, fun d => ⟨(g.idle d).busy, (g.idle d).tmpl⟩⟩

/-- What holds of every score in a session. -/
structure ScoreInv (s : Score) : Prop where
  good : Good (fun _ => True) True s
  mem : EventsIn s

theorem newScore_inv : ScoreInv newScore := ⟨newScore_good _ _, by intro e he; cases he⟩

/-- What updates do to a score of a session. -/
structure Extends (s t : Score) : Prop where
  events : s.events <+: t.events
  instances : instances s <+: instances t

theorem update_inv (us : List Upd) {s : Score} (h : ScoreInv s) : ScoreInv (update us s).s ∧ Extends s (update us s).s := by
  have st := update_all_steps us s h.good
  have key : ∀ {t}, Steps (fun _ => True) True s t → (WF t ∧ EventsIn t) ∧ Extends s t := by
    intro t st
    induction st with
    | refl => exact ⟨⟨h.good.wf, h.mem⟩, List.prefix_refl _, List.prefix_refl _⟩
    | tail _ hs ih =>
      refine ⟨⟨hs.wf ih.1.1, hs.eventsIn ih.1.1 ih.1.2⟩, ih.2.events.trans ?_, ih.2.instances.trans (hs.instances_prefix ih.1.1)⟩
      rcases hs.notes with ⟨he, _⟩ | ⟨id, ch, note, d, a, _, _, _, _, _, ht⟩
      · rw [he]; exact List.prefix_refl _
      · rw [ht, emitted_events]; exact List.prefix_append ..
  exact ⟨⟨st.good h.good, (key st).1.2⟩, (key st).2⟩

theorem transmitted_eq (sort : List NoteEvent → List NoteEvent) (s : Score) (x : Transmission) :
    ∃ es, transmitted sort s x = { s with events := es } ∧ (SortsByOffset sort → es.Perm s.events) := by
  unfold transmitted
  split
  next events _ _ he _ _ =>
    refine ⟨_, rfl, fun hs => ?_⟩
    unfold eventSlice at he
    simp only at he
    split at he
    next h =>
      simp only [Except.ok.injEq] at he
      subst he
      have h1 : (sort ((s.events.take (x.toIndex.getD s.events.length)).drop x.fromIndex)).Perm _ := (hs _).1
      refine ((h1.append_left _).append_right _).trans ?_
      have e : s.events.take x.fromIndex = (s.events.take (x.toIndex.getD s.events.length)).take x.fromIndex := by
        rw [List.take_take, Nat.min_eq_left h.1]
      rw [e, List.take_append_drop, List.take_append_drop]
    · simp at he
  · exact ⟨s.events, rfl, fun _ => .refl _⟩

theorem transmitted_inv {sort : List NoteEvent → List NoteEvent} (hs : SortsByOffset sort) {s : Score} (x : Transmission) (h : ScoreInv s) :
    ScoreInv (transmitted sort s x) := by
  obtain ⟨es, he, hp⟩ := transmitted_eq sort s x
  rw [he]
  exact ⟨h.good.setEvents es, fun e hm => h.mem e ((hp hs).mem_iff.1 hm)⟩

namespace Repl

/-- What holds of the server all the time. -/
structure Inv (s : Server) : Prop where
  score : ScoreInv s.score
  index : s.eventIndex ≤ s.score.events.length

theorem newServer_inv : Inv newServer := ⟨newScore_inv, Nat.le_refl _⟩

theorem Done.andThen_inv {d : Done} {k : Server → Done} (h : Inv d.s) (hk : ∀ s, Inv s → Inv (k s).s) : Inv (d.andThen k).s := by
  unfold Done.andThen
  split
  · exact hk _ h
  · exact h

theorem fromWorld_inv (e : Option String) {s : Server} (h : Inv s) : Inv (fromWorld e s).s := h

theorem resetState_inv (w : World) {s : Server} (h : Inv s) : Inv (resetState w s).s := by
  unfold resetState
  refine Done.andThen_inv ?_ (fun s hs => ⟨newScore_inv, Nat.zero_le _⟩)
  split <;> exact h

theorem updateScoreWithInput_inv (parse : String → Except Err (List Upd)) (input : String) {s : Server} (h : Inv s) :
    Inv (updateScoreWithInput parse input s).s := by
  unfold updateScoreWithInput
  split
  · exact h
  next us _ =>
    have hu := update_inv us h.score
    split
    next e sc he => rw [he] at hu; exact ⟨hu.1, Nat.le_trans h.index hu.2.events.length_le⟩
    next sc he => rw [he] at hu; exact ⟨hu.1, Nat.le_refl _⟩

theorem transmitScore_inv {sort : List NoteEvent → List NoteEvent} (hs : SortsByOffset sort) (w : World) (x : Transmission) {s : Server} (h : Inv s) :
    Inv (transmitScore sort w x s).s := by
  have key : Inv { s with score := transmitted sort s.score x } := by
    refine ⟨transmitted_inv hs x h.score, ?_⟩
    obtain ⟨es, he, hp⟩ := transmitted_eq sort s.score x
    simp only [he, (hp hs).length_eq]
    exact h.index
  unfold transmitScore
  split
  · exact key
  · split
    · exact key
    · exact ⟨key.score, key.index⟩

theorem evalAndPlay_inv (parse : String → Except Err (List Upd)) {sort : List NoteEvent → List NoteEvent} (hs : SortsByOffset sort) (w : World)
    (i f t : String) {s : Server} (h : Inv s) : Inv (evalAndPlay parse sort w i f t s).s := by
  unfold evalAndPlay
  exact Done.andThen_inv (fromWorld_inv _ h) (fun s h => Done.andThen_inv (updateScoreWithInput_inv parse i h) (fun s h => transmitScore_inv hs w _ h))

theorem load_inv (parse : String → Except Err (List Upd)) {sort : List NoteEvent → List NoteEvent} (hs : SortsByOffset sort) (w : World)
    (i : String) {s : Server} (h : Inv s) : Inv (load parse sort w i s).s := by
  unfold load
  exact Done.andThen_inv (resetState_inv w h) (fun s h => Done.andThen_inv (fromWorld_inv _ h) (fun s h =>
    Done.andThen_inv (updateScoreWithInput_inv parse i h) (fun s h => Done.andThen_inv (transmitScore_inv hs w _ h) (fun s h => h))))

theorem replay_inv (parse : String → Except Err (List Upd)) {sort : List NoteEvent → List NoteEvent} (hs : SortsByOffset sort) (w : World)
    (f t : String) {s : Server} (h : Inv s) : Inv (replay parse sort w f t s).s := by
  unfold replay
  exact Done.andThen_inv (resetState_inv w h) (fun s h => evalAndPlay_inv parse hs w _ f t h)

theorem respond_inv (req : Request) (st : List String) (data : Response) {s : Server} (h : Inv s) : Inv (respond req st data s) := ⟨h.score, h.index⟩

theorem finish_inv (req : Request) (data : Server → Response) {d : Done} (h : Inv d.s) : Inv (finish req data d) := by
  unfold finish
  split
  · unfold respondError
    split
    · exact respond_inv _ _ _ h
    · exact ⟨h.score, h.index⟩
  · exact respond_inv _ _ _ h

theorem withCode_inv (req : Request) {s : Server} {k : String → Done} (h : Inv s) (hk : ∀ i, Inv (k i).s) : Inv (withCode req s k) := by
  unfold withCode
  simp only
  split
  · exact respond_inv _ _ _ h
  · exact finish_inv _ _ (hk _)

theorem ops_inv (parse : String → Except Err (List Upd)) {sort : List NoteEvent → List NoteEvent} (hs : SortsByOffset sort) (w : World) (req : Request)
    {s s' : Server} (op : String) (h : Inv s) (ho : ops parse sort w req s op = some s') : Inv s' := by
  unfold ops at ho
  split at ho <;> simp only [Option.some.injEq, reduceCtorEq] at ho <;> subst ho
  · exact respond_inv _ _ _ h
  · exact ⟨h.score, h.index⟩
  · exact respond_inv _ _ _ h
  · exact withCode_inv _ h (fun i => evalAndPlay_inv parse hs w i "" "" h)
  · exact finish_inv _ _ (Done.andThen_inv (load_inv parse hs w _ h) (fun s h => h))
  · exact respond_inv _ _ _ h
  · exact withCode_inv _ h (fun i => load_inv parse hs w i h)
  · exact finish_inv _ _ (resetState_inv w h)
  · exact finish_inv _ _ (replay_inv parse hs w _ _ h)
  · exact respond_inv _ _ _ h
  · exact finish_inv _ _ (by split <;> exact h)
  · exact finish_inv _ _ (by split <;> exact h)
  · exact respond_inv _ _ _ h
  · exact finish_inv _ _ (Done.andThen_inv (fromWorld_inv _ h) (fun s h => h))

theorem handle_inv (parse : String → Except Err (List Upd)) {sort : List NoteEvent → List NoteEvent} (hs : SortsByOffset sort) (w : World) (req : Request)
    {s : Server} (h : Inv s) : Inv (handle parse sort w req s) := by
  unfold handle
  split
  · exact h
  simp only
  split
  · exact respond_inv _ _ _ h
  · split
    · exact respond_inv _ _ _ h
    next s' ho => exact ops_inv parse hs w req _ h ho

theorem InSession.inv {parse : String → Except Err (List Upd)} {sort : List NoteEvent → List NoteEvent} (hs : SortsByOffset sort) {s : Server}
    (h : InSession parse sort s) : Inv s := by
  induction h with
  | start => exact newServer_inv
  | step w req _ ih => exact handle_inv parse hs w req ih

/-! ### Nothing but the handlers themselves respond -/

structure Silent (s t : Server) : Prop where
  out : t.out = s.out
  panicked : t.panicked = s.panicked
  describe : t.describe = s.describe

theorem Silent.refl (s : Server) : Silent s s := ⟨rfl, rfl, rfl⟩

theorem Silent.trans {s t u : Server} (h : Silent s t) (h' : Silent t u) : Silent s u :=
  ⟨h'.out.trans h.out, h'.panicked.trans h.panicked, h'.describe.trans h.describe⟩

theorem Done.andThen_silent {s : Server} {d : Done} {k : Server → Done} (h : Silent s d.s) (hk : ∀ s, Silent s (k s).s) : Silent s (d.andThen k).s := by
  unfold Done.andThen
  split
  · exact h.trans (hk _)
  · exact h

theorem fromWorld_silent (e : Option String) (s : Server) : Silent s (fromWorld e s).s := .refl s

theorem resetState_silent (w : World) (s : Server) : Silent s (resetState w s).s := by
  unfold resetState
  refine Done.andThen_silent ?_ (fun s => ⟨rfl, rfl, rfl⟩)
  split <;> exact .refl s

theorem updateScoreWithInput_silent (parse : String → Except Err (List Upd)) (input : String) (s : Server) :
    Silent s (updateScoreWithInput parse input s).s := by
  unfold updateScoreWithInput
  split
  · exact .refl s
  · split <;> exact ⟨rfl, rfl, rfl⟩

theorem transmitScore_silent (sort : List NoteEvent → List NoteEvent) (w : World) (x : Transmission) (s : Server) :
    Silent s (transmitScore sort w x s).s := by
  unfold transmitScore
  split
  · exact ⟨rfl, rfl, rfl⟩
  · split <;> exact ⟨rfl, rfl, rfl⟩

theorem evalAndPlay_silent (parse : String → Except Err (List Upd)) (sort : List NoteEvent → List NoteEvent) (w : World)
    (i f t : String) (s : Server) : Silent s (evalAndPlay parse sort w i f t s).s := by
  unfold evalAndPlay
  exact Done.andThen_silent (fromWorld_silent _ s) (fun s => Done.andThen_silent (updateScoreWithInput_silent parse i s)
    (fun s => transmitScore_silent sort w _ s))

theorem load_silent (parse : String → Except Err (List Upd)) (sort : List NoteEvent → List NoteEvent) (w : World)
    (i : String) (s : Server) : Silent s (load parse sort w i s).s := by
  unfold load
  exact Done.andThen_silent (resetState_silent w s) (fun s => Done.andThen_silent (fromWorld_silent _ s) (fun s =>
    Done.andThen_silent (updateScoreWithInput_silent parse i s) (fun s => Done.andThen_silent (transmitScore_silent sort w _ s) (fun s => .refl s))))

theorem replay_silent (parse : String → Except Err (List Upd)) (sort : List NoteEvent → List NoteEvent) (w : World)
    (f t : String) (s : Server) : Silent s (replay parse sort w f t s).s := by
  unfold replay
  exact Done.andThen_silent (resetState_silent w s) (fun s => evalAndPlay_silent parse sort w _ f t s)

/-- A response made by `respondData` with a status and data that has neither id nor session. -/
structure Replied (req : Request) (s s' : Server) (status : List String) (data : Response) : Prop where
  out : s'.out = s.out ++ [(req.conn, respondData req status data)]
  done : "done" ∈ status
  panicked : s'.panicked = s.panicked

theorem respondDone_replied (req : Request) (data : Response) {s t : Server} (h : Silent s t) : Replied req s (respondDone req data t) ["done"] data :=
  ⟨by simp only [respondDone, respond, h.out], by simp, h.panicked⟩

theorem respondErrors_replied (req : Request) (ps : List String) {s t : Server} (h : Silent s t) :
    Replied req s (respondErrors req ps t) ["done", "error"] (put noData "problems" (.strings ps)) :=
  ⟨by simp only [respondErrors, respond, h.out], by simp, h.panicked⟩

/-- What `finish` does. -/
theorem finish_replied (req : Request) (data : Server → Response) (d : Done) :
    (d.err = none ∧ finish req data d = respondDone req (data d.s) d.s) ∨
    (∃ m, d.err = some (.user m) ∧ finish req data d = respondErrors req [m] d.s) ∨
    (finish req data d).panicked = true := by
  unfold finish
  cases he : d.err with
  | none => exact Or.inl ⟨rfl, rfl⟩
  | some e =>
    cases e with
    | user m => exact Or.inr (Or.inl ⟨m, rfl, rfl⟩)
    | _ => exact Or.inr (Or.inr rfl)

theorem finish_answer (req : Request) (data : Server → Response) {s : Server} {d : Done} (h : Silent s d.s)
    (hp : (finish req data d).panicked = false) : ∃ st dt, Replied req s (finish req data d) st dt ∧
      ((d.err = none ∧ st = ["done"] ∧ dt = data d.s) ∨ (∃ m, d.err = some (.user m) ∧ st = ["done", "error"] ∧ dt = put noData "problems" (.strings [m]))) := by
  rcases finish_replied req data d with ⟨he, hf⟩ | ⟨m, he, hf⟩ | hf
  · rw [hf]; exact ⟨_, _, respondDone_replied req _ h, Or.inl ⟨he, rfl, rfl⟩⟩
  · rw [hf]; exact ⟨_, _, respondErrors_replied req _ h, Or.inr ⟨m, he, rfl, rfl⟩⟩
  · rw [hf] at hp; simp at hp

/-- Neither id nor session. -/
def Bare (data : Response) : Prop := data "id" = none ∧ data "session" = none

theorem withCode_answer (req : Request) {s : Server} {k : String → Done} (h : ∀ i, Silent s (k i).s)
    (hp : (withCode req s k).panicked = false) : ∃ st dt, Replied req s (withCode req s k) st dt ∧ Bare dt ∧
      ((∀ c, req.msg "code" ≠ some (.str c)) → "error" ∈ st) := by
  unfold withCode at hp ⊢
  simp only at hp ⊢
  by_cases hv : (validateString "code" req).length > 0
  · simp only [if_pos hv]
    exact ⟨_, _, respondErrors_replied req _ (.refl s), ⟨rfl, rfl⟩, fun _ => by simp⟩
  · simp only [if_neg hv] at hp ⊢
    obtain ⟨st, dt, h1, h2⟩ := finish_answer req _ (h _) hp
    refine ⟨st, dt, h1, ?_, fun hc => ?_⟩
    · rcases h2 with ⟨_, _, rfl⟩ | ⟨m, _, _, rfl⟩ <;> exact ⟨rfl, rfl⟩
    · exfalso
      unfold validateString at hv
      split at hv
      · simp at hv
      next f hf =>
        cases f with
        | str c => exact hc c hf
        | _ => simp [Field.isString] at hv

theorem ops_answer (parse : String → Except Err (List Upd)) (sort : List NoteEvent → List NoteEvent) (w : World) (req : Request)
    {s s' : Server} (op : String) (ho : ops parse sort w req s op = some s') (hp : s'.panicked = false) :
    ∃ st dt, Replied req s s' st dt ∧ (op ≠ "describe" → Bare dt) ∧
      ((op = "eval-and-play" ∨ op = "load") → (∀ c, req.msg "code" ≠ some (.str c)) → "error" ∈ st) := by
  unfold ops at ho
  split at ho <;> simp only [Option.some.injEq, reduceCtorEq] at ho <;> subst ho
  · exact ⟨_, _, respondDone_replied req _ (.refl s), fun _ => ⟨rfl, rfl⟩, by simp⟩
  · refine ⟨["done"], s.describe, ⟨rfl, by simp, rfl⟩, by simp, by simp⟩
  · exact ⟨_, _, respondDone_replied req _ (.refl s), fun _ => ⟨rfl, rfl⟩, by simp⟩
  · obtain ⟨st, dt, h1, h2, h3⟩ := withCode_answer req (fun i => evalAndPlay_silent parse sort w i "" "" s) hp
    exact ⟨st, dt, h1, fun _ => h2, fun _ => h3⟩
  · obtain ⟨st, dt, h1, h2⟩ := finish_answer req _ (Done.andThen_silent (load_silent parse sort w _ s) (fun s => .refl s)) hp
    exact ⟨st, dt, h1, fun _ => (by rcases h2 with ⟨_, _, rfl⟩ | ⟨m, _, _, rfl⟩ <;> exact ⟨rfl, rfl⟩), by simp⟩
  · exact ⟨_, _, respondDone_replied req _ (.refl s), fun _ => ⟨rfl, rfl⟩, by simp⟩
  · obtain ⟨st, dt, h1, h2, h3⟩ := withCode_answer req (fun i => load_silent parse sort w i s) hp
    exact ⟨st, dt, h1, fun _ => h2, fun _ => h3⟩
  · obtain ⟨st, dt, h1, h2⟩ := finish_answer req _ (resetState_silent w s) hp
    exact ⟨st, dt, h1, fun _ => (by rcases h2 with ⟨_, _, rfl⟩ | ⟨m, _, _, rfl⟩ <;> exact ⟨rfl, rfl⟩), by simp⟩
  · obtain ⟨st, dt, h1, h2⟩ := finish_answer req _ (replay_silent parse sort w _ _ s) hp
    exact ⟨st, dt, h1, fun _ => (by rcases h2 with ⟨_, _, rfl⟩ | ⟨m, _, _, rfl⟩ <;> exact ⟨rfl, rfl⟩), by simp⟩
  · exact ⟨_, _, respondDone_replied req _ (.refl s), fun _ => ⟨rfl, rfl⟩, by simp⟩
  · obtain ⟨st, dt, h1, h2⟩ := finish_answer (s := s) req _ (by split <;> exact .refl s) hp
    exact ⟨st, dt, h1, fun _ => (by rcases h2 with ⟨_, _, rfl⟩ | ⟨m, _, _, rfl⟩ <;> exact ⟨rfl, rfl⟩), by simp⟩
  · obtain ⟨st, dt, h1, h2⟩ := finish_answer (s := s) req _ (by split <;> exact .refl s) hp
    exact ⟨st, dt, h1, fun _ => (by rcases h2 with ⟨_, _, rfl⟩ | ⟨m, _, _, rfl⟩ <;> exact ⟨rfl, rfl⟩), by simp⟩
  · exact ⟨_, _, respondDone_replied req _ (.refl s), fun _ => ⟨rfl, rfl⟩, by simp⟩
  · obtain ⟨st, dt, h1, h2⟩ := finish_answer req _ (Done.andThen_silent (fromWorld_silent _ s) (fun s => .refl s)) hp
    exact ⟨st, dt, h1, fun _ => (by rcases h2 with ⟨_, _, rfl⟩ | ⟨m, _, _, rfl⟩ <;> exact ⟨rfl, rfl⟩), by simp⟩

theorem ops_some (parse : String → Except Err (List Upd)) (sort : List NoteEvent → List NoteEvent) (w : World) (req : Request) (s : Server) (op : String) :
    (ops parse sort w req s op).isSome ↔ op ∈ operations := by
  unfold ops operations
  split <;> simp_all

theorem respondData_status (req : Request) (st : List String) (data : Response) : respondData req st data "status" = some (.strings st) := by
  unfold respondData
  cases req.msg "session" <;> cases req.msg "id" <;> simp [put]

theorem respondData_id (req : Request) (st : List String) (data : Response) :
    respondData req st data "id" = match req.msg "id" with | some v => some (.field v) | none => data "id" := by
  unfold respondData
  cases req.msg "session" <;> cases req.msg "id" <;> simp [put]

theorem respondData_session (req : Request) (st : List String) (data : Response) :
    respondData req st data "session" = match req.msg "session" with | some v => some (.field v) | none => data "session" := by
  unfold respondData
  cases req.msg "session" <;> cases req.msg "id" <;> simp [put]

theorem validateString_nil {name : String} {req : Request} : (validateString name req).length > 0 ↔ ∀ c, req.msg name ≠ some (.str c) := by
  unfold validateString
  cases h : req.msg name with
  | none => simp
  | some f => cases f <;> simp [Field.isString]

/-! ### What was sent to clients does not matter -/

/-- The same server with other responses. -/
def setOut (o : List (Nat × Response)) (s : Server) : Server := { s with out := o }

/-- The same result with other responses. -/
def Done.setOut (o : List (Nat × Response)) (d : Done) : Done := ⟨d.err, Repl.setOut o d.s⟩

theorem Done.andThen_setOut {o : List (Nat × Response)} {d : Done} {k k' : Server → Done} (h : ∀ s, k' (Repl.setOut o s) = (k s).setOut o) :
    (d.setOut o).andThen k' = (d.andThen k).setOut o := by
  unfold Done.andThen Done.setOut
  cases he : d.err with
  | none => exact h d.s
  | some e => simp only [he]

theorem resetState_setOut (o : List (Nat × Response)) (w : World) (s : Server) : resetState w (setOut o s) = (resetState w s).setOut o := by
  unfold resetState
  refine Eq.trans ?_ (Done.andThen_setOut (k' := fun s => ⟨none, { s with input := "", score := newScore, eventIndex := 0 }⟩) (fun s => rfl))
  congr 1
  split <;> rfl

theorem updateScoreWithInput_setOut (parse : String → Except Err (List Upd)) (i : String) (o : List (Nat × Response)) (s : Server) :
    updateScoreWithInput parse i (setOut o s) = (updateScoreWithInput parse i s).setOut o := by
  unfold updateScoreWithInput
  have e : (setOut o s).score = s.score := rfl
  rw [e]
  split
  · rfl
  · split <;> rfl

theorem transmitScore_setOut (sort : List NoteEvent → List NoteEvent) (w : World) (x : Transmission) (o : List (Nat × Response)) (s : Server) :
    transmitScore sort w x (setOut o s) = (transmitScore sort w x s).setOut o := by
  unfold transmitScore
  have e : (setOut o s).score = s.score := rfl
  rw [e]
  split
  · rfl
  · split <;> rfl

theorem evalAndPlay_setOut (parse : String → Except Err (List Upd)) (sort : List NoteEvent → List NoteEvent) (w : World) (i f t : String)
    (o : List (Nat × Response)) (s : Server) : evalAndPlay parse sort w i f t (setOut o s) = (evalAndPlay parse sort w i f t s).setOut o := by
  unfold evalAndPlay
  have e : fromWorld w.player (setOut o s) = (fromWorld w.player s).setOut o := rfl
  rw [e]
  refine Done.andThen_setOut (fun s => ?_)
  rw [updateScoreWithInput_setOut]
  refine Done.andThen_setOut (fun s' => ?_)
  rw [transmitScore_setOut]
  rfl

theorem load_setOut (parse : String → Except Err (List Upd)) (sort : List NoteEvent → List NoteEvent) (w : World) (i : String)
    (o : List (Nat × Response)) (s : Server) : load parse sort w i (setOut o s) = (load parse sort w i s).setOut o := by
  unfold load
  rw [resetState_setOut]
  refine Done.andThen_setOut (fun s => ?_)
  have e : fromWorld w.player (setOut o s) = (fromWorld w.player s).setOut o := rfl
  rw [e]
  refine Done.andThen_setOut (fun s => ?_)
  rw [updateScoreWithInput_setOut]
  refine Done.andThen_setOut (fun s' => ?_)
  rw [transmitScore_setOut]
  exact Done.andThen_setOut (fun s' => rfl)

theorem replay_setOut (parse : String → Except Err (List Upd)) (sort : List NoteEvent → List NoteEvent) (w : World) (f t : String)
    (o : List (Nat × Response)) (s : Server) : replay parse sort w f t (setOut o s) = (replay parse sort w f t s).setOut o := by
  unfold replay
  rw [resetState_setOut]
  refine Done.andThen_setOut (fun s' => ?_)
  rw [evalAndPlay_setOut]; rfl

/-- Equal up to the responses. -/
def Alike (s t : Server) : Prop := ∃ o, t = setOut o s

theorem finish_alike (req : Request) {data data' : Server → Response} (d : Done) (o : List (Nat × Response)) :
    Alike (finish req data d) (finish req data' (d.setOut o)) := by
  unfold finish Done.setOut
  cases d.err with
  | none => exact ⟨_, rfl⟩
  | some e => cases e <;> exact ⟨_, rfl⟩

theorem withCode_alike (req : Request) (s : Server) (o : List (Nat × Response)) {k k' : String → Done} (h : ∀ i, k' i = (k i).setOut o) :
    Alike (withCode req s k) (withCode req (setOut o s) k') := by
  unfold withCode
  simp only
  split
  · exact ⟨_, rfl⟩
  · rw [h]; exact finish_alike req _ o

theorem ops_alike (parse : String → Except Err (List Upd)) (sort : List NoteEvent → List NoteEvent) (w : World) (req : Request) (o : List (Nat × Response))
    {s s1 s2 : Server} (op : String) (h1 : ops parse sort w req s op = some s1) (h2 : ops parse sort w req (setOut o s) op = some s2) : Alike s1 s2 := by
  unfold ops at h1 h2
  split at h1 <;> simp only [Option.some.injEq, reduceCtorEq] at h1 h2 <;> subst h1 <;> subst h2
  · exact ⟨_, rfl⟩
  · exact ⟨_, rfl⟩
  · exact ⟨_, rfl⟩
  · exact withCode_alike req s o (fun i => evalAndPlay_setOut parse sort w i "" "" o s)
  · have : exportScore parse sort w (setOut o s) = (exportScore parse sort w s).setOut o := by
      unfold exportScore
      have e : (setOut o s).input = s.input := rfl
      rw [e, load_setOut]
      exact Done.andThen_setOut (fun s' => rfl)
    rw [this]; exact finish_alike req _ o
  · exact ⟨_, rfl⟩
  · exact withCode_alike req s o (fun i => load_setOut parse sort w i o s)
  · rw [resetState_setOut]; exact finish_alike req _ o
  · rw [replay_setOut]; exact finish_alike req _ o
  · exact ⟨_, rfl⟩
  · have e : (setOut o s).input = s.input := rfl
    rw [e]
    cases parse s.input with
    | error er => exact finish_alike req ⟨some er, s⟩ o
    | ok us => exact finish_alike req ⟨none, s⟩ o
  · have e : (setOut o s).input = s.input := rfl
    rw [e]
    cases parse s.input with
    | error er => exact finish_alike req ⟨some er, s⟩ o
    | ok us => exact finish_alike req ⟨none, s⟩ o
  · exact ⟨_, rfl⟩
  · have : ((fromWorld w.player (setOut o s)).andThen fun s => fromWorld w.send s) = ((fromWorld w.player s).andThen fun s => fromWorld w.send s).setOut o :=
      Done.andThen_setOut (d := fromWorld w.player s) (fun s' => rfl)
    rw [this]; exact finish_alike req _ o

theorem handle_alike (parse : String → Except Err (List Upd)) (sort : List NoteEvent → List NoteEvent) (w : World) (req : Request)
    {s t : Server} (h : Alike s t) : Alike (handle parse sort w req s) (handle parse sort w req t) := by
  obtain ⟨o, rfl⟩ := h
  unfold handle
  have e : (setOut o s).panicked = s.panicked := rfl
  rw [e]
  split
  · exact ⟨_, rfl⟩
  simp only
  split
  · exact ⟨_, rfl⟩
  · have hs := ops_some parse sort w req s (stringField "op" req)
    have hs' := ops_some parse sort w req (setOut o s) (stringField "op" req)
    cases h1 : ops parse sort w req s (stringField "op" req) with
    | none =>
      cases h2 : ops parse sort w req (setOut o s) (stringField "op" req) with
      | none => exact ⟨_, rfl⟩
      | some s2 => rw [h1] at hs; rw [h2] at hs'; simp at hs hs'; exact absurd hs' hs
    | some s1 =>
      cases h2 : ops parse sort w req (setOut o s) (stringField "op" req) with
      | none => rw [h1] at hs; rw [h2] at hs'; simp at hs hs'; exact absurd hs hs'
      | some s2 => exact ops_alike parse sort w req o _ h1 h2

theorem handleAll_alike (parse : String → Except Err (List Upd)) (sort : List NoteEvent → List NoteEvent) (rs : List (World × Request)) :
    ∀ {s t : Server}, Alike s t → Alike (handleAll parse sort rs s) (handleAll parse sort rs t) := by
  induction rs with
  | nil => intro s t h; exact h
  | cons r rs ih => intro s t h; exact ih (handle_alike parse sort r.1 r.2 h)

end Repl
end Alda
