import Verif.Lemmas.Repl
/-!
C38 - C40: what the REPL server does with requests.
-/
namespace Alda
namespace Repl

/-! ### C40 -/

/-- What a request gets, if the server does not panic. -/
theorem handle_reply (parse : String → Except Err (List Upd)) (sort : List NoteEvent → List NoteEvent) (w : World) (req : Request) (s : Server)
    (h0 : s.panicked = false) (hp : (handle parse sort w req s).panicked = false) :
    ∃ st dt, Replied req s (handle parse sort w req s) st dt ∧ (req.msg "op" ≠ some (.str "describe") → Bare dt) ∧ (Invalid req → "error" ∈ st) := by
  unfold handle at hp ⊢
  have hn : ¬ (s.panicked = true) := by simp [h0]
  simp only [if_neg hn] at hp ⊢
  by_cases hv : (validateString "op" req).length > 0
  · simp only [if_pos hv] at hp ⊢
    exact ⟨_, _, respondErrors_replied req _ (.refl s), fun _ => ⟨rfl, rfl⟩, fun _ => by simp⟩
  · simp only [if_neg hv] at hp ⊢
    have hop : ∃ op, req.msg "op" = some (.str op) := by
      rw [validateString_nil] at hv
      simpa using hv
    obtain ⟨op, hop⟩ := hop
    have ef : stringField "op" req = op := by simp [stringField, hop]
    rw [ef] at hp ⊢
    cases ho : ops parse sort w req s op with
    | none => exact ⟨_, _, ⟨rfl, by simp, rfl⟩, fun _ => ⟨rfl, rfl⟩, fun _ => by simp⟩
    | some s' =>
      simp only [ho] at hp ⊢
      obtain ⟨st, dt, h1, h2, h3⟩ := ops_answer parse sort w req op ho hp
      refine ⟨st, dt, h1, fun hd => h2 (fun e => hd (by rw [hop, e])), fun hi => ?_⟩
      have hm : op ∈ operations := (ops_some parse sort w req s op).1 (by rw [ho]; rfl)
      rcases hi with hi | ⟨hi, hc⟩
      · exact absurd hm (hi op hop)
      · refine h3 ?_ hc
        rw [hop] at hi
        simpa using hi

theorem Replied.answer {req : Request} {s s' : Server} {st : List String} {dt : Response} (h : Replied req s s' st dt) :
    Answered req s s' (respondData req st dt) ∧ Answer req (respondData req st dt) ∧
      ∀ word, HasStatus (respondData req st dt) word ↔ word ∈ st := by
  refine ⟨h.out, ⟨⟨st, respondData_status .., h.done⟩, ?_⟩, fun word => ⟨?_, fun hw => ⟨st, respondData_status .., hw⟩⟩⟩
  · intro k hk v hv
    rcases hk with rfl | rfl
    · rw [respondData_id, hv]
    · rw [respondData_session, hv]
  · rintro ⟨l, hl, hw⟩
    rw [respondData_status] at hl
    simp only [Option.some.injEq, Item.strings.injEq] at hl
    rw [hl]; exact hw

/-- C40: whatever the state of the server, a request gets exactly one response, which contains "done" and the id and the session of the request, and which reports an error if the
request is invalid - unless the server panics. -/
theorem c40_partial (parse : String → Except Err (List Upd)) (sort : List NoteEvent → List NoteEvent) (w : World) (req : Request) (s : Server)
    (h0 : s.panicked = false) (hp : (handle parse sort w req s).panicked = false) :
    ∃ resp, Answered req s (handle parse sort w req s) resp ∧ Answer req resp ∧ (Invalid req → HasStatus resp "error") := by
  obtain ⟨st, dt, h, _, hi⟩ := handle_reply parse sort w req s h0 hp
  obtain ⟨h1, h2, h3⟩ := h.answer
  exact ⟨_, h1, h2, fun i => (h3 _).2 (hi i)⟩

theorem handle_panicked (parse : String → Except Err (List Upd)) (sort : List NoteEvent → List NoteEvent) (w : World) (req : Request) (s : Server)
    (h0 : s.panicked = true) : handle parse sort w req s = s := by unfold handle; rw [if_pos h0]

theorem handleAll_panicked (parse : String → Except Err (List Upd)) (sort : List NoteEvent → List NoteEvent) (rs : List (World × Request)) (s : Server)
    (h0 : s.panicked = true) : handleAll parse sort rs s = s := by
  induction rs with
  | nil => rfl
  | cons r rs ih => simp only [handleAll]; rw [handle_panicked _ _ _ _ _ h0]; exact ih

/-- C40 for any sequence of requests: the responses correspond to the requests one by one. -/
theorem c40_session_partial (parse : String → Except Err (List Upd)) (sort : List NoteEvent → List NoteEvent) (rs : List (World × Request)) :
    ∀ s : Server, (handleAll parse sort rs s).panicked = false →
    ∃ responses, (handleAll parse sort rs s).out = s.out ++ responses ∧
      Matches (fun r out => out.1 = r.2.conn ∧ Answer r.2 out.2 ∧ (Invalid r.2 → HasStatus out.2 "error")) rs responses := by
  induction rs with
  | nil => intro s _; exact ⟨[], by simp [handleAll], .nil⟩
  | cons r rs ih =>
    intro s hp
    simp only [handleAll] at hp ⊢
    have h1 : (handle parse sort r.1 r.2 s).panicked = false := by
      cases hb : (handle parse sort r.1 r.2 s).panicked with
      | false => rfl
      | true => rw [handleAll_panicked _ _ _ _ hb, hb] at hp; exact hp
    have h0 : s.panicked = false := by
      cases hb : s.panicked with
      | false => rfl
      | true => rw [handle_panicked _ _ _ _ _ hb, hb] at h1; exact h1
    obtain ⟨resp, ha, hb, hc⟩ := c40_partial parse sort r.1 r.2 s h0 h1
    obtain ⟨responses, hr, hm⟩ := ih _ hp
    refine ⟨(r.2.conn, resp) :: responses, ?_, .cons ⟨rfl, hb, hc⟩ hm⟩
    rw [hr, ha]; simp

/-- C40: no response but that to `describe` carries an id or session that is not the request's. -/
theorem c40_own_id (parse : String → Except Err (List Upd)) (sort : List NoteEvent → List NoteEvent) (w : World) (req : Request) (s : Server)
    (h0 : s.panicked = false) (hp : (handle parse sort w req s).panicked = false) (hd : req.msg "op" ≠ some (.str "describe")) :
    ∃ resp, Answered req s (handle parse sort w req s) resp ∧ resp "id" = (req.msg "id").map .field ∧ resp "session" = (req.msg "session").map .field := by
  obtain ⟨st, dt, h, hb, _⟩ := handle_reply parse sort w req s h0 hp
  refine ⟨_, h.out, ?_, ?_⟩
  · rw [respondData_id, (hb hd).1]; cases req.msg "id" <;> rfl
  · rw [respondData_session, (hb hd).2]; cases req.msg "session" <;> rfl

/-- An error the user gets to see; anything else ends the process. -/
def Reported : Err → Prop
  | .user _ => True
  | _ => False

/-- Evaluating a text of this kind on a certain score panics. -/
def Panics (parse : String → Except Err (List Upd)) (text : String) (score : Score) : Prop :=
  (∃ e, parse text = .error e ∧ ¬ Reported e) ∨ (∃ us e, parse text = .ok us ∧ (update us score).err = some e ∧ ¬ Reported e)

theorem offsetOr_reported {s : Score} {r : String} {d : Rat} {e : Err} (h : offsetOr s r d = .error e) : Reported e := by
  unfold offsetOr interpretOffsetReference at h
  split at h
  · split at h
    · simp at h
    · split at h
      · simp at h
      · simp only [Except.error.injEq] at h; subst h; trivial
  · simp at h

theorem scoreToBundle_reported {sort : List NoteEvent → List NoteEvent} {s : Score} {x : Transmission} {e : Err} (h : scoreToBundle sort s x = .error e)
    (hx : x.toIndex = none) (hi : x.fromIndex ≤ s.events.length) : Reported e := by
  unfold scoreToBundle eventSlice at h
  simp only [hx, Option.getD_none] at h
  rw [if_pos ⟨hi, Nat.le_refl _⟩] at h
  simp only at h
  split at h
  next e' h1 => simp only [Except.error.injEq] at h; subst h; exact offsetOr_reported h1
  next e' _ h2 => simp only [Except.error.injEq] at h; subst h; exact offsetOr_reported (by assumption)
  · simp at h

theorem evalAndPlay_panics {parse : String → Except Err (List Upd)} {sort : List NoteEvent → List NoteEvent} {w : World} {i f t : String} {s : Server} (h : Inv s)
    {e : Err} (he : (evalAndPlay parse sort w i f t s).err = some e) : Reported e ∨ Panics parse i s.score := by
  unfold evalAndPlay Done.andThen fromWorld at he
  cases hw : w.player with
  | some m =>
    rw [hw] at he
    simp only [Option.map_some, Option.some.injEq] at he
    subst he; exact Or.inl trivial
  | none =>
    rw [hw] at he
    simp only [Option.map_none] at he
    unfold updateScoreWithInput at he
    cases hq : parse i with
    | error e' =>
      rw [hq] at he
      simp only [Option.some.injEq] at he
      subst he
      exact (Classical.em (Reported e')).imp id (fun h => Or.inl ⟨e', hq, h⟩)
    | ok us =>
      rw [hq] at he
      simp only at he
      have hx := (update_inv us h.score).2.events.length_le
      rcases hu : update us s.score with ⟨err, sc⟩
      rw [hu] at he hx
      cases err with
      | some e' =>
        simp only [Option.some.injEq] at he
        subst he
        exact (Classical.em (Reported e')).imp id (fun h => Or.inr ⟨us, e', hq, by rw [hu], h⟩)
      | none =>
        simp only at he
        refine Or.inl ?_
        unfold transmitScore at he
        simp only at he
        split at he
        next e' hb =>
          simp only [Option.some.injEq] at he; subst he
          exact scoreToBundle_reported hb rfl (Nat.le_trans h.index hx)
        next ms hb =>
          split at he
          · simp only [Option.some.injEq] at he; subst he; trivial
          · simp at he

theorem resetState_reported {w : World} {s : Server} {e : Err} (he : (resetState w s).err = some e) : Reported e := by
  unfold resetState Done.andThen fromWorld at he
  cases hp : w.hasPlayer <;> rw [hp] at he
  · simp at he
  · cases hs : w.shutdown with
    | none => rw [hs] at he; simp at he
    | some m => rw [hs] at he; simp at he; subst he; trivial

theorem resetState_ok {w : World} {s : Server} (he : (resetState w s).err = none) : (resetState w s).s = { s with input := "", score := newScore, eventIndex := 0 } := by
  unfold resetState Done.andThen fromWorld at he ⊢
  cases hp : w.hasPlayer
  · simp
  · rw [hp] at he
    cases hs : w.shutdown with
    | none => simp
    | some m => rw [hs] at he; simp at he

/-- `load` is an evaluation on an empty score as far as errors are concerned. -/
theorem load_panics {parse : String → Except Err (List Upd)} {sort : List NoteEvent → List NoteEvent} {w : World} {i : String} {s : Server}
    {e : Err} (he : (load parse sort w i s).err = some e) : Reported e ∨ Panics parse i newScore := by
  unfold load Done.andThen at he
  cases hr : (resetState w s).err with
  | some e' =>
    rw [hr] at he
    simp only [hr, Option.some.injEq] at he
    subst he; exact Or.inl (resetState_reported hr)
  | none =>
    rw [hr, resetState_ok hr] at he
    simp only [fromWorld] at he
    cases hw : w.player with
    | some m =>
      rw [hw] at he
      simp only [Option.map_some, Option.some.injEq] at he
      subst he; exact Or.inl trivial
    | none =>
      rw [hw] at he
      simp only [Option.map_none] at he
      unfold updateScoreWithInput at he
      cases hq : parse i with
      | error e' =>
        rw [hq] at he
        simp only [Option.some.injEq] at he
        subst he
        exact (Classical.em (Reported e')).imp id (fun h => Or.inl ⟨e', hq, h⟩)
      | ok us =>
        rw [hq] at he
        simp only at he
        rcases hu : update us newScore with ⟨err, sc⟩
        rw [hu] at he
        cases err with
        | some e' =>
          simp only [Option.some.injEq] at he
          subst he
          exact (Classical.em (Reported e')).imp id (fun h => Or.inr ⟨us, e', hq, by rw [hu], h⟩)
        | none =>
          simp only at he
          refine Or.inl ?_
          unfold transmitScore at he
          simp only at he
          cases hb : scoreToBundle sort sc { incremental { s with input := "", score := newScore, eventIndex := 0 } with loadOnly := true } with
          | error e' =>
            rw [hb] at he
            simp only [Option.some.injEq] at he; subst he
            exact scoreToBundle_reported hb rfl (Nat.zero_le _)
          | ok ms =>
            rw [hb] at he
            simp only at he
            cases hs : w.send with
            | some m => rw [hs] at he; simp only [Option.some.injEq] at he; subst he; trivial
            | none =>
              rw [hs] at he
              simp only at he
              cases ho : w.offset with
              | some m => rw [ho] at he; simp only [Option.map_some, Option.some.injEq] at he; subst he; trivial
              | none => rw [ho] at he; simp at he

theorem finish_panicked {req : Request} {data : Server → Response} {d : Done} {s : Server} (hs : Silent s d.s) (h0 : s.panicked = false)
    (h : (finish req data d).panicked = true) : ∃ e, d.err = some e ∧ ¬ Reported e := by
  have h1 : d.s.panicked = false := by rw [hs.panicked, h0]
  unfold finish respondError at h
  cases he : d.err with
  | none => rw [he] at h; simp [respondDone, respond, h1] at h
  | some e =>
    rw [he] at h
    cases e with
    | user m => simp [respondErrors, respond, h1] at h
    | _ => exact ⟨_, rfl, fun h => h⟩

/-- C40: the server panics only if evaluating the code it was given, or the text of its score, panics. -/
theorem c40_panics {parse : String → Except Err (List Upd)} {sort : List NoteEvent → List NoteEvent} (hs : SortsByOffset sort) (w : World) (req : Request) (s : Server)
    (hi : InSession parse sort s) (h0 : s.panicked = false) (hp : (handle parse sort w req s).panicked = true) :
    (∃ code score, req.msg "code" = some (.str code) ∧ (score = s.score ∨ score = newScore) ∧ Panics parse code score) ∨ Panics parse s.input newScore := by
  have inv := hi.inv hs
  unfold handle at hp
  have hn : ¬ (s.panicked = true) := by simp [h0]
  simp only [if_neg hn] at hp
  split at hp
  · simp [respondErrors, respond, h0] at hp
  · have code : ∀ {k : String → Done} {score}, (∀ i, Silent s (k i).s) → (score = s.score ∨ score = newScore) →
        (∀ i e, (k i).err = some e → Reported e ∨ Panics parse i score) →
        (withCode req s k).panicked = true →
        (∃ code score, req.msg "code" = some (.str code) ∧ (score = s.score ∨ score = newScore) ∧ Panics parse code score) ∨ Panics parse s.input newScore := by
      intro k score hq hsc hk hp
      unfold withCode at hp
      simp only at hp
      split at hp
      · simp [respondErrors, respond, h0] at hp
      next hv =>
        obtain ⟨e, he, hr⟩ := finish_panicked (hq _) h0 hp
        rw [validateString_nil] at hv
        have : ∃ c, req.msg "code" = some (.str c) := by simpa using hv
        obtain ⟨c, hc⟩ := this
        have ef : stringField "code" req = c := by simp [stringField, hc]
        rw [ef] at he
        rcases hk c e he with h | h
        · exact absurd h hr
        · exact Or.inl ⟨c, score, hc, hsc, h⟩
    cases ho : ops parse sort w req s (stringField "op" req) with
    | none => rw [ho] at hp; simp [respond, h0] at hp
    | some s' =>
      rw [ho] at hp
      simp only at hp
      have h0' : ¬ (s.panicked = true) := by simp [h0]
      unfold ops at ho
      split at ho <;> simp only [Option.some.injEq, reduceCtorEq] at ho <;> subst ho
      · exact absurd hp h0'
      · exact absurd hp h0'
      · exact absurd hp h0'
      · exact code (fun i => evalAndPlay_silent parse sort w i "" "" s) (Or.inl rfl) (fun i e he => evalAndPlay_panics inv he) hp
      · obtain ⟨e, he, hr⟩ := finish_panicked (Done.andThen_silent (load_silent parse sort w _ s) (fun s => .refl s)) h0 hp
        unfold Done.andThen at he
        cases hl : (load parse sort w s.input s).err with
        | some e' =>
          rw [hl] at he
          simp only [hl, Option.some.injEq] at he; subst he
          rcases load_panics hl with h | h
          · exact absurd h hr
          · exact Or.inr h
        | none =>
          rw [hl] at he
          simp only [fromWorld] at he
          cases hx : w.export_ with
          | none => rw [hx] at he; simp at he
          | some m => rw [hx] at he; simp only [Option.map_some, Option.some.injEq] at he; subst he; exact absurd trivial hr
      · exact absurd hp h0'
      · exact code (fun i => load_silent parse sort w i s) (Or.inr rfl) (fun i e he => load_panics he) hp
      · obtain ⟨e, he, hr⟩ := finish_panicked (resetState_silent w s) h0 hp
        exact absurd (resetState_reported he) hr
      · obtain ⟨e, he, hr⟩ := finish_panicked (replay_silent parse sort w _ _ s) h0 hp
        unfold replay Done.andThen at he
        cases hl : (resetState w s).err with
        | some e' =>
          rw [hl] at he
          simp only [hl, Option.some.injEq] at he; subst he
          exact absurd (resetState_reported hl) hr
        | none =>
          rw [hl, resetState_ok hl] at he
          simp only at he
          rcases evalAndPlay_panics (s := { s with input := "", score := newScore, eventIndex := 0 }) ⟨newScore_inv, Nat.zero_le _⟩ he with h | h
          · exact absurd h hr
          · exact Or.inr h
      · exact absurd hp h0'
      · obtain ⟨e, he, hr⟩ := finish_panicked (s := s) (by split <;> exact .refl s) h0 hp
        split at he
        next e' hq => simp only [Option.some.injEq] at he; subst he; exact Or.inr (Or.inl ⟨_, hq, hr⟩)
        · simp at he
      · obtain ⟨e, he, hr⟩ := finish_panicked (s := s) (by split <;> exact .refl s) h0 hp
        split at he
        next e' hq => simp only [Option.some.injEq] at he; subst he; exact Or.inr (Or.inl ⟨_, hq, hr⟩)
        · simp at he
      · exact absurd hp h0'
      · obtain ⟨e, he, hr⟩ := finish_panicked (Done.andThen_silent (fromWorld_silent _ s) (fun s => .refl s)) h0 hp
        unfold Done.andThen fromWorld at he
        cases hx : w.player with
        | some m => rw [hx] at he; simp only [Option.map_some, Option.some.injEq] at he; subst he; exact absurd trivial hr
        | none =>
          rw [hx] at he
          cases hy : w.send with
          | some m => rw [hy] at he; simp only [Option.map_none, Option.map_some, Option.some.injEq] at he; subst he; exact absurd trivial hr
          | none => rw [hy] at he; simp at he

/-! ### C38 -/

theorem handle_eval {parse : String → Except Err (List Upd)} {sort : List NoteEvent → List NoteEvent} {w : World} {req : Request} {s : Server} {code : String}
    (he : Evaluates req code) (h0 : s.panicked = false) :
    handle parse sort w req s = finish req (fun _ => noData) (evalAndPlay parse sort w code "" "" s) := by
  unfold handle
  rw [if_neg (by simp [h0])]
  have hv : ¬ (validateString "op" req).length > 0 := by rw [validateString_nil]; intro h; exact h _ he.1
  simp only [if_neg hv]
  have ef : stringField "op" req = "eval-and-play" := by simp [stringField, he.1]
  rw [ef]
  have hc : ¬ (validateString "code" req).length > 0 := by rw [validateString_nil]; intro h; exact h _ he.2
  have ec : stringField "code" req = code := by simp [stringField, he.2]
  simp only [ops, withCode, if_neg hc, ec]

theorem Answered.alive {parse : String → Except Err (List Upd)} {sort : List NoteEvent → List NoteEvent} {w : World} {req : Request} {s : Server} {resp : Response}
    (h : Answered req s (handle parse sort w req s) resp) : s.panicked = false := by
  cases hb : s.panicked with
  | false => rfl
  | true =>
    rw [handle_panicked _ _ _ _ _ hb] at h
    have := congrArg List.length h
    simp at this

/-- What a successful evaluation does. -/
theorem evaluated {parse : String → Except Err (List Upd)} {sort : List NoteEvent → List NoteEvent} {w : World} {req : Request} {s : Server} {code : String}
    (he : Evaluates req code) (hok : Succeeded req s (handle parse sort w req s)) :
    ∃ us sc ms, parse code = .ok us ∧ update us s.score = ⟨none, sc⟩ ∧ scoreToBundle sort sc (incremental s) = .ok ms ∧
      (handle parse sort w req s).score = transmitted sort sc (incremental s) ∧
      (handle parse sort w req s).sent = s.sent ++ [ms] ∧ (handle parse sort w req s).eventIndex = sc.events.length ∧
      (handle parse sort w req s).input = s.input ++ (trimSpace code ++ "\n") := by
  obtain ⟨hp, resp, ha, hs⟩ := hok
  have h0 := ha.alive
  rw [handle_eval he h0] at hp ha ⊢
  have hq : (evalAndPlay parse sort w code "" "" s).err = none := by
    obtain ⟨st, dt, h1, h2⟩ := finish_answer req _ (evalAndPlay_silent parse sort w code "" "" s) hp
    rcases h2 with ⟨h, _⟩ | ⟨m, _, hst, _⟩
    · exact h
    · obtain ⟨h3, _, h5⟩ := h1.answer
      have : resp = respondData req st dt := by
        have h6 := ha.symm.trans h3
        simpa using h6
      rw [this] at hs
      exact absurd ((h5 "error").2 (by rw [hst]; simp)) hs
  have key : ∃ us sc ms, parse code = .ok us ∧ update us s.score = ⟨none, sc⟩ ∧ scoreToBundle sort sc (incremental s) = .ok ms ∧
      (evalAndPlay parse sort w code "" "" s).s =
        { s with score := transmitted sort sc (incremental s), input := s.input ++ (trimSpace code ++ "\n"), eventIndex := sc.events.length, sent := s.sent ++ [ms] } := by
    unfold evalAndPlay Done.andThen fromWorld at hq ⊢
    cases hw : w.player with
    | some m => rw [hw] at hq; simp at hq
    | none =>
      rw [hw] at hq
      simp only [Option.map_none] at hq ⊢
      unfold updateScoreWithInput at hq ⊢
      cases hx : parse code with
      | error e' => rw [hx] at hq; simp at hq
      | ok us =>
        rw [hx] at hq
        simp only at hq ⊢
        rcases hu : update us s.score with ⟨err, sc⟩
        rw [hu] at hq
        cases err with
        | some e' => simp at hq
        | none =>
          have ei : ({ incremental s with from_ := "", to_ := "" } : Transmission) = incremental s := rfl
          simp only [ei] at hq ⊢
          unfold transmitScore at hq ⊢
          simp only at hq ⊢
          cases hb : scoreToBundle sort sc (incremental s) with
          | error e' => rw [hb] at hq; simp at hq
          | ok ms =>
            rw [hb] at hq
            simp only at hq ⊢
            cases hs : w.send with
            | some m => rw [hs] at hq; simp at hq
            | none => exact ⟨us, sc, ms, rfl, hu, hb, rfl⟩
  obtain ⟨us, sc, ms, h1, h2, h3, h4⟩ := key
  refine ⟨us, sc, ms, h1, h2, h3, ?_⟩
  have e : finish req (fun _ => noData) (evalAndPlay parse sort w code "" "" s) =
      respondDone req noData (evalAndPlay parse sort w code "" "" s).s := by unfold finish; rw [hq]
  rw [e, h4]
  exact ⟨rfl, rfl, rfl, rfl⟩

/-- C38 after any session whatsoever: a successful evaluation sends the notes that were added to the score since the last evaluation that was not answered by an error in the
code; each once, offsets counted from where the instruments were before. -/
theorem c38_pending {parse : String → Except Err (List Upd)} {sort : List NoteEvent → List NoteEvent} (hs : SortsByOffset sort) (w : World) (req : Request) (s : Server)
    (code : String) (hi : InSession parse sort s) (he : Evaluates req code) (hok : Succeeded req s (handle parse sort w req s))
    (hb : ∀ e ∈ (handle parse sort w req s).score.events, 0 ≤ e.offset ∧ e.offset < maxFloat) :
    ∃ us new ms, parse code = .ok us ∧ (handle parse sort w req s).score.events = s.score.events.take s.eventIndex ++ new ∧
      new.Perm ((update us s.score).s.events.drop s.eventIndex) ∧
      (handle parse sort w req s).sent = s.sent ++ [ms] ∧
      Matches (SentAs (handle parse sort w req s).score (fun e => (s.score.partOffset e.part).getD 0)) new (noteMsgs ms) := by
  have inv := hi.inv hs
  obtain ⟨us, sc, ms, h1, h2, h3, h4, h5, h6, h7⟩ := evaluated he hok
  have hu := update_inv us inv.score
  rw [h2] at hu
  obtain ⟨es, hes, hperm⟩ := transmitted_eq sort sc (incremental s)
  have hidx : s.eventIndex ≤ sc.events.length := Nat.le_trans inv.index hu.2.events.length_le
  have hsl : eventSlice sc (incremental s) = .ok (sc.events.drop s.eventIndex) := by
    unfold eventSlice
    have e1 : (incremental s).toIndex = none := rfl
    have e2 : (incremental s).fromIndex = s.eventIndex := rfl
    simp only [e1, e2, Option.getD_none]
    rw [if_pos ⟨hidx, Nat.le_refl _⟩]; simp
  have htr : transmitted sort sc (incremental s) = { sc with events := s.score.events.take s.eventIndex ++ sort (sc.events.drop s.eventIndex) } := by
    unfold transmitted
    have e1 : (incremental s).toIndex = none := rfl
    have e2 : (incremental s).fromIndex = s.eventIndex := rfl
    have e3 : offsetOr sc (incremental s).from_ 0 = .ok 0 := rfl
    have e4 : offsetOr sc (incremental s).to_ maxFloat = .ok maxFloat := rfl
    rw [hsl, e3, e4]
    simp only [e1, e2, Option.getD_none, List.drop_length, List.append_nil]
    have : sc.events.take s.eventIndex = s.score.events.take s.eventIndex := by
      obtain ⟨r, hr⟩ := hu.2.events
      rw [← hr, List.take_append_of_le_length inv.index]
    rw [this]
  rw [h4, htr] at hb ⊢
  obtain ⟨events, hv, hm⟩ := bundle_eq hs h3 (Or.inl ⟨rfl, rfl⟩) (Or.inl ⟨rfl, rfl⟩)
  rw [hsl] at hv
  simp only [Except.ok.injEq] at hv
  subst hv
  refine ⟨us, sort (sc.events.drop s.eventIndex), ms, h1, rfl, ?_, h5, ?_⟩
  · rw [h2]; exact (hs _).1
  · simp only at hm
    rw [hm, noteMsgs_bundle, sendAll_notes]
    have hf : (sort (sc.events.drop s.eventIndex)).filter (wanted 0 maxFloat) = sort (sc.events.drop s.eventIndex) := by
      rw [List.filter_eq_self]
      intro e hm
      have := hb e (List.mem_append_right _ hm)
      simp [wanted, this.1, this.2]
    rw [hf]
    refine matches_map (fun e hm => ?_)
    have hmem : e ∈ sc.events := List.mem_of_mem_drop ((hs _).1.mem_iff.1 hm)
    have := sentAs (start := 0) (x := incremental s) hu.1.good.wf hu.1.mem hmem
    obtain ⟨track, offset, duration, audible, velocity, k1, k2, k3, k4, k5⟩ := this
    refine ⟨track, offset, duration, audible, velocity, k1, k2, k3, ?_, k5⟩
    have ez : (0 : Rat) + (incremental s).syncOffset e.part = (s.score.partOffset e.part).getD 0 := by
      show (0 : Rat) + (s.score.partOffset e.part).getD 0 = _
      grind
    simpa only [ez] using k4

theorem Evaluations.inSession {parse : String → Except Err (List Upd)} {sort : List NoteEvent → List NoteEvent} {scores : List Score} {s : Server}
    (h : Evaluations parse sort scores s) : InSession parse sort s := by
  induction h with
  | start => exact .start
  | step w req code _ _ _ ih => exact .step w req ih

theorem Evaluations.index {parse : String → Except Err (List Upd)} {sort : List NoteEvent → List NoteEvent} (hs : SortsByOffset sort) {scores : List Score} {s : Server}
    (h : Evaluations parse sort scores s) : s.eventIndex = s.score.events.length := by
  cases h with
  | start => rfl
  | step w req code _ he hok =>
    obtain ⟨us, sc, ms, h1, h2, h3, h4, h5, h6, h7⟩ := evaluated he hok
    obtain ⟨es, hes, hperm⟩ := transmitted_eq sort sc _
    rw [h6, h4, hes]
    exact (hperm hs).length_eq.symm

/-- C38: in a session of successful evaluations, a further successful one sends exactly the notes it adds to the score, each once. -/
theorem c38_step {parse : String → Except Err (List Upd)} {sort : List NoteEvent → List NoteEvent} (hs : SortsByOffset sort) (w : World) (req : Request) (s : Server)
    (code : String) (scores : List Score) (hi : Evaluations parse sort scores s) (he : Evaluates req code) (hok : Succeeded req s (handle parse sort w req s))
    (hb : ∀ e ∈ (handle parse sort w req s).score.events, 0 ≤ e.offset ∧ e.offset < maxFloat) :
    ∃ us new ms, parse code = .ok us ∧ (handle parse sort w req s).score.events = s.score.events ++ new ∧
      (s.score.events ++ new).Perm (update us s.score).s.events ∧
      (handle parse sort w req s).sent = s.sent ++ [ms] ∧
      Matches (SentAs (handle parse sort w req s).score (fun e => (s.score.partOffset e.part).getD 0)) new (noteMsgs ms) := by
  obtain ⟨us, new, ms, h1, h2, h3, h4, h5⟩ := c38_pending hs w req s code hi.inSession he hok hb
  have hx := hi.index hs
  rw [hx] at h2 h3
  rw [List.take_length] at h2
  refine ⟨us, new, ms, h1, h2, ?_, h4, h5⟩
  obtain ⟨r, hr⟩ := (update_inv us (hi.inSession.inv hs).score).2.events
  rw [← hr] at h3 ⊢
  simp only [List.drop_left] at h3
  exact h3.append_left _

theorem matches_append {α β : Type} {R : α → β → Prop} {l : List α} {l' : List β} {m : List α} {m' : List β} (h : Matches R l l') (h' : Matches R m m') :
    Matches R (l ++ m) (l' ++ m') := by
  induction h with
  | nil => exact h'
  | cons hr _ ih => exact .cons hr ih

theorem evaluated_instances {parse : String → Except Err (List Upd)} {sort : List NoteEvent → List NoteEvent} (hs : SortsByOffset sort) {w : World} {req : Request}
    {s : Server} {code : String} (hi : InSession parse sort s) (he : Evaluates req code) (hok : Succeeded req s (handle parse sort w req s)) :
    instances s.score <+: instances (handle parse sort w req s).score := by
  obtain ⟨us, sc, ms, h1, h2, h3, h4, h5, h6, h7⟩ := evaluated he hok
  have hu := (update_inv us (hi.inv hs).score).2
  rw [h2] at hu
  obtain ⟨es, hes, _⟩ := transmitted_eq sort sc (incremental s)
  rw [h4, hes]
  exact hu.instances

/-- C38: in a session of successful evaluations, the notes of the score and the note messages sent to the player correspond one by one. -/
theorem c38 {parse : String → Except Err (List Upd)} {sort : List NoteEvent → List NoteEvent} (hs : SortsByOffset sort) (scores : List Score) (s : Server)
    (hi : Evaluations parse sort scores s) (hb : ∀ e ∈ s.score.events, 0 ≤ e.offset ∧ e.offset < maxFloat) :
    s.sent.length = scores.length ∧ Matches (fun e m => ∃ shift, SentAs s.score shift e m) s.score.events (s.sent.flatMap noteMsgs) := by
  induction hi with
  | start => exact ⟨rfl, .nil⟩
  | step w req code hi he hok ih =>
    next scores s =>
    obtain ⟨us, new, ms, h1, h2, _, h4, h5⟩ := c38_step hs w req s code scores hi he hok hb
    rw [h2] at hb ⊢
    obtain ⟨ih1, ih2⟩ := ih (fun e hm => hb e (List.mem_append_left _ hm))
    rw [h4]
    refine ⟨by simp [ih1], ?_⟩
    rw [List.flatMap_append]
    refine matches_append (ih2.imp (fun e _ m h => ?_)) ?_
    · obtain ⟨shift, track, offset, duration, audible, velocity, k1, k2, k3, k4⟩ := h
      refine ⟨shift, track, offset, duration, audible, velocity, k1, k2, ?_, k4⟩
      obtain ⟨r, hr⟩ := evaluated_instances hs hi.inSession he hok
      rw [← hr]
      obtain ⟨hl, _⟩ := List.getElem?_eq_some_iff.1 k3
      rw [List.getElem?_append_left hl]; exact k3
    · simp only [List.flatMap_cons, List.flatMap_nil, List.append_nil]
      exact h5.imp (fun e _ m h => ⟨_, h⟩)

/-! ### C39 -/

theorem invalid_alike (parse : String → Except Err (List Upd)) (sort : List NoteEvent → List NoteEvent) (w : World) (req : Request) (s : Server) (hi : Invalid req) :
    Alike s (handle parse sort w req s) := by
  unfold handle
  split
  · exact ⟨_, rfl⟩
  simp only
  split
  · exact ⟨_, rfl⟩
  next hv =>
    rw [validateString_nil] at hv
    have : ∃ op, req.msg "op" = some (.str op) := by simpa using hv
    obtain ⟨op, hop⟩ := this
    have ef : stringField "op" req = op := by simp [stringField, hop]
    rw [ef]
    rcases hi with hi | ⟨hi, hc⟩
    · have := mt (ops_some parse sort w req s op).1 (hi op hop)
      rw [Option.not_isSome_iff_eq_none] at this
      rw [this]; exact ⟨_, rfl⟩
    · have hc' : (validateString "code" req).length > 0 := validateString_nil.2 hc
      rw [hop] at hi
      rcases hi with hi | hi <;> simp only [Option.some.injEq, Field.str.injEq] at hi <;> subst hi <;>
        simp only [ops, withCode, if_pos hc'] <;> exact ⟨_, rfl⟩

/-- The failures that C39 covers: the request was invalid, or there was no player, or the code could not be parsed. -/
def Harmless (parse : String → Except Err (List Upd)) (w : World) (req : Request) : Prop :=
  Invalid req ∨ ∃ code, Evaluates req code ∧ (w.player ≠ none ∨ ∃ e, parse code = .error e)

/-- C39 for requests that are invalid, that find no player, or whose code cannot be parsed: score and text are unchanged, and so is everything that is played by any later
requests. Missing: code that fails during evaluation, and bundles that cannot be sent, see the witnesses below. -/
theorem c39_partial (parse : String → Except Err (List Upd)) (sort : List NoteEvent → List NoteEvent) (w : World) (req : Request) (s : Server)
    (hf : Failed req s (handle parse sort w req s)) (hc : Harmless parse w req) :
    (handle parse sort w req s).score = s.score ∧ (handle parse sort w req s).input = s.input ∧ (handle parse sort w req s).sent = s.sent ∧
      ∀ rs, (handleAll parse sort rs (handle parse sort w req s)).sent = (handleAll parse sort rs s).sent ∧
        (handleAll parse sort rs (handle parse sort w req s)).score = (handleAll parse sort rs s).score ∧
        (handleAll parse sort rs (handle parse sort w req s)).input = (handleAll parse sort rs s).input := by
  have key : Alike s (handle parse sort w req s) := by
    rcases hc with hi | ⟨code, he, hc⟩
    · exact invalid_alike parse sort w req s hi
    · obtain ⟨hp, resp, ha, _⟩ := hf
      rw [handle_eval he ha.alive] at hp ⊢
      have h1 : (evalAndPlay parse sort w code "" "" s).s = s := by
        unfold evalAndPlay Done.andThen fromWorld
        cases hw : w.player with
        | some m => rfl
        | none =>
          simp only [Option.map_none]
          rcases hc with hc | ⟨e, hc⟩
          · exact absurd hw hc
          · unfold updateScoreWithInput; rw [hc]
      rcases finish_replied req (fun _ => noData) (evalAndPlay parse sort w code "" "" s) with ⟨_, h⟩ | ⟨m, _, h⟩ | h
      · rw [h, h1]; exact ⟨_, rfl⟩
      · rw [h, h1]; exact ⟨_, rfl⟩
      · rw [hp] at h; simp at h
  have k := fun rs => handleAll_alike parse sort rs key
  obtain ⟨o, ho⟩ := key
  refine ⟨by rw [ho]; rfl, by rw [ho]; rfl, by rw [ho]; rfl, fun rs => ?_⟩
  obtain ⟨o', ho'⟩ := k rs
  rw [ho']
  exact ⟨rfl, rfl, rfl⟩

/-- C39 for all failing evaluations: unless the bundle could not be sent, the text is unchanged, nothing is sent, and the notes there were are still there. -/
theorem c39_text {parse : String → Except Err (List Upd)} {sort : List NoteEvent → List NoteEvent} (hs : SortsByOffset sort) (w : World) (req : Request) (s : Server)
    (code : String) (hi : InSession parse sort s) (he : Evaluates req code) (hf : Failed req s (handle parse sort w req s)) (hw : w.send = none) :
    (handle parse sort w req s).input = s.input ∧ (handle parse sort w req s).sent = s.sent ∧ (handle parse sort w req s).eventIndex = s.eventIndex ∧
      s.score.events <+: (handle parse sort w req s).score.events := by
  have inv := hi.inv hs
  obtain ⟨hp, resp, ha, hst⟩ := hf
  have h0 := ha.alive
  rw [handle_eval he h0] at hp ha ⊢
  obtain ⟨st, dt, h1, h2⟩ := finish_answer req _ (evalAndPlay_silent parse sort w code "" "" s) hp
  obtain ⟨h3, _, h5⟩ := h1.answer
  have hr : resp = respondData req st dt := by
    have h6 := ha.symm.trans h3
    simpa using h6
  rw [hr] at hst
  rcases h2 with ⟨_, hst', _⟩ | ⟨m, hm, _, _⟩
  · have := (h5 "error").1 hst
    rw [hst'] at this; simp at this
  · have ef : finish req (fun _ => noData) (evalAndPlay parse sort w code "" "" s) = respondErrors req [m] (evalAndPlay parse sort w code "" "" s).s := by
      unfold finish; rw [hm]; rfl
    rw [ef]
    show (evalAndPlay parse sort w code "" "" s).s.input = s.input ∧ (evalAndPlay parse sort w code "" "" s).s.sent = s.sent ∧
      (evalAndPlay parse sort w code "" "" s).s.eventIndex = s.eventIndex ∧ s.score.events <+: (evalAndPlay parse sort w code "" "" s).s.score.events
    unfold evalAndPlay Done.andThen fromWorld at hm ⊢
    cases hpl : w.player with
    | some e => exact ⟨rfl, rfl, rfl, List.prefix_refl _⟩
    | none =>
      rw [hpl] at hm
      simp only [Option.map_none] at hm ⊢
      unfold updateScoreWithInput at hm ⊢
      cases hq : parse code with
      | error e => exact ⟨rfl, rfl, rfl, List.prefix_refl _⟩
      | ok us =>
        rw [hq] at hm
        simp only at hm ⊢
        have hx := (update_inv us inv.score).2.events
        rcases hu : update us s.score with ⟨err, sc⟩
        rw [hu] at hm hx
        cases err with
        | some e => exact ⟨rfl, rfl, rfl, hx⟩
        | none =>
          exfalso
          simp only at hm
          unfold transmitScore at hm
          simp only [hw] at hm
          have hb : ∃ ms, scoreToBundle sort sc { incremental s with from_ := "", to_ := "" } = .ok ms := by
            have hl : s.eventIndex ≤ sc.events.length := Nat.le_trans inv.index hx.length_le
            unfold scoreToBundle eventSlice
            have e1 : ({ incremental s with from_ := "", to_ := "" } : Transmission).toIndex = none := rfl
            have e2 : ({ incremental s with from_ := "", to_ := "" } : Transmission).fromIndex = s.eventIndex := rfl
            simp only [e1, e2, Option.getD_none]
            rw [if_pos ⟨hl, Nat.le_refl _⟩]
            exact ⟨_, rfl⟩
          obtain ⟨ms, hb⟩ := hb
          rw [hb] at hm
          simp at hm

/-! ### Examples and witnesses -/

/-- Insertion by offset. -/
def insertEvent (e : NoteEvent) : List NoteEvent → List NoteEvent
  | [] => [e]
  | x :: xs => if e.offset ≤ x.offset then e :: x :: xs else x :: insertEvent e xs

/-- A function that sorts, and that can be computed. -/
def insertionSort : List NoteEvent → List NoteEvent
  | [] => []
  | x :: xs => insertEvent x (insertionSort xs)

theorem insertEvent_perm (e : NoteEvent) (l : List NoteEvent) : (insertEvent e l).Perm (e :: l) := by
  induction l with
  | nil => exact .refl _
  | cons x xs ih =>
    simp only [insertEvent]
    split
    · exact .refl _
    · exact (ih.cons x).trans (.swap e x xs)

theorem insertionSort_sorts : SortsByOffset insertionSort := by
  intro l
  induction l with
  | nil => exact ⟨.refl _, .nil⟩
  | cons x xs ih =>
    refine ⟨(insertEvent_perm x _).trans (ih.1.cons x), ?_⟩
    have key : ∀ l : List NoteEvent, l.Pairwise (fun a b => a.offset ≤ b.offset) → (insertEvent x l).Pairwise (fun a b => a.offset ≤ b.offset) := by
      intro l
      induction l with
      | nil => intro _; simp [insertEvent]
      | cons y ys ihl =>
        intro h
        rw [List.pairwise_cons] at h
        simp only [insertEvent]
        split
        next hle =>
          refine List.pairwise_cons.2 ⟨?_, List.pairwise_cons.2 h⟩
          intro b hb
          rcases List.mem_cons.1 hb with rfl | hb
          · exact hle
          · have := h.1 b hb; grind
        next hle =>
          refine List.pairwise_cons.2 ⟨?_, ihl h.2⟩
          intro b hb
          rcases List.mem_cons.1 ((insertEvent_perm x ys).mem_iff.1 hb) with rfl | hb
          · grind
          · exact h.1 b hb
    exact key _ ih.2

/-- A parser that knows a few texts. -/
def demoParse : String → Except Err (List Upd)
  | "piano: c" => .ok [.partDecl ["piano"] "", .leaf (.note (.letter .C none) [.length 4 0] false)]
  | "e g" => .ok [.leaf (.note (.letter .E none) [] false), .leaf (.note (.letter .G none) [] false)]
  | "f @nowhere" => .ok [.leaf (.note (.letter .F none) [] false), .atMarker "nowhere"]
  | "()" => .ok [.lisp []]
  | _ => .error (.user "syntax error")

/-- A request. -/
def request (conn : Nat) (fields : List (String × String)) : Request := { conn, msg := fun k => (fields.lookup k).map .str }

/-- A request to evaluate code. -/
def evalRequest (code : String) : Request := request 1 [("op", "eval-and-play"), ("id", "7"), ("code", code)]

theorem evalRequest_evaluates (code : String) : Evaluates (evalRequest code) code := by
  constructor <;> simp [evalRequest, request, List.lookup]

/-- The server after some evaluations. -/
def demoServer (codes : List String) : Server := handleAll demoParse insertionSort (codes.map fun c => ({}, evalRequest c)) newServer

/-- What the last response reports. -/
def lastStatus (s : Server) : Option Item := (s.out.getLast?).bind (fun r => r.2 "status")

theorem answered_last {parse : String → Except Err (List Upd)} {sort : List NoteEvent → List NoteEvent} {w : World} {req : Request} {s : Server}
    (h1 : s.panicked = false ∧ (handle parse sort w req s).panicked = false) {l : List String} (h2 : lastStatus (handle parse sort w req s) = some (.strings l)) :
    (∃ resp, Answered req s (handle parse sort w req s) resp ∧ (HasStatus resp "error" ↔ "error" ∈ l)) := by
  obtain ⟨resp, ha, _⟩ := c40_partial parse sort w req s h1.1 h1.2
  refine ⟨resp, ha, ?_⟩
  unfold lastStatus at h2
  rw [ha] at h2
  simp at h2
  constructor
  · rintro ⟨l', hl, hw⟩
    rw [h2] at hl
    simp only [Option.some.injEq, Item.strings.injEq] at hl
    rw [hl]; exact hw
  · intro h; exact ⟨l, h2, h⟩

theorem succeeded_of {parse : String → Except Err (List Upd)} {sort : List NoteEvent → List NoteEvent} {w : World} {req : Request} {s : Server}
    (h1 : s.panicked = false ∧ (handle parse sort w req s).panicked = false) (h2 : lastStatus (handle parse sort w req s) = some (.strings ["done"])) :
    Succeeded req s (handle parse sort w req s) := by
  obtain ⟨resp, ha, hs⟩ := answered_last h1 h2
  exact ⟨h1.2, resp, ha, fun h => by simpa using hs.1 h⟩

theorem failed_of {parse : String → Except Err (List Upd)} {sort : List NoteEvent → List NoteEvent} {w : World} {req : Request} {s : Server}
    (h1 : s.panicked = false ∧ (handle parse sort w req s).panicked = false) (h2 : lastStatus (handle parse sort w req s) = some (.strings ["done", "error"])) :
    Failed req s (handle parse sort w req s) := by
  obtain ⟨resp, ha, hs⟩ := answered_last h1 h2
  exact ⟨h1.2, resp, ha, hs.2 (by simp)⟩

theorem demo_evaluations : ∃ scores, Evaluations demoParse insertionSort scores (demoServer ["piano: c"]) := by
  refine ⟨_, .step {} (evalRequest "piano: c") "piano: c" .start (evalRequest_evaluates _) (succeeded_of ?_ ?_)⟩ <;> decide +kernel

/-- Two evaluations, three notes, two bundles: the hypotheses of `c38_step`. -/
example : Succeeded (evalRequest "e g") (demoServer ["piano: c"]) (demoServer ["piano: c", "e g"]) ∧
    (∀ e ∈ (demoServer ["piano: c", "e g"]).score.events, 0 ≤ e.offset ∧ e.offset < maxFloat) ∧
    (demoServer ["piano: c", "e g"]).sent.map noteMsgs =
      [[.note 1 0 0 60 500 450 69], [.note 1 0 0 64 500 450 69, .note 1 0 500 67 500 450 69]] := by
  refine ⟨succeeded_of (w := {}) ?_ ?_, ?_, ?_⟩ <;> decide +kernel

/-- C39: code that fails after its first note leaves that note in the score, though not in the text, and the next evaluation plays it. -/
theorem c39_witness : ∃ (s : Server) (w w' : World) (req req' : Request),
    (∃ scores, Evaluations demoParse insertionSort scores s) ∧ Evaluates req "f @nowhere" ∧ Evaluates req' "e g" ∧
    Failed req s (handle demoParse insertionSort w req s) ∧
    (handle demoParse insertionSort w req s).input = s.input ∧
    (handle demoParse insertionSort w req s).score.events.length = s.score.events.length + 1 ∧
    (handle demoParse insertionSort w' req' s).sent.map (fun ms => (noteMsgs ms).length) = [1, 2] ∧
    (handle demoParse insertionSort w' req' (handle demoParse insertionSort w req s)).sent.map (fun ms => (noteMsgs ms).length) = [1, 3] := by
  refine ⟨demoServer ["piano: c"], {}, {}, evalRequest "f @nowhere", evalRequest "e g", demo_evaluations, evalRequest_evaluates _, evalRequest_evaluates _,
    failed_of ?_ ?_, ?_, ?_, ?_, ?_⟩ <;> decide +kernel

/-- C39: if the bundle cannot be sent, an error is reported, but text and score have changed, and the notes are never played. -/
theorem c39_send_witness : ∃ (s : Server) (w w' : World) (req req' : Request),
    (∃ scores, Evaluations demoParse insertionSort scores s) ∧ Evaluates req "e g" ∧ Evaluates req' "e g" ∧
    Failed req s (handle demoParse insertionSort w req s) ∧
    (handle demoParse insertionSort w req s).input ≠ s.input ∧
    (handle demoParse insertionSort w' req' (handle demoParse insertionSort w req s)).score.events.length = 5 ∧
    (handle demoParse insertionSort w' req' (handle demoParse insertionSort w req s)).sent.map (fun ms => (noteMsgs ms).length) = [1, 2] := by
  refine ⟨demoServer ["piano: c"], { send := some "connection refused" }, {}, evalRequest "e g", evalRequest "e g", demo_evaluations,
    evalRequest_evaluates _, evalRequest_evaluates _, failed_of ?_ ?_, ?_, ?_, ?_⟩ <;> decide +kernel

/-- Failures covered by `c39_partial`: a syntax error, an operation that does not exist, code that is missing. -/
example : Failed (evalRequest "]") (demoServer ["piano: c"]) (demoServer ["piano: c", "]"]) ∧ Harmless demoParse {} (evalRequest "]") ∧
    Invalid (request 1 [("op", "play")]) ∧ Invalid (request 1 [("op", "load")]) := by
  refine ⟨failed_of (w := {}) ?_ ?_, Or.inr ⟨"]", evalRequest_evaluates _, Or.inr ⟨.user "syntax error", rfl⟩⟩, Or.inl ?_, Or.inr ⟨?_, ?_⟩⟩
  · decide +kernel
  · decide +kernel
  · intro op h
    simp [request, List.lookup] at h
    subst h
    decide
  · right; simp [request, List.lookup]
  · intro c; simp [request, List.lookup]

/-- C40: an answer. -/
example : ((demoServer ["piano: c"]).out.map fun r => (r.1, r.2 "status", r.2 "id", r.2 "session")) =
    [(1, some (.strings ["done"]), some (.field (.str "7")), none)] := by decide +kernel

/-- C40: evaluating `()` ends the server: there is no response to this request, nor to any other. -/
theorem c40_panic_witness : ∃ (req : Request) (s : Server), InSession demoParse insertionSort s ∧ s.panicked = false ∧ Evaluates req "()" ∧
    ∀ rs, (handleAll demoParse insertionSort (({}, req) :: rs) s).out = s.out := by
  refine ⟨evalRequest "()", newServer, .start, rfl, evalRequest_evaluates _, fun rs => ?_⟩
  simp only [handleAll]
  have h : (handle demoParse insertionSort {} (evalRequest "()") newServer).panicked = true := by decide +kernel
  rw [handleAll_panicked _ _ _ _ h]
  have h2 : (handle demoParse insertionSort {} (evalRequest "()") newServer).out.length = 0 := by decide +kernel
  rw [List.length_eq_zero_iff.1 h2]; rfl

/-- C40: the response to `describe` of a client that gave neither id nor session has the id and the session of another client's request. -/
theorem c40_stale_witness : ∃ (r1 r2 : Request), r1.conn ≠ r2.conn ∧ r2.msg "id" = none ∧ r2.msg "session" = none ∧
    (handleAll demoParse insertionSort [({}, r1), ({}, r2)] newServer).out.map (fun r => (r.1, r.2 "id", r.2 "session")) =
      [(r1.conn, some (.field (.str "17")), some (.field (.str "abc"))), (r2.conn, some (.field (.str "17")), some (.field (.str "abc")))] := by
  refine ⟨request 1 [("op", "describe"), ("id", "17"), ("session", "abc")], request 2 [("op", "describe")], ?_, ?_, ?_, ?_⟩ <;> decide +kernel

/-! ### C47 -/

/-- A request to replay the score. -/
def Replays (req : Request) (from_ to_ : String) : Prop :=
  req.msg "op" = some (.str "replay") ∧ (req.msg "from" = some (.str from_) ∨ (from_ = "" ∧ req.msg "from" = none)) ∧
    (req.msg "to" = some (.str to_) ∨ (to_ = "" ∧ req.msg "to" = none))

theorem handle_replay {parse : String → Except Err (List Upd)} {sort : List NoteEvent → List NoteEvent} {w : World} {req : Request} {s : Server} {f t : String}
    (he : Replays req f t) (h0 : s.panicked = false) :
    handle parse sort w req s = finish req (fun _ => noData) (replay parse sort w f t s) := by
  unfold handle
  rw [if_neg (by simp [h0])]
  have hv : ¬ (validateString "op" req).length > 0 := by rw [validateString_nil]; intro h; exact h _ he.1
  simp only [if_neg hv]
  have ef : stringField "op" req = "replay" := by simp [stringField, he.1]
  have e1 : stringField "from" req = f := by
    rcases he.2.1 with h | ⟨h, h'⟩
    · simp [stringField, h]
    · simp [stringField, h, h']
  have e2 : stringField "to" req = t := by
    rcases he.2.2 with h | ⟨h, h'⟩
    · simp [stringField, h]
    · simp [stringField, h, h']
  rw [ef]
  simp only [ops, e1, e2]

/-- C47: a successful replay sends, in one bundle and each once, exactly the notes in the requested range of the score that evaluating the whole text at once gives; that score
is the server's from then on, and the text stays, apart from surrounding white space. -/
theorem c47 {parse : String → Except Err (List Upd)} {sort : List NoteEvent → List NoteEvent} (hs : SortsByOffset sort) (w : World) (req : Request) (s : Server)
    (f t : String) (he : Replays req f t) (hok : Succeeded req s (handle parse sort w req s)) :
    ∃ us score ms start stop, parse s.input = .ok us ∧ update us newScore = ⟨none, score⟩ ∧ Stands score f 0 start ∧ Stands score t maxFloat stop ∧
      (handle parse sort w req s).input = trimSpace s.input ++ "\n" ∧
      (∃ events, (handle parse sort w req s).score = { score with events := events } ∧ events.Perm score.events) ∧
      (handle parse sort w req s).sent = s.sent ++ [ms] ∧
      ∃ sent, sent.Perm (score.events.filter (fun e => decide (start ≤ e.offset) && decide (e.offset < stop))) ∧
        sent.Pairwise (fun a b => a.offset ≤ b.offset) ∧ Matches (SentAs score (fun _ => start)) sent (noteMsgs ms) := by
  obtain ⟨hp, resp, ha, hst⟩ := hok
  have h0 := ha.alive
  rw [handle_replay he h0] at hp ha ⊢
  have hq : (replay parse sort w f t s).err = none := by
    obtain ⟨st, dt, h1, h2⟩ := finish_answer req _ (replay_silent parse sort w f t s) hp
    rcases h2 with ⟨h, _⟩ | ⟨m, _, hst', _⟩
    · exact h
    · obtain ⟨h3, _, h5⟩ := h1.answer
      have : resp = respondData req st dt := by
        have h6 := ha.symm.trans h3
        simpa using h6
      rw [this] at hst
      exact absurd ((h5 "error").2 (by rw [hst']; simp)) hst
  have e : finish req (fun _ => noData) (replay parse sort w f t s) = respondDone req noData (replay parse sort w f t s).s := by unfold finish; rw [hq]
  rw [e]
  unfold replay Done.andThen at hq ⊢
  cases hr : (resetState w s).err with
  | some e => rw [hr] at hq; simp [hr] at hq
  | none =>
    rw [hr, resetState_ok hr] at hq
    rw [resetState_ok hr]
    simp only at hq ⊢
    unfold evalAndPlay Done.andThen fromWorld at hq ⊢
    cases hw : w.player with
    | some m => rw [hw] at hq; simp at hq
    | none =>
      rw [hw] at hq
      simp only [Option.map_none] at hq ⊢
      unfold updateScoreWithInput at hq ⊢
      cases hx : parse s.input with
      | error e' => rw [hx] at hq; simp at hq
      | ok us =>
        rw [hx] at hq
        simp only at hq ⊢
        rcases hu : update us newScore with ⟨err, sc⟩
        rw [hu] at hq
        cases err with
        | some e' => simp at hq
        | none =>
          simp only at hq ⊢
          unfold transmitScore at hq ⊢
          simp only at hq ⊢
          generalize hxx : ({ incremental { s with input := "", score := newScore, eventIndex := 0 } with from_ := f, to_ := t } : Transmission) = x at hq ⊢
          cases hb : scoreToBundle sort sc x with
          | error e' => rw [hb] at hq; simp at hq
          | ok ms =>
            rw [hb] at hq
            simp only at hq ⊢
            cases hsd : w.send with
            | some m => rw [hsd] at hq; simp at hq
            | none =>
              have g := (update_inv us newScore_inv).1
              rw [hu] at g
              have stands : ∃ start stop, Stands sc x.from_ 0 start ∧ Stands sc x.to_ maxFloat stop := by
                have st : ∀ (r : String) (d : Rat) {v}, offsetOr sc r d = .ok v → Stands sc r d v := by
                  intro r d v h
                  unfold offsetOr at h
                  split at h
                  next hr => exact Or.inr ⟨hr, h⟩
                  next hr => simp only [Except.ok.injEq] at h; exact Or.inl ⟨by simpa using hr, h.symm⟩
                unfold scoreToBundle at hb
                cases h1 : offsetOr sc x.from_ 0 with
                | error e' => rw [h1] at hb; split at hb <;> simp at hb
                | ok start =>
                  cases h2 : offsetOr sc x.to_ maxFloat with
                  | error e' => rw [h1, h2] at hb; split at hb <;> simp at hb
                  | ok stop => exact ⟨start, stop, st _ _ h1, st _ _ h2⟩
              obtain ⟨start, stop, s1, s2⟩ := stands
              obtain ⟨sent, p1, p2, p3⟩ := range_sent hs sc g.good.wf g.mem x ms hb start stop s1 s2
              obtain ⟨es, hes, hperm⟩ := transmitted_eq sort sc x
              subst hxx
              refine ⟨us, sc, ms, start, stop, rfl, hu, s1, s2, ?_, ⟨es, hes, hperm hs⟩, rfl, sent, ?_, p2, p3.imp (fun e _ m h => ?_)⟩
              · show "" ++ (trimSpace s.input ++ "\n") = _
                simp
              · have e3 : (sc.events.take (Option.getD none sc.events.length)).drop 0 = sc.events := by simp
                have p1' : sent.Perm (((sc.events.take (Option.getD none sc.events.length)).drop 0).filter
                  (fun e => decide (start ≤ e.offset) && decide (e.offset < stop))) := p1
                rw [e3] at p1'; exact p1'
              · obtain ⟨track, offset, duration, audible, velocity, k1, k2, k3, k4, k5⟩ := h
                refine ⟨track, offset, duration, audible, velocity, k1, k2, k3, ?_, k5⟩
                have ez : start + (0 : Rat) = start := by grind
                have k4' : Nearest (e.offset - (start + 0)) offset := k4
                rw [ez] at k4'; exact k4'

/-- A parser for the whole text as well. -/
def demoParse2 (text : String) : Except Err (List Upd) :=
  if text = "piano: c\ne g\n" then .ok [.partDecl ["piano"] "", .leaf (.note (.letter .C none) [.length 4 0] false), .leaf (.note (.letter .E none) [] false),
    .leaf (.note (.letter .G none) [] false)]
  else demoParse text

/-- Two evaluations and a replay from 0:01 on: the third note alone is sent again, at once. -/
example : (handleAll demoParse2 insertionSort [({}, evalRequest "piano: c"), ({}, evalRequest "e g"), ({}, request 1 [("op", "replay"), ("from", "0:01")])] newServer).sent.map noteMsgs =
    [[.note 1 0 0 60 500 450 69], [.note 1 0 0 64 500 450 69, .note 1 0 500 67 500 450 69], [.note 1 0 0 67 500 450 69]] := by decide +kernel

example : Replays (request 1 [("op", "replay"), ("from", "0:01")]) "0:01" "" := by simp [Replays, request, List.lookup]

/-- C47: a replay that fails because there is no player loses the text and the score. -/
theorem c47_lost_witness : ∃ (req : Request) (w : World) (s : Server), (∃ scores, Evaluations demoParse insertionSort scores s) ∧ Replays req "" "" ∧
    s.input = "piano: c\n" ∧ Failed req s (handle demoParse insertionSort w req s) ∧ (handle demoParse insertionSort w req s).input = "" ∧
    (handle demoParse insertionSort w req s).score.events = [] := by
  refine ⟨request 1 [("op", "replay")], { player := some "no player process is available" }, demoServer ["piano: c"], demo_evaluations, ?_, ?_, failed_of ?_ ?_, ?_, ?_⟩
  · simp [Replays, request, List.lookup]
  all_goals decide +kernel

end Repl
end Alda
