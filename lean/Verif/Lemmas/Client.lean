import Verif.Props.Repl
import Verif.Spec.Client
/-!
Lemmas about the REPL client.
-/
namespace Alda
namespace Repl

/-! ### The server -/

theorem finish_out (req : Request) (data : Server → Response) {s : Server} {d : Done} (h : Silent s d.s) (hp : (finish req data d).panicked = true)
    (h0 : s.panicked = false) : (finish req data d).out = s.out := by
  unfold finish at hp ⊢
  cases he : d.err with
  | none => rw [he] at hp; simp [respondDone, respond, h.panicked, h0] at hp
  | some e =>
    rw [he] at hp
    cases e with
    | user m => simp [respondError, respondErrors, respond, h.panicked, h0] at hp
    | _ => exact h.out

theorem withCode_out (req : Request) {s : Server} {k : String → Done} (h : ∀ i, Silent s (k i).s) (hp : (withCode req s k).panicked = true)
    (h0 : s.panicked = false) : (withCode req s k).out = s.out := by
  unfold withCode at hp ⊢
  simp only at hp ⊢
  split at hp
  · simp [respondErrors, respond, h0] at hp
  next hv => rw [if_neg hv]; exact finish_out _ _ (h _) hp h0

theorem ops_out (parse : String → Except Err (List Upd)) (sort : List NoteEvent → List NoteEvent) (w : World) (req : Request)
    {s s' : Server} (op : String) (ho : ops parse sort w req s op = some s') (hp : s'.panicked = true) (h0 : s.panicked = false) : s'.out = s.out := by
  unfold ops at ho
  split at ho <;> simp only [Option.some.injEq, reduceCtorEq] at ho <;> subst ho
  · simp [respondDone, respond, h0] at hp
  · simp [respondDone, respond, h0] at hp
  · simp [respondDone, respond, h0] at hp
  · exact withCode_out req (fun i => evalAndPlay_silent parse sort w i "" "" s) hp h0
  · exact finish_out req _ (Done.andThen_silent (load_silent parse sort w _ s) (fun s => .refl s)) hp h0
  · simp [respondDone, respond, h0] at hp
  · exact withCode_out req (fun i => load_silent parse sort w i s) hp h0
  · exact finish_out req _ (resetState_silent w s) hp h0
  · exact finish_out req _ (replay_silent parse sort w _ _ s) hp h0
  · simp [respondDone, respond, h0] at hp
  · exact finish_out (s := s) req _ (by split <;> exact .refl s) hp h0
  · exact finish_out (s := s) req _ (by split <;> exact .refl s) hp h0
  · simp [respondDone, respond, h0] at hp
  · exact finish_out req _ (Done.andThen_silent (fromWorld_silent _ s) (fun s => .refl s)) hp h0

/-- A server that panics does not respond. -/
theorem handle_out (parse : String → Except Err (List Upd)) (sort : List NoteEvent → List NoteEvent) (w : World) (req : Request) (s : Server)
    (hp : (handle parse sort w req s).panicked = true) : (handle parse sort w req s).out = s.out := by
  by_cases h0 : s.panicked = true
  · unfold handle; rw [if_pos h0]
  · have h0' : s.panicked = false := by simpa using h0
    unfold handle at hp ⊢
    simp only [if_neg h0] at hp ⊢
    by_cases hv : (validateString "op" req).length > 0
    · simp [if_pos hv, respondErrors, respond, h0'] at hp
    · simp only [if_neg hv] at hp ⊢
      cases ho : ops parse sort w req s (stringField "op" req) with
      | none => rw [ho] at hp; simp [respond, h0'] at hp
      | some s' => rw [ho] at hp; exact ops_out parse sort w req _ ho hp h0'

/-! ### Requests -/

theorem requestOf_id (e : Env) (c : Client) (msg : String → Option Field) : (requestOf e c msg).msg "id" = some (.str e.id) := by
  simp [requestOf, put]

theorem requestOf_msg (e : Env) (c : Client) (msg : String → Option Field) {k : String} (h1 : k ≠ "id") (h2 : k ≠ "session") : (requestOf e c msg).msg k = msg k := by
  unfold requestOf
  by_cases h : c.sessionID ≠ "" <;> simp [put, h, h1, h2]

/-- What a request does to the session: either the server panics and nothing comes back, or its response comes. -/
theorem handled_cases (t : Tools) (e : Env) (msg : String → Option Field) (m : Session) :
    (handle t.parse t.sort e.world (requestOf e m.client msg) m.server).panicked = true ∧
      (m.handled t e (requestOf e m.client msg)).inbox = m.inbox ∨
    (handle t.parse t.sort e.world (requestOf e m.client msg) m.server).panicked = false ∧ m.server.panicked = false ∧
      ∃ resp, Answered (requestOf e m.client msg) m.server (handle t.parse t.sort e.world (requestOf e m.client msg) m.server) resp ∧
        Answer (requestOf e m.client msg) resp ∧ (m.handled t e (requestOf e m.client msg)).inbox = m.inbox ++ [resp] := by
  cases hp : (handle t.parse t.sort e.world (requestOf e m.client msg) m.server).panicked with
  | true =>
    refine Or.inl ⟨rfl, ?_⟩
    have := handle_out _ _ _ _ _ hp
    simp [Session.handled, this]
  | false =>
    have h0 : m.server.panicked = false := by
      cases h : m.server.panicked with
      | false => rfl
      | true =>
        have : handle t.parse t.sort e.world (requestOf e m.client msg) m.server = m.server := by unfold handle; rw [if_pos h]
        rw [this, h] at hp; cases hp
    obtain ⟨resp, h1, h2, -⟩ := c40_partial _ _ _ _ _ h0 hp
    refine Or.inr ⟨rfl, h0, resp, h1, h2, ?_⟩
    have h1' := h1
    unfold Answered at h1'
    simp [Session.handled, h1']

/-- Everything but the server, the responses and the screen. -/
structure Still (m m' : Session) : Prop where
  client : m'.client = m.client
  files : m'.files = m.files

theorem Still.refl (m : Session) : Still m m := ⟨rfl, rfl⟩

theorem Still.trans {a b c : Session} (h : Still a b) (k : Still b c) : Still a c := ⟨k.client.trans h.client, k.files.trans h.files⟩

theorem print_still (x : Shown) (m : Session) : Still m (m.print x) := ⟨rfl, rfl⟩

theorem printResponseErrors_still (res : Response) (m : Session) : Still m (printResponseErrors res m) := by
  unfold printResponseErrors
  split
  · exact .refl m
  · exact print_still _ _

theorem printResponseErrors_server (res : Response) (m : Session) : (printResponseErrors res m).server = m.server := by
  unfold printResponseErrors; split <;> rfl

theorem printResponseErrors_inbox (res : Response) (m : Session) : (printResponseErrors res m).inbox = m.inbox := by
  unfold printResponseErrors; split <;> rfl

theorem sendRequest_still (t : Tools) (e : Env) (msg : String → Option Field) (m : Session) : Still m (sendRequest t e msg m).2 := by
  unfold sendRequest
  cases e.unsent with
  | some err => exact .refl m
  | none =>
    simp only
    split
    · exact ⟨rfl, rfl⟩
    · split
      · exact ⟨rfl, rfl⟩
      · split
        · exact ⟨rfl, rfl⟩
        · refine Still.trans (b := { m.handled t e (requestOf e m.client msg) with inbox := _ }) ⟨rfl, rfl⟩ (printResponseErrors_still _ _)

/-- A request in good order: the response is the server's. -/
theorem sendRequest_sync {t : Tools} {e : Env} {msg : String → Option Field} {m : Session} (he : e.unsent = none) (hl : e.late = false) (hm : InSync m) :
    (∃ err, sendRequest t e msg m = (.error err, m.handled t e (requestOf e m.client msg)) ∧ (m.handled t e (requestOf e m.client msg)).inbox = [] ∧
      (handle t.parse t.sort e.world (requestOf e m.client msg) m.server).panicked = true) ∨
    (handle t.parse t.sort e.world (requestOf e m.client msg) m.server).panicked = false ∧ m.server.panicked = false ∧
    ∃ resp, Answered (requestOf e m.client msg) m.server (handle t.parse t.sort e.world (requestOf e m.client msg) m.server) resp ∧
      Answer (requestOf e m.client msg) resp ∧
      sendRequest t e msg m = (.ok resp, printResponseErrors resp { m.handled t e (requestOf e m.client msg) with inbox := [] }) := by
  unfold InSync at hm
  rcases handled_cases t e msg m with ⟨hp, hi⟩ | ⟨hp, h0, resp, h1, h2, hi⟩
  · rw [hm] at hi
    refine Or.inl ⟨"i/o timeout", ?_, hi, hp⟩
    unfold sendRequest
    simp only [he, hl]
    rw [hi]
    rfl
  · rw [hm, List.nil_append] at hi
    refine Or.inr ⟨hp, h0, resp, h1, h2, ?_⟩
    unfold sendRequest
    simp only [he, hl]
    rw [hi]
    have hid : resp "id" = some (.field (.str e.id)) := h2.echoes "id" (Or.inl rfl) _ (requestOf_id e m.client msg)
    simp [hid]

/-! ### Commands -/

theorem toList_colon (s : String) : (":" ++ s).toList = ':' :: s.toList := by simp [String.toList_append]

theorem parseCommand_args {name a : String} (h1 : name ≠ "") (h2 : ∀ c ∈ name.toList, c ≠ ' ') : parseCommand (":" ++ name ++ " " ++ a) = some (name, a) := by
  have e : (":" ++ name ++ " " ++ a).toList = ':' :: (name.toList ++ ' ' :: a.toList) := by simp [String.toList_append]
  have hn : name.toList ≠ [] := by intro h; exact h1 (String.toList_inj.1 (by rw [h]; rfl))
  unfold parseCommand
  rw [e]
  simp only [List.drop_succ_cons, List.drop_zero]
  have ht : (name.toList ++ ' ' :: a.toList).takeWhile (fun c => decide (c ≠ ' ')) = name.toList := by
    rw [List.takeWhile_append_of_pos (fun c hc => by simpa using h2 c hc)]; simp
  have hd : (name.toList ++ ' ' :: a.toList).dropWhile (fun c => decide (c ≠ ' ')) = ' ' :: a.toList := by
    rw [List.dropWhile_append_of_pos (fun c hc => by simpa using h2 c hc)]; simp
  rw [ht, hd, if_neg hn]
  simp

theorem parseCommand_name {name : String} (h1 : name ≠ "") (h2 : ∀ c ∈ name.toList, c ≠ ' ') : parseCommand (":" ++ name) = some (name, "") := by
  have e : (":" ++ name).toList = ':' :: name.toList := toList_colon name
  have hn : name.toList ≠ [] := by intro h; exact h1 (String.toList_inj.1 (by rw [h]; rfl))
  unfold parseCommand
  rw [e]
  simp only [List.drop_succ_cons, List.drop_zero]
  have ht : name.toList.takeWhile (fun c => decide (c ≠ ' ')) = name.toList := by
    have := List.takeWhile_append_of_pos (p := fun c => decide (c ≠ ' ')) (l₁ := name.toList) (l₂ := []) (fun c hc => by simpa using h2 c hc)
    simpa using this
  have hd : name.toList.dropWhile (fun c => decide (c ≠ ' ')) = [] := by
    have := List.dropWhile_append_of_pos (p := fun c => decide (c ≠ ' ')) (l₁ := name.toList) (l₂ := []) (fun c hc => by simpa using h2 c hc)
    simpa using this
  rw [ht, hd, if_neg hn]
  simp

theorem parseCommand_some {input name a : String} (hc : input.toList.head? = some ':') (h : parseCommand input = some (name, a)) :
    input = ":" ++ name ++ " " ++ a ∨ input = ":" ++ name ∧ a = "" := by
  have e : ∃ r, input.toList = ':' :: r := by
    cases hi : input.toList with
    | nil => rw [hi] at hc; cases hc
    | cons x r => rw [hi] at hc; simp only [List.head?_cons, Option.some.injEq] at hc; exact ⟨r, by rw [hc]⟩
  obtain ⟨r, e⟩ := e
  unfold parseCommand at h
  rw [e] at h
  simp only [List.drop_succ_cons, List.drop_zero] at h
  split at h
  · cases h
  · simp only [Option.some.injEq, Prod.mk.injEq] at h
    obtain ⟨h1, h2⟩ := h
    have hr := List.takeWhile_append_dropWhile (p := fun c => decide (c ≠ ' ')) (l := r)
    cases hd : r.dropWhile (fun c => decide (c ≠ ' ')) with
    | nil =>
      rw [hd] at hr h2
      right
      refine ⟨String.toList_inj.1 ?_, by rw [← h2]; rfl⟩
      rw [e, toList_colon, ← h1, String.toList_ofList]
      rw [List.append_nil] at hr
      rw [hr]
    | cons x xs =>
      have hx : x = ' ' := by
        have := List.head_dropWhile_not (fun c => decide (c ≠ ' ')) (l := r) (by rw [hd]; simp)
        simp only [hd, List.head_cons] at this
        simpa using this
      rw [hd] at hr h2
      left
      refine String.toList_inj.1 ?_
      rw [e]
      rw [hx] at hr
      have e2 : (":" ++ name ++ " " ++ a).toList = ':' :: (name.toList ++ ' ' :: a.toList) := by simp [String.toList_append]
      rw [e2, ← h1, ← h2, String.toList_ofList, String.toList_ofList]
      simp only [List.drop_succ_cons, List.drop_zero]
      rw [hr]

/-- What a line with a command does. -/
theorem typeLine_command {t : Tools} {e : Env} {line name : String} {args : List String} (h : Command t line name args) (h1 : name ≠ "")
    (h2 : ∀ c ∈ name.toList, c ≠ ' ') : ∃ a, t.split a = .ok args ∧ ∀ m, typeLine t e line m = reportError (handleCommand t e name a m) := by
  obtain ⟨a, ha, hs⟩ := h
  have hn : name.toList ≠ [] := by intro h; exact h1 (String.toList_inj.1 (by rw [h]; rfl))
  have hl : name.length > 0 := by
    have : name.length = name.toList.length := String.length_toList.symm
    rw [this]; exact List.length_pos_iff.2 hn
  have key : (trimSpace line).toList.head? = some ':' ∧ (trimSpace line).length > 1 := by
    rcases ha with ha | ⟨ha, -⟩ <;> rw [ha] <;> refine ⟨by simp [String.toList_append], ?_⟩ <;> simp only [String.length_append] <;>
      (have : (":" : String).length = 1 := rfl) <;> omega
  have hp : parseCommand (trimSpace line) = some (name, a) := by
    rcases ha with ha | ⟨ha, rfl⟩
    · rw [ha]; exact parseCommand_args h1 h2
    · rw [ha]; exact parseCommand_name h1 h2
  have hne : line ≠ "" := by
    rintro rfl
    have : (trimSpace "").toList.head? = none := by decide
    rw [this] at key; cases key.1
  refine ⟨a, hs, fun m => ?_⟩
  unfold typeLine
  simp only [if_neg hne, if_pos key, hp]

/-- What a line of code does. -/
theorem typeLine_code {t : Tools} {e : Env} {line : String} (h : IsCode line) (m : Session) :
    typeLine t e line m = reportError (request1 t e (message [("op", "eval-and-play"), ("code", trimSpace line)]) m) := by
  unfold typeLine
  have hc : ¬ ((trimSpace line).toList.head? = some ':' ∧ (trimSpace line).length > 1) := by
    rintro ⟨h1, h2⟩
    have hlen : (trimSpace line).length = (trimSpace line).toList.length := String.length_toList.symm
    cases hi : (trimSpace line).toList with
    | nil => rw [hi] at h1; cases h1
    | cons x r =>
      cases r with
      | nil => rw [hlen, hi] at h2; simp at h2
      | cons y r =>
        rw [hi] at h1
        simp only [List.head?_cons, Option.some.injEq] at h1
        refine h.command y r ?_
        rw [← h1, ← hi, String.ofList_toList]
  have hq : ¬ (trimSpace line = "quit" ∨ trimSpace line = "exit" ∨ trimSpace line = "bye") := by
    rintro (hq | hq | hq)
    · exact h.quit.1 hq
    · exact h.quit.2.1 hq
    · exact h.quit.2.2 hq
  simp only [if_neg h.nonempty, if_neg hc, if_neg hq]

/-! ### What is shown -/

theorem responseErrors_nil {res : Response} (h : responseErrors res = []) : ¬ HasStatus res "error" := by
  rintro ⟨l, h1, h2⟩
  unfold responseErrors at h
  rw [h1] at h
  simp only [h2, if_true] at h
  split at h
  · cases h
  next ps hne hps => exact hne h
  · cases h

theorem responseErrors_cons {res : Response} (h : HasStatus res "done") (h' : responseErrors res ≠ []) : HasStatus res "error" := by
  obtain ⟨l, h1, h2⟩ := h
  refine ⟨l, h1, ?_⟩
  unfold responseErrors at h'
  rw [h1] at h'
  simp only at h'
  by_cases hm : "error" ∈ l
  · exact hm
  · rw [if_neg hm] at h'; exact absurd rfl h'

theorem Quiet.not {m m' : Session} (h : Quiet m m') {l : List Shown} (hl : m'.shown = m.shown ++ l) {x : Shown} (hx : x ∈ l) : ¬ IsError x := by
  obtain ⟨l', h1, h2⟩ := h
  have : l' = l := List.append_cancel_left (h1.symm.trans hl)
  exact h2 x (this ▸ hx)

/-- A request in good order of which nobody complains. -/
theorem request1_quiet {t : Tools} {e : Env} {msg : String → Option Field} {m : Session} (he : Fine e) (hm : InSync m)
    (hq : Quiet m (reportError (request1 t e msg m))) :
    Succeeded (requestOf e m.client msg) m.server (handle t.parse t.sort e.world (requestOf e m.client msg) m.server) ∧ m.server.panicked = false ∧
    reportError (request1 t e msg m) = { m with server := handle t.parse t.sort e.world (requestOf e m.client msg) m.server } := by
  rcases sendRequest_sync (t := t) (msg := msg) he.sent he.intime hm with ⟨err, h1, h2, h3⟩ | ⟨hp, h0, resp, h1, h2, h3⟩
  · exfalso
    unfold request1 at hq
    rw [h1] at hq
    exact hq.not (l := [.error err]) rfl (List.mem_singleton.2 rfl) (.error err)
  · unfold request1 at hq ⊢
    rw [h3] at hq ⊢
    simp only [reportError] at hq ⊢
    have hr : responseErrors resp = [] := by
      cases hr : responseErrors resp with
      | nil => rfl
      | cons p ps =>
        exfalso
        unfold printResponseErrors at hq
        rw [hr] at hq
        exact hq.not (l := [.problems (p :: ps)]) rfl (List.mem_singleton.2 rfl) (.problems _)
    refine ⟨⟨hp, resp, h1, responseErrors_nil hr⟩, h0, ?_⟩
    unfold printResponseErrors
    rw [hr]
    simp only [Session.handled]
    unfold InSync at hm
    rw [← hm]

theorem handle_scoreText {parse : String → Except Err (List Upd)} {sort : List NoteEvent → List NoteEvent} {w : World} {req : Request} {s : Server}
    (he : req.msg "op" = some (.str "score-text")) (h0 : s.panicked = false) :
    handle parse sort w req s = respondDone req (put noData "text" (.text s.input)) s := by
  unfold handle
  rw [if_neg (by simp [h0])]
  have hv : ¬ (validateString "op" req).length > 0 := by rw [validateString_nil]; intro h; exact h _ he
  simp only [if_neg hv]
  have ef : stringField "op" req = "score-text" := by simp [stringField, he]
  rw [ef]
  simp only [ops]

theorem respondData_other (req : Request) (st : List String) (data : Response) {k : String} (h1 : k ≠ "id") (h2 : k ≠ "session") (h3 : k ≠ "status") :
    respondData req st data k = data k := by
  unfold respondData
  cases req.msg "session" <;> cases req.msg "id" <;> simp [put, h1, h2, h3]

theorem respondDone_errors (req : Request) (data : Response) : responseErrors (respondData req ["done"] data) = [] := by
  unfold responseErrors
  rw [respondData_status]
  simp

/-- Asking for the text of the score. -/
theorem scoreText_sync {t : Tools} {e : Env} {m : Session} (he : Fine e) (hm : InSync m) (h0 : m.server.panicked = false) :
    requestValue t e "score-text" "text" m = (.ok (.text m.server.input),
      { m with server := respondDone (requestOf e m.client (message [("op", "score-text")])) (put noData "text" (.text m.server.input)) m.server }) := by
  have hop : (requestOf e m.client (message [("op", "score-text")])).msg "op" = some (.str "score-text") := by
    rw [requestOf_msg _ _ _ (by decide) (by decide)]; rfl
  have hh := handle_scoreText (parse := t.parse) (sort := t.sort) (w := e.world) hop h0
  rcases sendRequest_sync (t := t) (msg := message [("op", "score-text")]) he.sent he.intime hm with ⟨err, h1, h2, h3⟩ | ⟨hp, -, resp, h1, h2, h3⟩
  · rw [hh] at h3
    have : (respondDone (requestOf e m.client (message [("op", "score-text")])) (put noData "text" (.text m.server.input)) m.server).panicked = m.server.panicked := rfl
    rw [this, h0] at h3; cases h3
  · have hr : resp = respondData (requestOf e m.client (message [("op", "score-text")])) ["done"] (put noData "text" (.text m.server.input)) := by
      rw [hh] at h1
      unfold Answered respondDone respond at h1
      simpa using h1.symm
    unfold requestValue
    rw [h3]
    have ht : resp "text" = some (.text m.server.input) := by
      rw [hr, respondData_other _ _ _ (by decide) (by decide) (by decide)]; simp [put]
    have hn : responseErrors resp = [] := by rw [hr]; exact respondDone_errors _ _
    simp only [ht]
    unfold printResponseErrors
    rw [hn]
    simp only [Session.handled]
    rw [hh]
    unfold InSync at hm
    rw [← hm]

/-! ### Files -/

theorem reportError_files (r : Option String × Session) : (reportError r).files = r.2.files := by
  unfold reportError
  split <;> rfl

theorem request1_files (t : Tools) (e : Env) (msg : String → Option Field) (m : Session) : (request1 t e msg m).2.files = m.files := by
  have h := sendRequest_still t e msg m
  unfold request1
  split
  next hs => rw [hs] at h; exact h.files
  next hs => rw [hs] at h; exact h.files

theorem requestValue_still (t : Tools) (e : Env) (op key : String) (m : Session) : Still m (requestValue t e op key m).2 := by
  have h := sendRequest_still t e (message [("op", op)]) m
  unfold requestValue
  split
  next hs => rw [hs] at h; exact h
  next hs =>
    rw [hs] at h
    split <;> exact h

theorem showValue_files (t : Tools) (e : Env) (op key : String) (m : Session) : (showValue t e op key m).2.files = m.files := by
  have h := requestValue_still t e op key m
  unfold showValue
  split
  next hs => rw [hs] at h; exact h.files
  next hs => rw [hs] at h; exact h.files
  next hs => rw [hs] at h; exact h.files

theorem withArgs_files {t : Tools} {args : String} {m : Session} {k : List String → Option String × Session} (h : ∀ l, t.split args = .ok l → (k l).2.files = m.files) :
    (withArgs t args m k).2.files = m.files := by
  unfold withArgs
  split
  · rfl
  next l hl => exact h l hl

theorem fileArg_ok {args : List String} {m m' : Session} (h : fileArg args m = .ok m') :
    About m args m'.client.inputFilepath ∧ m' = { m with client := { m.client with inputFilepath := m'.client.inputFilepath } } := by
  unfold fileArg at h
  split at h
  · split at h
    · cases h
    next hne => cases h; exact ⟨Or.inr ⟨rfl, rfl, hne⟩, rfl⟩
  · cases h; exact ⟨Or.inl rfl, rfl⟩
  · cases h

theorem fileArg_about {args : List String} {m : Session} {f : String} (h : About m args f) :
    fileArg args m = .ok { m with client := { m.client with inputFilepath := f } } := by
  rcases h with rfl | ⟨rfl, rfl, h⟩
  · rfl
  · unfold fileArg; simp only [if_neg h]

theorem loadCommand_files (t : Tools) (e : Env) (args : List String) (m : Session) : (loadCommand t e args m).2.files = m.files := by
  unfold loadCommand
  split
  · rfl
  next m' hm =>
    obtain ⟨-, h2⟩ := fileArg_ok hm
    split
    · rw [h2]
    · rw [request1_files, h2]

theorem put_ne {α : Type} {m : String → Option α} {k x : String} {v : α} (h : put m k v x ≠ m x) : x = k ∧ put m k v x = some v := by
  unfold put at h ⊢
  by_cases hx : x = k
  · simp [hx]
  · simp [hx] at h

theorem writeFile_files {e : Env} {name contents : String} {m : Session} {f : String} (h : (writeFile e name contents m).2.files f ≠ m.files f) :
    f = name ∧ (writeFile e name contents m).2.files f = some contents := by
  unfold writeFile at h ⊢
  split at h
  · exact absurd rfl h
  · exact put_ne h

end Repl
end Alda
