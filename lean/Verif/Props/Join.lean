import Verif.Lemmas.JoinSession
/-!
C56: what the text of a session means.
-/
namespace Alda
namespace Repl
open Spec

/-- C56 for two texts: a text with another one on the lines after it does, to any score, what the two do one after the other. If the first text ends in the
letter `o`, it must be accepted with a line break after it; it must not define a variable whose events leave a voice open; the second must not end voices that are not its own. -/
theorem c56_join {a b : String} {usA usB : List Upd} (ha : parseCode a = .ok usA) (hn : a.toList.getLast? = some 'o' → ∃ us, parseCode (a ++ "\n") = .ok us) (hb : parseCode b = .ok usB)
    (hv : Upd.voice 0 ∉ usB) (hc : ∀ x es, Upd.varDef x es ∈ usA → openAfterAll false es = false) :
    ∃ us, parseCode (a ++ "\n" ++ b) = .ok us ∧ ∀ s : Score,
      (update us s).err = ((update usA s).andThen (update usB)).err ∧ SameMusic ((update usA s).andThen (update usB)).s (update us s).s := by
  obtain ⟨usA', i, usB', h1, h2, h3⟩ := code_join ha hn hb hv hc
  refine ⟨_, h1, fun s => ?_⟩
  have k := Syn.update_joined h2 h3 (Twin.refl s)
  rw [update_append] at k
  exact ⟨k.err, k.twin.music⟩

/-- C56, for codes that mean the same on their own as among other lines: in a session of successful evaluations, the text that the server keeps is made up of the
codes, it is accepted, and evaluating it on an empty score yields the music of the session. Missing from the full statement: other codes, for which it
is false (`c56_voice_witness`, `c56_octave_witness`, `c56_variable_witness`), codes with white space around them, and evaluations that fail (see C39). -/
theorem c56_partial {sort : List NoteEvent → List NoteEvent} (hs : SortsByOffset sort) (codes : List String) (s : Server) (h : Typed sort codes s)
    (hc : ∀ c ∈ codes, SelfContained c) :
    s.input = lines codes ∧ ∃ us score, parseCode s.input = .ok us ∧ update us newScore = ⟨none, score⟩ ∧ SameMusic s.score score := by
  obtain ⟨h1, vs, score, h2, h3, h4⟩ := h.done hs hc
  obtain ⟨us, k1, -, k3⟩ := lines_updates h2 hc
  refine ⟨h1, us, (update us newScore).s, by rw [h1]; exact k1, ?_, ?_⟩
  · have := (k3 newScore newScore (.refl _)).err
    rw [h3] at this
    rcases hu : update us newScore with ⟨err, sc⟩
    rw [hu] at this
    rw [show err = none from this]
  · have := (k3 newScore newScore (.refl _)).twin
    rw [h3] at this
    exact (h4.trans this).music

/-- C56 as heard: under the conditions of `c56_partial`, a replay that succeeds sends, in one bundle and each once, exactly the notes of the session, at their places in the score, and nothing
is changed by it. -/
theorem c56_replay_partial {sort : List NoteEvent → List NoteEvent} (hs : SortsByOffset sort) (codes : List String) (s : Server) (h : Typed sort codes s)
    (hc : ∀ c ∈ codes, SelfContained c) (hb : ∀ e ∈ s.score.events, 0 ≤ e.offset ∧ e.offset < maxFloat) (w : World) (req : Request) (he : Replays req "" "")
    (hok : Succeeded req s (handle parseCode sort w req s)) :
    SameMusic s.score (handle parseCode sort w req s).score ∧
    ∃ ms sent, (handle parseCode sort w req s).sent = s.sent ++ [ms] ∧ sent.Perm s.score.events ∧ sent.Pairwise (fun a b => a.offset ≤ b.offset) ∧
      Matches (SentAs s.score (fun _ => 0)) sent (noteMsgs ms) := by
  obtain ⟨h1, vs, score, h2, h3, h4⟩ := h.done hs hc
  obtain ⟨us, k1, -, k3⟩ := lines_updates h2 hc
  obtain ⟨us', score', ms, start, stop, r1, r2, r3, r4, r5, ⟨es, r6, r6'⟩, r7, sent, r8, r9, r10⟩ := c47 hs w req s "" "" he hok
  rw [h1, k1] at r1
  cases r1
  have ht := k3 newScore newScore (.refl _)
  rw [h3, r2] at ht
  have tw := h4.trans ht.twin
  have e1 : start = 0 := by
    rcases r3 with ⟨-, e⟩ | ⟨e, -⟩
    · exact e
    · exact absurd rfl e
  have e2 : stop = maxFloat := by
    rcases r4 with ⟨-, e⟩ | ⟨e, -⟩
    · exact e
    · exact absurd rfl e
  subst e1 e2
  have tw' : Twin s.score { score' with events := es } := by
    obtain ⟨f, v, fs, e, t1, t2, t3⟩ := tw
    have e : score' = vary s.score f v fs := e
    subst e
    exact ⟨f, v, es, rfl, t1, t2, r6'.trans t3⟩
  have mu := tw.music
  have ev : score'.events.filter (fun e => decide ((0 : Rat) ≤ e.offset) && decide (e.offset < maxFloat)) = score'.events := by
    rw [List.filter_eq_self]
    intro e hm
    obtain ⟨a, b⟩ := hb e (mu.events.mem_iff.1 hm)
    simp [a, b]
  rw [ev] at r8
  refine ⟨by rw [r6]; exact tw'.music, ms, sent, r7, r8.trans mu.events, r9, ?_⟩
  refine r10.imp (fun e _ m hm => ?_)
  unfold SentAs at hm ⊢
  rw [← mu.instances]; exact hm

/-- C56: under the conditions of `c56_partial`, only the player can make a replay fail. -/
theorem c56_replayable_partial {sort : List NoteEvent → List NoteEvent} (hs : SortsByOffset sort) (codes : List String) (s : Server) (h : Typed sort codes s)
    (hc : ∀ c ∈ codes, SelfContained c) (h0 : s.panicked = false) (w : World) (hw : w.shutdown = none ∧ w.player = none ∧ w.send = none) (req : Request)
    (he : Replays req "" "") : Succeeded req s (handle parseCode sort w req s) := by
  obtain ⟨-, us, score, h1, h2, -⟩ := c56_partial hs codes s h hc
  have hq : (replay parseCode sort w "" "" s).err = none := by
    obtain ⟨w1, w2, w3⟩ := hw
    have hr : (resetState w s).err = none := by
      unfold resetState Done.andThen fromWorld
      rw [w1]; cases w.hasPlayer <;> rfl
    unfold replay Done.andThen
    rw [hr, resetState_ok hr]
    simp only
    unfold evalAndPlay Done.andThen fromWorld
    rw [w2]
    simp only [Option.map_none]
    unfold updateScoreWithInput
    rw [h1]
    simp only
    rw [h2]
    simp only
    unfold transmitScore scoreToBundle eventSlice offsetOr
    simp only [incremental, Option.getD_none, ne_eq, not_true_eq_false, if_false, Nat.zero_le, Nat.le_refl, and_self, if_true, w3]
  rw [handle_replay he h0]
  have e : finish req (fun _ => noData) (replay parseCode sort w "" "" s) = respondDone req noData (replay parseCode sort w "" "" s).s := by unfold finish; rw [hq]
  rw [e]
  have rep := respondDone_replied req noData (replay_silent parseCode sort w "" "" s)
  obtain ⟨a1, -, a3⟩ := rep.answer
  exact ⟨rep.panicked.trans h0, _, a1, fun h => by simpa using (a3 "error").1 h⟩

/-! ### Where the text means something else -/

/-- The server after these evaluations. -/
def typedServer (codes : List String) : Server := handleAll parseCode insertionSort (codes.map fun c => ({}, evalRequest c)) newServer

theorem typed_snoc {codes : List String} {code : String} (h : Typed insertionSort codes (typedServer codes))
    (hok : Succeeded (evalRequest code) (typedServer codes) (handle parseCode insertionSort {} (evalRequest code) (typedServer codes))) :
    Typed insertionSort (codes ++ [code]) (typedServer (codes ++ [code])) := by
  have e : typedServer (codes ++ [code]) = handle parseCode insertionSort {} (evalRequest code) (typedServer codes) := by
    unfold typedServer
    rw [List.map_append, List.map_singleton]
    generalize (codes.map fun c => (({} : World), evalRequest c)) = l
    generalize newServer = s
    induction l generalizing s with
    | nil => rfl
    | cons x l ih => obtain ⟨w, r⟩ := x; simp only [List.cons_append, handleAll]; exact ih _
  rw [e]
  exact .eval _ _ _ h (evalRequest_evaluates code) hok

/-- What the server has to show for it. -/
def notesOf (s : Score) : List (Rat × Int) := s.events.map fun e => (e.offset, e.note)

/-- The music of the text. -/
def textNotes (text : String) : Option (Option Err × List (Rat × Int)) :=
  (parseCode text).toOption.map fun us => ((update us newScore).err, notesOf (update us newScore).s)

theorem textNotes_some {text : String} {e : Option Err} {l : List (Rat × Int)} (h : textNotes text = some (e, l)) :
    ∃ us score, parseCode text = .ok us ∧ update us newScore = ⟨e, score⟩ ∧ notesOf score = l := by
  unfold textNotes at h
  cases hp : parseCode text with
  | error e => rw [hp] at h; cases h
  | ok us =>
    rw [hp] at h
    simp only [Except.toOption, Option.map_some, Option.some.injEq, Prod.mk.injEq] at h
    rcases hu : update us newScore with ⟨e', sc⟩
    rw [hu] at h
    exact ⟨us, sc, rfl, by rw [← h.1]; exact hu, h.2⟩

theorem differ {text : String} {s : Score} {l : List (Rat × Int)} (h : textNotes text = some (none, l)) (hd : ¬ l.Perm (notesOf s)) :
    ∃ us score, parseCode text = .ok us ∧ update us newScore = ⟨none, score⟩ ∧ ¬ SameMusic s score := by
  obtain ⟨us, score, h1, h2, h3⟩ := textNotes_some h
  exact ⟨us, score, h1, h2, fun m => hd (h3 ▸ m.events.map _)⟩

/-- C56: `V0:` does not end voices that an earlier input began, but does so in the text of the session, where the note after it comes after the voices instead of
at their start. -/
theorem c56_voice_witness : ∃ codes s, Typed insertionSort codes s ∧ codes = ["piano: V1: c1", "V2: d", "V0: e"] ∧ s.input = lines codes ∧
    ∃ us score, parseCode s.input = .ok us ∧ update us newScore = ⟨none, score⟩ ∧ ¬ SameMusic s.score score := by
  refine ⟨_, typedServer ["piano: V1: c1", "V2: d", "V0: e"],
    typed_snoc (codes := ["piano: V1: c1", "V2: d"]) (typed_snoc (codes := ["piano: V1: c1"]) (typed_snoc (codes := []) .start (succeeded_of ?_ ?_)) (succeeded_of ?_ ?_)) (succeeded_of ?_ ?_),
    rfl, ?_, differ (l := [(0, 60), (0, 62), (2000, 64)]) ?_ ?_⟩
  all_goals decide +kernel

/-- C56: an input that ends in `o` without a number is accepted, but not with the line break that follows it in the text of the session: from then on the text cannot be
parsed, and no replay succeeds. -/
theorem c56_octave_witness : ∃ codes s, Typed insertionSort codes s ∧ codes = ["piano: c", "o"] ∧ s.input = lines codes ∧
    (∃ e, parseCode s.input = .error e) ∧ ∀ w req f t, Replays req f t → ¬ Succeeded req s (handle parseCode insertionSort w req s) := by
  have key : ∃ e, parseCode (typedServer ["piano: c", "o"]).input = .error e := by
    have : (parseCode (typedServer ["piano: c", "o"]).input).toOption = none := by decide +kernel
    cases h : parseCode (typedServer ["piano: c", "o"]).input with
    | error e => exact ⟨e, rfl⟩
    | ok us => rw [h] at this; cases this
  refine ⟨_, typedServer ["piano: c", "o"], typed_snoc (codes := ["piano: c"]) (typed_snoc (codes := []) .start (succeeded_of ?_ ?_)) (succeeded_of ?_ ?_), rfl, ?_, key, ?_⟩
  rotate_right
  · intro w req f t hr hok
    obtain ⟨us, _, _, _, _, h, _⟩ := c47 insertionSort_sorts w req _ f t hr hok
    obtain ⟨e, he⟩ := key
    rw [he] at h; cases h
  all_goals decide +kernel

/-- C56: the definition of a variable that begins a voice takes in the following lines of the text of the session, where the note after it is not played. -/
theorem c56_variable_witness : ∃ codes s, Typed insertionSort codes s ∧ codes = ["piano: c", "foo = V1: c", "d"] ∧ s.input = lines codes ∧
    ∃ us score, parseCode s.input = .ok us ∧ update us newScore = ⟨none, score⟩ ∧ ¬ SameMusic s.score score := by
  refine ⟨_, typedServer ["piano: c", "foo = V1: c", "d"],
    typed_snoc (codes := ["piano: c", "foo = V1: c"]) (typed_snoc (codes := ["piano: c"]) (typed_snoc (codes := []) .start (succeeded_of ?_ ?_)) (succeeded_of ?_ ?_)) (succeeded_of ?_ ?_),
    rfl, ?_, differ (l := [(0, 60)]) ?_ ?_⟩
  all_goals decide +kernel

/-! ### Examples -/

/-- A check of `SelfContained`. -/
def selfContained (code : String) : Bool :=
  decide (trimSpace code = code) && (parseCode (code ++ "\n")).toOption.isSome &&
    match (parseCode code).toOption with
    | none => false
    | some us => us.all fun u => match u with
      | .voice n => decide (n ≠ 0)
      | .varDef _ es => !openAfterAll false es
      | _ => true

theorem selfContained_sound {code : String} (h : selfContained code = true) : SelfContained code := by
  unfold selfContained at h
  cases hc : parseCode code with
  | error e => rw [hc] at h; simp [Except.toOption] at h
  | ok us =>
    rw [hc] at h
    simp only [Except.toOption, Bool.and_eq_true, decide_eq_true_eq, List.all_eq_true] at h
    obtain ⟨⟨h1, h2⟩, h3⟩ := h
    refine ⟨h1, ?_, ?_, ?_⟩
    · intro _
      cases hn : parseCode (code ++ "\n") with
      | error e => rw [hn] at h2; simp at h2
      | ok us => exact ⟨us, rfl⟩
    · intro vs hv hm
      rw [hc] at hv; cases hv
      have := h3 _ hm
      simp at this
    · intro vs x es hv hm
      rw [hc] at hv; cases hv
      have := h3 _ hm
      simpa using this

/-- A replay after two inputs: the hypotheses of `c56_replay_partial` and `c56_replayable_partial`. -/
example : Typed insertionSort ["piano: c4", "| d2"] (typedServer ["piano: c4", "| d2"]) ∧ (∀ c ∈ ["piano: c4", "| d2"], SelfContained c) ∧
    (∀ e ∈ (typedServer ["piano: c4", "| d2"]).score.events, 0 ≤ e.offset ∧ e.offset < maxFloat) ∧ Replays (request 1 [("op", "replay")]) "" "" ∧
    Succeeded (request 1 [("op", "replay")]) (typedServer ["piano: c4", "| d2"]) (handle parseCode insertionSort {} (request 1 [("op", "replay")]) (typedServer ["piano: c4", "| d2"])) ∧
    (handle parseCode insertionSort {} (request 1 [("op", "replay")]) (typedServer ["piano: c4", "| d2"])).sent.map noteMsgs =
      [[.note 1 0 0 60 500 450 69], [.note 1 0 0 62 1000 900 69], [.note 1 0 0 60 500 450 69, .note 1 0 500 62 1000 900 69]] := by
  refine ⟨typed_snoc (codes := ["piano: c4"]) (typed_snoc (codes := []) .start (succeeded_of ?_ ?_)) (succeeded_of ?_ ?_), ?_, ?_, ?_, succeeded_of (w := {}) ?_ ?_, ?_⟩
  rotate_left 4
  · intro c hm
    refine selfContained_sound ?_
    revert c
    decide +kernel
  · decide +kernel
  · simp [Replays, request, List.lookup]
  all_goals decide +kernel

/-- Two texts in any score, the second with a barline at first: the hypotheses of `c56_join`. -/
example : selfContained "piano: c4" = true ∧ selfContained "| d2" = true ∧ textNotes "piano: c4\n| d2" = some (none, [(0, 60), (500, 62)]) ∧
    (parseCode "piano: c4").toOption.map List.length = some 2 ∧ (parseCode "| d2").toOption.map List.length = some 2 ∧
    (parseCode "piano: c4\n| d2").toOption.map List.length = some 3 := by decide +kernel

/-- A duration, a barline, a variable and a voice across inputs: the hypotheses of `c56_partial`. -/
example : ∃ s, Typed insertionSort ["piano: c4", "| d2", "riff = e | f8~", "riff V1: c", "V2: {d e}2"] s ∧
    (∀ c ∈ ["piano: c4", "| d2", "riff = e | f8~", "riff V1: c", "V2: {d e}2"], SelfContained c) ∧
    notesOf s.score = [(0, 60), (500, 62), (1500, 64), (2500, 65), (2750, 60), (2750, 62), (3250, 64)] := by
  refine ⟨typedServer ["piano: c4", "| d2", "riff = e | f8~", "riff V1: c", "V2: {d e}2"],
    typed_snoc (codes := ["piano: c4", "| d2", "riff = e | f8~", "riff V1: c"]) (typed_snoc (codes := ["piano: c4", "| d2", "riff = e | f8~"])
      (typed_snoc (codes := ["piano: c4", "| d2"]) (typed_snoc (codes := ["piano: c4"]) (typed_snoc (codes := []) .start (succeeded_of ?_ ?_)) (succeeded_of ?_ ?_))
        (succeeded_of ?_ ?_)) (succeeded_of ?_ ?_)) (succeeded_of ?_ ?_), ?_, ?_⟩
  rotate_right 2
  · intro c hm
    refine selfContained_sound ?_
    revert c
    decide +kernel
  all_goals decide +kernel

end Repl
end Alda
