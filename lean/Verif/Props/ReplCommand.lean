import Verif.Cmd.ReplCommand
/-!
# C74: `alda repl` does what its options say
-/
namespace Alda
namespace ReplCommand

/-- A message that can be sent: a JSON object with an entry "op". -/
def Sendable (w : World) (text : String) (fields : List (String × Json)) : Prop := w.json text = some (.obj fields) ∧ ∃ v, ("op", v) ∈ fields

/-- The response does not say "error". -/
def Fine (res : Repl.Response) : Prop := ∃ l, res "status" = some (.strings l) ∧ "error" ∉ l

theorem lookup_mem {α : Type} {k : String} {l : List (String × α)} : l.lookup k ≠ none ↔ ∃ v, (k, v) ∈ l := by
  induction l with
  | nil => simp
  | cons x l ih =>
    obtain ⟨k', v'⟩ := x
    simp only [List.lookup_cons]
    by_cases h : k = k'
    · subst h
      simp only [beq_self_eq_true]
      exact ⟨fun _ => ⟨v', by simp⟩, fun _ => by simp⟩
    · have hb : (k == k') = false := by simp [h]
      rw [hb]
      simp only
      rw [ih]
      constructor
      · rintro ⟨v, hv⟩; exact ⟨v, List.mem_cons_of_mem _ hv⟩
      · rintro ⟨v, hv⟩
        rcases List.mem_cons.1 hv with hv | hv
        · injection hv with h1; exact absurd h1 h
        · exact ⟨v, hv⟩

theorem noErrors_iff (res : Repl.Response) : ¬ (Repl.responseErrors res).length > 0 ↔ Fine res := by
  unfold Repl.responseErrors Fine
  split
  · rename_i l h
    split
    · rename_i hm
      constructor
      · intro hl
        exfalso
        split at hl
        · simp at hl
        · rename_i ps hne hps
          cases ps with
          | nil => exact hne rfl
          | cons a b => simp at hl
        · simp at hl
      · rintro ⟨l', h', hn⟩
        rw [h] at h'
        cases h'
        exact absurd hm hn
    · rename_i hm
      exact ⟨fun _ => ⟨l, h, hm⟩, fun _ => by simp⟩
  · rename_i h
    constructor
    · intro hl; simp at hl
    · rintro ⟨l, h', _⟩; exact absurd h' (h l)

/-- C74: with `--message`, exactly one message is sent if the port is given and the message is an object with an operation, and nothing is sent otherwise; nothing else is started. The
command is successful if and only if the message is sent and answered without an error; every answer is printed. -/
theorem c74_message (w : World) (f : Flags) (hm : f.message ≠ "") :
    (∀ fields, f.port ≠ -1 → Sendable w f.message fields →
      (∀ e, w.answers f.host f.port fields = .error e → replCommand w f = (some e, [.send f.host f.port fields])) ∧
      (∀ res, w.answers f.host f.port fields = .ok res →
        (replCommand w f).2 = [.send f.host f.port fields, .print res] ∧ ((replCommand w f).1 = none ↔ Fine res))) ∧
    ((f.port = -1 ∨ ¬ ∃ fields, Sendable w f.message fields) → (replCommand w f).2 = [] ∧ (replCommand w f).1 ≠ none) := by
  unfold replCommand
  rw [if_pos hm]
  refine ⟨fun fields hp ⟨hj, hop⟩ => ?_, fun h => ?_⟩
  · rw [if_neg hp]
    unfold sendMessage
    rw [hj]
    simp only
    rw [if_neg (lookup_mem.2 hop)]
    refine ⟨fun e he => by rw [he], fun res hr => ?_⟩
    rw [hr]
    refine ⟨rfl, ?_⟩
    simp only
    rw [← noErrors_iff]
    split <;> simp_all
  · by_cases hp : f.port = -1
    · rw [if_pos hp]; exact ⟨rfl, by simp⟩
    · rw [if_neg hp]
      have h := h.resolve_left hp
      unfold sendMessage
      split
      · exact ⟨rfl, by simp⟩
      · rename_i fields hj
        split
        · exact ⟨rfl, by simp⟩
        · rename_i hop
          exact absurd ⟨fields, hj, lookup_mem.1 hop⟩ h
      · exact ⟨rfl, by simp⟩

/-- Whether a server, and a client, is asked for: both if neither is. -/
def wantsServer (f : Flags) : Prop := f.server = true ∨ f.client = false

/-- See `wantsServer`. -/
def wantsClient (f : Flags) : Prop := f.client = true ∨ f.server = false

/-- The port that is given, or else one that is free. -/
def IsPort (w : World) (f : Flags) (p : Int) : Prop := (f.port ≠ -1 ∧ p = f.port) ∨ (f.port = -1 ∧ w.free = .ok p)

/-- C74: a server is started on the port given, or a free one; with a client, that connects to this port, and with or without one the files of the server are removed in the end. -/
theorem c74_server (w : World) (f : Flags) (hm : f.message = "") (hs : wantsServer f) (p : Int) (hp : IsPort w f p) (hl : w.listens p = none) (hf : p ≠ -1) :
    (wantsClient f → replCommand w f = (w.ends f.host p, [.serve p, .session f.host p, .close])) ∧
    (¬ wantsClient f → replCommand w f = (none, [.serve p, .wait, .close, .close])) := by
  have key : ∀ g : Flags, g.server = true → g.port = f.port → serveAndRun w g = runServer w g p := by
    intro g h1 h2
    unfold serveAndRun
    rw [if_pos h1, h2]
    rcases hp with ⟨hp, rfl⟩ | ⟨hp, hfr⟩
    · rw [if_neg hp]
    · rw [if_pos hp, hfr]
  unfold replCommand
  rw [if_neg (by simp [hm])]
  by_cases hb : f.client = false ∧ f.server = false
  · rw [if_pos hb]
    rw [key { f with client := true, server := true } rfl rfl]
    refine ⟨fun _ => ?_, fun h => absurd (.inr hb.2) h⟩
    simp [runServer, runClient, hl, hf]
  · rw [if_neg hb]
    have hsv : f.server = true := by
      rcases hs with h | h
      · exact h
      · cases hx : f.server with
        | true => rfl
        | false => exact absurd ⟨h, hx⟩ hb
    rw [key _ hsv rfl]
    refine ⟨fun h => ?_, fun h => ?_⟩
    · have hc : f.client = true := by
        rcases h with h | h
        · exact h
        · rw [hsv] at h; cases h
      simp [runServer, runClient, hl, hf, hc]
    · have hc : f.client = false := by
        cases hx : f.client with
        | true => exact absurd (.inl hx) h
        | false => rfl
      simp [runServer, runClient, hl, hc]

/-- C74: without a server, a client connects to the port that must be given. -/
theorem c74_client (w : World) (f : Flags) (hm : f.message = "") (hs : ¬ wantsServer f) :
    replCommand w f = if f.port = -1 then (some noPort, []) else (w.ends f.host f.port, [.session f.host f.port]) := by
  have h1 : f.server = false := by cases hx : f.server with
    | true => exact absurd (.inl hx) hs
    | false => rfl
  have h2 : f.client = true := by cases hx : f.client with
    | true => rfl
    | false => exact absurd (.inr hx) hs
  simp [replCommand, serveAndRun, hm, h1, h2, runClient]

/-- C74: if there is no port for a server, or it cannot be used, nothing is done and the command says why. -/
theorem c74_unserved (w : World) (f : Flags) (hm : f.message = "") (hs : wantsServer f) (h : ∀ p, IsPort w f p → w.listens p ≠ none) :
    (replCommand w f).2 = [] ∧ (replCommand w f).1 ≠ none := by
  have key : ∀ g : Flags, g.server = true → g.port = f.port → (serveAndRun w g).2 = [] ∧ (serveAndRun w g).1 ≠ none := by
    intro g h1 h2
    have hrun : ∀ p, IsPort w f p → (runServer w g p).2 = [] ∧ (runServer w g p).1 ≠ none := by
      intro p hp
      unfold runServer
      cases hl : w.listens p with
      | none => exact absurd hl (h p hp)
      | some e => exact ⟨rfl, by simp⟩
    unfold serveAndRun
    simp only [h1, if_true, h2]
    split
    · rename_i hp
      cases hfr : w.free with
      | error e => exact ⟨rfl, by simp⟩
      | ok p => exact hrun p (.inr ⟨hp, hfr⟩)
    · rename_i hp
      exact hrun _ (.inl ⟨hp, rfl⟩)
  unfold replCommand
  rw [if_neg (by simp [hm])]
  by_cases hb : f.client = false ∧ f.server = false
  · rw [if_pos hb]
    exact key _ rfl rfl
  · rw [if_neg hb]
    refine key _ ?_ rfl
    rcases hs with h | h
    · exact h
    · cases hx : f.server with
      | true => rfl
      | false => exact absurd ⟨h, hx⟩ hb

/-! ### The port file -/

/-- All that happens in a directory. -/
def after (es : List Event) : Directory := es.foldl happen {}

/-- C74: the port file of a directory in which a server runs has the port of a server that runs there. -/
def PortKnown (es : List Event) : Prop := (after es).running ≠ [] → ∃ p ∈ (after es).running, (after es).file = some p

/-- No server is started in a directory in which another one runs. -/
def Alone : Directory → List Event → Prop
  | _, [] => True
  | d, e :: es => (match e with | .start _ => d.running = [] | _ => True) ∧ Alone (happen d e) es

theorem alone_known {es : List Event} : ∀ {d : Directory}, Alone d es → (d.running = [] ∨ ∃ p, d.running = [p] ∧ d.file = some p) →
    ((es.foldl happen d).running = [] ∨ ∃ p, (es.foldl happen d).running = [p] ∧ (es.foldl happen d).file = some p) := by
  induction es with
  | nil => intro d _ h; exact h
  | cons e es ih =>
    intro d ha h
    refine ih ha.2 ?_
    cases e with
    | start p =>
      have : d.running = [] := ha.1
      simp only [happen, this, List.not_mem_nil, if_false]
      exact .inr ⟨p, rfl, rfl⟩
    | close p =>
      rcases h with h | ⟨q, h, hf⟩
      · simp only [happen, h, List.not_mem_nil, if_false]; exact .inl trivial
      · by_cases e : p = q
        · subst e
          simp only [happen, h]; left; simp
        · simp only [happen, h, List.mem_singleton, e, if_false]
          exact .inr ⟨q, rfl, hf⟩
    | crash p =>
      rcases h with h | ⟨q, h, hf⟩
      · simp only [happen, h]; left; rfl
      · by_cases e : p = q
        · subst e
          simp only [happen, h]; left; simp
        · simp only [happen, h]
          right
          refine ⟨q, ?_, hf⟩
          rw [List.erase_of_not_mem (by simp [e])]

/-- C74: with one server at a time, whatever happened to those before it. Missing: several servers in a directory (see the witness). -/
theorem c74_port_file_partial {es : List Event} (h : Alone {} es) : PortKnown es := by
  intro hr
  rcases alone_known h (.inl rfl) with h' | ⟨p, h1, h2⟩
  · exact absurd h' hr
  · exact ⟨p, by rw [after, h1]; simp, h2⟩

/-- Of two servers in a directory, the first to end removes the file of the other one. -/
theorem c74_port_file_witness : ¬ PortKnown [.start 1001, .start 1002, .close 1001] := by
  intro h
  obtain ⟨p, _, hp⟩ := h (by decide)
  revert hp
  simp [after, happen]

/-- The client of `alda repl --host example.org` does not connect to the server that is started with it. -/
theorem c74_host_witness (w : World) (hw : w.free = .ok 40000) (hl : w.listens 40000 = none) :
    (replCommand w { host := "example.org" }).2 = [.serve 40000, .session "example.org" 40000, .close] := by
  rw [((c74_server w { host := "example.org" } rfl (.inr rfl) 40000 (.inr ⟨rfl, hw⟩) hl (by decide)).1 (.inr rfl))]

/-- A world in which everything works. -/
def demo : World where
  json := fun t => if t = "{\"op\":\"describe\"}" then some (.obj [("op", .str "describe")]) else none
  free := .ok 40000
  listens := fun _ => none
  answers := fun _ _ _ => .ok (fun k => if k = "status" then some (.strings ["done"]) else none)
  ends := fun _ _ => none

example : Sendable demo "{\"op\":\"describe\"}" [("op", .str "describe")] := ⟨by simp [demo], .str "describe", by simp⟩
example : ¬ ∃ fields, Sendable demo "play" fields := by rintro ⟨_, h, _⟩; simp [demo] at h
example : wantsServer {} ∧ wantsClient {} ∧ IsPort demo {} 40000 := ⟨.inr rfl, .inr rfl, .inr ⟨rfl, rfl⟩⟩
example : wantsServer { server := true } ∧ ¬ wantsClient { server := true } := ⟨.inl rfl, by simp [wantsClient]⟩
example : ¬ wantsServer { client := true } := by simp [wantsServer]
example : Alone {} [.start 1001, .crash 1001, .start 1002] ∧ (after [.start 1001, .crash 1001, .start 1002]).running = [1002] := by
  simp [Alone, happen, after]

end ReplCommand
end Alda
