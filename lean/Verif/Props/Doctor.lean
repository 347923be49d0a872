import Verif.Cmd.Doctor

/-!
C80: `alda doctor` tells the truth, and harms nothing.
-/
namespace Alda
namespace Doctor

/-! ### Specification -/

/-- The checks, in order. -/
def checkNames (noAudio : Bool) : List String :=
  ["Parse source code", "Generate score model", "Ensure that there are no stale player processes", "Find an open port", "Send and receive OSC messages", "Locate alda-player executable on PATH",
    "Check alda-player version", "Spawn a player process", "Ping player process"] ++ (if noAudio then [] else ["Play score", "Export score as MIDI"]) ++
  ["Locate player logs", "Player logs show the ping was received", "Shut down player process", "Spawn a player on an unknown port", "Discover the player", "Ping the player", "Shut the player down",
    "Start a REPL server", "Find the REPL server", "Interact with the REPL server", "Shut down the REPL server"]

/-- The player is found: the version is known to be the same or not. -/
def Located (x : World) (same : Bool) : Prop :=
  x.broken = false ∧ (x.found = some same ∨ (x.found = none ∧ x.wantsInstall = true ∧ x.installs = true ∧ x.foundThen = some same))

/-- The player may be taken for the one that has been spawned. -/
def Available (noAudio : Bool) (p : PlayerState) : Prop := p.state = "ready" ∨ (noAudio = true ∧ p.state = "starting")

/-- The first available player of a listing; not the one on the port given. -/
def Shows (noAudio : Bool) (old : Nat) (l : Option (List PlayerState)) (p : PlayerState) : Prop :=
  ∃ before after, l = some (before ++ p :: after) ∧ (∀ q ∈ before, ¬ Available noAudio q) ∧ Available noAudio p ∧ p.port ≠ old

/-- The first listing that shows a player. -/
def Discovered (noAudio : Bool) (old : Nat) (ls : List (Option (List PlayerState))) (p : PlayerState) : Prop :=
  ∃ before l after, ls = before ++ l :: after ∧ (∀ m ∈ before, ∀ q, ¬ Shows noAudio old m q) ∧ Shows noAudio old l p

/-- What it means that a check has succeeded. -/
def Holds (noAudio : Bool) (x : World) (name : String) : Prop :=
  (name = "Parse source code" ∧ x.parses = true) ∨
  (name = "Generate score model" ∧ x.scores = true) ∨
  (name = "Ensure that there are no stale player processes" ∧
    ∃ ps, x.states = some ps ∧ ∀ p ∈ ps, p.state = "starting" ∨ x.reachable p.port = true ∨ x.deletable p.id = true) ∨
  (name = "Find an open port" ∧ x.openPort = true) ∨
  (name = "Send and receive OSC messages" ∧ x.packets = true) ∨
  (name = "Locate alda-player executable on PATH" ∧ ∃ same, Located x same) ∨
  (name = "Check alda-player version" ∧ (Located x true ∨ (x.wantsUpdate = true ∧ x.updates = true))) ∨
  (name = "Spawn a player process" ∧ (∃ p, x.port = some p) ∧ x.starts = true) ∨
  (name = "Ping player process" ∧ x.pings = true) ∨
  (name = "Play score" ∧ x.transmits = true) ∨
  (name = "Export score as MIDI" ∧ x.exports = true ∧ ∃ ks, x.keys = some ks ∧ [84, 88, 91, 96].Sublist ks) ∨
  (name = "Locate player logs" ∧ x.logs = true) ∨
  (name = "Player logs show the ping was received" ∧ x.logged = true) ∨
  (name = "Shut down player process" ∧ x.sends = true) ∨
  (name = "Spawn a player on an unknown port" ∧ x.startsAgain = true) ∨
  (name = "Discover the player" ∧ ∃ old p, x.port = some old ∧ Discovered noAudio old x.listings p) ∨
  (name = "Ping the player" ∧ x.pingsAgain = true) ∨
  (name = "Shut the player down" ∧ x.sendsAgain = true ∧
    ∃ old p, x.port = some old ∧ Discovered noAudio old x.listings p ∧ ∃ ps, some ps ∈ x.listingsThen ∧ ∀ q ∈ ps, q.port ≠ p.port) ∨
  (name = "Start a REPL server" ∧ x.server = true) ∨
  (name = "Find the REPL server" ∧ x.serverFound = true) ∨
  (name = "Interact with the REPL server" ∧ x.session = true) ∨
  (name = "Shut down the REPL server" ∧ x.serverGone = true)

/-! ### The lines -/

/-- All checks succeed, or all up to one, which is the last. -/
def Lines (names : List String) (r : Report) : Prop :=
  (r.ok = true ∧ r.lines = names.map (fun n => (true, n))) ∨
  (r.ok = false ∧ ∃ before name after, names = before ++ name :: after ∧ r.lines = before.map (fun n => (true, n)) ++ [(false, name)])

theorem step_lines {name : String} {names : List String} {es : List Effect} {ok : Bool} {next : Report} (h : Lines names next) : Lines (name :: names) (step name es ok next) := by
  unfold step
  cases ok with
  | false => right; exact ⟨rfl, [], name, names, rfl, rfl⟩
  | true =>
    rcases h with ⟨h1, h2⟩ | ⟨h1, b, n, a, h2, h3⟩
    · left; exact ⟨h1, by simp [h2]⟩
    · right; exact ⟨h1, name :: b, n, a, by simp [h2], by simp [h3]⟩

theorem server_lines (x : World) :
    Lines ["Start a REPL server", "Find the REPL server", "Interact with the REPL server", "Shut down the REPL server"] (serverChecks x) := by
  unfold serverChecks
  apply step_lines
  have : Lines ["Find the REPL server", "Interact with the REPL server", "Shut down the REPL server"]
      (step "Find the REPL server" [] x.serverFound <| step "Interact with the REPL server" [] x.session <|
        step "Shut down the REPL server" [.closeServer] x.serverGone <| ⟨[], [], true⟩) := by
    repeat apply step_lines
    left; exact ⟨rfl, rfl⟩
  exact this

/-- C80: the checks are made in the order given, up to the first that fails; with `--no-audio` all but two. The command succeeds if and only if all of them are marked OK, and otherwise exactly the last one printed
is marked ERR. -/
theorem c80_lines (noAudio : Bool) (x : World) : Lines (checkNames noAudio) (doctor noAudio x) := by
  have hlog : Lines ["Locate player logs", "Player logs show the ping was received", "Shut down player process", "Spawn a player on an unknown port", "Discover the player", "Ping the player",
      "Shut the player down", "Start a REPL server", "Find the REPL server", "Interact with the REPL server", "Shut down the REPL server"] (logChecks noAudio x (x.port.getD 0)) := by
    unfold logChecks
    iterate 3 apply step_lines
    unfold secondPlayer
    iterate 4 apply step_lines
    exact server_lines x
  unfold doctor
  cases noAudio with
  | true =>
    iterate 9 apply step_lines
    exact hlog
  | false =>
    iterate 9 apply step_lines
    unfold audioChecks
    iterate 2 apply step_lines
    exact hlog

/-! ### The truth -/

theorem containsNotes_iff : ∀ (es ks : List Nat), containsNotes es ks = true ↔ es.Sublist ks
  | [], ks => by simp [containsNotes]
  | e :: es, [] => by simp [containsNotes]
  | e :: es, k :: ks => by
    simp only [containsNotes]
    split
    · rename_i h
      have h : k = e := by simpa using h
      subst h
      rw [containsNotes_iff es ks]; exact (List.cons_sublist_cons).symm
    · rename_i h
      have h : ¬ k = e := by simpa using h
      rw [containsNotes_iff (e :: es) ks]
      constructor
      · intro hs; exact hs.cons k
      · intro hs
        cases hs with
        | cons _ hs => exact hs
        | cons_cons _ hs => exact absurd rfl h

theorem deleteStale_iff (reachable : Nat → Bool) (deletable : String → Bool) : ∀ (ps : List PlayerState),
    (deleteStale reachable deletable ps).2 = true ↔ ∀ p ∈ ps, p.state = "starting" ∨ reachable p.port = true ∨ deletable p.id = true := by
  intro ps
  induction ps with
  | nil => simp [deleteStale]
  | cons p ps ih =>
    simp only [deleteStale, List.forall_mem_cons]
    split
    · rename_i h; rw [ih]; simp [show p.state = "starting" by simpa using h]
    · rename_i h
      have h : ¬ p.state = "starting" := by simpa using h
      split
      · rename_i h2; rw [ih]; simp [h2]
      · rename_i h2
        split
        · rename_i h3; simp [ih, h3]
        · rename_i h3; simp [h, h2, h3]

theorem locate_iff (x : World) (same : Bool) : (locate x).2 = some same ↔ Located x same := by
  unfold locate Located
  cases x.broken <;> cases x.found <;> cases x.wantsInstall <;> cases x.installs <;> simp

theorem available_iff (noAudio : Bool) (p : PlayerState) : (p.state == "ready" || (noAudio && p.state == "starting")) = true ↔ Available noAudio p := by
  simp [Available]

theorem discoverOnce_iff (noAudio : Bool) (old : Nat) (l : Option (List PlayerState)) (p : PlayerState) : discoverOnce noAudio old l = some p ↔ Shows noAudio old l p := by
  unfold discoverOnce Shows
  cases l with
  | none => simp
  | some ps =>
    dsimp only
    constructor
    · intro h
      split at h
      · cases h
      · rename_i q hq
        rw [List.find?_eq_some_iff_append] at hq
        obtain ⟨hq1, as, bs, hq2, hq3⟩ := hq
        split at h
        · cases h
        · rename_i hport
          simp only [Option.some.injEq] at h
          subst h
          refine ⟨as, bs, by rw [hq2], ?_, (available_iff _ _).1 hq1, by simpa using hport⟩
          intro r hr ha
          have := hq3 r hr
          rw [(available_iff _ _).2 ha] at this
          cases this
    · rintro ⟨before, after, h1, h2, h3, h4⟩
      have hf : ps.find? (fun p => p.state == "ready" || (noAudio && p.state == "starting")) = some p := by
        rw [List.find?_eq_some_iff_append]
        refine ⟨(available_iff _ _).2 h3, before, after, by simpa using h1, ?_⟩
        intro r hr
        rw [Bool.not_eq_true', ← Bool.not_eq_true, available_iff]
        exact h2 r hr
      rw [hf]
      dsimp only
      rw [if_neg (by simpa using h4)]

theorem await_iff {α β : Type} (f : α → Option β) (b : β) : ∀ (as : List α),
    await f as = some b ↔ ∃ before a after, as = before ++ a :: after ∧ (∀ m ∈ before, f m = none) ∧ f a = some b := by
  intro as
  induction as with
  | nil => simp [await]
  | cons a as ih =>
    simp only [await]
    split
    · rename_i c hc
      constructor
      · intro h; exact ⟨[], a, as, rfl, by simp, by rw [hc, h]⟩
      · rintro ⟨before, a', after, h1, h2, h3⟩
        cases before with
        | nil => simp only [List.nil_append, List.cons.injEq] at h1; rw [← h1.1, hc] at h3; exact h3
        | cons m ms =>
          simp only [List.cons_append, List.cons.injEq] at h1
          have := h2 m List.mem_cons_self
          rw [← h1.1, hc] at this; cases this
    · rename_i hc
      rw [ih]
      constructor
      · rintro ⟨before, a', after, h1, h2, h3⟩
        refine ⟨a :: before, a', after, by rw [h1]; rfl, ?_, h3⟩
        intro m hm
        rcases List.mem_cons.1 hm with rfl | hm
        · exact hc
        · exact h2 m hm
      · rintro ⟨before, a', after, h1, h2, h3⟩
        cases before with
        | nil => simp only [List.nil_append, List.cons.injEq] at h1; rw [← h1.1, hc] at h3; cases h3
        | cons m ms =>
          simp only [List.cons_append, List.cons.injEq] at h1
          exact ⟨ms, a', after, h1.2, fun k hk => h2 k (List.mem_cons_of_mem _ hk), h3⟩

theorem discovered_iff (noAudio : Bool) (old : Nat) (ls : List (Option (List PlayerState))) (p : PlayerState) :
    await (discoverOnce noAudio old) ls = some p ↔ Discovered noAudio old ls p := by
  rw [await_iff]
  unfold Discovered
  have hn : ∀ m, discoverOnce noAudio old m = none ↔ ∀ q, ¬ Shows noAudio old m q := by
    intro m
    simp only [← discoverOnce_iff]
    cases discoverOnce noAudio old m <;> simp
  simp only [discoverOnce_iff, hn]

theorem gone_iff (port : Nat) (ls : List (Option (List PlayerState))) :
    (await (goneOnce port) ls).isSome = true ↔ ∃ ps, some ps ∈ ls ∧ ∀ q ∈ ps, q.port ≠ port := by
  induction ls with
  | nil => simp [await]
  | cons l ls ih =>
    simp only [await]
    cases l with
    | none => simp [goneOnce, ih]
    | some ps =>
      simp only [goneOnce]
      by_cases h : (ps.any fun p => p.port == port) = true
      · rw [if_pos h]
        simp only [List.any_eq_true, beq_iff_eq] at h
        obtain ⟨q, hq1, hq2⟩ := h
        simp only [ih]
        constructor
        · rintro ⟨ps', h1, h2⟩; exact ⟨ps', List.mem_cons_of_mem _ h1, h2⟩
        · rintro ⟨ps', h1, h2⟩
          rcases List.mem_cons.1 h1 with h1 | h1
          · cases h1; exact absurd hq2 (h2 q hq1)
          · exact ⟨ps', h1, h2⟩
      · rw [if_neg h]
        simp only [Option.isSome_some, true_iff]
        refine ⟨ps, List.mem_cons_self, ?_⟩
        intro q hq heq
        exact h (by simp only [List.any_eq_true, beq_iff_eq]; exact ⟨q, hq, heq⟩)

/-- A line is that of this step or of one after it. -/
theorem step_mem {name n : String} {es : List Effect} {ok b : Bool} {next : Report} (h : (b, n) ∈ (step name es ok next).lines) :
    (b = ok ∧ n = name) ∨ (ok = true ∧ (b, n) ∈ next.lines) := by
  unfold step at h
  cases ok with
  | true => simpa using h
  | false => left; simpa using h

theorem holds_server {noAudio b : Bool} {x : World} {n : String} (h : (b, n) ∈ (serverChecks x).lines) : b = true ↔ Holds noAudio x n := by
  unfold serverChecks at h
  rcases step_mem h with ⟨rfl, rfl⟩ | ⟨-, h⟩
  · simp [Holds]
  replace h : (b, n) ∈ (step "Find the REPL server" [] x.serverFound <| step "Interact with the REPL server" [] x.session <|
        step "Shut down the REPL server" [.closeServer] x.serverGone <| ⟨[], [], true⟩).lines := h
  rcases step_mem h with ⟨rfl, rfl⟩ | ⟨-, h⟩
  · simp [Holds]
  rcases step_mem h with ⟨rfl, rfl⟩ | ⟨-, h⟩
  · simp [Holds]
  rcases step_mem h with ⟨rfl, rfl⟩ | ⟨-, h⟩
  · simp [Holds]
  cases h

theorem holds_second {noAudio b : Bool} {x : World} {n : String} {old : Nat} (hp : x.port = some old) (h : (b, n) ∈ (secondPlayer noAudio x old).lines) : b = true ↔ Holds noAudio x n := by
  unfold secondPlayer at h
  rcases step_mem h with ⟨rfl, rfl⟩ | ⟨-, h⟩
  · simp [Holds]
  dsimp only at h
  rcases step_mem h with ⟨rfl, rfl⟩ | ⟨hd, h⟩
  · simp [Holds, hp, Option.isSome_iff_exists, discovered_iff]
  obtain ⟨p, hd⟩ := Option.isSome_iff_exists.1 hd
  rw [hd] at h
  have hd' := (discovered_iff _ _ _ _).1 hd
  rcases step_mem h with ⟨rfl, rfl⟩ | ⟨-, h⟩
  · simp [Holds]
  rcases step_mem h with ⟨rfl, rfl⟩ | ⟨-, h⟩
  · have huniq : ∀ q, Discovered noAudio old x.listings q ↔ q = p := by
      intro q; rw [← discovered_iff, hd]; simp [eq_comm]
    simp [Holds, hp, huniq, gone_iff]
  exact holds_server h

theorem holds_log {noAudio b : Bool} {x : World} {n : String} {old : Nat} (hp : x.port = some old) (h : (b, n) ∈ (logChecks noAudio x old).lines) : b = true ↔ Holds noAudio x n := by
  unfold logChecks at h
  rcases step_mem h with ⟨rfl, rfl⟩ | ⟨-, h⟩
  · simp [Holds]
  rcases step_mem h with ⟨rfl, rfl⟩ | ⟨-, h⟩
  · simp [Holds]
  rcases step_mem h with ⟨rfl, rfl⟩ | ⟨-, h⟩
  · simp [Holds]
  exact holds_second hp h

theorem holds_audio {noAudio b : Bool} {x : World} {n : String} {old : Nat} (hp : x.port = some old) (h : (b, n) ∈ (audioChecks noAudio x old).lines) : b = true ↔ Holds noAudio x n := by
  unfold audioChecks at h
  split at h
  · exact holds_log hp h
  rcases step_mem h with ⟨rfl, rfl⟩ | ⟨-, h⟩
  · simp [Holds]
  rcases step_mem h with ⟨rfl, rfl⟩ | ⟨-, h⟩
  · cases hk : x.keys with
    | none => simp [Holds, hk]
    | some ks => simp [Holds, hk, containsNotes_iff, expectedNotes]
  exact holds_log hp h

/-- C80: a check is marked OK if what it is to show holds, and ERR if not. -/
theorem c80_truthful (noAudio : Bool) (x : World) (b : Bool) (n : String) (h : (b, n) ∈ (doctor noAudio x).lines) : b = true ↔ Holds noAudio x n := by
  unfold doctor at h
  rcases step_mem h with ⟨rfl, rfl⟩ | ⟨-, h⟩
  · simp [Holds]
  rcases step_mem h with ⟨rfl, rfl⟩ | ⟨-, h⟩
  · simp [Holds]
  rcases step_mem h with ⟨rfl, rfl⟩ | ⟨-, h⟩
  · unfold stale
    cases hs : x.states with
    | none => simp [Holds, hs]
    | some ps => simp [Holds, hs, deleteStale_iff]
  rcases step_mem h with ⟨rfl, rfl⟩ | ⟨-, h⟩
  · simp [Holds]
  rcases step_mem h with ⟨rfl, rfl⟩ | ⟨-, h⟩
  · simp [Holds]
  rcases step_mem h with ⟨rfl, rfl⟩ | ⟨hl, h⟩
  · simp only [Option.isSome_iff_exists, locate_iff]; simp [Holds]
  obtain ⟨same, hl⟩ := Option.isSome_iff_exists.1 hl
  dsimp only at h
  rw [hl] at h
  rcases step_mem h with ⟨rfl, rfl⟩ | ⟨-, h⟩
  · have ht := locate_iff x true
    rw [hl] at ht
    have : Holds noAudio x "Check alda-player version" ↔ (Located x true ∨ (x.wantsUpdate = true ∧ x.updates = true)) := by simp [Holds]
    rw [this, ← ht]
    unfold checkVersion
    cases same <;> cases x.wantsUpdate <;> simp
  rcases step_mem h with ⟨rfl, rfl⟩ | ⟨hs, h⟩
  · simp [Holds, Option.isSome_iff_exists]
  simp only [Bool.and_eq_true] at hs
  obtain ⟨old, hp⟩ := Option.isSome_iff_exists.1 hs.1
  rw [hp] at h
  rcases step_mem h with ⟨rfl, rfl⟩ | ⟨-, h⟩
  · simp [Holds]
  exact holds_audio hp h

/-! ### What is done -/

theorem step_effect {name : String} {es : List Effect} {ok : Bool} {next : Report} {e : Effect} (h : e ∈ (step name es ok next).effects) : e ∈ es ∨ (ok = true ∧ e ∈ next.effects) := by
  unfold step at h
  cases ok with
  | true => simpa using h
  | false => left; simpa using h

/-- What `alda doctor` may do. -/
def Allowed (noAudio : Bool) (x : World) : Effect → Prop
  | .deleteStateFile id => ∃ ps, x.states = some ps ∧ ∃ p ∈ ps, p.id = id ∧ p.state ≠ "starting" ∧ x.reachable p.port = false
  | .install => (x.found = none ∧ x.wantsInstall = true) ∨ (Located x false ∧ x.wantsUpdate = true)
  | .spawn _ => True
  | .play port => noAudio = false ∧ x.port = some port
  | .exportMidi port => noAudio = false ∧ x.port = some port
  | .shutdown port => x.port = some port ∨ ∃ ps, some ps ∈ x.listings ∧ ∃ p ∈ ps, p.port = port ∧ Available noAudio p
  | .startServer => x.server = true
  | .closeServer => x.server = true

theorem deleteStale_effects (reachable : Nat → Bool) (deletable : String → Bool) (e : Effect) : ∀ (ps : List PlayerState), e ∈ (deleteStale reachable deletable ps).1 →
    ∃ p ∈ ps, e = .deleteStateFile p.id ∧ p.state ≠ "starting" ∧ reachable p.port = false := by
  intro ps
  induction ps with
  | nil => intro h; cases h
  | cons p ps ih =>
    intro h
    have tail : e ∈ (deleteStale reachable deletable ps).1 → ∃ q ∈ p :: ps, e = .deleteStateFile q.id ∧ q.state ≠ "starting" ∧ reachable q.port = false := by
      intro h; obtain ⟨q, h1, h2⟩ := ih h; exact ⟨q, List.mem_cons_of_mem _ h1, h2⟩
    simp only [deleteStale] at h
    split at h
    · exact tail h
    · rename_i h1
      split at h
      · exact tail h
      · rename_i h2
        split at h
        · rcases List.mem_cons.1 h with h | h
          · exact ⟨p, List.mem_cons_self, h, by simpa using h1, by simpa using h2⟩
          · exact tail h
        · cases h

theorem allowed_server {noAudio : Bool} {x : World} {e : Effect} (h : e ∈ (serverChecks x).effects) : Allowed noAudio x e := by
  unfold serverChecks at h
  rcases step_effect h with h | ⟨hs, h⟩
  · split at h
    · rename_i hs; simp at h; subst h; exact hs
    · cases h
  · have : e = .closeServer := by
      dsimp only at h
      rcases List.mem_append.1 h with h | h
      · rcases step_effect h with h | ⟨-, h⟩
        · cases h
        rcases step_effect h with h | ⟨-, h⟩
        · cases h
        rcases step_effect h with h | ⟨-, h⟩
        · simpa using h
        · cases h
      · simpa using h
    subst this; exact hs

theorem allowed_log {noAudio : Bool} {x : World} {e : Effect} {old : Nat} (hp : x.port = some old) (h : e ∈ (logChecks noAudio x old).effects) : Allowed noAudio x e := by
  unfold logChecks at h
  rcases step_effect h with h | ⟨-, h⟩
  · cases h
  rcases step_effect h with h | ⟨-, h⟩
  · cases h
  rcases step_effect h with h | ⟨-, h⟩
  · simp at h; subst h; exact .inl hp
  unfold secondPlayer at h
  rcases step_effect h with h | ⟨-, h⟩
  · simp at h; subst h; trivial
  rcases step_effect h with h | ⟨hd, h⟩
  · cases h
  obtain ⟨p, hd⟩ := Option.isSome_iff_exists.1 hd
  rw [hd] at h
  rcases step_effect h with h | ⟨-, h⟩
  · cases h
  rcases step_effect h with h | ⟨-, h⟩
  · simp at h; subst h
    obtain ⟨b, l, a, h1, -, bs, as, h2, -, h3, -⟩ := (discovered_iff _ _ _ _).1 hd
    exact .inr ⟨bs ++ p :: as, by rw [h1, h2]; simp, p, by simp, rfl, h3⟩
  exact allowed_server h

/-- C80: `alda doctor` deletes only state files of players that do not answer, installs nothing unless needed and agreed to, plays only on the player that it has spawned and not with `--no-audio`, and sends the message
to shut down only to that player and to one that is ready, that is, has not been asked to play anything; with `--no-audio` also to one that is starting. -/
theorem c80_harmless_partial (noAudio : Bool) (x : World) (e : Effect) (h : e ∈ (doctor noAudio x).effects) : Allowed noAudio x e := by
  unfold doctor at h
  rcases step_effect h with h | ⟨-, h⟩
  · cases h
  rcases step_effect h with h | ⟨-, h⟩
  · cases h
  rcases step_effect h with h | ⟨-, h⟩
  · unfold stale at h
    cases hs : x.states with
    | none => rw [hs] at h; cases h
    | some ps =>
      rw [hs] at h
      obtain ⟨p, h1, rfl, h2, h3⟩ := deleteStale_effects _ _ _ _ h
      exact ⟨ps, hs, p, h1, rfl, h2, h3⟩
  rcases step_effect h with h | ⟨-, h⟩
  · cases h
  rcases step_effect h with h | ⟨-, h⟩
  · cases h
  rcases step_effect h with h | ⟨hl, h⟩
  · unfold locate at h
    cases hb : x.broken <;> cases hf : x.found <;> cases hw : x.wantsInstall <;> cases hi : x.installs <;> simp [hb, hf, hw, hi] at h <;> (subst h; exact .inl ⟨hf, hw⟩)
  obtain ⟨same, hl⟩ := Option.isSome_iff_exists.1 hl
  dsimp only at h
  rw [hl] at h
  rcases step_effect h with h | ⟨-, h⟩
  · have hl := (locate_iff _ _).1 hl
    unfold checkVersion at h
    cases same <;> cases hw : x.wantsUpdate <;> simp [hw] at h
    subst h; exact .inr ⟨hl, hw⟩
  rcases step_effect h with h | ⟨hs, h⟩
  · split at h
    · simp at h; subst h; trivial
    · cases h
  simp only [Bool.and_eq_true] at hs
  obtain ⟨old, hp⟩ := Option.isSome_iff_exists.1 hs.1
  rw [hp] at h
  rcases step_effect h with h | ⟨-, h⟩
  · cases h
  replace h : e ∈ (audioChecks noAudio x old).effects := h
  unfold audioChecks at h
  split at h
  · exact allowed_log hp h
  · rename_i hn
    have hn : noAudio = false := by simpa using hn
    rcases step_effect h with h | ⟨-, h⟩
    · simp at h; subst h; exact ⟨hn, hp⟩
    rcases step_effect h with h | ⟨-, h⟩
    · simp at h; subst h; exact ⟨hn, hp⟩
    exact allowed_log hp h

theorem step_kept {name : String} {es : List Effect} {ok : Bool} {next : Report} (h : .startServer ∉ es)
    (hn : .startServer ∈ next.effects → .closeServer ∈ next.effects) : .startServer ∈ (step name es ok next).effects → .closeServer ∈ (step name es ok next).effects := by
  unfold step
  cases ok with
  | true =>
    simp only [if_true, List.mem_append]
    rintro (h' | h')
    · exact absurd h' h
    · exact .inr (hn h')
  | false => intro h'; exact absurd h' h

/-- C80: a REPL server that has been started is closed, whatever fails after that. -/
theorem c80_closed (noAudio : Bool) (x : World) : .startServer ∈ (doctor noAudio x).effects → .closeServer ∈ (doctor noAudio x).effects := by
  have hserver : .startServer ∈ (serverChecks x).effects → .closeServer ∈ (serverChecks x).effects := by
    unfold serverChecks
    cases x.server with
    | false => intro h; simp [step] at h
    | true => intro _; simp [step]
  have hlog : ∀ old, .startServer ∈ (logChecks noAudio x old).effects → .closeServer ∈ (logChecks noAudio x old).effects := by
    intro old
    unfold logChecks secondPlayer
    iterate 7 refine step_kept (by simp) ?_
    exact hserver
  have hst : Effect.startServer ∉ (stale x).1 := by
    intro h
    unfold stale at h
    split at h
    · cases h
    · obtain ⟨_, _, h, _⟩ := deleteStale_effects _ _ _ _ h; cases h
  have hloc : Effect.startServer ∉ (locate x).1 := by
    unfold locate
    cases x.broken <;> cases x.found <;> cases x.wantsInstall <;> cases x.installs <;> simp
  have hver : ∀ same, Effect.startServer ∉ (checkVersion x same).1 := by
    intro same
    unfold checkVersion
    cases same <;> cases x.wantsUpdate <;> simp
  have hsp : Effect.startServer ∉ (if x.port.isSome then [Effect.spawn x.port] else []) := by split <;> simp
  unfold doctor audioChecks
  refine step_kept (by simp) (step_kept (by simp) (step_kept hst (step_kept (by simp) (step_kept (by simp) (step_kept hloc (step_kept (hver _) (step_kept hsp (step_kept (by simp) ?_))))))))
  split
  · exact hlog _
  · exact step_kept (by simp) (step_kept (by simp) (hlog _))

theorem step_ok {name : String} {es : List Effect} {ok : Bool} {next : Report} (h : (step name es ok next).ok = true) :
    ok = true ∧ next.ok = true ∧ ∀ e ∈ next.effects, e ∈ (step name es ok next).effects := by
  unfold step at h ⊢
  cases ok with
  | false => simp at h
  | true => exact ⟨rfl, by simpa using h, fun e he => by simp [he]⟩

/-- C80: if all is well, the player that was spawned first is told to shut down, and so is the one that was discovered. -/
theorem c80_cleaned (noAudio : Bool) (x : World) (h : (doctor noAudio x).ok = true) :
    ∃ port p, x.port = some port ∧ Discovered noAudio port x.listings p ∧ .shutdown port ∈ (doctor noAudio x).effects ∧ .shutdown p.port ∈ (doctor noAudio x).effects := by
  have hlog : ∀ old, (logChecks noAudio x old).ok = true → ∃ p, Discovered noAudio old x.listings p ∧ .shutdown old ∈ (logChecks noAudio x old).effects ∧
      .shutdown p.port ∈ (logChecks noAudio x old).effects := by
    intro old h
    unfold logChecks at h ⊢
    obtain ⟨-, h, e1⟩ := step_ok h
    obtain ⟨-, h, e2⟩ := step_ok h
    have hown : Effect.shutdown old ∈ (step "Shut down player process" [.shutdown old] x.sends (secondPlayer noAudio x old)).effects := by
      unfold step; split <;> simp
    obtain ⟨-, h, e3⟩ := step_ok h
    have hsecond : ∃ p, Discovered noAudio old x.listings p ∧ .shutdown p.port ∈ (secondPlayer noAudio x old).effects := by
      unfold secondPlayer at h ⊢
      obtain ⟨-, h, e4⟩ := step_ok h
      obtain ⟨hd, h, e5⟩ := step_ok h
      obtain ⟨-, h, e6⟩ := step_ok h
      obtain ⟨p, hd⟩ := Option.isSome_iff_exists.1 hd
      refine ⟨p, (discovered_iff _ _ _ _).1 hd, e4 _ (e5 _ (e6 _ ?_))⟩
      rw [hd]
      unfold step; split <;> simp
    obtain ⟨p, h1, h2⟩ := hsecond
    exact ⟨p, h1, e1 _ (e2 _ hown), e1 _ (e2 _ (e3 _ h2))⟩
  unfold doctor at h ⊢
  obtain ⟨-, h, e1⟩ := step_ok h
  obtain ⟨-, h, e2⟩ := step_ok h
  obtain ⟨-, h, e3⟩ := step_ok h
  obtain ⟨-, h, e4⟩ := step_ok h
  obtain ⟨-, h, e5⟩ := step_ok h
  obtain ⟨-, h, e6⟩ := step_ok h
  obtain ⟨-, h, e7⟩ := step_ok h
  obtain ⟨hp, h, e8⟩ := step_ok h
  simp only [Bool.and_eq_true] at hp
  obtain ⟨old, hp⟩ := Option.isSome_iff_exists.1 hp.1
  obtain ⟨-, h, e9⟩ := step_ok h
  have haudio : ∃ p, Discovered noAudio old x.listings p ∧ .shutdown old ∈ (audioChecks noAudio x (x.port.getD 0)).effects ∧ .shutdown p.port ∈ (audioChecks noAudio x (x.port.getD 0)).effects := by
    rw [hp] at h ⊢
    replace h : (audioChecks noAudio x old).ok = true := h
    show ∃ p, Discovered noAudio old x.listings p ∧ .shutdown old ∈ (audioChecks noAudio x old).effects ∧ .shutdown p.port ∈ (audioChecks noAudio x old).effects
    unfold audioChecks at h ⊢
    split
    · rename_i hn; rw [if_pos hn] at h; exact hlog old h
    · rename_i hn
      rw [if_neg hn] at h
      obtain ⟨-, h, f1⟩ := step_ok h
      obtain ⟨-, h, f2⟩ := step_ok h
      obtain ⟨p, h1, h2, h3⟩ := hlog old h
      exact ⟨p, h1, f1 _ (f2 _ h2), f1 _ (f2 _ h3)⟩
  obtain ⟨p, h1, h2, h3⟩ := haudio
  have lift := fun e he => e1 e (e2 e (e3 e (e4 e (e5 e (e6 e (e7 e (e8 e (e9 e he))))))))
  exact ⟨old, p, hp, h1, lift _ h2, lift _ h3⟩

/-! ### Cases -/

/-- All is well; another player is ready in the pool. -/
def sampleWorld : World where
  parses := true
  scores := true
  states := some [⟨"abc", 5000, "ready"⟩, ⟨"old", 5001, "active"⟩]
  reachable := fun p => p != 5001
  deletable := fun _ => true
  openPort := true
  packets := true
  found := some false
  broken := false
  wantsInstall := false
  installs := false
  foundThen := none
  wantsUpdate := true
  updates := true
  port := some 6000
  starts := true
  pings := true
  transmits := true
  exports := true
  keys := some [84, 84, 88, 91, 84, 96]
  logs := true
  logged := true
  sends := true
  startsAgain := true
  listings := [none, some [⟨"abc", 5000, "ready"⟩, ⟨"new", 7000, "starting"⟩]]
  pingsAgain := true
  sendsAgain := true
  listingsThen := [some [⟨"new", 7000, "ready"⟩]]
  server := true
  serverFound := true
  session := true
  serverGone := true

example : (doctor false sampleWorld).ok = true ∧ (doctor false sampleWorld).lines.length = 22 ∧ (doctor true sampleWorld).lines.length = 20 := by decide +kernel

example : (doctor false { sampleWorld with keys := some [84, 91, 88, 96] }).lines.getLast? = some (false, "Export score as MIDI") := by decide +kernel

example : (true, "Export score as MIDI") ∈ (doctor false sampleWorld).lines ∧ .deleteStateFile "old" ∈ (doctor false sampleWorld).effects ∧ .install ∈ (doctor false sampleWorld).effects := by decide +kernel

example : .closeServer ∈ (doctor false { sampleWorld with session := false }).effects ∧ (doctor false { sampleWorld with session := false }).ok = false := by decide +kernel

/-- It is not true that `alda doctor` shuts down only the players that it has spawned: it takes any player that is ready for its own. Here it is one that was there before. The player that it has spawned goes on. -/
theorem c80_other_witness : ∃ x : World, (doctor false x).ok = true ∧ ∃ ps p, x.states = some ps ∧ p ∈ ps ∧ .shutdown p.port ∈ (doctor false x).effects := by
  refine ⟨sampleWorld, by decide +kernel, _, ⟨"abc", 5000, "ready"⟩, rfl, by decide +kernel, by decide +kernel⟩

/-- If a check fails, the player that has been spawned is left running. -/
theorem c80_left_witness : ∃ (x : World) (port : Nat), (doctor false x).ok = false ∧ .spawn (some port) ∈ (doctor false x).effects ∧ .shutdown port ∉ (doctor false x).effects :=
  ⟨{ sampleWorld with keys := none }, 6000, by decide +kernel, by decide +kernel, by decide +kernel⟩

end Doctor
end Alda
