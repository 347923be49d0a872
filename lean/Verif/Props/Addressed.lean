import Verif.Props.Commands
import Verif.Props.Files
/-!
C60 for a player that the user has named, and C64 for what the user has not said.
-/
namespace Alda
namespace Cmd
open Pool Spec Player

/-- With a port or an id there is one port, or no player has that id, or the state files cannot be read. -/
theorem ports_asked {w : World} {f : Flags} (ha : f.port ≠ -1 ∨ f.playerId ≠ "") (other : List PlayerState → List PlayerState) :
    (∃ port, Chosen w f port ∧ ports w f other = .ok [port]) ∨
    (∃ x, ports w f other = .error x ∧ f.port = -1 ∧ ((w.look 0).read ≠ none ∨ ¬ ∃ st q, Known (w.dir 0) f.playerId st q)) := by
  by_cases h1 : f.port = -1
  · have h2 : f.playerId ≠ "" := ha.resolve_left (fun h => h h1)
    unfold ports
    rw [if_neg (by simpa using h1), if_pos h2]
    cases hx : playerByID w f.playerId with
    | ok p => exact .inl ⟨p.port, byID_chosen h1 h2 hx, rfl⟩
    | error e =>
      refine .inr ⟨e, rfl, h1, ?_⟩
      unfold playerByID at hx
      split at hx
      next hr => exact .inl (by simp [hr])
      · split at hx
        · cases hx
        next hn =>
          refine .inr ?_
          rintro ⟨st, q, hk⟩
          obtain ⟨p, hp, hi, _⟩ := of_known hk
          have := List.find?_eq_none.1 hn p hp
          simp [hi] at this
  · exact .inl ⟨f.port, .port h1, by unfold ports; rw [if_pos h1]⟩

theorem sendAll_one (w : World) (p : Packet) (port : Int) : sendAll w p 0 [port] = if w.reaches 0 port then [(port, p)] else [] := by
  simp only [sendAll]

theorem deliver_one {y : Timing} (p : Packet) (port : Int) (players : Int → State) :
    deliver y [(port, p)] players port = receive y p.instrs (players port) ∧ ∀ q, q ≠ port → deliver y [(port, p)] players q = players q :=
  ⟨by simp [deliver], fun q hq => deliver_other _ _ (by simpa using fun h => hq h.symm)⟩

theorem mem_sendAll_one {w : World} {p : Packet} {port : Int} {x : Int × Packet} (h : x ∈ sendAll w p 0 [port]) : x.1 = port := by
  rw [sendAll_one] at h
  split at h
  · exact congrArg Prod.fst (List.mem_singleton.1 h)
  · cases h

/-- C60: `alda stop` for a player that was named by its port or its id stops that player, if it can be reached, and does nothing to the others; it fails, without having sent
anything, only if there is no player with that id or the state files cannot be read. -/
theorem c60_stop_one (w : World) (f : Flags) (ha : f.port ≠ -1 ∨ f.playerId ≠ "") (y : Timing) (hy : y.Fair) (players : Int → State) :
    ((stop w f).failure = none → ∃ port, Chosen w f port ∧
      (w.reaches 0 port = true → deliver y (stop w f).sent players port = { players port with engine := { (players port).engine with playing := false } }) ∧
      ∀ q, q ≠ port → deliver y (stop w f).sent players q = players q) ∧
    ((stop w f).failure ≠ none → (stop w f).sent = [] ∧ f.port = -1 ∧ ((w.look 0).read ≠ none ∨ ¬ ∃ st q, Known (w.dir 0) f.playerId st q)) := by
  unfold stop
  rcases ports_asked (w := w) ha id with ⟨port, hc, h⟩ | ⟨x, h, h1, h2⟩
  · rw [h]
    refine ⟨fun _ => ⟨port, hc, ?_, ?_⟩, fun h => absurd rfl h⟩
    · intro hr
      simp only [sendAll_one, hr, if_true, (deliver_one ..).1, receive_stop hy]
      rfl
    · intro q hq
      exact deliver_other _ _ (fun x hx e => hq (by rw [← e, mem_sendAll_one hx]))
  · rw [h]
    exact ⟨fun h => (by cases h), fun _ => ⟨rfl, h1, h2⟩⟩

/-- C60: `alda shutdown` for a player that was named by its port or its id. -/
theorem c60_shutdown_one (w : World) (f : Flags) (ha : f.port ≠ -1 ∨ f.playerId ≠ "") (y : Timing) (hy : y.Fair) (players : Int → State) :
    ((shutdown w f).failure = none → ∃ port, Chosen w f port ∧
      (w.reaches 0 port = true → deliver y (shutdown w f).sent players port = { players port with running := false }) ∧
      ∀ q, q ≠ port → deliver y (shutdown w f).sent players q = players q) ∧
    ((shutdown w f).failure ≠ none → (shutdown w f).sent = [] ∧ f.port = -1 ∧ ((w.look 0).read ≠ none ∨ ¬ ∃ st q, Known (w.dir 0) f.playerId st q)) := by
  unfold shutdown
  rcases ports_asked (w := w) ha id with ⟨port, hc, h⟩ | ⟨x, h, h1, h2⟩
  · rw [h]
    refine ⟨fun _ => ⟨port, hc, ?_, ?_⟩, fun h => absurd rfl h⟩
    · intro hr
      simp only [sendAll_one, hr, if_true, (deliver_one ..).1, receive_shutdown hy]
    · intro q hq
      exact deliver_other _ _ (fun x hx e => hq (by rw [← e, mem_sendAll_one hx]))
  · rw [h]
    exact ⟨fun h => (by cases h), fun _ => ⟨rfl, h1, h2⟩⟩

/-- C60: `alda play` without a text for a player that was named by its port or its id: that player goes on, and nothing happens to the others; if it fails nothing has been sent,
and it fails only if the player cannot be reached, there is none with that id, or the state files cannot be read. -/
theorem c60_resume_one (sort : List NoteEvent → List NoteEvent) (w : World) (f : Flags) (hn : NothingGiven w f) (hargs : f.args = []) (ha : f.port ≠ -1 ∨ f.playerId ≠ "")
    (y : Timing) (hy : y.Fair) (players : Int → State) :
    ((play sort w f).failure = none → ∃ port, Chosen w f port ∧
      deliver y (play sort w f).sent players port = { players port with engine := { (players port).engine with playing := true } } ∧
      ∀ q, q ≠ port → deliver y (play sort w f).sent players q = players q) ∧
    ((play sort w f).failure ≠ none → (play sort w f).sent = [] ∧
      ((∃ port, Chosen w f port ∧ w.reaches 0 port = false) ∨ f.port = -1 ∧ ((w.look 0).read ≠ none ∨ ¬ ∃ st q, Known (w.dir 0) f.playerId st q))) := by
  unfold play
  rw [if_neg (by simpa using hargs), input_nothing hn]
  simp only
  rcases ports_asked (w := w) ha (fun ps => ps.filter (fun p => p.state == "active")) with ⟨port, hc, h⟩ | ⟨x, h, h1, h2⟩
  · rw [h]
    simp only [playAt, sendUntil_one]
    by_cases hr : w.reaches 0 port = true
    · simp only [hr, if_true]
      refine ⟨fun _ => ⟨port, hc, ?_, fun q hq => (deliver_one ..).2 q hq⟩, fun h => absurd rfl h⟩
      rw [(deliver_one ..).1, receive_play hy]
      rfl
    · rw [if_neg hr]
      exact ⟨fun h => (by cases h), fun _ => ⟨rfl, .inl ⟨port, hc, by simpa using hr⟩⟩⟩
  · rw [h]
    exact ⟨fun h => (by cases h), fun _ => ⟨rfl, .inr ⟨h1, h2⟩⟩⟩

/-- Player `b` is stopped, and `c` is not. -/
example : Chosen demoWorld { playerId := "b" } 2 ∧ (stop demoWorld { playerId := "b" }).sent = [(2, .stop)] ∧ (stop demoWorld { playerId := "b" }).failure = none ∧
    (stop demoWorld { playerId := "x" }).failure.isSome = true ∧ (shutdown demoWorld { playerId := "c" }).sent = [(3, .shutdown 0)] :=
  ⟨.id (state := "active") rfl (by decide) ⟨"b.json", 2, by decide +kernel, by decide +kernel, rfl⟩, by decide +kernel, by decide +kernel, by decide +kernel, by decide +kernel⟩

/-! ### C64 -/

/-- C64: without a width, or with the width 0, the lines are as with the width 80; without an indentation they are indented as with two blanks. A width or an indentation that is
given is the one that is used. -/
theorem c64_format_defaults (x : Troubles) (fs : Files) (f : FormatFlags) :
    formatCmd x fs { f with wrap := 0 } = formatCmd x fs { f with wrap := 80 } ∧ formatCmd x fs { f with indent := [] } = formatCmd x fs { f with indent := [' ', ' '] } := by
  constructor <;> rfl

/-- C64: what is written to stdout is the text in the formatter's layout of the given width and indentation. -/
theorem c64_format_layout (x : Troubles) (fs : Files) (f : FormatFlags) (text : List Char) (ast : Syn.Node) (hfile : fs f.file = some text) (hread : x.unreadable f.file = false)
    (hparse : Syn.parse text = .ok ast) (hwrap : 0 < f.wrap) (hindent : f.indent ≠ []) (hover : f.overwrite = false) :
    (Except.ok (formatCmd x fs f).stdout : Except Err (List Char)) = Syn.format f.wrap f.indent ast ∧ (formatCmd x fs f).failure = none := by
  obtain ⟨out, h1⟩ := Syn.c32_succeeds text ast hparse f.wrap f.indent
  have hw : f.width = f.wrap := by unfold FormatFlags.width; rw [if_pos hwrap]
  have hi : f.indentation = f.indent := by unfold FormatFlags.indentation; rw [if_pos hindent]
  unfold formatCmd
  simp only [hfile, hread, hparse, hover, Bool.false_and, Bool.false_eq_true, if_false, if_neg (Int.not_lt.2 (Int.le_of_lt hwrap)), hw, hi, h1, writeOut]
  exact ⟨trivial, trivial⟩

/-- The data that is given to `alda import`: the contents of the file, the text on the command line, or what is piped in; in this order, if there are several. -/
inductive GivenData (w : ImportWorld) (x : Troubles) (fs : Files) (f : ImportFlags) : List Char → Prop where
  | file {text : List Char} : f.file ≠ "" → fs f.file = some text → x.unreadable f.file = false → GivenData w x fs f text
  | code : f.file = "" → f.code ≠ [] → GivenData w x fs f f.code
  | piped {text : String} : f.file = "" → f.code = [] → w.stdin = .piped text → GivenData w x fs f text.toList

theorem importData_given {w : ImportWorld} {x : Troubles} {fs : Files} {f : ImportFlags} {text : List Char} (h : GivenData w x fs f text) : importData w x fs f = .ok text := by
  unfold importData
  cases h with
  | file h1 h2 h3 => rw [if_pos h1, h2]; simp [h3]
  | code h1 h2 => rw [if_neg (by simpa using h1), if_pos h2]
  | piped h1 h2 h3 => rw [if_neg (by simpa using h1), if_neg (by simpa using h2), h3]

/-- C64: the music that was given to `alda import`, in whatever way, is what the written program plays. -/
theorem c64_import_given_partial (w : ImportWorld) (x : Troubles) (fs : Files) (f : ImportFlags) (hfmt : f.importFormat = "musicxml") (ho : AnyOrder w.order) (fair : w.orders.Fair)
    (text : List Char) (hdata : GivenData w x fs f text) (roots : List Importer.Elem) (root : Importer.Elem) (hxml : w.xml text = .ok roots)
    (hroot : roots.find? (fun e => e.tag = "score-partwise") = some root) (players : List XmlPlayer) (h : ScoreOf root players) (few : players.length ≤ 15) (hp : ∀ p ∈ players, p.Playable)
    (hfinite : ∀ us, Importer.importMusicXML w.orders roots = .ok us → ∀ u ∈ us, FiniteLengths u) (hopen : x.unopenable f.output = false) (hspace : x.written = none) :
    ∃ out us t, Repl.parseCode (String.ofList out) = .ok us ∧ update us newScore = .ok t ∧ (t.events.map (heardAs t)).Perm (players.flatMap XmlPlayer.music) ∧
      (importCmd w x fs f).failure = none ∧
      (f.output = "" → (importCmd w x fs f).stdout = out ∧ (importCmd w x fs f).files = fs) ∧
      (f.output ≠ "" → (importCmd w x fs f).stdout = [] ∧ (importCmd w x fs f).files f.output = some out ∧ ∀ n, n ≠ f.output → (importCmd w x fs f).files n = fs n) :=
  c64_import_music_partial w x fs f hfmt ho fair text (importData_given hdata) roots root hxml hroot players h few hp hfinite hopen hspace

example : GivenData duetWorld {} tinyFiles { code := "<score-partwise>".toList, importFormat := "musicxml" } "<score-partwise>".toList := .code rfl (by decide)

example : GivenData { duetWorld with stdin := .piped "<score-partwise>" } {} tinyFiles { importFormat := "musicxml" } "<score-partwise>".toList := .piped rfl rfl rfl

end Cmd
end Alda
