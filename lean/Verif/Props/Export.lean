import Verif.Props.Commands
/-!
C61: what the command `alda export` does.
-/
namespace Alda
namespace Cmd
open Pool Spec Player

/-- Opening the file succeeds at the first time at which it is there. -/
theorem openFile_some {w : World} {name : String} (n : Nat) : ∀ {t t' : Nat}, openFile w name t n = some t' → (w.fs t' name).isSome = true ∧ t ≤ t' ∧ t' ≤ t + n := by
  induction n with
  | zero =>
    intro t t' h
    rw [openFile] at h
    cases hf : w.fs t name with
    | none => rw [hf] at h; cases h
    | some c => rw [hf] at h; cases h; rw [hf]; exact ⟨rfl, Nat.le_refl _, Nat.le_refl _⟩
  | succ n ih =>
    intro t t' h
    rw [openFile] at h
    split at h
    next hs => cases h; exact ⟨hs, Nat.le_refl _, by omega⟩
    · obtain ⟨h1, h2, h3⟩ := ih h; exact ⟨h1, by omega, by omega⟩

theorem openFile_none {w : World} {name : String} (n : Nat) : ∀ {t : Nat}, openFile w name t n = none → ∀ t', t ≤ t' → t' ≤ t + n → w.fs t' name = none := by
  induction n with
  | zero =>
    intro t h t' h1 h2
    have : t' = t := by omega
    subst this
    rw [openFile] at h
    simpa using h
  | succ n ih =>
    intro t h t' h1 h2
    rw [openFile] at h
    split at h
    · cases h
    next hs =>
      by_cases he : t' = t
      · subst he; simpa using hs
      · exact ih h t' (by omega) (by omega)

/-- What has come of `alda export`: it has failed before anything was exported; or the score has been loaded into a player, which has been asked to export it to a file; and then
the file has been found or not. -/
inductive Exports (sort : List NoteEvent → List NoteEvent) (w : World) (f : Flags) (text : String) : Result → Prop where
  | failed {r : Result} : r.failure ≠ none → (∀ m ∈ r.said, m = "Starting player processes...") → r.output = [] → (∀ port name, (port, Packet.exportTo name) ∉ r.sent) →
      (∀ port ms, (port, Packet.bundle ms) ∈ r.sent → (port, Packet.shutdown 0) ∈ r.sent ∨ ∃ n, w.reaches n port = false) → Exports sort w f text r
  | sent {r : Result} {port : Int} {program : List Upd} {s : Score} {ms : List Msg} {name : String} :
      Chosen w { f with port := -1, playerId := "" } port → Means text program s → scoreToBundle sort s { from_ := f.from_, to_ := f.to_, loadOnly := true } = .ok ms →
      (f.output ≠ "" ∧ name = f.output ∨ f.output = "" ∧ w.tmp = .ok name) → r.failure = none →
      (r.sent = [(port, .bundle ms), (port, .exportTo name), (port, .shutdown 0)] ∨ (r.sent = [(port, .bundle ms), (port, .exportTo name)] ∧ w.reaches 2 port = false)) →
      ((openFile w name 0 w.polls = none ∧ (∀ m ∈ r.said, m = "Starting player processes..." ∨ m = "Exporting...") ∧ r.output = []) ∨
        ∃ t, openFile w name 0 w.polls = some t ∧
          ((f.output ≠ "" ∧ r.output = [] ∧ ("Exported score to " ++ f.output) ∈ r.said) ∨
            (f.output = "" ∧ r.output = (w.fs (t + 1) name).getD [] ∧ ∀ m ∈ r.said, m = "Starting player processes..." ∨ m = "Exporting..."))) → Exports sort w f text r

theorem awaitPlayer_said (w : World) : ∀ m ∈ (awaitPlayer w).1, m = "Starting player processes..." := by
  unfold awaitPlayer
  split <;> simp

theorem exportAt_exports {sort : List NoteEvent → List NoteEvent} {w : World} {f : Flags} {text : String} {program : List Upd} {s : Score} (hm : Means text program s) {said : List String}
    (hs : ∀ m ∈ said, m = "Starting player processes...") {port : Int} (hc : Chosen w { f with port := -1, playerId := "" } port) :
    Exports sort w f text (exportAt w f said port (scoreToBundle sort s { from_ := f.from_, to_ := f.to_, loadOnly := true })) := by
  unfold exportAt
  split
  · exact .failed (by simp [fail]) hs rfl (by simp [fail]) (by simp [fail])
  next ms hb =>
    split
    · exact .failed (by simp [fail]) hs rfl (by simp [fail]) (by simp [fail])
    next h0 =>
      have bye : ∀ n, (port, Packet.shutdown 0) ∈ goodbye w port n ∨ ∃ n, w.reaches n port = false := by
        intro n
        unfold goodbye
        by_cases hr : w.reaches n port = true
        · rw [if_pos hr]; exact .inl (List.mem_singleton.2 rfl)
        · exact .inr ⟨n, by simpa using hr⟩
      have noExport : ∀ n port' name, (port', Packet.exportTo name) ∉ [(port, Packet.bundle ms)] ++ goodbye w port n := by
        intro n port' name h
        unfold goodbye at h
        split at h <;> simp at h
      have noBundle : ∀ n port' ms', (port', Packet.bundle ms') ∈ [(port, Packet.bundle ms)] ++ goodbye w port n →
          (port', Packet.shutdown 0) ∈ [(port, Packet.bundle ms)] ++ goodbye w port n ∨ ∃ n, w.reaches n port' = false := by
        intro n port' ms' h
        have : port' = port := by
          unfold goodbye at h
          split at h <;> simp at h <;> exact h.1
        subst this
        rcases bye n with h | h
        · exact .inl (List.mem_append_right _ h)
        · exact .inr h
      simp only
      split
      · exact .failed (by simp) hs rfl (noExport 1) (noBundle 1)
      next name hname =>
        have hname' : f.output ≠ "" ∧ name = f.output ∨ f.output = "" ∧ w.tmp = .ok name := by
          by_cases ho : f.output = ""
          · rw [if_neg (by simpa using ho)] at hname; exact .inr ⟨ho, hname⟩
          · rw [if_pos ho] at hname; cases hname; exact .inl ⟨ho, rfl⟩
        split
        · exact .failed (by simp) hs rfl (noExport 2) (noBundle 2)
        · have hsent : [(port, Packet.bundle ms)] ++ [(port, Packet.exportTo name)] ++ goodbye w port 2 = [(port, .bundle ms), (port, .exportTo name), (port, .shutdown 0)] ∨
              ([(port, Packet.bundle ms)] ++ [(port, Packet.exportTo name)] ++ goodbye w port 2 = [(port, .bundle ms), (port, .exportTo name)] ∧ w.reaches 2 port = false) := by
            unfold goodbye
            by_cases hr : w.reaches 2 port = true
            · rw [if_pos hr]; exact .inl rfl
            · rw [if_neg hr]; exact .inr ⟨rfl, by simpa using hr⟩
          have hsaid : ∀ m ∈ said ++ ["Exporting..."], m = "Starting player processes..." ∨ m = "Exporting..." := by
            intro m h
            rcases List.mem_append.1 h with h | h
            · exact .inl (hs m h)
            · exact .inr (List.mem_singleton.1 h)
          split
          next ho => exact .sent hc hm hb hname' rfl hsent (.inl ⟨ho, hsaid, rfl⟩)
          next t ho =>
            split
            next h1 => exact .sent hc hm hb hname' rfl hsent (.inr ⟨t, ho, .inl ⟨h1, rfl, by simp⟩⟩)
            next h1 => exact .sent hc hm hb hname' rfl hsent (.inr ⟨t, ho, .inr ⟨by simpa using h1, rfl, hsaid⟩⟩)

theorem export_text (sort : List NoteEvent → List NoteEvent) {w : World} {f : Flags} {text : String} (hg : Given w f text) : Exports sort w f text (exportScore sort w f) := by
  unfold exportScore
  split
  · exact .failed (by simp [fail]) (by simp [fail]) rfl (by simp [fail]) (by simp [fail])
  rw [input_given hg]
  cases hp : Repl.parseCode text with
  | error e => exact .failed (by simp [fail]) (by simp [fail]) rfl (by simp [fail]) (by simp [fail])
  | ok program =>
    simp only
    split
    · exact .failed (by simp [fail]) (by simp [fail]) rfl (by simp [fail]) (by simp [fail])
    next score hu =>
      have hsaid := awaitPlayer_said w
      split
      next said x ha =>
        rw [ha] at hsaid
        exact .failed (by simp) hsaid rfl (by simp) (by simp)
      next said p ha =>
        rw [ha] at hsaid
        exact exportAt_exports ⟨hp, by rw [hu], by rw [hu]⟩ hsaid (awaitPlayer_chosen (f := { f with port := -1, playerId := "" }) rfl rfl ha)

theorem said_exported {output : String} : "Exported score to " ++ output ≠ "Starting player processes..." ∧ "Exported score to " ++ output ≠ "Exporting..." := by
  constructor <;>
  · intro h
    have := congrArg String.toList h
    rw [String.toList_append] at this
    have := congrArg (List.drop 1) this
    have := congrArg (List.take 8) this
    simp at this

/-- C61, if the file is not there, as the command sees it, before the player has written it, and the player writes it at once: a command that says that it has exported the
score to a file has done so. Missing from the full statement: a file that was there before (`c61_stale_witness`). -/
theorem c61_partial (sort : List NoteEvent → List NoteEvent) (w : World) (f : Flags) (text : String) (hg : Given w f text) (data : List Nat)
    (honly : ∀ t c, w.fs t f.output = some c → c = data) (h : ("Exported score to " ++ f.output) ∈ (exportScore sort w f).said) :
    f.output ≠ "" ∧ (exportScore sort w f).failure = none ∧ ∃ t, t ≤ w.polls ∧ w.fs t f.output = some data := by
  cases export_text sort hg with
  | failed _ h1 => exact absurd (h1 _ h) said_exported.1
  | sent _ _ _ h1 h2 _ h3 =>
    rcases h3 with ⟨_, h3, _⟩ | ⟨t, ho, ⟨h3, _⟩ | ⟨_, _, h3⟩⟩
    · rcases h3 _ h with h | h
      · exact absurd h said_exported.1
      · exact absurd h said_exported.2
    · rcases h1 with ⟨_, rfl⟩ | ⟨h1, _⟩
      · obtain ⟨e1, _, e2⟩ := openFile_some _ ho
        obtain ⟨c, hc⟩ := Option.isSome_iff_exists.1 e1
        exact ⟨h3, h2, t, by omega, by rw [hc, honly t c hc]⟩
      · exact absurd h1 h3
    · rcases h3 _ h with h | h
      · exact absurd h said_exported.1
      · exact absurd h said_exported.2

/-- C61, under the same conditions for the temporary file: what is written to stdout is the exported score, or nothing. Missing from the full statement: a file that is not
written at once (`c61_torn_witness`). -/
theorem c61_stdout_partial (sort : List NoteEvent → List NoteEvent) (w : World) (f : Flags) (text : String) (hg : Given w f text) (name : String) (hn : w.tmp = .ok name) (data : List Nat)
    (honly : ∀ t c, w.fs t name = some c → c = data) : (exportScore sort w f).output = data ∨ (exportScore sort w f).output = [] := by
  cases export_text sort hg with
  | failed _ _ h1 => exact .inr h1
  | sent _ _ _ h1 h2 _ h3 =>
    rcases h3 with ⟨_, _, h3⟩ | ⟨t, ho, ⟨_, h3, _⟩ | ⟨h3, h4, _⟩⟩
    · exact .inr h3
    · exact .inr h3
    · rcases h1 with ⟨h1, _⟩ | ⟨_, h1⟩
      · exact absurd h3 h1
      · rw [hn] at h1
        cases h1
        rw [h4]
        cases hf : w.fs (t + 1) name with
        | none => exact .inr rfl
        | some c => exact .inl (honly _ _ hf)

/-- C61: a command that fails has exported nothing, has not said that it has, and leaves no score in any player that it can reach (which otherwise would be played by a
later `alda play`). -/
theorem c61_failed (sort : List NoteEvent → List NoteEvent) (w : World) (f : Flags) (text : String) (hg : Given w f text) (hf : (exportScore sort w f).failure ≠ none) :
    ("Exported score to " ++ f.output) ∉ (exportScore sort w f).said ∧ (exportScore sort w f).output = [] ∧ (∀ port name, (port, Packet.exportTo name) ∉ (exportScore sort w f).sent) ∧
    ∀ port ms, (port, Packet.bundle ms) ∈ (exportScore sort w f).sent → (port, Packet.shutdown 0) ∈ (exportScore sort w f).sent ∨ ∃ n, w.reaches n port = false := by
  cases export_text sort hg with
  | failed _ h1 h2 h3 h4 => exact ⟨fun h => absurd (h1 _ h) said_exported.1, h2, h3, h4⟩
  | sent _ _ _ _ h2 => exact absurd h2 hf

theorem exports_score (ms : List Msg) : ∀ u : Updates, ((ms.map Instr.score).foldl Updates.parse u).exports = u.exports := by
  induction ms with
  | nil => intro u; rfl
  | cons m ms ih =>
    intro u
    rw [List.map_cons, List.foldl_cons, ih]
    cases m <;> simp only [Updates.parse]
    split <;> rfl

theorem bundle_files (y : Timing) (ms : List Msg) (s : State) : (receive y (ms.map .score) s).files = s.files := by
  have hu : (parseUpdates (ms.map .score)).exports = [] := exports_score ms {}
  unfold receive
  generalize parseUpdates (ms.map .score) = u at hu
  unfold Player.applyUpdates
  simp only [hu, scheduleTracks, List.map_nil, List.append_nil]
  repeat' split
  all_goals rfl

theorem Matches.map_right {α β γ : Type} {R : α → β → Prop} {S : α → γ → Prop} {g : β → γ} (h : ∀ a b, R a b → S a (g b)) : ∀ {l : List α} {k : List β}, Matches R l k → Matches S l (k.map g) := by
  intro l k hk
  induction hk with
  | nil => exact .nil
  | cons hr _ ih => exact .cons (h _ _ hr) ih

theorem export_keeps {y : Timing} (hy : y.Fair) (name : String) (s : State) : receive y (Packet.exportTo name).instrs s = { s with files := s.files ++ [(name, s.engine.export)] } := by
  simp [Packet.instrs, receive, parseUpdates, Updates.parse, Player.applyUpdates, eachOf, scheduleTracks, mix_nil hy]

/-- C61: the file that the player writes for `alda export`, if the player has just started: the notes of the text between the places that were given, as in C52, and without the
time before the first one, as in C54. Then the player shuts down, without having played anything.

What is missing for all texts is what is missing in C52. -/
theorem c61_file_partial {sort : List NoteEvent → List NoteEvent} (hsort : SortsByOffset sort) (w : World) (f : Flags) (text : String) (hg : Given w f text)
    (hok : (exportScore sort w f).failure = none) (hreach : ∀ n port, w.reaches n port = true) (y : Timing) (hy : y.Fair) (players : Int → State) :
    ∃ port program s ms name, Chosen w { f with port := -1, playerId := "" } port ∧ Means text program s ∧ (f.output ≠ "" → name = f.output) ∧
      (∀ q, q ≠ port → deliver y (exportScore sort w f).sent players q = players q) ∧
      (exportScore sort w f).sent = [(port, .bundle ms), (port, .exportTo name), (port, .shutdown 0)] ∧ ∃ start stop, Stands s f.from_ 0 start ∧ Stands s f.to_ maxFloat stop ∧
      ∀ (m : Rat) (notes : List NoteEvent), players port = fresh → 4 ≤ m → m ≤ 120 → (∀ o v, Msg.tempo o v ∈ ms → m ≤ v ∧ (0 < o → 234375 ≤ 1000 * o * m)) →
        notes = s.events.filter (fun e => decide (start ≤ e.offset) && decide (e.offset < stop)) → notes ≠ [] → (∀ e ∈ notes, 0 ≤ e.audible) →
        notes.Pairwise (fun a b => a.channel = b.channel → a.note = b.note → Pause (1 / 2) a b) →
        (∀ a ∈ notes, ∀ b ∈ notes, a.channel = b.channel → a.part = b.part ∨ Pause (((tempoTimes ms).length + 1) * (60000 / (m * 128)) + 3 / 2) a b) →
        let player := deliver y (exportScore sort w f).sent players port
        (∀ e ∈ player.engine.track, e.tick < 2 ^ 63) →
        player.running = false ∧ player.engine.playing = false ∧
          ∃ exported first tick played, player.files = [(name, exported)] ∧ played.Perm notes ∧
            KeepsTime player.engine.track tick (fun t => ((tempoTimes ms).countP (fun o => decide (o ≤ t)) + 1) * (234375 / m) + tick t / 256) ∧
            Matches (fun e h => SoundsAs s start tick e { h with start := h.start + first, stop := h.stop.map (· + first) }) played (tones exported {}) ∧
            (∀ e ∈ player.engine.track, Heard e.msg → first ≤ e.tick) ∧ (∃ e ∈ player.engine.track, Heard e.msg ∧ e.tick = first) ∧
            ∀ t, first ≤ t → clock exported (t - first) = clock player.engine.track t - clock player.engine.track first := by
  cases export_text sort hg with
  | failed h => exact absurd hok h
  | @sent port program s ms name hc hm hb hname _ hsent hfile =>
    have hs : (exportScore sort w f).sent = [(port, .bundle ms), (port, .exportTo name), (port, .shutdown 0)] := by
      rcases hsent with h | ⟨_, h⟩
      · exact h
      · rw [hreach] at h; cases h
    obtain ⟨start, stop, hstart, hstop⟩ : ∃ start stop, Stands s f.from_ 0 start ∧ Stands s f.to_ maxFloat stop := bundle_stands hb
    refine ⟨port, program, s, ms, name, hc, hm, ?_, ?_, hs, start, stop, hstart, hstop, ?_⟩
    · intro h; rcases hname with h1 | h1
      · exact h1.2
      · exact absurd h1.1 h
    · intro q hq
      rw [hs]
      exact deliver_other _ _ (by intro x hx; simp at hx; rcases hx with rfl | rfl | rfl <;> exact fun h => hq h.symm)
    · intro m notes hfresh m1 m2 ht hn hne hlen hkey hown
      have hd : deliver y (exportScore sort w f).sent players port =
          { receive y (ms.map .score) fresh with running := false, files := (receive y (ms.map .score) fresh).files ++ [(name, (receive y (ms.map .score) fresh).engine.export)] } := by
        rw [hs]
        simp only [deliver, if_pos]
        rw [hfresh, receive_shutdown hy, export_keeps hy]
        rfl
      simp only
      rw [hd]
      intro hlong
      have key := c52_partial hsort program (parseCode_written hm.1) s hm.2.2 { from_ := f.from_, to_ := f.to_, loadOnly := true } rfl (fun _ => rfl) ms hb start stop hstart hstop m m1 m2 ht notes
        (by rw [hn]; simp) hlen hkey hown y hy
      simp only at key
      obtain ⟨k1, k2, tick, played, k3, k4, k5⟩ := key
      have hsome : tones (receive y (ms.map .score) fresh).engine.track {} ≠ [] := by
        intro h
        rw [h] at k5
        cases k5
        exact hne (List.nil_perm.1 k4)
      obtain ⟨exported, first, e1, _, e3, e4, e5, e6⟩ := c54_export [(y, ms.map .score)] _ rfl y hy name hlong hsome
      simp only [List.foldl_cons, List.foldl_nil] at e1 e3 e4 e5 e6
      have he : exported = (receive y (ms.map .score) fresh).engine.export := by
        have := export_keeps hy name (receive y (ms.map .score) fresh)
        simp only [Packet.instrs] at this
        rw [this] at e1
        simp only [List.append_cancel_left_eq, List.cons.injEq, Prod.mk.injEq, true_and, and_true] at e1
        exact e1.symm
      refine ⟨rfl, k1, exported, first, tick, played, ?_, k4, k3, ?_, e3, e4, e6⟩
      · rw [he, bundle_files]; rfl
      · rw [e5]
        refine Matches.map_right (g := fun t => { t with start := t.start - first, stop := t.stop.map (· - first) }) ?_ k5
        intro a t ht
        have e : ({ t with start := t.start - first + first, stop := (t.stop.map (· - first)).map (· + first) } : Tone) = t := by
          obtain ⟨t1, t2, t3, t4, t5, t6, t7, t8⟩ := t
          simp only [Tone.mk.injEq, and_true]
          refine ⟨by omega, ?_⟩
          cases t2 with
          | none => rfl
          | some x => simp
        simp only
        rw [e]
        exact ht

/-- A world with a player that is ready, and files. -/
def exportWorld (disk : Nat → String → Option (List Nat)) : World :=
  { look := fun _ => { answers := fun _ => true }, dir := fun _ => [("c.json", .player "ready" 3)], disk := disk, polls := 600, tmp := .ok "/tmp/x.mid" }

/-- C61 is false for a file that was there before: `alda export` says that it has exported the score as soon as it has asked the player to do so, whatever comes of it. -/
theorem c61_stale_witness : ∃ (w : World) (f : Flags) (text : String) (old : List Nat), Given w f text ∧ (∀ t, w.fs t f.output = some old) ∧
    (exportScore insertSort w f).said = ["Exporting...", "Exported score to " ++ f.output] ∧ (exportScore insertSort w f).failure = none :=
  ⟨exportWorld (fun _ p => if p = "/home/a.mid" then some [1] else none), { code := "piano: c", output := "a.mid" }, "piano: c", [1], .code rfl (by decide), fun _ => (by decide +kernel : (if place "/home" "a.mid" = "/home/a.mid" then some [1] else none) = some [1]),
    by decide +kernel, by decide +kernel⟩

/-- The disk on which a player, which runs in a directory, has written a file at once. -/
def written (cwd name : String) (data : List Nat) : Nat → String → Option (List Nat) := fun _ p => if p = place cwd name then some data else none

/-- C61 is false for a player that runs in another directory, that is, one that was started by a command in another directory: the file is written there. The command waits for a
minute, and then it succeeds, without saying anything. -/
theorem c61_elsewhere_witness : ∃ (w : World) (f : Flags) (text : String) (data : List Nat), Given w f text ∧ w.disk = written "/music" f.output data ∧ w.cwd = "/home" ∧
    (3, Packet.exportTo f.output) ∈ (exportScore insertSort w f).sent ∧ (exportScore insertSort w f).said = ["Exporting..."] ∧ (exportScore insertSort w f).failure = none :=
  ⟨exportWorld (written "/music" "a.mid" [1]), { code := "piano: c", output := "a.mid" }, "piano: c", [1], .code rfl (by decide), rfl, rfl, by decide +kernel, by decide +kernel, by decide +kernel⟩

/-- C61 is false for stdout if the file is opened while the player has created it but not yet written it: nothing, or a part, is written, and the command succeeds. -/
theorem c61_torn_witness : ∃ (w : World) (f : Flags) (text : String) (name : String) (data : List Nat), Given w f text ∧ f.output = "" ∧ w.tmp = .ok name ∧
    (∀ t, w.fs t name = some (if t = 0 then [] else if t = 1 then [77] else data)) ∧ data = [77, 84, 104, 100] ∧
    (exportScore insertSort w f).output = [77] ∧ (exportScore insertSort w f).failure = none :=
  ⟨exportWorld (fun t _ => some (if t = 0 then [] else if t = 1 then [77] else [77, 84, 104, 100])), { code := "piano: c" }, "piano: c", "/tmp/x.mid", _, .code rfl (by decide), rfl, rfl,
    fun _ => rfl, rfl, by decide +kernel, by decide +kernel⟩

/-- The file is there from the third time on. -/
def exportDemo : World := exportWorld (fun t p => if 3 ≤ t then written "/home" "a.mid" [1, 2] t p else none)

example : Given exportDemo { code := "piano: c", output := "a.mid" } "piano: c" ∧ (∀ t c, exportDemo.fs t "a.mid" = some c → c = [1, 2]) ∧
    ("Exported score to " ++ "a.mid") ∈ (exportScore insertSort exportDemo { code := "piano: c", output := "a.mid" }).said ∧ (∀ n port, exportDemo.reaches n port = true) := by
  refine ⟨.code rfl (by decide), ?_, by decide +kernel, fun _ _ => rfl⟩
  intro t c h
  simp only [World.fs, exportDemo, exportWorld, written] at h
  split at h
  · split at h
    · cases h; rfl
    · cases h
  · cases h

example : (exportScore insertSort exportDemo { code := "piano: q" }).failure ≠ none ∧ (exportScore insertSort exportDemo { code := "piano: c", output := "a.mid" }).sent.map (·.1) = [3, 3, 3] :=
  ⟨by decide +kernel, by decide +kernel⟩

end Cmd
end Alda
