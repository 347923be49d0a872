import Verif.Spec.Commands
import Verif.Lemmas.Written
import Verif.Props.Pool
import Verif.Props.Player
import Verif.Props.PlayerWitness
/-!
C60: what the commands `alda play`, `alda stop` and `alda shutdown` do.
-/
namespace Alda
namespace Cmd
open Pool Spec Player

theorem parseCode_written {text : String} {program : List Upd} (h : Repl.parseCode text = .ok program) : WrittenL program := by
  unfold Repl.parseCode at h
  split at h
  · cases h
  · exact Syn.updatesOf_written _ _ h

theorem input_given {w : World} {f : Flags} {text : String} (h : Given w f text) : input w f = some (Repl.parseCode text) := by
  unfold input
  cases h with
  | file h1 h2 => rw [if_pos h1, h2]
  | code h1 h2 => rw [if_neg (by simpa using h1), if_pos h2]
  | piped h1 h2 h3 => rw [if_neg (by simpa using h1), if_neg (by simpa using h2), h3]

theorem input_nothing {w : World} {f : Flags} (h : NothingGiven w f) : input w f = none := by
  obtain ⟨h1, h2, h3⟩ := h
  unfold input
  rw [if_neg (by simpa using h1), if_neg (by simpa using h2), h3]

theorem await_ok {α : Type} {test : Nat → Except Failure α} {a : α} (n : Nat) : ∀ i, await test i n = .ok a → ∃ j, test j = .ok a := by
  induction n with
  | zero => intro i h; exact ⟨i, h⟩
  | succ n ih =>
    intro i h
    rw [await] at h
    split at h
    next b hb => exact ⟨i, by rw [hb]; exact h⟩
    · cases h
    · exact ih _ h

theorem known_of {dir : Directory} {p : PlayerState} (h : p ∈ readPlayerStates dir) : Known dir p.id p.state p.port := by
  induction dir with
  | nil => cases h
  | cons d dir ih =>
    obtain ⟨name, c⟩ := d
    have rest : p ∈ readPlayerStates dir → Known ((name, c) :: dir) p.id p.state p.port := fun h => by
      obtain ⟨n, q, h1, h2, h3⟩ := ih h
      exact ⟨n, q, List.mem_cons_of_mem _ h1, h2, h3⟩
    cases c with
    | empty => exact rest h
    | unreadable => exact rest h
    | player st port =>
      rcases List.mem_cons.1 h with rfl | h
      · exact ⟨name, port, List.mem_cons_self .., rfl, rfl⟩
      · exact rest h

theorem of_known {dir : Directory} {id st : String} {port : Int} (h : Known dir id st port) : ∃ p ∈ readPlayerStates dir, p.id = id ∧ p.state = st ∧ (p.port : Int) = port := by
  obtain ⟨name, q, h, h1, h2⟩ := h
  induction dir with
  | nil => cases h
  | cons d dir ih =>
    rcases List.mem_cons.1 h with rfl | h
    · exact ⟨_, List.mem_cons_self .., h1, rfl, h2.symm⟩
    · obtain ⟨p, hp, hq⟩ := ih h
      obtain ⟨n, c⟩ := d
      cases c with
      | empty => exact ⟨p, hp, hq⟩
      | unreadable => exact ⟨p, hp, hq⟩
      | player st port => exact ⟨p, List.mem_cons_of_mem _ hp, hq⟩

theorem search_chosen {w : World} {f : Flags} {i : Nat} {p : PlayerState} (h1 : f.port = -1) (h2 : f.playerId = "") (h : search w i = .ok p) : Chosen w f p.port := by
  unfold search at h
  split at h <;> try cases h
  next hp =>
    obtain ⟨_, ha, dir, ⟨name, hl⟩, hs⟩ := c46_found _ _ _ _ hp
    exact .free h1 h2 hs ⟨name, p.port, hl, rfl, rfl⟩ ha

theorem awaitPlayer_chosen {w : World} {f : Flags} {said : List String} {p : PlayerState} (h1 : f.port = -1) (h2 : f.playerId = "") (h : awaitPlayer w = (said, .ok p)) : Chosen w f p.port := by
  unfold awaitPlayer at h
  split at h <;> (simp only [Prod.mk.injEq] at h; obtain ⟨_, h⟩ := h)
  · cases h
  · obtain ⟨j, hj⟩ := await_ok _ _ h
    exact search_chosen h1 h2 hj
  · obtain ⟨j, hj⟩ := await_ok _ _ h
    exact search_chosen h1 h2 hj

theorem byID_chosen {w : World} {f : Flags} {p : PlayerState} (h1 : f.port = -1) (h2 : f.playerId ≠ "") (h : playerByID w f.playerId = .ok p) : Chosen w f p.port := by
  unfold playerByID at h
  split at h
  · cases h
  · split at h <;> try cases h
    next hp =>
      have hm := List.mem_of_find?_eq_some hp
      have hi := List.find?_some hp
      simp only [beq_iff_eq] at hi
      exact .id h1 h2 (hi ▸ known_of hm)

theorem sendUntil_one (w : World) (p : Packet) (port : Int) : sendUntil w p 0 [port] = if w.reaches 0 port then ([(port, p)], none) else ([], some (.user "connection refused")) := by
  simp only [sendUntil]

theorem playAt_one (w : World) (p : Packet) (said : List String) (port : Int) : playAt w p said [port] =
    if w.reaches 0 port then { sent := [(port, p)], said := said ++ ["Playing..."] } else { said := said, failure := some (.error (.user "connection refused")) } := by
  unfold playAt
  rw [sendUntil_one]
  split <;> rfl

theorem offsetOr_stands {s : Score} {r : String} {d o : Rat} (h : offsetOr s r d = .ok o) : Stands s r d o := by
  unfold offsetOr at h
  by_cases hr : r = ""
  · rw [if_neg (by simpa using hr)] at h; cases h; exact .inl ⟨hr, rfl⟩
  · rw [if_pos hr] at h; exact .inr ⟨hr, h⟩

theorem bundle_stands {sort : List NoteEvent → List NoteEvent} {s : Score} {x : Transmission} {ms : List Msg} (h : scoreToBundle sort s x = .ok ms) :
    ∃ start stop, Stands s x.from_ 0 start ∧ Stands s x.to_ maxFloat stop := by
  unfold scoreToBundle at h
  split at h
  · cases h
  · split at h <;> try cases h
    next h1 h2 => exact ⟨_, _, offsetOr_stands h1, offsetOr_stands h2⟩

/-- The text has been sent to one player, or nothing has been sent. -/
def Plays (sort : List NoteEvent → List NoteEvent) (w : World) (f : Flags) (text : String) (r : Result) : Prop :=
  (∃ port program s ms, Chosen w f port ∧ Means text program s ∧ scoreToBundle sort s { from_ := f.from_, to_ := f.to_, oneOff := true } = .ok ms ∧ r.sent = [(port, .bundle ms)] ∧ r.failure = none) ∨
    (r.failure ≠ none ∧ r.sent = [])

/-- What `alda play` does with a text. -/
theorem play_text (sort : List NoteEvent → List NoteEvent) {w : World} {f : Flags} {text : String} (hg : Given w f text) : Plays sort w f text (play sort w f) := by
  unfold play
  split
  · exact .inr ⟨by simp [fail], rfl⟩
  rw [input_given hg]
  cases hp : Repl.parseCode text with
  | error e => exact .inr ⟨by simp [fail], rfl⟩
  | ok program =>
    simp only
    split
    · exact .inr ⟨by simp [fail], rfl⟩
    next score hu =>
      have hm : Means text program score := ⟨hp, by rw [hu], by rw [hu]⟩
      have one : ∀ (said : List String) (port : Int), Chosen w f port →
          Plays sort w f text (match scoreToBundle sort score { from_ := f.from_, to_ := f.to_, oneOff := true } with | .error e => fail e said | .ok ms => playAt w (.bundle ms) said [port]) := by
        intro said port hc
        cases hb : scoreToBundle sort score { from_ := f.from_, to_ := f.to_, oneOff := true } with
        | error e => exact .inr ⟨by simp [fail], rfl⟩
        | ok ms =>
          simp only
          rw [playAt_one]
          by_cases hr : w.reaches 0 port = true
          · rw [if_pos hr]; exact .inl ⟨port, program, score, ms, hc, hm, hb, rfl, rfl⟩
          · rw [if_neg hr]; exact .inr ⟨by simp, rfl⟩
      by_cases h1 : f.port = -1
      · rw [if_neg (by simpa using h1)]
        by_cases h2 : f.playerId = ""
        · rw [if_neg (by simpa using h2)]
          split
          next x ha => exact .inr ⟨by simp, rfl⟩
          next said p ha => exact one said _ (awaitPlayer_chosen h1 h2 ha)
        · rw [if_pos h2]
          split
          next x hx => exact .inr ⟨by simp, rfl⟩
          next p hx => exact one [] _ (byID_chosen h1 h2 hx)
      · rw [if_pos h1]; exact one [] _ (.port h1)

theorem mix_nil {y : Timing} (hy : y.Fair) : y.mix [] = [] := by
  have := hy [] List.nodup_nil
  cases hm : y.mix [] with
  | nil => rfl
  | cons a l =>
    have := this a.1
    rw [hm, List.filter_cons_of_pos (by simp)] at this
    simp at this

/-- The state of a player whose sequencer has been started or stopped. -/
def paused (playing : Bool) (s : State) : State := { s with engine := { s.engine with playing := playing } }

theorem receive_stop {y : Timing} (hy : y.Fair) (s : State) : receive y Packet.stop.instrs s = paused false s := by
  simp [Packet.instrs, receive, parseUpdates, Updates.parse, Player.applyUpdates, eachOf, scheduleTracks, mix_nil hy, paused]

theorem receive_play {y : Timing} (hy : y.Fair) (s : State) : receive y Packet.play.instrs s = paused true s := by
  simp [Packet.instrs, receive, parseUpdates, Updates.parse, Player.applyUpdates, eachOf, scheduleTracks, mix_nil hy, paused]

theorem receive_shutdown {y : Timing} (hy : y.Fair) (s : State) : receive y (Packet.shutdown 0).instrs s = { s with running := false } := by
  simp [Packet.instrs, receive, parseUpdates, Updates.parse, Player.applyUpdates, eachOf, scheduleTracks, mix_nil hy]

theorem deliver_other {y : Timing} {q : Int} : ∀ (sent : List (Int × Packet)) (players : Int → State), (∀ x ∈ sent, x.1 ≠ q) → deliver y sent players q = players q
  | [], _, _ => rfl
  | (port, p) :: rest, players, h => by
    rw [deliver, deliver_other rest _ (fun x hx => h x (List.mem_cons_of_mem _ hx)), if_neg (fun e => h _ (List.mem_cons_self ..) e.symm)]

theorem deliver_same {y : Timing} {p : Packet} {g : State → State} (hg : ∀ s, receive y p.instrs s = g s) (hgg : ∀ s, g (g s) = g s) :
    ∀ (ports : List Int) (players : Int → State) (q : Int), deliver y (ports.map (fun port => (port, p))) players q = if q ∈ ports then g (players q) else players q
  | [], _, _ => rfl
  | port :: ports, players, q => by
    rw [List.map_cons, deliver, deliver_same hg hgg ports]
    by_cases h : q = port
    · subst h
      rw [if_pos rfl, if_pos (List.mem_cons_self ..), hg, hgg, ite_self]
    · rw [if_neg h]
      by_cases h2 : q ∈ ports
      · rw [if_pos h2, if_pos (List.mem_cons_of_mem _ h2)]
      · rw [if_neg h2, if_neg (by simp [h, h2])]

theorem sendAll_eq (w : World) (p : Packet) : ∀ (n : Nat) (ports : List Int), ∃ reached : List Int, sendAll w p n ports = reached.map (fun port => (port, p)) ∧
    (∀ q ∈ reached, q ∈ ports) ∧ ∀ q ∈ ports, (∀ n, w.reaches n q = true) → q ∈ reached
  | _, [] => ⟨[], rfl, by simp, by simp⟩
  | n, port :: ports => by
    obtain ⟨l, h1, h2, h3⟩ := sendAll_eq w p (n + 1) ports
    rw [sendAll]
    split
    · refine ⟨port :: l, by rw [h1, List.map_cons], ?_, ?_⟩
      · intro q hq
        rcases List.mem_cons.1 hq with rfl | hq
        · exact List.mem_cons_self ..
        · exact List.mem_cons_of_mem _ (h2 q hq)
      · intro q hq hr
        rcases List.mem_cons.1 hq with rfl | hq
        · exact List.mem_cons_self ..
        · exact List.mem_cons_of_mem _ (h3 q hq hr)
    · next hn =>
      refine ⟨l, h1, fun q hq => List.mem_cons_of_mem _ (h2 q hq), ?_⟩
      intro q hq hr
      rcases List.mem_cons.1 hq with rfl | hq
      · exact absurd (hr n) hn
      · exact h3 q hq hr

theorem sendUntil_eq (w : World) (p : Packet) : ∀ (n : Nat) (ports : List Int), (sendUntil w p n ports).2 = none → (sendUntil w p n ports).1 = ports.map (fun port => (port, p))
  | _, [], _ => rfl
  | n, port :: ports, h => by
    rw [sendUntil] at h ⊢
    split at h
    next hr => rw [if_pos hr]; simp only; rw [sendUntil_eq w p (n + 1) ports h, List.map_cons]
    · cases h

theorem sendUntil_all (w : World) (p : Packet) : ∀ (n : Nat) (ports : List Int), (∀ q ∈ ports, ∀ n, w.reaches n q = true) → (sendUntil w p n ports).2 = none
  | _, [], _ => rfl
  | n, port :: ports, h => by
    rw [sendUntil, if_pos (h port (List.mem_cons_self ..) n)]
    exact sendUntil_all w p (n + 1) ports (fun q hq => h q (List.mem_cons_of_mem _ hq))

/-- C60: `alda play` with a text sends, if it succeeds, one bundle to one player that it may use, and the other players are as before; if it fails then nothing has been sent
to any player. -/
theorem c60_one (sort : List NoteEvent → List NoteEvent) (w : World) (f : Flags) (text : String) (hg : Given w f text) (y : Timing) (players : Int → State) :
    ((play sort w f).failure = none → ∃ port ms, Chosen w f port ∧ (play sort w f).sent = [(port, .bundle ms)] ∧ ∀ q, q ≠ port → deliver y (play sort w f).sent players q = players q) ∧
    ((play sort w f).failure ≠ none → (play sort w f).sent = [] ∧ deliver y (play sort w f).sent players = players) := by
  rcases play_text sort hg with ⟨port, program, s, ms, hc, _, _, h1, h2⟩ | ⟨h1, h2⟩
  · refine ⟨fun _ => ⟨port, ms, hc, h1, fun q hq => ?_⟩, fun h => absurd h2 h⟩
    rw [h1]
    exact deliver_other _ _ (by simpa using fun h => hq h.symm)
  · exact ⟨fun h => absurd h h1, fun _ => ⟨h2, by rw [h2]; rfl⟩⟩

/-- C60: the music that is heard after `alda play`, if the player has just started: the notes of the text between the places that were given, and nothing else, as in C52.

What is missing for all texts is what is missing in C52. -/
theorem c60_heard_partial {sort : List NoteEvent → List NoteEvent} (hsort : SortsByOffset sort) (w : World) (f : Flags) (text : String) (hg : Given w f text)
    (hok : (play sort w f).failure = none) (y : Timing) (hy : y.Fair) (players : Int → State) :
    ∃ port program s ms, Chosen w f port ∧ Means text program s ∧ (play sort w f).sent = [(port, .bundle ms)] ∧ ∃ start stop, Stands s f.from_ 0 start ∧ Stands s f.to_ maxFloat stop ∧
      ∀ (m : Rat) (notes : List NoteEvent), players port = fresh → 4 ≤ m → m ≤ 120 → (∀ o v, Msg.tempo o v ∈ ms → m ≤ v ∧ (0 < o → 234375 ≤ 1000 * o * m)) →
        notes = s.events.filter (fun e => decide (start ≤ e.offset) && decide (e.offset < stop)) → (∀ e ∈ notes, 0 ≤ e.audible) →
        notes.Pairwise (fun a b => a.channel = b.channel → a.note = b.note → Pause (1 / 2) a b) →
        (∀ a ∈ notes, ∀ b ∈ notes, a.channel = b.channel → a.part = b.part ∨ Pause (((tempoTimes ms).length + 1) * (60000 / (m * 128)) + 3 / 2) a b) →
        let engine := (deliver y (play sort w f).sent players port).engine
        engine.playing = true ∧ engine.position = 0 ∧
          ∃ tick played, KeepsTime engine.track tick (fun t => ((tempoTimes ms).countP (fun o => decide (o ≤ t)) + 1) * (234375 / m) + tick t / 256) ∧
            played.Perm notes ∧ Matches (SoundsAs s start tick) played (tones engine.track {}) := by
  rcases play_text sort hg with ⟨port, program, s, ms, hc, hm, hb, h1, h2⟩ | ⟨h1, h2⟩
  · obtain ⟨start, stop, hstart, hstop⟩ : ∃ start stop, Stands s f.from_ 0 start ∧ Stands s f.to_ maxFloat stop := bundle_stands hb
    refine ⟨port, program, s, ms, hc, hm, h1, start, stop, hstart, hstop, ?_⟩
    intro m notes hfresh m1 m2 ht hn hlen hkey hown
    have hd : deliver y (play sort w f).sent players port = receive y (ms.map .score) fresh := by
      rw [h1, deliver, deliver, if_pos rfl, hfresh]; rfl
    have key := c52_partial hsort program (parseCode_written hm.1) s hm.2.2 { from_ := f.from_, to_ := f.to_, oneOff := true } rfl (fun _ => rfl) ms hb start stop hstart hstop m m1 m2 ht notes
      (by rw [hn]; simp) hlen hkey hown y hy
    simp only at key ⊢
    rw [hd]
    exact key
  · exact absurd hok h1

/-- C60: the player that plays the text of `alda play` shuts down about ten seconds after the last note has ended, and not before any note has ended, as in C53. -/
theorem c60_ends_partial {sort : List NoteEvent → List NoteEvent} (hsort : SortsByOffset sort) (w : World) (f : Flags) (text : String) (hg : Given w f text)
    (hok : (play sort w f).failure = none) (y : Timing) (hy : y.Fair) (players : Int → State) :
    ∃ port program s ms, Chosen w f port ∧ Means text program s ∧ (play sort w f).sent = [(port, .bundle ms)] ∧ ∃ start stop, Stands s f.from_ 0 start ∧ Stands s f.to_ maxFloat stop ∧
      ∀ (m : Rat) (notes : List NoteEvent), players port = fresh → 4 ≤ m → m ≤ 120 → (∀ o v, Msg.tempo o v ∈ ms → m ≤ v ∧ (0 < o → 234375 ≤ 1000 * o * m)) →
        notes = s.events.filter (fun e => decide (start ≤ e.offset) && decide (e.offset < stop)) → (∀ e ∈ notes, 0 ≤ e.audible) →
        let player := deliver y (play sort w f).sent players port
        let track := player.engine.track
        player.running = true ∧ ∃ before e later fin t, track = before ++ e :: later ∧ e.msg = .shutdown ∧ (∀ z ∈ before ++ later, z.msg ≠ .shutdown) ∧ (∀ z ∈ later, ¬ Keyed z.msg) ∧
          (0 ≤ fin ∧ ∀ e ∈ notes, e.offset - start + e.audible ≤ fin) ∧ (fin = 0 ∨ ∃ e ∈ notes, e.offset - start + e.audible = fin) ∧ Nearest (fin + 10000) t ∧
          clock track e.tick - 1000 * t ≤ ((tempoTimes ms).countP (fun o => decide (o ≤ t)) + 1) * (234375 / m) + e.tick / 256 ∧
          1000 * t - clock track e.tick ≤ ((tempoTimes ms).countP (fun o => decide (o ≤ t)) + 1) * (234375 / m) + e.tick / 256 := by
  rcases play_text sort hg with ⟨port, program, s, ms, hc, hm, hb, h1, h2⟩ | ⟨h1, h2⟩
  · obtain ⟨start, stop, hstart, hstop⟩ : ∃ start stop, Stands s f.from_ 0 start ∧ Stands s f.to_ maxFloat stop := bundle_stands hb
    refine ⟨port, program, s, ms, hc, hm, h1, start, stop, hstart, hstop, ?_⟩
    intro m notes hfresh m1 m2 ht hn hlen
    have hd : deliver y (play sort w f).sent players port = receive y (ms.map .score) fresh := by
      rw [h1, deliver, deliver, if_pos rfl, hfresh]; rfl
    have key := c53_partial hsort program (parseCode_written hm.1) s hm.2.2 { from_ := f.from_, to_ := f.to_, oneOff := true } rfl (fun _ => rfl) ms hb start stop hstart hstop m m1 m2 ht notes
      (by rw [hn]; simp) hlen y hy
    simp only at key ⊢
    rw [hd]
    exact ⟨key.1, key.2.2 trivial⟩
  · exact absurd hok h1

theorem ports_default {w : World} {f : Flags} (h1 : f.port = -1) (h2 : f.playerId = "") (hr : (w.look 0).read = none) (other : List PlayerState → List PlayerState) :
    ports w f other = .ok ((other (readPlayerStates (w.dir 0))).map (fun p => (p.port : Int))) := by
  unfold ports playerStates
  rw [if_neg (by simpa using h1), if_neg (by simpa using h2), hr]
  rfl

/-- The ports of the players that say that they are active. -/
theorem mem_active {dir : Directory} {q : Int} : q ∈ ((readPlayerStates dir).filter (fun p => p.state == "active")).map (fun p => (p.port : Int)) ↔ ∃ id, Known dir id "active" q := by
  rw [List.mem_map]
  constructor
  · rintro ⟨p, hp, rfl⟩
    obtain ⟨hp, hs⟩ := List.mem_filter.1 hp
    simp only [beq_iff_eq] at hs
    exact ⟨p.id, hs ▸ known_of hp⟩
  · rintro ⟨id, h⟩
    obtain ⟨p, hp, _, h1, h2⟩ := of_known h
    exact ⟨p, List.mem_filter.2 ⟨hp, by simpa using h1⟩, h2⟩

theorem mem_known {dir : Directory} {q : Int} : q ∈ (readPlayerStates dir).map (fun p => (p.port : Int)) ↔ ∃ id st, Known dir id st q := by
  rw [List.mem_map]
  constructor
  · rintro ⟨p, hp, rfl⟩; exact ⟨p.id, p.state, known_of hp⟩
  · rintro ⟨id, st, h⟩
    obtain ⟨p, hp, _, _, h2⟩ := of_known h
    exact ⟨p, hp, h2⟩

/-- C60: `alda play` without a text, if it succeeds, starts the sequencers of all players that say that they are active, where they have been stopped, and does nothing else
to them and nothing to the other ones. -/
theorem c60_resume (sort : List NoteEvent → List NoteEvent) (w : World) (f : Flags) (hn : NothingGiven w f) (ha : f.args = []) (h1 : f.port = -1) (h2 : f.playerId = "")
    (hok : (play sort w f).failure = none) (y : Timing) (hy : y.Fair) (players : Int → State) (q : Int) :
    ((∃ id, Known (w.dir 0) id "active" q) → deliver y (play sort w f).sent players q = { players q with engine := { (players q).engine with playing := true } }) ∧
    ((¬ ∃ id, Known (w.dir 0) id "active" q) → deliver y (play sort w f).sent players q = players q) := by
  have hr : (w.look 0).read = none := by
    unfold play at hok
    rw [if_neg (by simpa using ha), input_nothing hn] at hok
    simp only at hok
    unfold ports playerStates at hok
    rw [if_neg (by simpa using h1), if_neg (by simpa using h2)] at hok
    cases hr : (w.look 0).read with
    | none => rfl
    | some e => rw [hr] at hok; simp [Except.map] at hok
  unfold play at hok ⊢
  rw [if_neg (by simpa using ha), input_nothing hn] at hok ⊢
  simp only at hok ⊢
  rw [ports_default h1 h2 hr] at hok ⊢
  simp only [playAt] at hok ⊢
  split at hok
  · cases hok
  next hs =>
    simp only
    rw [sendUntil_eq _ _ _ _ hs, deliver_same (receive_play hy) (fun _ => rfl)]
    rw [← mem_active]
    constructor
    · intro h; rw [if_pos h]; rfl
    · intro h; rw [if_neg h]

/-- C60, for players that can all be reached: `alda play` without a text succeeds. Missing from the full statement, that it resumes all players that can be reached: some player
that says that it is active cannot be (`c60_resume_witness`). -/
theorem c60_resume_partial (sort : List NoteEvent → List NoteEvent) (w : World) (f : Flags) (hn : NothingGiven w f) (ha : f.args = []) (h1 : f.port = -1) (h2 : f.playerId = "")
    (hr : (w.look 0).read = none) (hall : ∀ id q, Known (w.dir 0) id "active" q → ∀ n, w.reaches n q = true) :
    (play sort w f).failure = none ∧ "Playing..." ∈ (play sort w f).said := by
  unfold play
  rw [if_neg (by simpa using ha), input_nothing hn]
  simp only
  rw [ports_default h1 h2 hr]
  simp only [playAt]
  rw [sendUntil_all w .play 0 _ (fun q hq n => by obtain ⟨id, hk⟩ := mem_active.1 hq; exact hall id q hk n)]
  exact ⟨rfl, by simp⟩

/-- C60: `alda stop` stops the sequencer of every player of which there is a state file and that can be reached, where it is, and does nothing else to any player. -/
theorem c60_stop (w : World) (f : Flags) (h1 : f.port = -1) (h2 : f.playerId = "") (hr : (w.look 0).read = none) (y : Timing) (hy : y.Fair) (players : Int → State) (q : Int) :
    ((∃ id st, Known (w.dir 0) id st q) → (∀ n, w.reaches n q = true) → deliver y (stop w f).sent players q = { players q with engine := { (players q).engine with playing := false } }) ∧
    ((¬ ∃ id st, Known (w.dir 0) id st q) → deliver y (stop w f).sent players q = players q) ∧ (stop w f).failure = none := by
  unfold stop
  rw [ports_default h1 h2 hr]
  obtain ⟨l, e1, e2, e3⟩ := sendAll_eq w .stop 0 ((id (readPlayerStates (w.dir 0))).map (fun p => (p.port : Int)))
  simp only
  rw [e1, deliver_same (receive_stop hy) (fun _ => rfl)]
  refine ⟨fun h hq => ?_, fun h => ?_, trivial⟩
  · rw [if_pos (e3 q (mem_known.2 h) hq)]; rfl
  · rw [if_neg (fun hq => h (mem_known.1 (e2 q hq)))]

/-- C60: `alda shutdown` ends the process of every player of which there is a state file and that can be reached, and does nothing else to any player. -/
theorem c60_shutdown (w : World) (f : Flags) (h1 : f.port = -1) (h2 : f.playerId = "") (hr : (w.look 0).read = none) (y : Timing) (hy : y.Fair) (players : Int → State) (q : Int) :
    ((∃ id st, Known (w.dir 0) id st q) → (∀ n, w.reaches n q = true) → deliver y (shutdown w f).sent players q = { players q with running := false }) ∧
    ((¬ ∃ id st, Known (w.dir 0) id st q) → deliver y (shutdown w f).sent players q = players q) ∧ (shutdown w f).failure = none := by
  unfold shutdown
  rw [ports_default h1 h2 hr]
  obtain ⟨l, e1, e2, e3⟩ := sendAll_eq w (.shutdown 0) 0 ((id (readPlayerStates (w.dir 0))).map (fun p => (p.port : Int)))
  simp only
  rw [e1, deliver_same (receive_shutdown hy) (fun _ => rfl)]
  refine ⟨fun h hq => ?_, fun h => ?_, trivial⟩
  · rw [if_pos (e3 q (mem_known.2 h) hq)]
  · rw [if_neg (fun hq => h (mem_known.1 (e2 q hq)))]

/-- C60: after `alda stop` and `alda play`, without a text, every player that was active goes on from where it was stopped with what it was playing. -/
theorem c60_pause (sort : List NoteEvent → List NoteEvent) (w w' : World) (f f' : Flags) (h1 : f.port = -1) (h2 : f.playerId = "") (hr : (w.look 0).read = none)
    (h1' : f'.port = -1) (h2' : f'.playerId = "") (hn : NothingGiven w' f') (ha : f'.args = []) (hok : (play sort w' f').failure = none)
    (y y' : Timing) (hy : y.Fair) (hy' : y'.Fair) (players : Int → State) (q : Int) (id id' st : String) (hq : Known (w.dir 0) id st q) (hreach : ∀ n, w.reaches n q = true)
    (hq' : Known (w'.dir 0) id' "active" q) (hp : (players q).engine.playing = true) :
    deliver y' (play sort w' f').sent (deliver y (stop w f).sent players) q = players q := by
  rw [(c60_resume sort w' f' hn ha h1' h2' hok y' hy' _ q).1 ⟨id', hq'⟩, (c60_stop w f h1 h2 hr y hy players q).1 ⟨id, st, hq⟩ hreach]
  simp only
  rw [← hp]

/-- Players `a`, which has died while it was active, `b`, which is active, and `c`, which is ready. -/
def demoWorld : World :=
  { look := fun _ => { answers := fun p => decide (p ≠ 1) }
    dir := fun _ => [("a.json", .player "active" 1), ("b.json", .player "active" 2), ("c.json", .player "ready" 3)]
    reaches := fun _ p => decide (p ≠ 1) }

/-- C60 is false for `alda play` without a text if the state file of a player that has died comes first: the other ones, which have been paused, are not resumed. -/
theorem c60_resume_witness : ∃ (w : World) (id : String) (q : Int), NothingGiven w {} ∧ (w.look 0).read = none ∧ Known (w.dir 0) id "active" q ∧ (∀ n, w.reaches n q = true) ∧
    ∀ sort, (play sort w {}).sent = [] ∧ (play sort w {}).failure = some (.error (.user "connection refused")) :=
  ⟨demoWorld, "b", 2, ⟨rfl, rfl, rfl⟩, rfl, ⟨"b.json", 2, by decide +kernel, by decide +kernel, rfl⟩, fun _ => rfl, fun sort => ⟨rfl, rfl⟩⟩

/-- C60 is false for `alda stop` and `alda shutdown` of players that cannot be reached, in particular for a port where there is no player: they succeed, and nothing has been
sent. -/
theorem c60_stop_witness : ∃ (w : World) (f : Flags), (stop w f).sent = [] ∧ (stop w f).failure = none ∧ (stop w f).said = ["Stopping playback."] ∧ (shutdown w f).sent = [] ∧
    (shutdown w f).failure = none ∧ (shutdown w f).said = ["Shutting down player processes."] :=
  ⟨demoWorld, { port := 1 }, rfl, rfl, rfl, rfl, rfl, rfl⟩

/-- The code of a command that plays two notes. -/
def demoFlags : Flags := { code := "piano: c d" }

example : Given demoWorld demoFlags "piano: c d" ∧ (play insertSort demoWorld demoFlags).failure = none ∧ (play insertSort demoWorld demoFlags).sent.map (·.1) = [3] ∧
    (play insertSort demoWorld demoFlags).said = ["Playing..."] :=
  ⟨.code rfl (by decide), by decide +kernel, by decide +kernel, by decide +kernel⟩

/-- The same players, without `a`. -/
def demoAlive : World := { demoWorld with dir := fun _ => [("b.json", .player "active" 2), ("c.json", .player "ready" 3)] }

example : NothingGiven demoAlive {} ∧ (demoAlive.look 0).read = none ∧ (∀ id q, Known (demoAlive.dir 0) id "active" q → ∀ n, demoAlive.reaches n q = true) ∧
    Known (demoAlive.dir 0) "b" "active" 2 ∧ Known (demoWorld.dir 0) "c" "ready" 3 ∧ ∀ sort, (play sort demoAlive {}).sent = [(2, .play)] := by
  refine ⟨⟨rfl, rfl, rfl⟩, rfl, ?_, ⟨"b.json", 2, by decide +kernel, by decide +kernel, rfl⟩, ⟨"c.json", 3, by decide +kernel, by decide +kernel, rfl⟩, fun _ => rfl⟩
  rintro id q ⟨name, p, h, _, rfl⟩ n
  simp only [demoAlive, List.mem_cons, Prod.mk.injEq, Contents.player.injEq, List.not_mem_nil, or_false] at h
  rcases h with ⟨_, _, rfl⟩ | ⟨_, h, _⟩
  · rfl
  · exact absurd h (by decide)

end Cmd
end Alda
