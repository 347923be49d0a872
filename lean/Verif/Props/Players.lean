import Verif.Spec.Players
import Verif.Props.Expiry
import Verif.Props.Commands
/-!
C67: a REPL server keeps its player alive, and replaces it when it is gone.
-/
namespace Alda
namespace Keeper
open Pool Cmd

/-! ### Searching -/

theorem found_ready (w : Pool.World) (fuel : Nat) (dir : Directory) (p : PlayerState) (h : findAvailablePlayer w fuel dir = some (.player p)) :
    w.answers p.port = true ∧ ∃ dir', Known dir' p.id "ready" p.port ∧ (dir' = dir ∨ ∃ k d, dir' = w.later k d) := by
  induction fuel generalizing dir with
  | zero => simp [findAvailablePlayer] at h
  | succ fuel ih =>
    simp only [findAvailablePlayer] at h
    split at h
    · cases h
    · split at h
      · cases h
      next player hf =>
        split at h
        next ha =>
          cases h
          have hm := List.mem_of_find?_eq_some hf
          have hs := List.find?_some hf
          simp only [beq_iff_eq] at hs
          have := known_of hm
          rw [hs] at this
          exact ⟨ha, dir, this, .inl rfl⟩
        · split at h
          · cases h
          · split at h
            · cases h
            next started hfill =>
              obtain ⟨h1, dir', h2, h3⟩ := ih _ h
              refine ⟨h1, dir', h2, .inr ?_⟩
              rcases h3 with rfl | h3
              · exact ⟨_, _, rfl⟩
              · exact h3

theorem search_ready {w : Cmd.World} {i : Nat} {p : PlayerState} (h : search w i = .ok p) : Ready w p := by
  unfold search at h
  split at h <;> try cases h
  next hp =>
    obtain ⟨ha, dir, hk, hs⟩ := found_ready _ _ _ _ hp
    exact ⟨i, dir, hs, hk, ha⟩

theorem await_ready {w : Cmd.World} {n : Nat} {p : PlayerState} (h : await (search w) 0 n = .ok p) : Ready w p := by
  obtain ⟨j, hj⟩ := await_ok _ _ h
  exact search_ready hj

/-- If all players that claim to be ready answer, the first one is found at once. -/
theorem search_first {w : Cmd.World} {port : Nat} (hr : (w.look 0).read = none) (hf : 0 < w.fuel) (hl : Listed (w.dir 0) "ready" port)
    (ha : ∀ port, Listed (w.dir 0) "ready" port → (w.look 0).answers port = true) :
    ∃ p, await (search w) 0 w.tries = .ok p ∧ Known (w.dir 0) p.id "ready" p.port := by
  have hs : ∃ p, search w 0 = .ok p ∧ Known (w.dir 0) p.id "ready" p.port := by
    obtain ⟨fuel, hfu⟩ : ∃ n, w.fuel = n + 1 := ⟨w.fuel - 1, by omega⟩
    unfold search
    rw [hfu]
    simp only [findAvailablePlayer, hr]
    cases hfi : (readPlayerStates (w.dir 0)).find? (fun p => p.state == "ready") with
    | none =>
      obtain ⟨name, hn⟩ := hl
      obtain ⟨q, hq, _, h2, _⟩ := of_known (dir := w.dir 0) (id := playerId name) (st := "ready") (port := port) ⟨name, port, hn, rfl, rfl⟩
      have := List.find?_eq_none.1 hfi q hq
      simp [h2] at this
    | some p =>
      have hm := List.mem_of_find?_eq_some hfi
      have hst := List.find?_some hfi
      simp only [beq_iff_eq] at hst
      have hk := known_of hm
      rw [hst] at hk
      obtain ⟨name, q, h1, h2, h3⟩ := hk
      have hpq : p.port = q := by omega
      have := ha p.port ⟨name, by rw [hpq]; exact h1⟩
      simp only [this, if_true]
      exact ⟨p, rfl, name, q, h1, h2, h3⟩
  obtain ⟨p, h1, h2⟩ := hs
  refine ⟨p, ?_, h2⟩
  cases w.tries with
  | zero => exact h1
  | succ n => simp only [await, h1]

/-! ### Looking for a player -/

theorem findById {dir : Directory} {id : String} {p : PlayerState} (h : findPlayerByID id dir = some p) : p.id = id ∧ Known dir p.id p.state p.port := by
  have h1 := List.find?_some h
  simp only [beq_iff_eq] at h1
  exact ⟨h1, known_of (List.mem_of_find?_eq_some h)⟩

theorem findById_none {dir : Directory} {id : String} (h : ∀ st q, ¬ Known dir id st q) : findPlayerByID id dir = none := by
  unfold findPlayerByID
  rw [List.find?_eq_none]
  intro p hp he
  simp only [beq_iff_eq] at he
  have := known_of hp
  rw [he] at this
  exact h _ _ this

theorem findById_some {dir : Directory} {id st : String} {q : Int} (h : Known dir id st q) : ∃ p, findPlayerByID id dir = some p := by
  obtain ⟨p, hp, h1, _⟩ := of_known h
  cases hf : findPlayerByID id dir with
  | some p => exact ⟨p, rfl⟩
  | none =>
    have := List.find?_eq_none.1 hf p hp
    simp [h1] at this

/-! ### One round -/

theorem run_append (s : State) (a b : List Step) : s.run (a ++ b) = (s.run a).run b := by simp [State.run, List.foldl_append]
theorem run_cons (s : State) (a : Step) (b : List Step) : s.run (a :: b) = (s.step a).run b := rfl
theorem run_nil (s : State) : s.run [] = s := rfl

/-- The beginning of a round leaves the player. -/
theorem tick_idle {s : State} (hi : s.phase = .idle) (now : Int) (w : Pool.World) (dir : Directory) :
    ∃ filled started, s.step (.tick now w dir) = { s with phase := .begun, now := now, lastFilled := filled, started := started } := by
  simp only [State.step, hi]
  split
  · exact ⟨_, _, rfl⟩
  · exact ⟨_, _, rfl⟩

/-- The end of a round, with a player or without. -/
theorem round_end (s : State) (h : s.phase = .adopted) (time : Int) (reached : Bool) :
    s.run [.aim, .shoot time reached] =
      if s.hasPlayer && decide (s.now - s.lastPing > pingInterval) then
        (if reached then { s with phase := .idle, lastPing := s.now, sent := s.sent ++ [(time, s.player, .ping)] } else { s with phase := .idle, lastPing := s.now, player := noPlayer })
      else { s with phase := .idle } := by
  by_cases hc : (s.hasPlayer && decide (s.now - s.lastPing > pingInterval)) = true
  · simp only [State.run, List.foldl_cons, List.foldl_nil, State.step, h, hc, if_true]
  · simp only [Bool.not_eq_true] at hc
    simp only [State.run, List.foldl_cons, List.foldl_nil, State.step, h, hc, Bool.false_eq_true, if_false]

/-- C67: a player that is there is kept, and is sent a ping if the last one was more than a second ago. -/
theorem c67_kept {s : State} {id : String} {port : Nat} (hi : s.phase = .idle) (hid : s.player.id = id) (hport : s.player.port = port) (h0 : port ≠ 0) {r : Round} (hr : Present id port r) :
    let t := s.run r.steps
    t.phase = .idle ∧ t.player.id = id ∧ t.player.port = port ∧ t.now = r.now ∧
      (if r.now - s.lastPing > 1000 then t.lastPing = r.now ∧ ∃ p, p.id = id ∧ p.port = port ∧ t.sent = s.sent ++ [(r.time, p, .ping)] else t.lastPing = s.lastPing ∧ t.sent = s.sent) := by
  obtain ⟨filled, started, ht⟩ := tick_idle hi r.now r.fill r.fillDir
  obtain ⟨st, hk⟩ := hr.known
  obtain ⟨q, hq⟩ := findById_some hk
  obtain ⟨hq1, hq2⟩ := findById hq
  have hq3 : q.port = port := by
    rw [hq1] at hq2
    have := hr.only _ _ hq2
    omega
  have hp : s.hasPlayer = true := by simp [State.hasPlayer, hport, h0]
  have e : s.run r.steps = ({ s with phase := .adopted, now := r.now, lastFilled := filled, started := started, player := q } : State).run [.aim, .shoot r.time r.reached] := by
    have hp2 : (decide (q.port ≠ 0)) = true := by simp [hq3, h0]
    have hp1 : (decide (s.player.port ≠ 0)) = true := by simp [hport, h0]
    simp only [Round.steps]
    rw [run_cons, ht]
    simp only [run_cons, State.step, lookFor, State.hasPlayer, hp1, if_true, hr.readable, hid, hq, hp2]
  simp only [e]
  rw [round_end _ rfl]
  have hp' : ({ s with phase := .adopted, now := r.now, lastFilled := filled, started := started, player := q } : State).hasPlayer = true := by simp [State.hasPlayer, hq3, h0]
  rw [hp', hr.reached]
  simp only [Bool.true_and, decide_eq_true_eq, if_true, show pingInterval = 1000 from rfl]
  split
  · exact ⟨rfl, hq1, hq3, rfl, rfl, q, hq1, hq3, rfl⟩
  · exact ⟨rfl, hq1, hq3, rfl, rfl, rfl⟩

/-- C67: if the server has no player, or no state file is left of it, and there are players that are ready and answer, then after the round it has one of them. -/
theorem c67_replaced {s : State} (hi : s.phase = .idle) {r : Round} (he : r.error = none) (hg : s.player.port = 0 ∨ ∀ st q, ¬ Known r.dir s.player.id st q)
    (hr : (r.search.look 0).read = none) (hf : 0 < r.search.fuel) {port : Nat} (hl : Listed (r.search.dir 0) "ready" port)
    (ha : ∀ port, Listed (r.search.dir 0) "ready" port → (r.search.look 0).answers port = true ∧ port ≠ 0) (hreach : r.reached = true) :
    let t := s.run r.steps
    t.phase = .idle ∧ t.player.port ≠ 0 ∧ Known (r.search.dir 0) t.player.id "ready" t.player.port ∧
      (r.now - s.lastPing > 1000 → t.sent = s.sent ++ [(r.time, t.player, .ping)]) := by
  obtain ⟨filled, started, ht⟩ := tick_idle hi r.now r.fill r.fillDir
  obtain ⟨p, hp, hk⟩ := search_first hr hf hl (fun q hq => (ha q hq).1)
  have hp0 : p.port ≠ 0 := by
    obtain ⟨name, q, h1, h2, h3⟩ := hk
    have : p.port = q := by omega
    rw [this]
    exact (ha q ⟨name, h1⟩).2
  have e : s.run r.steps = ({ s with phase := .adopted, now := r.now, lastFilled := filled, started := started, player := p } : State).run [.aim, .shoot r.time r.reached] := by
    have key : ∀ t : State, t.phase = .noted → t.player.port = 0 → (t.step (.find r.search)).step .adopt = { t with phase := .adopted, player := p } := by
      intro t h1 h2
      have hp1 : (decide (t.player.port ≠ 0)) = false := by simp [h2]
      simp only [State.step, h1, State.hasPlayer, hp1, Bool.false_eq_true, if_false, hp]
    simp only [Round.steps]
    rw [run_cons, ht, run_cons, run_cons, run_cons, run_cons]
    by_cases hz : s.player.port = 0
    · have hp1 : (decide (s.player.port ≠ 0)) = false := by simp [hz]
      simp only [State.step.eq_2, State.step.eq_3, lookFor, State.hasPlayer, hp1, Bool.false_eq_true, if_false]
      rw [key { s with phase := .noted, now := r.now, lastFilled := filled, started := started } rfl hz]
    · have hp1 : (decide (s.player.port ≠ 0)) = true := by simp [hz]
      have hn := findById_none (hg.resolve_left hz)
      simp only [State.step.eq_2, State.step.eq_3, lookFor, State.hasPlayer, hp1, if_true, he, hn]
      rw [key _ rfl rfl]
  simp only [e]
  rw [round_end _ rfl]
  have hp' : ({ s with phase := .adopted, now := r.now, lastFilled := filled, started := started, player := p } : State).hasPlayer = true := by simp [State.hasPlayer, hp0]
  rw [hp', hreach]
  simp only [Bool.true_and, decide_eq_true_eq, if_true, show pingInterval = 1000 from rfl]
  split
  · exact ⟨rfl, hp0, hk, fun _ => rfl⟩
  next h => exact ⟨rfl, hp0, hk, fun h' => absurd h' h⟩

/-- C67: a player that cannot be reached is given up. -/
theorem c67_unreachable {s : State} (hi : s.phase = .idle) {r : Round} (hd : r.now - s.lastPing > 1000) (hn : r.reached = false) : (s.run r.steps).player.port = 0 := by
  have key : ∀ (t : State), t.phase = .adopted → t.now - t.lastPing > 1000 → (t.run [.aim, .shoot r.time r.reached]).player.port = 0 := by
    intro t ht hd
    rw [round_end _ ht, hn]
    simp only [show pingInterval = 1000 from rfl, hd, decide_true, Bool.and_true, Bool.false_eq_true, if_false]
    split
    · rfl
    next h => simpa [State.hasPlayer] using h
  have key2 : ∀ (t : State), t.phase = .noted → t.now - t.lastPing > 1000 → (t.run [.find r.search, .adopt, .aim, .shoot r.time r.reached]).player.port = 0 := by
    intro t ht hd
    rw [run_cons, run_cons]
    cases hp : t.hasPlayer with
    | true =>
      simp only [State.step, ht, hp, if_true]
      exact key { t with phase := .adopted } rfl hd
    | false =>
      simp only [State.step, ht, hp, Bool.false_eq_true, if_false]
      cases hs : await (search r.search) 0 r.search.tries with
      | ok p =>
        simp only
        exact key { t with phase := .adopted, player := p } rfl hd
      | error x =>
        cases x with
        | hangs =>
          simp only [ht, run_cons, run_nil, State.step]
          simpa [State.hasPlayer] using hp
        | error e =>
          simp only
          exact key { t with phase := .adopted } rfl hd
  obtain ⟨filled, started, ht⟩ := tick_idle hi r.now r.fill r.fillDir
  simp only [Round.steps, run_cons s, ht]
  rw [run_cons, run_cons]
  simp only [State.step]
  cases lookFor r.error r.dir { s with phase := .begun, now := r.now, lastFilled := filled, started := started } <;> exact key2 _ rfl hd

/-! ### Staying alive -/

/-- From the last ping until the end, a ping comes at most so much later than the one before. -/
def Gaps (g : Int) : Int → List Int → Int → Prop
  | t0, [], stop => stop ≤ t0 + g
  | t0, t :: ts, stop => t ≤ t0 + g ∧ Gaps g t ts stop

theorem pingTimes_append (port : Nat) (a b : List (Int × PlayerState × Sent)) : pingTimes port (a ++ b) = pingTimes port a ++ pingTimes port b := by simp [pingTimes]

theorem rounds_gaps {id : String} {port : Nat} (h0 : port ≠ 0) {stop : Int} : ∀ (rs : List Round) (s : State) (t0 : Int), s.phase = .idle → s.player.id = id → s.player.port = port →
    (∀ r ∈ rs, Present id port r) → Brisk s.now rs stop → s.lastPing ≤ t0 → s.now - s.lastPing ≤ 1000 →
    ∃ new, (s.run (roundSteps rs)).sent = s.sent ++ new ∧ Gaps 241000 t0 (pingTimes port new) stop := by
  intro rs
  induction rs with
  | nil =>
    intro s t0 _ _ _ _ hb h1 h2
    refine ⟨[], by simp [roundSteps, State.run], ?_⟩
    simp only [pingTimes, List.filter_nil, List.map_nil, Gaps]
    simp only [Brisk] at hb
    omega
  | cons r rs ih =>
    intro s t0 hi hid hport hpr hb h1 h2
    obtain ⟨k1, k2, k3, k4, k5⟩ := c67_kept hi hid hport h0 (hpr r (List.mem_cons_self ..))
    obtain ⟨b1, b2, b3, b4, b5⟩ := hb
    have hrun : s.run (roundSteps (r :: rs)) = (s.run r.steps).run (roundSteps rs) := by simp only [roundSteps, List.flatMap_cons, run_append]
    rw [hrun]
    split at k5
    · obtain ⟨k6, p, k7, k8, k9⟩ := k5
      obtain ⟨new, n1, n2⟩ := ih (s.run r.steps) r.time k1 k2 k3 (fun r hr => hpr r (List.mem_cons_of_mem _ hr)) (by rw [k4]; exact b5) (by rw [k6]; exact b3) (by rw [k4, k6]; omega)
      refine ⟨(r.time, p, .ping) :: new, by rw [n1, k9]; simp, ?_⟩
      have e : pingTimes port ((r.time, p, Sent.ping) :: new) = r.time :: pingTimes port new := by
        simp only [pingTimes, List.filter_cons, k8]
        simp
      rw [e]
      exact ⟨by omega, n2⟩
    · obtain ⟨k6, k9⟩ := k5
      obtain ⟨new, n1, n2⟩ := ih (s.run r.steps) t0 k1 k2 k3 (fun r hr => hpr r (List.mem_cons_of_mem _ hr)) (by rw [k4]; exact b5) (by rw [k6]; exact h1) (by rw [k4, k6]; omega)
      exact ⟨new, by rw [n1, k9], n2⟩

theorem step_clock_le (p : Player.Proc) (a : Player.Act) : p.clock ≤ (p.step a).clock := by
  unfold Player.Proc.step
  split
  · omega
  · cases a <;> simp only [] <;> omega

theorem run_clock_le (as : List Player.Act) (p : Player.Proc) : p.clock ≤ (p.run as).clock := by
  induction as generalizing p with
  | nil => exact Int.le_refl _
  | cons a as ih => exact Int.le_trans (step_clock_le p a) (ih (p.step a))

theorem heard_ge (as : List Player.Act) (p : Player.Proc) : ∀ t ∈ heard p as, p.clock ≤ t := by
  induction as generalizing p with
  | nil => intro t h; cases h
  | cons a as ih =>
    intro t h
    simp only [heard, List.mem_append] at h
    rcases h with h | h
    · split at h
      · simp only [List.mem_singleton] at h; omega
      · cases h
    · exact Int.le_trans (step_clock_le p a) (ih _ t h)

theorem alive_gaps {g : Int} : ∀ (as : List Player.Act) (p : Player.Proc) (t0 : Int) (ts : List Int), p.exited = false → g ≤ p.manager.timeout →
    t0 + p.manager.timeout ≤ p.manager.current.expiry → ts.Sublist (heard p as) → Gaps g t0 ts (p.run as).clock → (p.run as).exited = false := by
  intro as
  induction as with
  | nil => intro p t0 ts h _ _ _ _; exact h
  | cons a as ih =>
    intro p t0 ts h0 hg he hs hgap
    have hrun : p.run (a :: as) = (p.step a).run as := rfl
    rw [hrun] at hgap ⊢
    have hexp := Player.step_expiry p a
    by_cases ha : a = .ping
    · subst ha
      have hx : (p.step .ping).exited = false := by simp [Player.Proc.step, h0]
      have hc : (p.step .ping).clock = p.clock := by simp [Player.Proc.step, h0]
      simp only [heard, if_true, List.singleton_append] at hs
      have old : ts.Sublist (heard (p.step .ping) as) → ((p.step .ping).run as).exited = false := fun hs =>
        ih _ t0 ts hx (by rw [Player.step_timeout]; exact hg) (by rw [Player.step_timeout]; omega) hs hgap
      cases hs with
      | cons _ hs => exact old hs
      | cons_cons _ hs =>
        obtain ⟨g1, g2⟩ := hgap
        refine ih _ p.clock _ hx (by rw [Player.step_timeout]; exact hg) ?_ hs g2
        rw [Player.step_timeout]
        simp only [Player.Proc.step, h0, Bool.false_eq_true, if_false, Player.Manager.delay_expiry, Player.Manager.setState_timeout, Player.Manager.setState_expiry]
        omega
    · simp only [heard, if_neg ha, List.nil_append] at hs
      refine ih _ t0 ts ?_ (by rw [Player.step_timeout]; exact hg) (by rw [Player.step_timeout]; omega) hs hgap
      cases a with
      | poll =>
        simp only [Player.Proc.step, h0, Bool.false_eq_true, if_false, Player.Manager.isExpired, decide_eq_false_iff_not]
        have hstop : p.clock ≤ t0 + g := by
          cases ts with
          | nil =>
            simp only [Gaps] at hgap
            have h1 := step_clock_le p .poll
            have h2 := run_clock_le as (p.step .poll)
            omega
          | cons t ts =>
            have h1 := heard_ge as _ t (hs.subset (List.mem_cons_self ..))
            have h2 := step_clock_le p .poll
            have := hgap.1
            omega
        omega
      | _ => simp [Player.Proc.step, h0]

/-- C67: the player of a REPL server stays alive. A process that has received the ping of the time `t0` and receives those that the server sends has not exited for inactivity at
any time until `stop`, whatever else happens to it. Missing from the full statement: rounds of the loop that begin more than two minutes apart, for which it is false
(`c67_sleep_witness`). -/
theorem c67_alive_partial {s : State} {id : String} {port : Nat} {t0 stop : Int} (hi : s.phase = .idle) (hid : s.player.id = id) (hport : s.player.port = port) (h0 : port ≠ 0)
    (hlast : s.lastPing ≤ t0 ∧ s.now - s.lastPing ≤ 1000) (rs : List Round) (hr : ∀ r ∈ rs, Present id port r) (hb : Brisk s.now rs stop)
    (p : Player.Proc) (hp : p.exited = false) (ht : 5 * 60000 ≤ p.manager.timeout) (he : t0 + p.manager.timeout ≤ p.manager.current.expiry) (as : List Player.Act)
    (hh : (pingTimes port ((s.run (roundSteps rs)).sent.drop s.sent.length)).Sublist (heard p as)) (hs : (p.run as).clock ≤ stop) : (p.run as).exited = false := by
  obtain ⟨new, n1, n2⟩ := rounds_gaps h0 rs s t0 hi hid hport hr hb hlast.1 hlast.2
  rw [n1, List.drop_left] at hh
  refine alive_gaps (g := 241000) as p t0 _ hp (by omega) he hh ?_
  have mono : ∀ (ts : List Int) (t0 : Int), Gaps 241000 t0 ts stop → Gaps 241000 t0 ts (p.run as).clock := by
    intro ts
    induction ts with
    | nil => intro t0 h; simp only [Gaps] at *; omega
    | cons t ts ih => intro t0 h; exact ⟨h.1, ih t h.2⟩
  exact mono _ _ n2

/-! ### All interleavings -/

/-- What is known about the player at any time. -/
structure Sound (P : PlayerState → Prop) (s : State) : Prop where
  player : s.player.port ≠ 0 → P s.player
  phase : match s.phase with
    | .looked (.updated p) => P p
    | .searched (some p) => P p
    | .aimed p => P p
    | _ => True
  sent : ∀ x ∈ s.sent, P x.2.1

theorem Sound.step {P : PlayerState → Prop} {s : State} (h : Sound P s) (a : Step) (hl : ∀ e dir, a = .look e dir → s.player.port ≠ 0 → ∀ p, findPlayerByID s.player.id dir = some p → P p)
    (hf : ∀ w, a = .find w → ∀ p, Ready w p → P p) : Sound P (s.step a) := by
  have h1 := h.player
  have h2 := h.phase
  have h3 := h.sent
  cases a with
  | tick now w dir =>
    simp only [State.step]
    split
    · split <;> exact ⟨h1, trivial, h3⟩
    · exact h
  | look e dir =>
    simp only [State.step]
    split
    · refine ⟨h1, ?_, h3⟩
      have hu : ∀ p, lookFor e dir s = .updated p → P p := by
        intro p hlk
        unfold lookFor at hlk
        split at hlk
        next hp =>
          split at hlk
          · cases hlk
          · split at hlk
            next q hq => cases hlk; exact hl _ dir rfl (by simpa [State.hasPlayer] using hp) p hq
            · cases hlk
        · cases hlk
      revert hu
      cases lookFor e dir s <;> intro hu
      case updated p => exact hu p rfl
      all_goals trivial
    · exact h
  | note =>
    simp only [State.step]
    split
    next p hp => rw [hp] at h2; exact ⟨fun _ => h2, trivial, h3⟩
    · exact ⟨fun hne => absurd rfl hne, trivial, h3⟩
    · exact ⟨h1, trivial, h3⟩
    · exact h
  | find w =>
    simp only [State.step]
    split
    · split
      · exact ⟨h1, trivial, h3⟩
      · split
        next p hp => exact ⟨h1, hf w rfl p (await_ready hp), h3⟩
        · exact h
        · exact ⟨h1, trivial, h3⟩
    · exact h
  | adopt =>
    simp only [State.step]
    split
    next p hp => rw [hp] at h2; exact ⟨fun _ => h2, trivial, h3⟩
    · exact ⟨h1, trivial, h3⟩
    · exact h
  | aim =>
    simp only [State.step]
    split
    · split
      next hp =>
        simp only [Bool.and_eq_true, State.hasPlayer, decide_eq_true_eq] at hp
        exact ⟨h1, h1 hp.1, h3⟩
      · exact ⟨h1, trivial, h3⟩
    · exact h
  | shoot time reached =>
    simp only [State.step]
    split
    next p hp =>
      rw [hp] at h2
      split
      · refine ⟨h1, trivial, ?_⟩
        intro x hx
        simp only [List.mem_append, List.mem_singleton] at hx
        rcases hx with hx | rfl
        · exact h3 x hx
        · exact h2
      · exact ⟨fun hne => absurd rfl hne, trivial, h3⟩
    · exact h
  | request time =>
    simp only [State.step]
    split
    next hp =>
      simp only [State.hasPlayer, decide_eq_true_eq] at hp
      refine ⟨h1, h2, ?_⟩
      intro x hx
      simp only [List.mem_append, List.mem_singleton] at hx
      rcases hx with hx | rfl
      · exact h3 x hx
      · exact h1 hp
    · exact h
  | shutdown time =>
    simp only [State.step]
    split
    next hp =>
      simp only [State.hasPlayer, decide_eq_true_eq] at hp
      refine ⟨h1, h2, ?_⟩
      intro x hx
      simp only [List.mem_append, List.mem_singleton] at hx
      rcases hx with hx | rfl
      · exact h3 x hx
      · exact h1 hp
    · exact h
  | unset => exact ⟨fun hne => absurd rfl hne, h2, h3⟩

/-- C67: whatever is interleaved how, the server only ever sends to players that it knows from a state file, or that were ready and answered. -/
theorem c67_listed (steps : List Step) : ∀ x ∈ (({} : State).run steps).sent, Offered steps x.2.1 := by
  have key : ∀ (rest done : List Step) (s : State), Sound (Offered (done ++ rest)) s → Sound (Offered (done ++ rest)) (s.run rest) := by
    intro rest
    induction rest with
    | nil => intro done s h; exact h
    | cons a rest ih =>
      intro done s h
      rw [run_cons]
      have e : done ++ a :: rest = (done ++ [a]) ++ rest := by simp
      have ha : a ∈ done ++ a :: rest := by simp
      have hs : Sound (Offered (done ++ a :: rest)) (s.step a) := by
        refine h.step a ?_ ?_
        · rintro er dir rfl _ p hp
          exact .inl ⟨er, dir, ha, (findById hp).2⟩
        · rintro w rfl p hp
          exact .inr ⟨w, ha, hp⟩
      rw [e] at hs ⊢
      exact ih _ _ hs
  exact (key steps [] {} ⟨fun h => absurd rfl h, trivial, by intro x hx; cases hx⟩).sent

/-- C67: after the player has been shut down and forgotten, nothing is sent to it any more. Missing from the full statement: if the loop has just found out about the player when that
happens, it uses it again (`c67_reset_witness`). -/
theorem c67_reset_partial {s : State} {id : String} (hs : Settled s.phase) (steps : List Step) (hf : ∀ w, Step.find w ∈ steps → ∀ p, Ready w p → p.id ≠ id) :
    ∀ x ∈ ((s.run (.unset :: steps)).sent.drop s.sent.length), x.2.1.id ≠ id := by
  have key : ∀ (steps : List Step) (t : State), (∀ w, Step.find w ∈ steps → ∀ p, Ready w p → p.id ≠ id) →
      Sound (fun p => p.id ≠ id) { t with sent := [] } → Sound (fun p => p.id ≠ id) { (t.run steps) with sent := (t.run steps).sent.drop t.sent.length } ∧ ∃ new, (t.run steps).sent = t.sent ++ new := by
    intro steps
    induction steps with
    | nil => intro t _ h; exact ⟨by simpa [run_nil] using h, [], by simp [run_nil]⟩
    | cons a steps ih =>
      intro t hf h
      rw [run_cons]
      have h1 : Sound (fun p => p.id ≠ id) (({ t with sent := [] } : State).step a) := by
        refine h.step a ?_ ?_
        · rintro e dir rfl hne p hp
          have := (findById hp).1
          show p.id ≠ id
          rw [this]
          exact h.player hne
        · rintro w rfl p hp
          exact hf w (List.mem_cons_self ..) p hp
      have h2 : ∃ new, (t.step a) = { (({ t with sent := [] } : State).step a) with sent := t.sent ++ new } ∧ (({ t with sent := [] } : State).step a).sent = new := by
        cases a with
        | tick now w dir =>
          simp only [State.step]
          split
          · split <;> exact ⟨[], by simp, rfl⟩
          · exact ⟨[], by simp, rfl⟩
        | look e dir => simp only [State.step]; split <;> exact ⟨[], by simp [lookFor, State.hasPlayer], rfl⟩
        | note => simp only [State.step]; split <;> exact ⟨[], by simp, rfl⟩
        | find w =>
          by_cases hp : t.player.port = 0
          · simp only [State.step, State.hasPlayer, hp, ne_eq, not_true_eq_false, decide_false, Bool.false_eq_true, if_false]
            split
            · split <;> exact ⟨[], by simp, rfl⟩
            · exact ⟨[], by simp, rfl⟩
          · simp only [State.step, State.hasPlayer, hp, ne_eq, not_false_eq_true, decide_true, if_true]
            split <;> exact ⟨[], by simp, rfl⟩
        | adopt => simp only [State.step]; split <;> exact ⟨[], by simp, rfl⟩
        | aim =>
          by_cases hp : (decide (t.player.port ≠ 0) && decide (t.now - t.lastPing > pingInterval)) = true
          · simp only [State.step, State.hasPlayer, hp, if_true]
            split <;> exact ⟨[], by simp, rfl⟩
          · simp only [Bool.not_eq_true] at hp
            simp only [State.step, State.hasPlayer, hp, Bool.false_eq_true, if_false]
            split <;> exact ⟨[], by simp, rfl⟩
        | shoot time reached =>
          simp only [State.step]
          split
          next p hp =>
            split
            · exact ⟨[(time, p, .ping)], by simp, rfl⟩
            · exact ⟨[], by simp, rfl⟩
          · exact ⟨[], by simp, rfl⟩
        | request time =>
          by_cases hp : t.player.port = 0
          · exact ⟨[], by simp [State.step, State.hasPlayer, hp], by simp [State.step, State.hasPlayer, hp]⟩
          · exact ⟨[(time, t.player, .request)], by simp [State.step, State.hasPlayer, hp], by simp [State.step, State.hasPlayer, hp]⟩
        | shutdown time =>
          by_cases hp : t.player.port = 0
          · exact ⟨[], by simp [State.step, State.hasPlayer, hp], by simp [State.step, State.hasPlayer, hp]⟩
          · exact ⟨[(time, t.player, .shutdown)], by simp [State.step, State.hasPlayer, hp], by simp [State.step, State.hasPlayer, hp]⟩
        | unset => exact ⟨[], by simp [State.step], rfl⟩
      obtain ⟨new, e1, e2⟩ := h2
      have h3 : Sound (fun p => p.id ≠ id) { (t.step a) with sent := [] } := by
        rw [e1]
        exact ⟨h1.player, h1.phase, by intro x hx; cases hx⟩
      obtain ⟨i1, new', i2⟩ := ih (t.step a) (fun w hw => hf w (List.mem_cons_of_mem _ hw)) h3
      have e3 : (t.step a).sent = t.sent ++ new := by rw [e1]
      refine ⟨⟨i1.player, i1.phase, ?_⟩, new ++ new', by rw [i2, e3, List.append_assoc]⟩
      intro x hx
      simp only at hx
      rw [i2, e3, List.append_assoc, List.drop_left, List.mem_append] at hx
      rcases hx with hx | hx
      · exact h1.sent x (by rw [e2]; exact hx)
      · refine i1.sent x ?_
        simp only
        rw [i2, List.drop_left]
        exact hx
  intro x hx
  have := (key steps (s.step .unset) hf ⟨fun h => absurd rfl h, ?_, by intro x hx; cases hx⟩).1.sent x
  · exact this hx
  · simp only [State.step]
    revert hs
    cases s.phase with
    | looked r => cases r <;> simp [Settled]
    | searched p => cases p <;> simp [Settled]
    | _ => simp [Settled]

/-- C67: the loop starts at most three players in ten seconds, however often it runs and whatever is interleaved. -/
theorem c67_pool (s : State) (steps : List Step) : 10000 * ((s.run steps).started : Int) ≤ 10000 * s.started + 3 * ((s.run steps).lastFilled - s.lastFilled) := by
  induction steps generalizing s with
  | nil => simp [run_nil]
  | cons a steps ih =>
    rw [run_cons]
    have h := ih (s.step a)
    have h1 : 10000 * ((s.step a).started : Int) ≤ 10000 * s.started + 3 * ((s.step a).lastFilled - s.lastFilled) := by
      cases a with
      | tick now w dir =>
        simp only [State.step]
        split
        · split
          next hn =>
            simp only [fillInterval] at hn
            have h3 : (fillPlayerPool w dir).1 ≤ 3 := by
              unfold fillPlayerPool
              split
              · simp
              · split
                · simp
                · split
                  · simp
                  · simp only; omega
            simp only
            push_cast
            omega
          · simp only; omega
        · omega
      | look e dir => simp only [State.step]; split <;> (try simp only) <;> omega
      | note => simp only [State.step]; split <;> (try simp only) <;> omega
      | find w =>
        simp only [State.step]
        split
        · split
          · simp only; omega
          · split <;> (try simp only) <;> omega
        · omega
      | adopt => simp only [State.step]; split <;> (try simp only) <;> omega
      | aim =>
        simp only [State.step]
        split
        · split <;> (try simp only) <;> omega
        · omega
      | shoot time reached =>
        simp only [State.step]
        split
        · split <;> (try simp only) <;> omega
        · omega
      | request time => simp only [State.step]; split <;> (try simp only) <;> omega
      | shutdown time => simp only [State.step]; split <;> (try simp only) <;> omega
      | unset => simp only [State.step]; omega
    omega

/-! ### Witnesses -/

/-- A world in which nothing goes wrong. -/
def calm : Pool.World := { answers := fun _ => true }

/-- The player of a REPL. -/
def someone (state : String) : Directory := [("abc.json", .player state 27278)]

/-- C67 is false if a request to start a new score (`:new`, `:load`) is handled while the loop has just read the state file of the player: the player is shut down and forgotten, but
the loop notes what it has read, and the next notes are sent to the player that has been shut down. -/
theorem c67_reset_witness : ∃ (s : State) (steps : List Step) (id : String), s.phase = .idle ∧ s.player.id = id ∧ (∀ w, Step.find w ∉ steps) ∧
    ((s.run steps).sent.map (fun x => (x.2.1.id, x.2.2))) = [(id, .shutdown), (id, .request)] := by
  refine ⟨{ player := ⟨"active", 27278, "abc"⟩, now := 5000, lastPing := 5000, lastFilled := 5000 },
    [.tick 5100 calm (someone "active"), .look none (someone "active"), .shutdown 5101, .unset, .note, .request 5102], "abc", rfl, rfl, ?_, ?_⟩
  · intro w hw; simp at hw
  · decide +kernel

/-- C67 is false if the loop does not run for eleven minutes (the computer sleeps): the player exits before the next ping. -/
theorem c67_sleep_witness : ∃ (r : Round) (p : Player.Proc) (as : List Player.Act), Present "abc" 27278 r ∧ p.exited = false ∧ 5 * 60000 ≤ p.manager.timeout ∧
    5000 + p.manager.timeout ≤ p.manager.current.expiry ∧ r.now = 665000 ∧ (p.run as).clock ≤ r.now ∧ (p.run as).exited = true := by
  have hk : playerId "abc.json" = "abc" := by decide +kernel
  refine ⟨{ now := 665000, fill := calm, fillDir := [], dir := someone "active", search := { look := fun _ => calm, dir := fun _ => [] }, time := 665000 },
    (Player.newProc 5000 400000), [.pass 660000, .poll], ⟨rfl, ⟨"active", "abc.json", 27278, by simp [someone], hk, rfl⟩, ?_, rfl⟩, ?_⟩
  · rintro st q ⟨name, p, h1, _, rfl⟩
    simp only [someone, List.mem_singleton, Prod.mk.injEq, Contents.player.injEq] at h1
    rw [h1.2.2]
  · decide +kernel

/-- Nothing keeps two REPL servers (or a REPL server and `alda play`) from taking the same player, if both read its state file before its state has changed. -/
theorem c67_shared_witness : ∃ (r r' : Round), r.dir = r'.dir ∧ (({} : State).run r.steps).player = (({} : State).run r'.steps).player ∧ (({} : State).run r.steps).player.port = 27278 ∧ r.now ≠ r'.now := by
  refine ⟨{ now := 50000, fill := calm, fillDir := [], dir := someone "ready", search := { look := fun _ => calm, dir := fun _ => someone "ready" }, time := 50001 },
    { now := 50002, fill := calm, fillDir := [], dir := someone "ready", search := { look := fun _ => calm, dir := fun _ => someone "ready" }, time := 50003 }, ?_⟩
  decide +kernel

/-- The hypotheses of `c67_alive_partial` can be met: two rounds, one of which sends a ping. -/
example : let r (now : Int) : Round := { now := now, fill := calm, fillDir := [], dir := someone "active", search := { look := fun _ => calm, dir := fun _ => [] }, time := now + 5 }
    Brisk 5000 [r 5900, r 6100] 100000 ∧ (∀ x ∈ [r 5900, r 6100], Present "abc" 27278 x) ∧
    pingTimes 27278 (({ player := ⟨"active", 27278, "abc"⟩, now := 5000, lastPing := 5000, lastFilled := 5000 } : State).run (roundSteps [r 5900, r 6100])).sent = [6105] ∧
    heard (Player.newProc 5000 300000) [.pass 1105, .ping, .pass 80000, .poll] = [6105] := by
  have hk : playerId "abc.json" = "abc" := by decide +kernel
  refine ⟨?_, ?_, ?_, ?_⟩
  · simp [Brisk]
  · intro x hx
    have hd : x.dir = someone "active" ∧ x.error = none ∧ x.reached = true := by
      simp only [List.mem_cons, List.not_mem_nil, or_false] at hx
      rcases hx with rfl | rfl <;> exact ⟨rfl, rfl, rfl⟩
    refine ⟨hd.2.1, ⟨"active", "abc.json", 27278, by rw [hd.1]; simp [someone], hk, rfl⟩, ?_, hd.2.2⟩
    rintro st q ⟨name, p, h1, _, rfl⟩
    rw [hd.1] at h1
    simp only [someone, List.mem_singleton, Prod.mk.injEq, Contents.player.injEq] at h1
    rw [h1.2.2]
  · decide +kernel
  · decide +kernel

end Keeper
end Alda
