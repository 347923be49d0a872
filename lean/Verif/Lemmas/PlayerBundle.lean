import Verif.Lemmas.PlayerReceive
/-!
The state of a fresh player after a bundle.
-/
namespace Alda
namespace Player
open Spec

/-- The first entry of the itinerary. -/
def firstEntry : TempoEntry := ⟨0, 120, 0⟩

theorem firstEntry_sound : Sound1 firstEntry := ⟨by decide, by decide +kernel, fun _ => rfl⟩

/-- A list of messages that makes sense to a player, with all tempos at least `m`. -/
structure Proper (m : Rat) (ms : List Msg) : Prop where
  low : 0 < m
  high : m ≤ 120
  rising : Rising 0 (ms.filterMap tempoOf)
  tempos : ∀ t ∈ ms.filterMap tempoOf, m ≤ t.2 ∧ (0 < t.1 → 30000 ≤ t.1 * (m * 128))
  fits : ∀ e ∈ ms.filterMap trackEvent, e.2.Fits
  shutdowns : ∀ o, Msg.shutdown o ∈ ms → 0 < o

/-- The tick of a time according to messages. -/
def tickOf (ms : List Msg) (o : Int) : Int := tickVia firstEntry (ms.filterMap tempoOf) o

/-- The events of tracks in the order in which the threads get to them. -/
def threaded (y : Timing) (ms : List Msg) : List (Int × Event) := y.mix (grouped [] (ms.filterMap trackEvent))

/-- The shutdown events. -/
def shutdownEvents (ms : List Msg) : List MidiEvent := (ms.filterMap shutdownOf).map (fun o => ⟨tickOf ms o, .shutdown⟩)

theorem threaded_filter {y : Timing} (hy : y.Fair) (ms : List Msg) (t : Int) :
    ((threaded y ms).filter (fun e => decide (e.1 = t))).map (·.2) = ((ms.filterMap trackEvent).filter (fun e => decide (e.1 = t))).map (·.2) := by
  unfold threaded
  rw [hy _ (grouped_nodup _ [] List.nodup_nil), grouped_lookup]; rfl

theorem shutdown_all {tick : Int → Int} (f : Int → Engine → Option Engine) (os : List Int) : ∀ {m : Engine},
    (∀ (m' : Engine) (o : Int), m'.itinerary = m.itinerary → m'.position = m.position → m'.playing = m.playing → o ∈ os →
      f o m' = some { m' with track := addEvent ⟨tick o, .shutdown⟩ m'.track }) →
    eachOf f os m = ({ m with track := addAll (os.map (fun o => ⟨tick o, .shutdown⟩)) m.track }, true) := by
  induction os with
  | nil => intro m _; rfl
  | cons o os ih =>
    intro m h
    simp only [eachOf]
    rw [h m o rfl rfl rfl (List.mem_cons_self ..)]
    simp only
    rw [ih]
    · rfl
    · intro m' o' h1 h2 h3 ho
      exact h m' o' h1 h2 h3 (List.mem_cons_of_mem _ ho)

theorem scheduleTracks_eq {y : Timing} {tracks : List (Int × List Event)} {s : State} {tick : Int → Int} (hb : ∀ t, adjustStart (s.engine.moved (y.tickOf t)) (s.starts t) = some 0)
    (hi : ∀ o : Int, 0 ≤ o → msToTicks s.engine.itinerary o = some (tick o)) (hx : ∀ x ∈ y.mix tracks, x.2.Fits) :
    ∃ st, scheduleTracks y tracks s = { s with engine := { s.engine with track := addAll ((y.mix tracks).flatMap (fun x => midiOf tick x.2)) s.engine.track }, starts := st } := by
  have := schedule_all hb (y.mix tracks) hi hx
  unfold scheduleTracks
  simp only [this]
  exact ⟨_, rfl⟩

/-- The state of the player. -/
theorem receive_score {y : Timing} (hy : y.Fair) {m : Rat} {ms : List Msg} (h : Proper m ms) :
    (receive y (ms.map .score) fresh).engine =
      { itinerary := firstEntry :: entries firstEntry (ms.filterMap tempoOf),
        track := addAll ((threaded y ms).flatMap (fun x => midiOf (tickOf ms) x.2) ++ shutdownEvents ms) (tempoEvents (entries firstEntry (ms.filterMap tempoOf))),
        playing := decide (Msg.play ∈ ms), position := 0 } ∧
    (receive y (ms.map .score) fresh).running = true := by
  have hp : parseUpdates (ms.map .score) = _ := parse_score ms (fun o ho => by have := h.shutdowns o ho; omega) {}
  have hset := setTempos (ts := ms.filterMap tempoOf) (pre := []) (p := firstEntry) (m := newEngine) rfl (by intro x hx; cases hx) firstEntry_sound h.rising .nil
    (by intro x hx; cases hx)
  have hms : ∀ o : Int, 0 ≤ o → msToTicks (firstEntry :: entries firstEntry (ms.filterMap tempoOf)) o = some (tickOf ms o) := by
    intro o ho
    exact msToTicks_eq (pre := []) (by intro x hx; cases hx) firstEntry_sound h.rising ho
  have hzero : ticksToMs (firstEntry :: entries firstEntry (ms.filterMap tempoOf)) 0 = some 0 := by
    have h4 : ∀ x ∈ firstEntry :: entries firstEntry (ms.filterMap tempoOf), Sound1 x := by
      intro x hx
      rcases List.mem_cons.1 hx with rfl | hx
      · exact firstEntry_sound
      · exact entries_sound firstEntry_sound h.rising x hx
    refine ticksToMs_zero rfl h4 ?_
    intro x hx
    rcases List.mem_cons.1 hx with rfl | hx
    · intro h; exact absurd h (by decide)
    · exact entries_later firstEntry_sound h.rising h.high (by intro h; exact absurd h (by decide)) h.tempos x hx
  have r0 : javaRound 0 = 0 := javaRound_int 0
  obtain ⟨st, hst⟩ := scheduleTracks_eq (y := y) (tracks := grouped [] (ms.filterMap trackEvent)) (tick := tickOf ms)
    (s := { fresh with engine := { newEngine with itinerary := firstEntry :: entries firstEntry (ms.filterMap tempoOf), track := tempoEvents (entries firstEntry (ms.filterMap tempoOf)) } })
    (by
      intro t
      unfold adjustStart Engine.now Engine.moved
      simp only [newEngine, fresh, Bool.false_eq_true, if_false, hzero, Option.map_some, r0, false_and]
      rfl)
    hms
    (by intro x hx; exact h.fits x (mem_of_filters (threaded_filter hy ms) x hx))
  unfold receive
  rw [hp]
  unfold applyUpdates
  simp only [Bool.false_eq_true, if_false, eachOf, Bool.not_true, fresh]
  simp only [List.nil_append, fresh] at hset hst ⊢
  rw [hset]
  simp only [Bool.not_true, Bool.false_eq_true, if_false]
  rw [show newEngine.track ++ tempoEvents (entries firstEntry (ms.filterMap tempoOf)) = tempoEvents (entries firstEntry (ms.filterMap tempoOf)) from rfl, hst]
  simp only
  rw [shutdown_all (tick := tickOf ms)]
  · simp only [Bool.not_true, Bool.false_eq_true, if_false, Bool.false_or]
    by_cases hpl : Msg.play ∈ ms
    · simp only [hpl, decide_true, if_true, and_true]
      rw [addAll_append]; rfl
    · simp only [hpl, decide_false, Bool.false_eq_true, if_false, and_true]
      rw [addAll_append]; rfl
  · intro m' o h1 h2 h3 ho
    simp only [newEngine] at h1 h2 h3
    have ho : 0 ≤ o := by
      obtain ⟨x, hx, he⟩ := List.mem_filterMap.1 ho
      cases x with
      | shutdown o' =>
        simp only [shutdownOf, Option.some.injEq] at he
        subst he
        have := h.shutdowns _ hx; omega
      | _ => cases he
    unfold Engine.scheduleShutdown Engine.now Engine.moved Engine.scheduleMsg
    simp only [h3, Bool.false_eq_true, if_false, h1, h2, hzero, Option.map_some, Option.bind_some, r0, Int.zero_add, hms o ho]

/-! ### What is heard -/

/-- The channel of an event. -/
def Event.channel : Event → Int
  | .patch c _ _ | .volume c _ _ | .panning c _ _ | .note c _ _ _ _ _ => c

/-- When an event is due. -/
def Event.start : Event → Int
  | .patch _ o _ | .volume _ o _ | .panning _ o _ | .note _ o _ _ _ _ => o

/-- The first of two notes on the same key ends before the second one. -/
def Event.Before : Event → Event → Prop
  | .note c o n _ a _, .note c' o' n' _ _ _ => c = c' → n = n' → o + a ≤ o'
  | _, _ => True

theorem midiOf_channel {tick : Int → Int} {e : Event} {x : MidiEvent} (h : x ∈ midiOf tick e) {c : Int} (hc : onChannel c x = true) : e.channel = c := by
  cases e <;> simp only [midiOf, List.mem_cons, List.not_mem_nil, or_false] at h
  case note => rcases h with rfl | rfl <;> simpa [onChannel, Event.channel] using hc
  all_goals (subst h; simpa [onChannel, Event.channel] using hc)

theorem midiOf_notOff {tick : Int → Int} {e : Event} {x : MidiEvent} (h : x ∈ midiOf tick e) (hn : notOff x = true) : x.tick = tick e.start := by
  cases e <;> simp only [midiOf, List.mem_cons, List.not_mem_nil, or_false] at h
  case note =>
    rcases h with rfl | rfl
    · rfl
    · cases hn
  all_goals (subst h; rfl)

theorem tickOf_mono {m : Rat} {ms : List Msg} (h : Proper m ms) {a b : Int} (ha : 0 ≤ a) (hab : a ≤ b) : tickOf ms a ≤ tickOf ms b :=
  tickVia_mono firstEntry_sound h.rising ha hab

theorem fits_start {e : Event} (h : e.Fits) : 0 ≤ e.start := by cases e <;> exact h.1

theorem tempoEvents_off (c : Int) (es : List TempoEntry) : (tempoEvents es).filter (onChannel c) = [] := by
  rw [List.filter_eq_nil_iff]
  intro x hx
  obtain ⟨y, _, rfl⟩ := List.mem_map.1 hx
  have : setTempoMessage y.tempo = .go ∨ ∃ u, setTempoMessage y.tempo = .setTempo u := by
    unfold setTempoMessage
    split
    · exact Or.inl rfl
    · simp only
      split
      · exact Or.inl rfl
      · exact Or.inr ⟨_, rfl⟩
  rcases this with h | ⟨u, h⟩ <;> simp [onChannel, h]

theorem tempoEvents_inOrder {ts : List (Int × Rat)} : ∀ {p : TempoEntry}, Sound1 p → Rising p.offsetMs ts → InOrder (tempoEvents (entries p ts)) := by
  induction ts with
  | nil => intro p _ _; exact .nil
  | cons t ts ih =>
    intro p h hr
    obtain ⟨o, v⟩ := t
    obtain ⟨h1, h2, h3⟩ := hr
    refine List.pairwise_cons.2 ⟨?_, ih (h.next h1 h2) h3⟩
    intro x hx
    obtain ⟨y, hy, rfl⟩ := List.mem_map.1 hx
    exact entries_ge (h.next h1 h2) h3 y hy

/-- Everything is heard as it would be heard in the order of the messages. -/
theorem receive_sounds {y : Timing} (hy : y.Fair) {m : Rat} {ms : List Msg} (h : Proper m ms)
    (ho : (ms.filterMap trackEvent).Pairwise (fun a b => a.2.start ≤ b.2.start)) (hb : (ms.filterMap trackEvent).Pairwise (fun a b => a.2.Before b.2))
    (hown : ∀ a ∈ ms.filterMap trackEvent, ∀ b ∈ ms.filterMap trackEvent, ∀ x ∈ midiOf (tickOf ms) a.2, ∀ z ∈ midiOf (tickOf ms) b.2, ∀ c, onChannel c x → onChannel c z →
      x.tick = z.tick → a.1 = b.1) (k : Controls) :
    (tones (receive y (ms.map .score) fresh).engine.track k).Perm ((listen ms k).map (toSound (tickOf ms))) := by
  rw [(receive_score hy h).1, ← sounds_midiAll]
  refine sounds_addAll (tempoEvents_inOrder firstEntry_sound h.rising) (fun c => tempoEvents_off c _) ?_ ?_ ?_ k
  · intro c v
    have hsh : (shutdownEvents ms).filter (onChannel c) = [] := by
      rw [List.filter_eq_nil_iff]
      intro x hx
      obtain ⟨o, _, rfl⟩ := List.mem_map.1 hx
      simp [onChannel]
    rw [List.filter_append, hsh, List.append_nil, List.filter_filter, List.filter_filter]
    refine flatMap_filter_same (threaded_filter hy ms) (midiOf (tickOf ms)) _ ?_
    intro a ha b hb x hx z hz hpx hpz
    simp only [Bool.and_eq_true, decide_eq_true_eq] at hpx hpz
    exact hown a ha b hb x hx z hz c hpx.2 hpz.2 (by rw [hpx.1, hpz.1])
  · intro c
    unfold InOrder midiAll
    rw [List.filter_filter, List.pairwise_filter, List.pairwise_flatMap]
    simp only [Bool.and_eq_true]
    constructor
    · intro a ha
      have : ∀ x ∈ midiOf (tickOf ms) a.2, ∀ z ∈ midiOf (tickOf ms) a.2, notOff x = true ∧ onChannel c x = true → notOff z = true ∧ onChannel c z = true → x.tick ≤ z.tick := by
        intro x hx z hz h1 h2
        rw [midiOf_notOff hx h1.1, midiOf_notOff hz h2.1]; exact Int.le_refl _
      exact List.Pairwise.imp_of_mem (R := fun _ _ => True) (fun hx hz _ => this _ hx _ hz) (List.pairwise_of_forall (fun _ _ => trivial))
    · refine List.Pairwise.imp_of_mem ?_ ho
      intro a b ha hb hab x hx z hz h1 h2
      rw [midiOf_notOff hx h1.1, midiOf_notOff hz h2.1]
      exact tickOf_mono h (fits_start (h.fits a ha)) hab
  · intro c n
    unfold InOrder midiAll
    rw [List.pairwise_filter, List.pairwise_flatMap]
    constructor
    · intro a ha
      have hf := h.fits a ha
      obtain ⟨t, e⟩ := a
      cases e with
      | note c' o n' d a v =>
        simp only [midiOf, List.pairwise_cons, List.mem_singleton, forall_eq, List.not_mem_nil, false_implies, implies_true, List.Pairwise.nil, and_true]
        intro _ _
        exact tickOf_mono h hf.1 (by have := hf.2.1; omega)
      | _ => simp [midiOf]
    · refine List.Pairwise.imp_of_mem ?_ hb
      intro a b ha hb hab x hx z hz h1 h2
      have hfa := h.fits a ha
      have hfb := h.fits b hb
      obtain ⟨t1, e1⟩ := a
      obtain ⟨t2, e2⟩ := b
      cases e1 with
      | note c1 o1 n1 d1 a1 v1 =>
        cases e2 with
        | note c2 o2 n2 d2 a2 v2 =>
          have hx1 : c1 = c ∧ n1 = n ∧ x.tick ≤ tickOf ms (o1 + a1) := by
            simp only [midiOf, List.mem_cons, List.not_mem_nil, or_false] at hx
            rcases hx with rfl | rfl
            · exact ⟨(by simp [onKey] at h1; exact h1.1), (by simp [onKey] at h1; exact h1.2), tickOf_mono h hfa.1 (by have := hfa.2.1; omega)⟩
            · exact ⟨(by simp [onKey] at h1; exact h1.1), (by simp [onKey] at h1; exact h1.2), Int.le_refl _⟩
          have hz1 : c2 = c ∧ n2 = n ∧ tickOf ms o2 ≤ z.tick := by
            simp only [midiOf, List.mem_cons, List.not_mem_nil, or_false] at hz
            rcases hz with rfl | rfl
            · exact ⟨(by simp [onKey] at h2; exact h2.1), (by simp [onKey] at h2; exact h2.2), Int.le_refl _⟩
            · exact ⟨(by simp [onKey] at h2; exact h2.1), (by simp [onKey] at h2; exact h2.2), tickOf_mono h hfb.1 (by have := hfb.2.1; omega)⟩
          have hle : o1 + a1 ≤ o2 := hab (by rw [hx1.1, hz1.1]) (by rw [hx1.2.1, hz1.2.1])
          have := tickOf_mono h (by have := hfa.1; have := hfa.2.1; omega) hle
          omega
        | _ => simp only [midiOf, List.mem_singleton] at hz; subst hz; cases h2
      | _ => simp only [midiOf, List.mem_singleton] at hx; subst hx; cases h1

/-! ### The time -/

/-- The sequencer gets to the tick of a time at about that time. -/
theorem receive_clock {y : Timing} (hy : y.Fair) {m : Rat} {ms : List Msg} (h : Proper m ms) (h4 : 4 ≤ m) {t : Int} (ht : 0 ≤ t) :
    let n : Rat := (((ms.filterMap tempoOf).filter (fun x => decide (x.1 ≤ t))).length : Rat) + 1
    let now := clock (receive y (ms.map .score) fresh).engine.track (tickOf ms t)
    now - 1000 * (t : Rat) ≤ n * (234375 / m) + (tickOf ms t : Rat) / 256 ∧ 1000 * (t : Rat) - now ≤ n * (234375 / m) + (tickOf ms t : Rat) / 256 := by
  intro n now
  have hn : now = clockFrom (tempoEvents (entries firstEntry (ms.filterMap tempoOf))) firstEntry.ticks (uspq firstEntry.tempo) (tickOf ms t) := by
    have hu : ((uspq firstEntry.tempo : Int) : Rat) = 500000 := by decide +kernel
    rw [hu]
    show clockFrom _ _ _ _ = _
    rw [(receive_score hy h).1, clockFrom_filter, addAll_filter (tempoEvents_inOrder firstEntry_sound h.rising)]
    have hnone : ((threaded y ms).flatMap (fun x => midiOf (tickOf ms) x.2) ++ shutdownEvents ms).filter isTempo = [] := by
      rw [List.filter_eq_nil_iff]
      intro x hx
      rcases List.mem_append.1 hx with hx | hx
      · obtain ⟨e, _, hx⟩ := List.mem_flatMap.1 hx
        obtain ⟨_, e⟩ := e
        cases e <;> simp only [midiOf, List.mem_cons, List.not_mem_nil, or_false] at hx
        case note => rcases hx with rfl | rfl <;> simp [isTempo]
        all_goals (subst hx; simp [isTempo])
      · obtain ⟨o, _, rfl⟩ := List.mem_map.1 hx
        simp [isTempo]
    rw [hnone]
    show clockFrom ((tempoEvents _).filter isTempo) _ _ _ = _
    rw [← clockFrom_filter]; rfl
  have := clock_accurate h.low (p := firstEntry) (ts := ms.filterMap tempoOf) (ms := t) firstEntry_sound h.rising h.high
    (fun x hx => by have := (h.tempos x hx).1; exact ⟨this, by grind⟩) ht
  have e1 : ((firstEntry.offsetMs : Int) : Rat) = 0 := rfl
  have e2 : ((firstEntry.ticks : Int) : Rat) = 0 := rfl
  simp only [e1, e2] at this
  rw [hn]
  have s0 : ∀ a : Rat, a - 0 = a := by intro a; grind
  rw [s0, s0] at this
  exact this

end Player
end Alda
