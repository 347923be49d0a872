import Verif.Lemmas.PlayerBundle
import Verif.Spec.Live
/-!
A player that is sent one bundle after the other.
-/
namespace Alda
namespace Player
open Spec

/-! ### The time that the engine reports -/

theorem javaRound_le_int {x : Rat} {k : Int} (h : x ≤ k) : javaRound x ≤ k := by
  have := javaRound_mono h
  rwa [javaRound_int] at this

theorem le_javaRound_int {x : Rat} {k : Int} (h : (k : Rat) ≤ x) : k ≤ javaRound x := by
  have := javaRound_mono h
  rwa [javaRound_int] at this

/-- The time of a tick after an entry. -/
def msFrom (p : TempoEntry) (tick : Int) : Rat := p.offsetMs + ((tick : Rat) - p.ticks) * (60000 / (p.tempo * resolution))

theorem tick_scale {p : TempoEntry} (h : 0 < p.tempo) : 0 < 60000 / (p.tempo * resolution) ∧ 60000 / (p.tempo * resolution) * (p.tempo * resolution) = 60000 := by
  have hk : (0 : Rat) < p.tempo * resolution := by unfold resolution; grind
  have h1 : 60000 / (p.tempo * resolution) * (p.tempo * resolution) = 60000 := by rw [Rat.div_mul_cancel]; grind
  refine ⟨?_, h1⟩
  apply Classical.byContradiction
  intro hn
  have := Rat.mul_le_mul_of_nonneg_right (a := 60000 / (p.tempo * resolution)) (b := 0) (c := p.tempo * resolution) (by grind) (by grind)
  grind

theorem tickFrom_le {p : TempoEntry} (h : 0 < p.tempo) {tick b : Int} (hb : (b : Rat) ≤ msFrom p tick) : tickFrom p b ≤ tick := by
  obtain ⟨h1, h2⟩ := tick_scale h
  unfold msFrom at hb
  unfold tickFrom
  refine javaRound_le_int ?_
  have hk : (0 : Rat) ≤ p.tempo * resolution := by unfold resolution; grind
  have := Rat.mul_le_mul_of_nonneg_right (a := (b : Rat) - p.offsetMs) (b := ((tick : Rat) - p.ticks) * (60000 / (p.tempo * resolution))) (c := p.tempo * resolution) (by grind) hk
  rw [Rat.mul_assoc, h2] at this
  have h3 := Rat.mul_le_mul_of_nonneg_right (c := 1 / 60000) this (by grind)
  have e1 : (60000 : Rat)⁻¹ = 1 / 60000 := by grind
  rw [Rat.div_def, e1]
  grind

theorem le_tickFrom {p : TempoEntry} (h : 0 < p.tempo) {tick b : Int} (hb : msFrom p tick ≤ b) : tick ≤ tickFrom p b := by
  obtain ⟨h1, h2⟩ := tick_scale h
  unfold msFrom at hb
  unfold tickFrom
  refine le_javaRound_int ?_
  have hk : (0 : Rat) ≤ p.tempo * resolution := by unfold resolution; grind
  have := Rat.mul_le_mul_of_nonneg_right (b := (b : Rat) - p.offsetMs) (a := ((tick : Rat) - p.ticks) * (60000 / (p.tempo * resolution))) (c := p.tempo * resolution) (by grind) hk
  rw [Rat.mul_assoc, h2] at this
  have h3 := Rat.mul_le_mul_of_nonneg_right (c := 1 / 60000) this (by grind)
  have e1 : (60000 : Rat)⁻¹ = 1 / 60000 := by grind
  rw [Rat.div_def, e1]
  grind

theorem msFrom_ge {p : TempoEntry} (h : 0 < p.tempo) {tick : Int} (ht : p.ticks ≤ tick) : (p.offsetMs : Rat) ≤ msFrom p tick := by
  obtain ⟨h1, _⟩ := tick_scale h
  unfold msFrom
  have : (p.ticks : Rat) ≤ tick := Rat.intCast_le_intCast.2 ht
  have := Rat.mul_nonneg (a := (tick : Rat) - p.ticks) (b := 60000 / (p.tempo * resolution)) (by grind) (by grind)
  grind

theorem reading_one {p : TempoEntry} {rest : List TempoEntry} {tick : Int} (h : 0 < p.tempo) (ht : p.ticks ≤ tick) (hr : ∀ x, rest.head? = some x → tick < x.ticks) :
    ticksToMs (p :: rest) tick = some (msFrom p tick) := by
  unfold ticksToMs
  rw [List.takeWhile_cons_of_pos (by simpa using ht)]
  have : rest.takeWhile (fun x => decide (x.ticks ≤ tick)) = [] := by
    cases rest with
    | nil => rfl
    | cons x xs =>
      have := hr x rfl
      rw [List.takeWhile_cons_of_neg (by simp; omega)]
  rw [this]
  simp only [List.getLast?_singleton]
  rw [if_neg (by grind)]
  rfl

/-- The time that is reported for a tick belongs to that tick. -/
theorem reading {ts : List (Int × Rat)} : ∀ {p : TempoEntry} {tick : Int}, Sound1 p → Rising p.offsetMs ts → p.ticks ≤ tick →
    ∃ ms, ticksToMs (p :: entries p ts) tick = some ms ∧ (p.offsetMs : Rat) ≤ ms ∧ (∀ b : Int, (b : Rat) ≤ ms → tickVia p ts b ≤ tick) ∧ (∀ b : Int, ms ≤ b → tick ≤ tickVia p ts b) := by
  induction ts with
  | nil =>
    intro p tick h _ ht
    exact ⟨_, reading_one h.tempo ht (by intro x hx; cases hx), msFrom_ge h.tempo ht, fun b hb => tickFrom_le h.tempo hb, fun b hb => le_tickFrom h.tempo hb⟩
  | cons t ts ih =>
    intro p tick h hr ht
    obtain ⟨o, v⟩ := t
    obtain ⟨h1, h2, h3⟩ := hr
    simp only [entries, tickVia, lastVia]
    by_cases hn : tickFrom p o ≤ tick
    · obtain ⟨ms, i1, i2, i3, i4⟩ := ih (p := ⟨o, v, tickFrom p o⟩) (h.next h1 h2) h3 hn
      simp only [tickVia] at i3 i4
      have hpo : (p.offsetMs : Rat) ≤ o := Rat.intCast_le_intCast.2 h1
      refine ⟨ms, ?_, by simp only at i2; grind, ?_, ?_⟩
      · rw [← i1]
        unfold ticksToMs
        rw [List.takeWhile_cons_of_pos (by simpa using ht), List.takeWhile_cons_of_pos (by simpa using hn), List.getLast?_cons_cons]
      · intro b hb
        split
        · exact i3 b hb
        · rename_i hob
          have := tickFrom_mono h.tempo (a := b) (b := o) (by omega)
          omega
      · intro b hb
        rw [if_pos (Rat.intCast_le_intCast.1 (by simp only at i2; grind))]
        exact i4 b hb
    · have hlt : msFrom p tick < o := by
        apply Classical.byContradiction
        intro hc
        exact hn (tickFrom_le h.tempo (by grind))
      refine ⟨_, reading_one h.tempo ht (by intro x hx; simp only [List.head?_cons, Option.some.injEq] at hx; subst hx; show tick < tickFrom p o; omega), msFrom_ge h.tempo ht, ?_, ?_⟩
      · intro b hb
        rw [if_neg (by intro hc; have := Rat.intCast_le_intCast.2 hc; grind)]
        exact tickFrom_le h.tempo hb
      · intro b hb
        split
        · rename_i hob
          have := tickVia_ge (h.next h1 h2) h3 hob
          simp only [tickVia] at this
          omega
        · exact le_tickFrom h.tempo hb

/-! ### One more bundle -/

theorem shift_fits {e : Event} (h : e.Fits) {b : Int} (hb : 0 ≤ b) : (e.shift b).Fits := by
  cases e with
  | note c o n d a v => obtain ⟨h1, h2⟩ := h; exact ⟨by omega, h2⟩
  | _ => obtain ⟨h1, h2⟩ := h; exact ⟨by omega, h2⟩

theorem shift_shift_zero (e : Event) (b : Int) : (e.shift b).shift 0 = e.shift b := by
  cases e <;> simp [Event.shift]

theorem schedule_based {tick : Int → Int} {base : Int → Option Int} {b : Int → Int} (hb : ∀ t, base t = some (b t) ∧ 0 ≤ b t) (xs : List (Int × Event)) : ∀ {m : Engine},
    (∀ o : Int, 0 ≤ o → msToTicks m.itinerary o = some (tick o)) → (∀ x ∈ xs, x.2.Fits) →
    xs.foldl (scheduleStep base) (m, []) = ({ m with track := addAll (xs.flatMap (fun x => midiOf tick (x.2.shift (b x.1)))) m.track }, []) := by
  induction xs with
  | nil => intro m _ _; rfl
  | cons x xs ih =>
    intro m hi hx
    have e : scheduleStep base (m, []) x = ({ m with track := addAll (midiOf tick (x.2.shift (b x.1))) m.track }, []) := by
      unfold scheduleStep
      simp only [List.not_mem_nil, if_false, (hb x.1).1]
      have hs := schedule_fits hi (shift_fits (hx x (List.mem_cons_self ..)) (hb x.1).2)
      rw [shift_shift_zero] at hs
      rw [hs]
    rw [List.foldl_cons, e, ih (m := { m with track := addAll (midiOf tick (x.2.shift (b x.1))) m.track }) hi (fun y hy => hx y (List.mem_cons_of_mem _ hy)), List.flatMap_cons, addAll_append]

/-- The new start offsets of the tracks. -/
def startsAfter (starts b : Int → Int) (ms : List Msg) (t : Int) : Int := match (grouped [] (ms.filterMap trackEvent)).lookup t with
  | none => starts t
  | some events => newStart (starts t) (some (b t)) false events

/-- A bundle without shutdown, given what its tempos do. -/
theorem receive_more {y : Timing} (hy : y.Fair) {ms : List Msg} {s : State} {m : Engine} {tick : Int → Int} {b : Int → Int}
    (hsh : ∀ o, Msg.shutdown o ∉ ms) (hf : ∀ e ∈ ms.filterMap trackEvent, e.2.Fits)
    (ht : eachOf (fun t m => Engine.setTempo t.1 t.2 m) (ms.filterMap tempoOf) s.engine = (m, true))
    (hi : ∀ o : Int, 0 ≤ o → msToTicks m.itinerary o = some (tick o))
    (hb : ∀ t, adjustStart (m.moved (y.tickOf t)) (s.starts t) = some (b t) ∧ 0 ≤ b t) :
    receive y (ms.map .score) s =
      { engine := { m with track := addAll ((threaded y ms).flatMap (fun x => midiOf tick (x.2.shift (b x.1)))) m.track, playing := m.playing || decide (Msg.play ∈ ms) },
        starts := startsAfter s.starts b ms, running := s.running, files := s.files } := by
  have hp : parseUpdates (ms.map .score) = _ := parse_score ms (fun o ho => absurd ho (hsh o)) {}
  have hnone : ms.filterMap shutdownOf = [] := by
    rw [List.filterMap_eq_nil_iff]
    intro msg hmsg
    cases msg with
    | shutdown o => exact absurd hmsg (hsh o)
    | _ => rfl
  unfold receive
  rw [hp]
  unfold Player.applyUpdates
  simp only [Bool.false_eq_true, if_false, eachOf, Bool.not_true, List.nil_append, hnone, ht]
  have hall := schedule_based (tick := tick) (base := fun t => adjustStart (m.moved (y.tickOf t)) (s.starts t)) (b := b) hb (threaded y ms) (m := m) hi
    (by intro x hx; exact hf x (mem_of_filters (threaded_filter hy ms) x hx))
  have hall' : (y.mix (grouped [] (ms.filterMap trackEvent))).foldl (scheduleStep (fun t => adjustStart (m.moved (y.tickOf t)) (s.starts t))) (m, []) = _ := hall
  unfold scheduleTracks
  simp only [hall', List.not_mem_nil, decide_false, List.map_nil, List.append_nil]
  have hst : ∀ t, (adjustStart (m.moved (y.tickOf t)) (s.starts t)) = some (b t) := fun t => (hb t).1
  by_cases hpl : Msg.play ∈ ms
  · simp only [hpl, decide_true, Bool.or_true, if_true, hst]; rfl
  · simp only [hpl, decide_false, Bool.or_false, Bool.false_eq_true, if_false, hst]; rfl

/-! ### What is scheduled -/

theorem filters_eq {α : Type} {l l' : List (Int × α)} (h : ∀ t, (l.filter (fun e => decide (e.1 = t))).map (·.2) = (l'.filter (fun e => decide (e.1 = t))).map (·.2)) (t : Int) :
    l.filter (fun e => decide (e.1 = t)) = l'.filter (fun e => decide (e.1 = t)) := by
  have key : ∀ l : List (Int × α), l.filter (fun e => decide (e.1 = t)) = ((l.filter (fun e => decide (e.1 = t))).map (·.2)).map (fun e => (t, e)) := by
    intro l
    rw [List.map_map]
    conv => lhs; rw [← List.map_id (l.filter (fun e => decide (e.1 = t)))]
    apply List.map_congr_left
    intro x hx
    have := (List.mem_filter.1 hx).2
    simp only [decide_eq_true_eq] at this
    simp only [id_eq, Function.comp_apply]
    rw [← this]
  rw [key l, key l', h]

theorem eventsOf_eq (tick b : Int → Int) (ms : List Msg) :
    ms.flatMap (eventsOf tick b) = (ms.filterMap trackEvent).flatMap (fun e => (midiOf tick (e.2.shift (b e.1))).map (fun x => (e.1, x))) := by
  induction ms with
  | nil => rfl
  | cons m ms ih =>
    rw [List.flatMap_cons, ih, List.filterMap_cons]
    cases m <;> rfl

theorem eventsOf_snd (tick b : Int → Int) (ms : List Msg) :
    (ms.flatMap (eventsOf tick b)).map (·.2) = (ms.filterMap trackEvent).flatMap (fun e => midiOf tick (e.2.shift (b e.1))) := by
  rw [eventsOf_eq, List.map_flatMap]
  congr 1
  funext e
  rw [List.map_map]
  exact List.map_id _

theorem threaded_perm {y : Timing} (hy : y.Fair) (tick b : Int → Int) (ms : List Msg) :
    ((threaded y ms).flatMap (fun x => midiOf tick (x.2.shift (b x.1)))).Perm ((ms.flatMap (eventsOf tick b)).map (·.2)) := by
  rw [eventsOf_snd]
  exact (perm_of_filters (·.1) (filters_eq (threaded_filter hy ms))).flatMap_right _

theorem threaded_own {y : Timing} (hy : y.Fair) (tick b : Int → Int) (ms : List Msg) (P : MidiEvent → Bool)
    (hP : ∀ u ∈ ms.flatMap (eventsOf tick b), ∀ v ∈ ms.flatMap (eventsOf tick b), P u.2 → P v.2 → u.1 = v.1) :
    ((threaded y ms).flatMap (fun x => midiOf tick (x.2.shift (b x.1)))).filter P = ((ms.flatMap (eventsOf tick b)).map (·.2)).filter P := by
  rw [eventsOf_snd]
  have h := flatMap_filter_same (l := (threaded y ms).map (fun x => (x.1, x))) (l' := (ms.filterMap trackEvent).map (fun x => (x.1, x)))
    (by
      intro t
      rw [List.filter_map, List.filter_map, List.map_map, List.map_map]
      have := filters_eq (threaded_filter hy ms) t
      simp only [Function.comp_def] at this ⊢
      rw [this])
    (fun x => midiOf tick (x.2.shift (b x.1))) P
    (by
      intro u hu v hv a ha c hc hpa hpc
      obtain ⟨u, hu', rfl⟩ := List.mem_map.1 hu
      obtain ⟨v, hv', rfl⟩ := List.mem_map.1 hv
      refine hP (u.1, a) ?_ (v.1, c) ?_ hpa hpc
      · rw [eventsOf_eq]; exact List.mem_flatMap.2 ⟨u, hu', List.mem_map.2 ⟨a, ha, rfl⟩⟩
      · rw [eventsOf_eq]; exact List.mem_flatMap.2 ⟨v, hv', List.mem_map.2 ⟨c, hc, rfl⟩⟩)
  rw [List.flatMap_map, List.flatMap_map] at h
  exact h

/-! ### When the tracks are free -/

theorem maxOf_spec (l : List Int) : ∀ a, (∀ x ∈ a :: l, x ≤ maxOf a l) ∧ maxOf a l ∈ a :: l := by
  induction l with
  | nil => intro a; simp [maxOf]
  | cons c l ih =>
    intro a
    obtain ⟨i1, i2⟩ := ih (max a c)
    have e : maxOf a (c :: l) = maxOf (max a c) l := rfl
    rw [e]
    have i0 := i1 _ (List.mem_cons_self ..)
    constructor
    · intro x hx
      rcases List.mem_cons.1 hx with rfl | hx
      · omega
      · rcases List.mem_cons.1 hx with rfl | hx
        · omega
        · exact i1 x (List.mem_cons_of_mem _ hx)
    · rcases List.mem_cons.1 i2 with h | h
      · rw [h]
        by_cases hc : a ≤ c
        · rw [Int.max_eq_right hc]; simp
        · rw [Int.max_eq_left (by omega)]; simp
      · exact List.mem_cons_of_mem _ (List.mem_cons_of_mem _ h)

theorem mem_trackNotes {ms : List Msg} {t c o n d a v : Int} :
    Event.note c o n d a v ∈ ((ms.filterMap trackEvent).filter (fun e => decide (e.1 = t))).map (·.2) ↔ Msg.note t c o n d a v ∈ ms := by
  rw [List.mem_map]
  constructor
  · rintro ⟨x, hx, he⟩
    obtain ⟨hx, ht⟩ := List.mem_filter.1 hx
    obtain ⟨msg, hm, hte⟩ := List.mem_filterMap.1 hx
    simp only [decide_eq_true_eq] at ht
    cases msg <;> simp only [trackEvent, Option.some.injEq, reduceCtorEq] at hte <;> subst hte <;> simp only [reduceCtorEq] at he
    simp only [Event.note.injEq] at he
    obtain ⟨rfl, rfl, rfl, rfl, rfl, rfl⟩ := he
    simp only at ht
    subst ht
    exact hm
  · intro h
    exact ⟨(t, .note c o n d a v), List.mem_filter.2 ⟨List.mem_filterMap.2 ⟨_, h, rfl⟩, by simp⟩, rfl⟩

theorem forTrack_of_event {ms : List Msg} {t : Int} {e : Event} (h : e ∈ ((ms.filterMap trackEvent).filter (fun e => decide (e.1 = t))).map (·.2)) : ∃ msg ∈ ms, ForTrack t msg := by
  obtain ⟨x, hx, _⟩ := List.mem_map.1 h
  obtain ⟨hx, ht⟩ := List.mem_filter.1 hx
  obtain ⟨msg, hm, hte⟩ := List.mem_filterMap.1 hx
  simp only [decide_eq_true_eq] at ht
  refine ⟨msg, hm, ?_⟩
  cases msg <;> simp only [trackEvent, Option.some.injEq, reduceCtorEq] at hte <;> subst hte <;> exact ht

theorem busy_step {t : Int} {past : List (List Msg × (Int → Int))} {starts b : Int → Int} {ms : List Msg} (h : BusyUntil t past (starts t)) (hb : starts t ≤ b t)
    (hv : ∀ msg ∈ ms, Valid msg) (hn : ∀ msg ∈ ms, ForTrack t msg → ∃ c o n d a v, Msg.note t c o n d a v ∈ ms) : BusyUntil t (past ++ [(ms, b)]) (startsAfter starts b ms t) := by
  obtain ⟨⟨h1, h2⟩, h3⟩ := h
  have hl := grouped_lookup (ms.filterMap trackEvent) t []
  simp only [List.lookup_nil, Option.getD_none, List.nil_append] at hl
  -- the events of the track
  have hevents : startsAfter starts b ms t = newStart (starts t) (some (b t)) false (((ms.filterMap trackEvent).filter (fun e => decide (e.1 = t))).map (·.2)) := by
    unfold startsAfter
    cases hg : (grouped [] (ms.filterMap trackEvent)).lookup t with
    | none => rw [hg] at hl; simp only [Option.getD_none] at hl; rw [← hl]; rfl
    | some events => rw [hg] at hl; simp only [Option.getD_some] at hl; rw [← hl]
  rw [hevents]
  have hnotes := fun c o n d a v => mem_trackNotes (ms := ms) (t := t) (c := c) (o := o) (n := n) (d := d) (a := a) (v := v)
  have hforTrack := fun e => forTrack_of_event (ms := ms) (t := t) (e := e)
  generalize ((ms.filterMap trackEvent).filter (fun e => decide (e.1 = t))).map (·.2) = events at *
  cases events with
  | nil =>
    show BusyUntil t _ (starts t)
    refine ⟨⟨h1, ?_⟩, ?_⟩
    · intro x hx c o n d a v hm
      rcases List.mem_append.1 hx with hx | hx
      · exact h2 x hx c o n d a v hm
      · rw [List.mem_singleton] at hx
        subst hx
        exact absurd ((hnotes ..).2 hm) (by simp)
    · rcases h3 with h3 | ⟨x, hx, h3⟩
      · exact Or.inl h3
      · exact Or.inr ⟨x, List.mem_append_left _ hx, h3⟩
  | cons e0 events =>
    obtain ⟨msg, hmsg, hft⟩ := hforTrack e0 (List.mem_cons_self ..)
    obtain ⟨c, o, n, d, a, v, hnote⟩ := hn msg hmsg hft
    show BusyUntil t _ (maxOf ((e0.shift (b t)).endOffset) (events.map (fun e => (e.shift (b t)).endOffset)))
    obtain ⟨m1, m2⟩ := maxOf_spec (events.map (fun e => (e.shift (b t)).endOffset)) ((e0.shift (b t)).endOffset)
    rw [← List.map_cons (f := fun e : Event => (e.shift (b t)).endOffset)] at m1 m2
    generalize maxOf ((e0.shift (b t)).endOffset) (events.map (fun e => (e.shift (b t)).endOffset)) = fin at *
    have new : ∀ c o n d a v, Msg.note t c o n d a v ∈ ms → o + d + b t ≤ fin := by
      intro c o n d a v hm
      have := m1 _ (List.mem_map.2 ⟨_, (hnotes ..).2 hm, rfl⟩)
      simp only [Event.shift, Event.endOffset] at this
      omega
    have hlate : b t ≤ fin := by
      have := new _ _ _ _ _ _ hnote
      have := hv _ hnote
      obtain ⟨a1, a2, _⟩ := this
      omega
    refine ⟨⟨by omega, ?_⟩, ?_⟩
    · intro x hx c o n d a v hm
      rcases List.mem_append.1 hx with hx | hx
      · have := h2 x hx c o n d a v hm; omega
      · rw [List.mem_singleton] at hx
        subst hx
        exact new c o n d a v hm
    · obtain ⟨e, he, hfin⟩ := List.mem_map.1 m2
      cases e with
      | note c o n d a v =>
        refine Or.inr ⟨(ms, b), List.mem_append_right _ (List.mem_singleton_self _), c, o, n, d, a, v, (hnotes ..).1 he, ?_⟩
        simp only [Event.shift, Event.endOffset] at hfin
        show o + d + b t = fin
        omega
      | _ => exact Or.inl hfin.symm

/-! ### The session -/

/-- What holds in a session, after bundles that started at some times. -/
structure LiveInv (ts : List (Int × Rat)) (past : List (List Msg × (Int → Int))) (s : State) : Prop where
  itinerary : s.engine.itinerary = firstEntry :: entries firstEntry ts
  position : s.engine.position = 0
  running : s.running = true
  playing : s.engine.playing = true ↔ ∃ b ∈ past, Msg.play ∈ b.1
  busy : ∀ t, BusyUntil t past (s.starts t)
  track : ∃ xs, s.engine.track = addAll xs (tempoEvents (entries firstEntry ts)) ∧ xs.Perm ((eventsOfAll (tickVia firstEntry ts) past).map (·.2)) ∧
    ∀ P : MidiEvent → Bool, (∀ u ∈ eventsOfAll (tickVia firstEntry ts) past, ∀ v ∈ eventsOfAll (tickVia firstEntry ts) past, P u.2 → P v.2 → u.1 = v.1) →
      xs.filter P = ((eventsOfAll (tickVia firstEntry ts) past).map (·.2)).filter P

theorem valid_fits {ms : List Msg} (hv : ∀ msg ∈ ms, Valid msg) : ∀ e ∈ ms.filterMap trackEvent, e.2.Fits := by
  intro e he
  obtain ⟨msg, hm, hte⟩ := List.mem_filterMap.1 he
  have h := hv msg hm
  cases msg <;> simp only [trackEvent, Option.some.injEq, reduceCtorEq] at hte <;> subst hte
  case note => obtain ⟨h1, h2, h3⟩ := h; exact ⟨h1, h3⟩
  all_goals exact h

/-- Where a bundle starts on a track. -/
theorem adjust_starts {ts : List (Int × Rat)} (hr : Rising 0 ts) {m : Engine} (hi : m.itinerary = firstEntry :: entries firstEntry ts) (hp : m.position = 0) {tick : Int} (ht : 0 ≤ tick)
    (fin : Int) : ∃ b, adjustStart (m.moved tick) fin = some b ∧ fin ≤ b ∧ StartsAt (tickVia firstEntry ts) m.playing (if m.playing then tick else 0) fin b := by
  have hpos : (m.moved tick).position = if m.playing then tick else 0 := by unfold Engine.moved; split <;> simp [*]
  have hplay : (m.moved tick).playing = m.playing := by unfold Engine.moved; split <;> rfl
  have hit : (m.moved tick).itinerary = firstEntry :: entries firstEntry ts := by unfold Engine.moved; split <;> exact hi
  have h0 : firstEntry.ticks ≤ (if m.playing then tick else 0) := by show (0 : Int) ≤ _; split <;> omega
  obtain ⟨ms, r1, r2, r3, r4⟩ := reading firstEntry_sound hr h0
  unfold adjustStart Engine.now
  rw [hit, hpos, r1, hplay]
  simp only [Option.map_some]
  have n1 := javaRound_le ms
  have n2 := lt_javaRound ms
  have n0 : 0 ≤ javaRound ms := le_javaRound_int (k := 0) r2
  have q1 := r3 (javaRound ms - 1) (by rw [Rat.intCast_sub]; have : ((1 : Int) : Rat) = 1 := rfl; grind)
  have q2 := r4 (javaRound ms + 1) (by rw [Rat.intCast_add]; have : ((1 : Int) : Rat) = 1 := rfl; grind)
  generalize javaRound ms = now at *
  refine ⟨_, rfl, ?_, now, n0, q1, q2, ?_, ?_⟩
  · unfold scheduleBuffer; split <;> split <;> omega
  · intro hpl; simp only [hpl, Bool.false_eq_true, false_and, if_false]; split <;> omega
  · intro hpl; simp only [hpl, true_and, scheduleBuffer]; split <;> split <;> omega

theorem live_step {ts : List (Int × Rat)} (hr : Rising 0 ts) {past : List (List Msg × (Int → Int))} {s : State} {m : Engine} {y : Timing} (hy : y.Fair) (hy0 : ∀ t, 0 ≤ y.tickOf t) {ms : List Msg}
    (ht : eachOf (fun t m => Engine.setTempo t.1 t.2 m) (ms.filterMap tempoOf) s.engine = (m, true)) (h : LiveInv ts past { s with engine := m })
    (hv : ∀ msg ∈ ms, Valid msg) (hn : ∀ t, ∀ msg ∈ ms, ForTrack t msg → ∃ c o n d a v, Msg.note t c o n d a v ∈ ms) :
    ∃ b, (∀ t, ∃ fin, BusyUntil t past fin ∧ StartsAt (tickVia firstEntry ts) m.playing (if m.playing then y.tickOf t else 0) fin (b t)) ∧
      LiveInv ts (past ++ [(ms, b)]) (receive y (ms.map .score) s) := by
  have hbase := fun t => adjust_starts hr h.itinerary h.position (hy0 t) (s.starts t)
  obtain ⟨b, hb⟩ := Classical.axiomOfChoice hbase
  have hi : ∀ o : Int, 0 ≤ o → msToTicks m.itinerary o = some (tickVia firstEntry ts o) := by
    intro o ho
    rw [show m.itinerary = _ from h.itinerary]
    exact msToTicks_eq (pre := []) (by intro x hx; cases hx) firstEntry_sound hr ho
  have hrec := receive_more hy (s := s) (m := m) (b := b) (ms := ms) (fun o ho => hv _ ho) (valid_fits hv) ht hi
    (fun t => ⟨(hb t).1, by have h1 := (hb t).2.1; have h0 : 0 ≤ s.starts t := (h.busy t).1.1; omega⟩)
  refine ⟨b, fun t => ⟨s.starts t, h.busy t, (hb t).2.2⟩, ?_⟩
  rw [hrec]
  have hall : eventsOfAll (tickVia firstEntry ts) (past ++ [(ms, b)]) = eventsOfAll (tickVia firstEntry ts) past ++ ms.flatMap (eventsOf (tickVia firstEntry ts) b) := by
    unfold eventsOfAll
    rw [List.flatMap_append, List.flatMap_cons, List.flatMap_nil, List.append_nil]
  refine ⟨h.itinerary, h.position, h.running, ?_, fun t => busy_step (h.busy t) (hb t).2.1 hv (hn t), ?_⟩
  · have := h.playing
    simp only [Bool.or_eq_true, decide_eq_true_eq, List.mem_append, List.mem_singleton] at this ⊢
    rw [this]
    constructor
    · rintro (⟨x, hx, hp⟩ | hp)
      · exact ⟨x, Or.inl hx, hp⟩
      · exact ⟨_, Or.inr rfl, hp⟩
    · rintro ⟨x, hx | rfl, hp⟩
      · exact Or.inl ⟨x, hx, hp⟩
      · exact Or.inr hp
  · obtain ⟨xs, x1, x2, x3⟩ := h.track
    refine ⟨xs ++ (threaded y ms).flatMap (fun x => midiOf (tickVia firstEntry ts) (x.2.shift (b x.1))), ?_, ?_, ?_⟩
    · rw [addAll_append, ← x1]
    · rw [hall, List.map_append]
      exact x2.append (threaded_perm hy _ b ms)
    · intro P hP
      rw [hall] at hP ⊢
      rw [List.map_append, List.filter_append, List.filter_append, x3 P (fun u hu v hv => hP u (List.mem_append_left _ hu) v (List.mem_append_left _ hv)),
        threaded_own hy _ b ms P (fun u hu v hv => hP u (List.mem_append_right _ hu) v (List.mem_append_right _ hv))]

end Player
end Alda
