import Verif.Lemmas.PlayerScore
import Verif.Lemmas.PlayerExport
import Verif.Lemmas.Enough
/-!
C52 - C55: what is heard from the player.
-/
namespace Alda
open Player Spec

theorem matches_perm {α β : Type} {R : α → β → Prop} {b b' : List β} (hp : b.Perm b') : ∀ {l : List α}, Matches R l b → ∃ l', l'.Perm l ∧ Matches R l' b' := by
  induction hp with
  | nil => intro l h; exact ⟨l, .refl _, h⟩
  | cons x _ ih =>
    intro l h
    cases h with
    | cons h1 h2 =>
      obtain ⟨l', p, m⟩ := ih h2
      exact ⟨_, p.cons _, .cons h1 m⟩
  | swap x y l0 =>
    intro l h
    cases h with
    | cons h1 h2 =>
      cases h2 with
      | cons h3 h4 => exact ⟨_, .swap _ _ _, .cons h3 (.cons h1 h4)⟩
  | trans _ _ ih1 ih2 =>
    intro l h
    obtain ⟨l1, p1, m1⟩ := ih1 h
    obtain ⟨l2, p2, m2⟩ := ih2 m1
    exact ⟨l2, p2.trans p1, m2⟩

theorem matches_map_right {α β γ : Type} {R : α → β → Prop} {R' : α → γ → Prop} {f : β → γ} {l : List α} {b : List β} (h : Matches R l b)
    (hi : ∀ x ∈ l, ∀ y, R x y → R' x (f y)) : Matches R' l (b.map f) := by
  induction h with
  | nil => exact .nil
  | cons h _ ih => exact .cons (hi _ (List.mem_cons_self ..) _ h) (ih (fun x hx => hi x (List.mem_cons_of_mem _ hx)))

theorem tempoTimes_eq (ms : List Msg) : tempoTimes ms = (ms.filterMap tempoOf).map (·.1) := by
  induction ms with
  | nil => rfl
  | cons m ms ih => cases m <;> simp [tempoTimes, tempoOf, List.filterMap_cons, ih]

/-- The ticks of two notes that are far enough from each other. -/
theorem apart_ticks {m : Rat} {ms : List Msg} (h : Proper m ms) {a b : Int} (ha : 0 ≤ a) (hab : (a : Rat) + (((tempoTimes ms).length : Rat) + 1) * (60000 / (m * 128)) ≤ b) :
    tickOf ms a < tickOf ms b := by
  have hm := h.low
  refine tickVia_strict (d := 60000 / (m * 128)) hm ?_ firstEntry_sound h.rising h.high (fun t ht => (h.tempos t ht).1) ha ?_
  · rw [Rat.div_mul_cancel]
    · exact Rat.le_refl
    · grind
  · rw [tempoTimes_eq, List.length_map] at hab; exact hab

/-- An event for a note happens between its start and its end. -/
theorem forNote_ticks {start : Rat} {e : NoteEvent} {ev : Event} {tick : Int → Int} {x : MidiEvent} (hx : x ∈ midiOf tick ev) (h1 : ev.start = goRound (e.offset - start))
    (h2 : ∀ c o n d a v, ev = .note c o n d a v → a = goRound e.audible) :
    x.tick = tick (goRound (e.offset - start)) ∨ x.tick = tick (goRound (e.offset - start) + goRound e.audible) := by
  cases ev with
  | note c o n d a v =>
    have := h2 _ _ _ _ _ _ rfl
    simp only [Event.start] at h1
    subst h1; subst this
    simp only [midiOf, List.mem_cons, List.not_mem_nil, or_false] at hx
    rcases hx with rfl | rfl
    · exact Or.inl rfl
    · exact Or.inr rfl
  | _ =>
    simp only [Event.start] at h1
    subst h1
    simp only [midiOf, List.mem_cons, List.not_mem_nil, or_false] at hx
    subst hx; exact Or.inl rfl

/-- The bundle of a score makes sense to the player. -/
theorem score_proper {sort : List NoteEvent → List NoteEvent} (hsort : SortsByOffset sort) (program : List Upd) (hw : WrittenL program) (s : Score) (hs : s = (update program newScore).s)
    (x : Transmission) (hx : x.hasSync = false) (hx0 : ∀ p, x.syncOffset p = 0) (ms : List Msg) (h : scoreToBundle sort s x = .ok ms)
    (start stop : Rat) (h1 : Stands s x.from_ 0 start) (h2 : Stands s x.to_ maxFloat stop)
    (m : Rat) (hm : 0 < m) (hm' : m ≤ 120) (ht : ∀ o v, Msg.tempo o v ∈ ms → m ≤ v ∧ (0 < o → 234375 ≤ 1000 * o * m))
    (notes : List NoteEvent) (hn : notes = ((s.events.take (x.toIndex.getD s.events.length)).drop x.fromIndex).filter (fun e => decide (start ≤ e.offset) && decide (e.offset < stop)))
    (hlen : ∀ e ∈ notes, 0 ≤ e.audible) :
    ∃ es tempos body rest, Parts s x start es ms tempos body rest ∧ es.Perm notes ∧ es.Pairwise (fun a b => a.offset ≤ b.offset) ∧
      (∀ e ∈ es, e ∈ s.events ∧ start ≤ e.offset ∧ 0 ≤ e.audible) ∧ (∀ e ∈ es, Playable s start e) ∧ Proper m ms := by
  obtain ⟨es, tempos, body, rest, hp, hperm, hsorted⟩ := bundle_parts hsort hx h h1 h2
  rw [← hn] at hperm
  have hsub : ∀ e ∈ es, e ∈ s.events ∧ start ≤ e.offset ∧ 0 ≤ e.audible := by
    intro e he
    have he := hperm.mem_iff.1 he
    have ha := hlen e he
    rw [hn] at he
    obtain ⟨h1, h2⟩ := List.mem_filter.1 he
    simp only [Bool.and_eq_true, decide_eq_true_eq] at h2
    exact ⟨List.mem_of_mem_take (List.mem_of_mem_drop h1), h2.1, ha⟩
  have hplayable : ∀ e ∈ es, Playable s start e := by
    intro e he
    obtain ⟨he, ho, ha⟩ := hsub e he
    have hin := reachable_eventsIn ⟨program, hs⟩ e he
    obtain ⟨r1, r2, r3⟩ := (c26_in_range program hw s hs).2 e he
    refine ⟨ho, ha, (c03_channel_nine program s hs e he).2, by subst hs; exact c01_note_range program e he, r1, r2, r3, ?_⟩
    have w : WF s := Reachable.wf ⟨program, hs⟩
    subst hs
    exact reachable_patch program _ (instances_lt w hin)
  exact ⟨es, tempos, body, rest, hp, hperm, hsorted, hsub, hplayable,
    hp.proper hx0 hm hm' (fun o v ho => ⟨(ht o v ho).1, fun h0 => by have := (ht o v ho).2 h0; grind⟩) hplayable⟩

theorem keepsTime {y : Timing} (hy : y.Fair) {m : Rat} {ms : List Msg} (hproper : Proper m ms) (hm : 4 ≤ m) :
    KeepsTime (receive y (ms.map .score) fresh).engine.track (tickOf ms) (fun t => ((tempoTimes ms).countP (fun o => decide (o ≤ t)) + 1) * (234375 / m) + tickOf ms t / 256) := by
  refine ⟨fun a b ha hab => tickOf_mono hproper ha hab, ?_⟩
  intro t ht
  have := receive_clock hy hproper hm ht
  rw [← List.countP_eq_length_filter] at this
  have e : (tempoTimes ms).countP (fun o => decide (o ≤ t)) = (ms.filterMap tempoOf).countP (fun x => decide (x.1 ≤ t)) := by
    rw [tempoTimes_eq, List.countP_map]; rfl
  simp only [e]
  exact this

/-- C52: what is heard when a score is played by a player that has just started. It plays from the beginning at once, unless it is only to load the score. All notes selected are heard, and nothing else, each with the patch of its instrument, its velocity, track volume and panning; and each starts
and ends when it should, up to the length of half a tick for each tempo change before (and a rounding error of less than 4 ns for each tick).

What is missing for all scores: the tempo has to be 4 at least, a tempo change must not come within half a tick after the start, two notes on the same key must be half a millisecond apart, and two instruments
that share a channel have to leave a gap of a tick for each tempo change. -/
theorem c52_partial {sort : List NoteEvent → List NoteEvent} (hsort : SortsByOffset sort) (program : List Upd) (hw : WrittenL program) (s : Score) (hs : s = (update program newScore).s)
    (x : Transmission) (hx : x.hasSync = false) (hx0 : ∀ p, x.syncOffset p = 0) (ms : List Msg) (h : scoreToBundle sort s x = .ok ms)
    (start stop : Rat) (h1 : Stands s x.from_ 0 start) (h2 : Stands s x.to_ maxFloat stop)
    (m : Rat) (hm : 4 ≤ m) (hm' : m ≤ 120) (ht : ∀ o v, Msg.tempo o v ∈ ms → m ≤ v ∧ (0 < o → 234375 ≤ 1000 * o * m))
    (notes : List NoteEvent) (hn : notes = ((s.events.take (x.toIndex.getD s.events.length)).drop x.fromIndex).filter (fun e => decide (start ≤ e.offset) && decide (e.offset < stop)))
    (hlen : ∀ e ∈ notes, 0 ≤ e.audible)
    (hkey : notes.Pairwise (fun a b => a.channel = b.channel → a.note = b.note → Pause (1 / 2) a b))
    (hown : ∀ a ∈ notes, ∀ b ∈ notes, a.channel = b.channel → a.part = b.part ∨ Pause (((tempoTimes ms).length + 1) * (60000 / (m * 128)) + 3 / 2) a b)
    (y : Timing) (hy : y.Fair) :
    let engine := (receive y (ms.map .score) fresh).engine
    let track := engine.track
    engine.playing = !x.loadOnly ∧ engine.position = 0 ∧ ∃ tick played, KeepsTime track tick (fun t => ((tempoTimes ms).countP (fun o => decide (o ≤ t)) + 1) * (234375 / m) + tick t / 256) ∧
      played.Perm notes ∧ Matches (SoundsAs s start tick) played (tones track {}) := by
  intro engine track
  obtain ⟨es, tempos, body, rest, hp, hperm, hsorted, hsub, hplayable, hproper⟩ := score_proper hsort program hw s hs x hx hx0 ms h start stop h1 h2 m (by grind) hm' ht notes hn hlen
  have hengine := (receive_score hy hproper).1
  refine ⟨by rw [show engine = _ from hengine]; exact hp.play hx0, by rw [show engine = _ from hengine], tickOf ms, ?_⟩
  have htime := keepsTime hy hproper hm
  have hsounds : (tones track {}).Perm ((listen ms {}).map (toSound (tickOf ms))) := by
    refine receive_sounds hy hproper ?_ ?_ ?_ {}
    · rw [hp.events, hp.sent]; exact sendAll_order s x hx0 start es _ _ hsorted
    · rw [hp.events, hp.sent]
      refine sendAll_before s x hx0 start es _ _ (fun e he => (hsub e he).2) ?_
      have hk : es.Pairwise (fun a b => a.channel = b.channel → a.note = b.note → Pause (1 / 2) a b) := by
        refine hperm.symm.pairwise hkey ?_
        intro a b hab h1 h2
        exact (hab h1.symm h2.symm).symm
      refine List.Pairwise.imp_of_mem ?_ (hk.and hsorted)
      intro a b ha hb hab h1 h2
      rcases hab.1 h1 h2 with h | h
      · exact h
      · have := (hsub b hb).2.2; have := hab.2; grind
    · rw [hp.events, hp.sent]
      intro a ha b hb x' hx' z hz c hcx hcz hxz
      obtain ⟨ma, hma, ea⟩ := List.mem_filterMap.1 ha
      obtain ⟨mb, hmb, eb⟩ := List.mem_filterMap.1 hb
      obtain ⟨na, hna, eva, f1, f2, f3, _, f4⟩ := sendAll_for s x hx0 start es _ _ ma hma
      obtain ⟨nb, hnb, evb, g1, g2, g3, _, g4⟩ := sendAll_for s x hx0 start es _ _ mb hmb
      rw [f1] at ea; rw [g1] at eb
      simp only [Option.some.injEq] at ea eb
      subst ea; subst eb
      have c1 := midiOf_channel hx' hcx
      have c2 := midiOf_channel hz hcz
      have hch : na.channel = nb.channel := by rw [← f2, ← g2, c1, c2]
      rcases hown na (hperm.mem_iff.1 hna) nb (hperm.mem_iff.1 hnb) hch with hpart | hgap
      · simp only [hpart]
      · exfalso
        have key : ∀ (na nb : NoteEvent), na ∈ es → nb ∈ es → na.offset + na.audible + (((tempoTimes ms).length + 1) * (60000 / (m * 128)) + 3 / 2) ≤ nb.offset → ∀ u v,
            (u = tickOf ms (goRound (na.offset - start)) ∨ u = tickOf ms (goRound (na.offset - start) + goRound na.audible)) →
            (v = tickOf ms (goRound (nb.offset - start)) ∨ v = tickOf ms (goRound (nb.offset - start) + goRound nb.audible)) → u < v := by
          intro na nb hna hnb hle u v hu hv
          obtain ⟨_, a1, a2⟩ := hsub na hna
          obtain ⟨_, b1, b2⟩ := hsub nb hnb
          have k1 := goRound_nonneg (r := na.offset - start) (by grind)
          have k2 := goRound_nonneg a2
          have k3 := goRound_nonneg (r := nb.offset - start) (by grind)
          have k4 := goRound_nonneg b2
          have n1 := (goRound_nearest (na.offset - start)).1 (by grind)
          have n2 := (goRound_nearest na.audible).1 a2
          have n3 := (goRound_nearest (nb.offset - start)).1 (by grind)
          have hlt := apart_ticks hproper (a := goRound (na.offset - start) + goRound na.audible) (b := goRound (nb.offset - start)) (by omega)
            (by rw [Rat.intCast_add]; grind)
          have m1 := tickOf_mono hproper (a := goRound (na.offset - start)) (b := goRound (na.offset - start) + goRound na.audible) k1 (by omega)
          have m2 := tickOf_mono hproper (a := goRound (nb.offset - start)) (b := goRound (nb.offset - start) + goRound nb.audible) k3 (by omega)
          rcases hu with rfl | rfl <;> rcases hv with rfl | rfl <;> omega
        have ta := forNote_ticks hx' f3 f4
        have tb := forNote_ticks hz g3 g4
        rcases hgap with hgap | hgap
        · have := key na nb hna hnb hgap _ _ ta tb; omega
        · have := key nb na hnb hna hgap _ _ tb ta; omega
  rw [hp.listened, hp.sent] at hsounds
  have hl := listen_sendAll s x start es ⟨fun _ => none, fun _ => none, fun _ => none⟩ 0 {} ⟨fun _ => rfl, fun _ => rfl, fun _ => rfl⟩
  have hl' : Matches (SoundsAs s start (tickOf ms)) es ((listen (sendAll s x start es ⟨fun _ => none, fun _ => none, fun _ => none⟩ 0).1 {}).map (toSound (tickOf ms))) := by
    refine matches_map_right hl ?_
    intro e he r hr
    obtain ⟨r1, r2, r3, r4⟩ := r
    obtain ⟨q1, q2, q3⟩ := hr
    simp only at q1 q2 q3
    simp only [Prod.mk.injEq] at q3
    subst q1
    refine ⟨rfl, rfl, goRound_nearest _, q2, _, _, _, _, ?_, goRound_nearest e.audible, rfl, rfl, q3.1, goRound_nearest _, q3.2, goRound_nearest _⟩
    have e0 : e.offset - start - x.syncOffset e.part = e.offset - start := by rw [hx0]; grind
    rw [e0]; exact goRound_nearest _
  obtain ⟨played, p1, p2⟩ := matches_perm hsounds.symm hl'
  exact ⟨played, htime, p1.trans hperm, p2⟩

/-- C53: a player that has been sent a score to be played once shuts down about ten seconds after the last note has ended, and not before any note has ended; otherwise it does not shut down.

What is missing for all scores: the tempo has to be 4 at least, and a tempo change must not come within half a tick after the start. -/
theorem c53_partial {sort : List NoteEvent → List NoteEvent} (hsort : SortsByOffset sort) (program : List Upd) (hw : WrittenL program) (s : Score) (hs : s = (update program newScore).s)
    (x : Transmission) (hx : x.hasSync = false) (hx0 : ∀ p, x.syncOffset p = 0) (ms : List Msg) (h : scoreToBundle sort s x = .ok ms)
    (start stop : Rat) (h1 : Stands s x.from_ 0 start) (h2 : Stands s x.to_ maxFloat stop)
    (m : Rat) (hm : 4 ≤ m) (hm' : m ≤ 120) (ht : ∀ o v, Msg.tempo o v ∈ ms → m ≤ v ∧ (0 < o → 234375 ≤ 1000 * o * m))
    (notes : List NoteEvent) (hn : notes = ((s.events.take (x.toIndex.getD s.events.length)).drop x.fromIndex).filter (fun e => decide (start ≤ e.offset) && decide (e.offset < stop)))
    (hlen : ∀ e ∈ notes, 0 ≤ e.audible) (y : Timing) (hy : y.Fair) :
    let track := (receive y (ms.map .score) fresh).engine.track
    (receive y (ms.map .score) fresh).running = true ∧
    (x.oneOff = false → ∀ e ∈ track, e.msg ≠ .shutdown) ∧
    (x.oneOff = true → ∃ before e later fin t, track = before ++ e :: later ∧ e.msg = .shutdown ∧ (∀ z ∈ before ++ later, z.msg ≠ .shutdown) ∧ (∀ z ∈ later, ¬ Keyed z.msg) ∧
      (0 ≤ fin ∧ ∀ e ∈ notes, e.offset - start + e.audible ≤ fin) ∧ (fin = 0 ∨ ∃ e ∈ notes, e.offset - start + e.audible = fin) ∧ Nearest (fin + 10000) t ∧
      clock track e.tick - 1000 * t ≤ ((tempoTimes ms).countP (fun o => decide (o ≤ t)) + 1) * (234375 / m) + e.tick / 256 ∧
      1000 * t - clock track e.tick ≤ ((tempoTimes ms).countP (fun o => decide (o ≤ t)) + 1) * (234375 / m) + e.tick / 256) := by
  intro track
  obtain ⟨es, tempos, body, rest, hp, hperm, hsorted, hsub, hplayable, hproper⟩ := score_proper hsort program hw s hs x hx hx0 ms h start stop h1 h2 m (by grind) hm' ht notes hn hlen
  have hk := keepsTime hy hproper hm
  obtain ⟨r1, r2⟩ := receive_score hy hproper
  obtain ⟨c1, c2⟩ := c36 hsort s x ms h start stop h1 h2
  have hbase : InOrder (tempoEvents (entries firstEntry (ms.filterMap tempoOf))) := tempoEvents_inOrder firstEntry_sound hproper.rising
  have htrack : track = addAll ((threaded y ms).flatMap (fun x => midiOf (tickOf ms) x.2) ++ shutdownEvents ms) (tempoEvents (entries firstEntry (ms.filterMap tempoOf))) := by
    show (receive y (ms.map .score) fresh).engine.track = _
    rw [r1]
  have hthreaded : ∀ z ∈ (threaded y ms).flatMap (fun x => midiOf (tickOf ms) x.2), ∃ e ∈ ms.filterMap trackEvent, z ∈ midiOf (tickOf ms) e.2 := by
    intro z hz
    obtain ⟨e, he, hz⟩ := List.mem_flatMap.1 hz
    exact ⟨e, mem_of_filters (threaded_filter hy ms) e he, hz⟩
  have hnone : ∀ z ∈ addAll ((threaded y ms).flatMap (fun x => midiOf (tickOf ms) x.2)) (tempoEvents (entries firstEntry (ms.filterMap tempoOf))), z.msg ≠ .shutdown := by
    intro z hz
    rcases mem_addAll.1 hz with hz | hz
    · obtain ⟨e, _, hz⟩ := hthreaded z hz
      obtain ⟨_, e⟩ := e
      cases e <;> simp only [midiOf, List.mem_cons, List.not_mem_nil, or_false] at hz
      case note => rcases hz with rfl | rfl <;> simp
      all_goals (subst hz; simp)
    · obtain ⟨q, _, rfl⟩ := List.mem_map.1 hz
      unfold setTempoMessage
      simp only
      split
      · simp
      · split <;> simp
  refine ⟨r2, ?_, ?_⟩
  · intro ho e he
    have : shutdownEvents ms = [] := by
      unfold shutdownEvents
      rw [List.map_eq_nil_iff, List.filterMap_eq_nil_iff]
      intro msg hmsg
      cases msg with
      | shutdown t => exact absurd hmsg (c1 ho t)
      | _ => rfl
    rw [htrack, this, List.append_nil] at he
    exact hnone e he
  · intro ho
    obtain ⟨rest, t, fin, e1, e2, e3, e4, e5, e6⟩ := c2 ho
    have hsh : shutdownEvents ms = [⟨tickOf ms t, .shutdown⟩] := by
      unfold shutdownEvents
      have : ms.filterMap shutdownOf = [t] := by
        rw [e1, List.filterMap_append]
        have : rest.filterMap shutdownOf = [] := by
          rw [List.filterMap_eq_nil_iff]
          intro msg hmsg
          cases msg with
          | shutdown t => exact absurd hmsg (e2 t)
          | _ => rfl
        rw [this]; rfl
      rw [this]; rfl
    have ht0 : 0 < t := hproper.shutdowns t (by rw [e1]; simp)
    rw [hsh, addAll_append] at htrack
    have hin := addAll_inOrder hbase (xs := (threaded y ms).flatMap (fun x => midiOf (tickOf ms) x.2))
    have htrack : track = addEvent ⟨tickOf ms t, .shutdown⟩ (addAll ((threaded y ms).flatMap (fun x => midiOf (tickOf ms) x.2)) (tempoEvents (entries firstEntry (ms.filterMap tempoOf)))) := htrack
    rw [addEvent_eq hin] at htrack
    have hx0' : ∀ e : NoteEvent, e.offset - start - x.syncOffset e.part + e.audible = e.offset - start + e.audible := by intro e; rw [hx0]; grind
    simp only [hx0'] at e4 e5
    refine ⟨_, _, _, fin, t, htrack, rfl, ?_, ?_, ⟨e4.1, ?_⟩, ?_, e3, hk.2 t (by omega)⟩
    · intro z hz
      rcases List.mem_append.1 hz with hz | hz <;> exact hnone z (List.mem_filter.1 hz).1
    · intro z hz hkeyed
      obtain ⟨hz, hgt⟩ := List.mem_filter.1 hz
      simp only [decide_eq_true_eq] at hgt
      rcases mem_addAll.1 hz with hz | hz
      · obtain ⟨e, he, hz⟩ := hthreaded z hz
        have hfit := hproper.fits e he
        obtain ⟨msg, hmsg, hte⟩ := List.mem_filterMap.1 he
        cases msg with
        | note tr c o n d a v =>
          simp only [trackEvent, Option.some.injEq] at hte
          subst hte
          have hlt := e6 _ _ _ _ _ _ _ hmsg
          obtain ⟨f1, f2, _⟩ := hfit
          have m1 := tickOf_mono hproper (a := o) (b := t) f1 (by omega)
          have m2 := tickOf_mono hproper (a := o + a) (b := t) (by omega) (by omega)
          simp only [midiOf, List.mem_cons, List.not_mem_nil, or_false] at hz
          rcases hz with rfl | rfl
          · simp only at hgt; omega
          · simp only at hgt; omega
        | _ => simp only [trackEvent, Option.some.injEq, reduceCtorEq] at hte <;> (subst hte; simp only [midiOf, List.mem_singleton] at hz; subst hz; exact hkeyed)
      · obtain ⟨q, _, rfl⟩ := List.mem_map.1 hz
        simp only [setTempoMessage] at hkeyed
        split at hkeyed
        · exact hkeyed
        · split at hkeyed <;> exact hkeyed
    · intro e he
      rw [hn] at he
      obtain ⟨he, hc⟩ := List.mem_filter.1 he
      simp only [Bool.and_eq_true, decide_eq_true_eq] at hc
      exact e4.2 e he hc.1 hc.2
    · rcases e5 with h | ⟨e, he, a, b, c⟩
      · exact Or.inl h
      · refine Or.inr ⟨e, ?_, c⟩
        rw [hn]
        exact List.mem_filter.2 ⟨he, by simp [a, b]⟩

theorem foldl_min_spec (l : List MidiEvent) : ∀ a : Int, l.foldl (fun a e => min a e.tick) a ≤ a ∧ (∀ e ∈ l, l.foldl (fun a e => min a e.tick) a ≤ e.tick) ∧
    (l.foldl (fun a e => min a e.tick) a = a ∨ ∃ e ∈ l, l.foldl (fun a e => min a e.tick) a = e.tick) := by
  induction l with
  | nil => intro a; exact ⟨Int.le_refl _, by simp, Or.inl rfl⟩
  | cons e l ih =>
    intro a
    obtain ⟨i1, i2, i3⟩ := ih (min a e.tick)
    simp only [List.foldl_cons]
    generalize l.foldl (fun a e => min a e.tick) (min a e.tick) = r at *
    refine ⟨by omega, ?_, ?_⟩
    · intro x hx
      rcases List.mem_cons.1 hx with rfl | hx
      · omega
      · exact i2 x hx
    · rcases i3 with h | ⟨x, hx, h⟩
      · by_cases hc : a ≤ e.tick
        · exact Or.inl (by omega)
        · exact Or.inr ⟨e, List.mem_cons_self .., by omega⟩
      · exact Or.inr ⟨x, List.mem_cons_of_mem _ hx, h⟩

theorem tones_noteOn (l : List MidiEvent) : ∀ k, ∀ t ∈ tones l k, ∃ e ∈ l, e.tick = t.start ∧ e.msg = .noteOn t.channel t.note t.velocity := by
  induction l with
  | nil => intro k t ht; cases ht
  | cons e l ih =>
    intro k t ht
    rcases List.mem_append.1 ht with ht | ht
    · obtain ⟨tick, msg⟩ := e
      cases msg with
      | noteOn c n v => simp only [List.mem_singleton] at ht; subst ht; exact ⟨_, List.mem_cons_self .., rfl, rfl⟩
      | _ => cases ht
    · obtain ⟨e', h1, h2⟩ := ih _ t ht
      exact ⟨e', List.mem_cons_of_mem _ h1, h2⟩

theorem history_inOrder (history : List (Timing × List Instr)) : ∀ s : State, InOrder s.engine.track → InOrder (history.foldl (fun s h => receive h.1 h.2 s) s).engine.track := by
  induction history with
  | nil => intro s h; exact h
  | cons a l ih => intro s h; exact ih _ (receive_inOrder _ _ _ h)

/-- C54: whatever a player has been sent, the file that it exports sounds as what it would play, but without the time before the first note (or control change), and what it would play is not changed. -/
theorem c54_export (history : List (Timing × List Instr)) (s : State) (hs : s = history.foldl (fun s h => receive h.1 h.2 s) fresh) (y : Timing) (hy : y.Fair) (file : String)
    (hlong : ∀ e ∈ s.engine.track, e.tick < 2 ^ 63) (hsome : tones s.engine.track {} ≠ []) :
    ∃ exported first, (receive y [.exportTo file] s).files = s.files ++ [(file, exported)] ∧ (receive y [.exportTo file] s).engine = s.engine ∧
      (∀ e ∈ s.engine.track, Heard e.msg → first ≤ e.tick) ∧ (∃ e ∈ s.engine.track, Heard e.msg ∧ e.tick = first) ∧
      tones exported {} = (tones s.engine.track {}).map (fun t => { t with start := t.start - first, stop := t.stop.map (· - first) }) ∧
      ∀ t, first ≤ t → clock exported (t - first) = clock s.engine.track t - clock s.engine.track first := by
  have hin : InOrder s.engine.track := by rw [hs]; exact history_inOrder history fresh .nil
  have hmix : y.mix [] = [] := by
    have := hy [] List.nodup_nil
    cases hm : y.mix [] with
    | nil => rfl
    | cons a l =>
      have := this a.1
      rw [hm, List.filter_cons_of_pos (by simp)] at this
      simp at this
  obtain ⟨f1, f2, f3⟩ := foldl_min_spec (s.engine.track.filter (fun e => e.msg.countsForExport)) maxLong
  have hexp : s.engine.export = s.engine.track.map (MidiEvent.back ((s.engine.track.filter (fun e => e.msg.countsForExport)).foldl (fun a e => min a e.tick) maxLong)) := by
    unfold Engine.export
    simp only
    have := foldl_back ((s.engine.track.filter (fun e => e.msg.countsForExport)).foldl (fun a e => min a e.tick) maxLong) s.engine.track [] (by rw [List.nil_append]; exact back_inOrder hin _)
    rw [List.nil_append] at this
    exact this
  generalize (s.engine.track.filter (fun e => e.msg.countsForExport)).foldl (fun a e => min a e.tick) maxLong = first at *
  have hcounts : ∀ msg : MidiMsg, msg.countsForExport = true ↔ Heard msg := by intro msg; cases msg <;> simp [MidiMsg.countsForExport, Heard]
  have hle : ∀ e ∈ s.engine.track, Heard e.msg → first ≤ e.tick := fun e he h => f2 e (List.mem_filter.2 ⟨he, (hcounts _).2 h⟩)
  refine ⟨s.engine.export, first, ?_, ?_, hle, ?_, ?_, ?_⟩
  · simp [receive, parseUpdates, Updates.parse, Player.applyUpdates, eachOf, scheduleTracks, hmix]
  · simp [receive, parseUpdates, Updates.parse, Player.applyUpdates, eachOf, scheduleTracks, hmix]
  · rcases f3 with h | ⟨e, he, h⟩
    · cases ht : tones s.engine.track {} with
      | nil => exact absurd ht hsome
      | cons t l =>
        obtain ⟨e, he, h1, h2⟩ := tones_noteOn s.engine.track {} t (by rw [ht]; exact List.mem_cons_self ..)
        have hl := hle e he (by rw [h2]; trivial)
        have := hlong e he
        have hmax : maxLong = 2 ^ 63 - 1 := rfl
        exact ⟨e, he, by rw [h2]; trivial, by omega⟩
    · obtain ⟨h1, h2⟩ := List.mem_filter.1 he
      exact ⟨e, h1, (hcounts _).1 h2, h.symm⟩
  · rw [hexp, tones_back first hin (fun e he c n v hm => hle e he (by rw [hm]; trivial))]; rfl
  · intro t ht
    rw [hexp]
    exact clockFrom_back first hin 0 500000 t ht

end Alda
