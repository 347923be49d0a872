import Verif.Lemmas.PlayerLive
import Verif.Props.Player
/-!
C55: playing live.
-/
namespace Alda
open Player Spec

theorem rising_of {ms : List Msg} : ∀ {a : Int}, (∀ o v, Msg.tempo o v ∈ ms → a ≤ o ∧ 0 < v) → (tempoTimes ms).Pairwise (· ≤ ·) → Rising a (ms.filterMap tempoOf) := by
  induction ms with
  | nil => intro a _ _; exact trivial
  | cons m ms ih =>
    intro a h hp
    cases m with
    | tempo o v =>
      simp only [tempoTimes, List.pairwise_cons] at hp
      obtain ⟨h1, h2⟩ := h o v (List.mem_cons_self ..)
      refine ⟨h1, h2, ih ?_ hp.2⟩
      intro o' v' hm
      refine ⟨hp.1 o' ?_, (h o' v' (List.mem_cons_of_mem _ hm)).2⟩
      rw [tempoTimes_eq]
      exact List.mem_map.2 ⟨(o', v'), mem_tempos.2 hm, rfl⟩
    | _ => exact ih (fun o v hm => h o v (List.mem_cons_of_mem _ hm)) hp

/-- What is demanded of a bundle of messages: each instrument that is set up plays a note. -/
def ProperBundle (b : Timing × List Msg) : Prop :=
  b.1.Fair ∧ (∀ t, 0 ≤ b.1.tickOf t) ∧ (∀ msg ∈ b.2, Valid msg) ∧ ∀ t, ∀ msg ∈ b.2, ForTrack t msg → ∃ c o n d a v, Msg.note t c o n d a v ∈ b.2

/-- Each of the bundles starts on each track when it should. -/
def InTurn (tick : Int → Int) (done : List (Timing × List Msg × (Int → Int))) : Prop :=
  ∀ before x later, done = before ++ x :: later → ∀ t, ∃ fin, BusyUntil t (before.map (·.2)) fin ∧
    let playing := before.any (fun b => decide (Msg.play ∈ b.2.1))
    StartsAt tick playing (if playing then x.1.tickOf t else 0) fin (x.2.2 t)

theorem live_session {ts : List (Int × Rat)} (hr : Rising 0 ts) (rest : List (Timing × List Msg)) : ∀ {done : List (Timing × List Msg × (Int → Int))} {s : State},
    (∀ b ∈ rest, ProperBundle b ∧ tempoTimes b.2 = []) → LiveInv ts (done.map (·.2)) s → InTurn (tickVia firstEntry ts) done →
    ∃ all, all.map (fun x => (x.1, x.2.1)) = done.map (fun x => (x.1, x.2.1)) ++ rest ∧ LiveInv ts (all.map (·.2)) (rest.foldl (fun s b => receive b.1 (b.2.map .score) s) s) ∧
      InTurn (tickVia firstEntry ts) all := by
  induction rest with
  | nil => intro done s _ h1 h2; exact ⟨done, by simp, h1, h2⟩
  | cons r rest ih =>
    intro done s hrest h1 h2
    obtain ⟨y, ms⟩ := r
    obtain ⟨⟨p1, p2, p3, p4⟩, p5⟩ := hrest _ (List.mem_cons_self ..)
    have hnone : ms.filterMap tempoOf = [] := by
      have := p5
      rw [tempoTimes_eq, List.map_eq_nil_iff] at this
      exact this
    obtain ⟨b, q1, q2⟩ := live_step hr (s := s) (m := s.engine) p1 p2 (ms := ms) (by rw [hnone]; rfl) h1 p3 p4
    have hpl : s.engine.playing = done.any (fun b => decide (Msg.play ∈ b.2.1)) := by
      rw [Bool.eq_iff_iff, h1.playing, List.any_eq_true]
      constructor
      · rintro ⟨x, hx, hp⟩
        obtain ⟨w, hw, rfl⟩ := List.mem_map.1 hx
        exact ⟨w, hw, by simpa using hp⟩
      · rintro ⟨w, hw, hp⟩
        exact ⟨w.2, List.mem_map.2 ⟨w, hw, rfl⟩, by simpa using hp⟩
    obtain ⟨all, r1, r2, r3⟩ := ih (done := done ++ [(y, ms, b)]) (s := receive y (ms.map .score) s) (fun b hb => hrest b (List.mem_cons_of_mem _ hb))
      (by rw [List.map_append]; exact q2)
      (by
        intro before x later he t
        rcases List.append_eq_append_iff.1 he with ⟨z, e1, e2⟩ | ⟨z, e1, e2⟩
        · cases z with
          | nil =>
            simp only [List.nil_append, List.cons.injEq] at e2
            simp only [List.append_nil] at e1
            obtain ⟨rfl, _⟩ := e2
            subst e1
            obtain ⟨fin, f1, f2⟩ := q1 t
            refine ⟨fin, f1, ?_⟩
            rw [hpl] at f2
            exact f2
          | cons w z => simp at e2
        · cases z with
          | nil =>
            simp only [List.nil_append, List.cons.injEq] at e2
            simp only [List.append_nil] at e1
            obtain ⟨rfl, _⟩ := e2
            subst e1
            obtain ⟨fin, f1, f2⟩ := q1 t
            refine ⟨fin, f1, ?_⟩
            rw [hpl] at f2
            exact f2
          | cons w z =>
            simp only [List.cons_append, List.cons.injEq] at e2
            obtain ⟨rfl, e2⟩ := e2
            exact h2 before x z e1 t)
    exact ⟨all, by rw [r1]; simp, r2, r3⟩

theorem eventsOf_kind {tick b : Int → Int} {msg : Msg} {x : Int × MidiEvent} (h : x ∈ eventsOf tick b msg) : isTempo x.2 = false ∧ notTempo x.2 = true := by
  cases msg <;> simp only [eventsOf, List.mem_cons, List.not_mem_nil, or_false] at h
  case note => rcases h with rfl | rfl <;> exact ⟨rfl, rfl⟩
  all_goals (subst h; exact ⟨rfl, rfl⟩)

theorem addAll_perm {xs : List MidiEvent} : (addAll xs []).Perm xs :=
  perm_of_filters (·.tick) (fun v => by rw [addAll_at .nil]; rfl)

theorem tempoEvents_notTempo (es : List TempoEntry) : (tempoEvents es).filter notTempo = [] := by
  rw [List.filter_eq_nil_iff]
  intro x hx
  obtain ⟨y, _, rfl⟩ := List.mem_map.1 hx
  have : setTempoMessage y.tempo = .go ∨ ∃ u, setTempoMessage y.tempo = .setTempo u := by
    unfold setTempoMessage
    split
    · exact Or.inl rfl
    · simp only
      split
      · exact Or.inl rfl
      · exact Or.inr ⟨_, rfl⟩
  rcases this with h | ⟨u, h⟩ <;> simp [notTempo, h]

/-- C55: a player that is sent one bundle after the other, while it plays, plays everything that it is sent. On each track a bundle starts after the notes of the bundles before, and not in the past.

What is missing: that instruments stay together; and the tempo has to be 4 at least. -/
theorem c55_partial (first : Timing × List Msg) (rest : List (Timing × List Msg)) (hb : ∀ b ∈ first :: rest, ProperBundle b) (m : Rat) (hm : 4 ≤ m) (hm' : m ≤ 120)
    (htempo : ∀ o v, Msg.tempo o v ∈ first.2 → m ≤ v) (horder : (tempoTimes first.2).Pairwise (· ≤ ·)) (hrest : ∀ b ∈ rest, tempoTimes b.2 = []) :
    let s := (first :: rest).foldl (fun s b => receive b.1 (b.2.map .score) s) fresh
    let track := s.engine.track
    s.running = true ∧ (s.engine.playing = true ↔ ∃ b ∈ first :: rest, Msg.play ∈ b.2) ∧
    ∃ tick done, done.map (fun x => (x.1, x.2.1)) = first :: rest ∧ InTurn tick done ∧
      KeepsTime track tick (fun t => ((tempoTimes first.2).countP (fun o => decide (o ≤ t)) + 1) * (234375 / m) + tick t / 256) ∧
      let events := eventsOfAll tick (done.map (·.2))
      (track.filter notTempo).Perm (events.map (·.2)) ∧ track.Pairwise (fun a b => a.tick ≤ b.tick) ∧
      ∀ c k, (∀ u ∈ events, ∀ v ∈ events, toChannel c u.2 → toChannel c v.2 → u.2.tick = k → v.2.tick = k → u.1 = v.1) →
        track.filter (fun e => toChannel c e && decide (e.tick = k)) = (events.map (·.2)).filter (fun e => toChannel c e && decide (e.tick = k)) := by
  intro s track
  obtain ⟨y, ms⟩ := first
  obtain ⟨p1, p2, p3, p4⟩ := hb _ (List.mem_cons_self ..)
  have hr : Rising 0 (ms.filterMap tempoOf) := rising_of (fun o v h => ⟨p3 _ h, by have := htempo o v h; grind⟩) horder
  have hset := setTempos (ts := ms.filterMap tempoOf) (pre := []) (p := firstEntry) (m := newEngine) rfl (by intro x hx; cases hx) firstEntry_sound hr .nil (by intro x hx; cases hx)
  obtain ⟨b, q1, q2⟩ := live_step hr (past := []) (s := fresh) p1 p2 hset
    ⟨rfl, rfl, rfl, by simp [newEngine], fun t => ⟨⟨Int.le_refl _, by intro b hb; cases hb⟩, Or.inl rfl⟩, [], rfl, .refl _, fun P _ => rfl⟩ p3 p4
  obtain ⟨all, r1, r2, r3⟩ := live_session hr rest (done := [(y, ms, b)]) (fun x hx => ⟨hb x (List.mem_cons_of_mem _ hx), hrest x hx⟩) q2
    (by
      intro before x later he t
      cases before with
      | nil =>
        simp only [List.nil_append, List.cons.injEq] at he
        obtain ⟨rfl, _⟩ := he
        exact q1 t
      | cons w before => simp at he)
  have hs : s = rest.foldl (fun s b => receive b.1 (b.2.map .score) s) (receive y (ms.map .score) fresh) := rfl
  rw [← hs] at r2
  obtain ⟨xs, x1, x2, x3⟩ := r2.track
  have x1 : track = _ := x1
  have hin : InOrder (tempoEvents (entries firstEntry (ms.filterMap tempoOf))) := tempoEvents_inOrder firstEntry_sound hr
  have hkind : ∀ e ∈ xs, isTempo e = false ∧ notTempo e = true := by
    intro e he
    obtain ⟨x, hx, rfl⟩ := List.mem_map.1 (x2.mem_iff.1 he)
    obtain ⟨b, _, hx⟩ := List.mem_flatMap.1 hx
    obtain ⟨msg, _, hx⟩ := List.mem_flatMap.1 hx
    exact eventsOf_kind hx
  refine ⟨r2.running, ?_, tickVia firstEntry (ms.filterMap tempoOf), all, by rw [r1]; rfl, r3, ⟨fun a b ha hab => tickVia_mono firstEntry_sound hr ha hab, ?_⟩, ?_, ?_, ?_⟩
  · rw [r2.playing]
    have hall : all.map (fun x => (x.1, x.2.1)) = (y, ms) :: rest := r1
    constructor
    · rintro ⟨x, hx, hp⟩
      obtain ⟨w, hw, rfl⟩ := List.mem_map.1 hx
      exact ⟨(w.1, w.2.1), by rw [← hall]; exact List.mem_map.2 ⟨w, hw, rfl⟩, hp⟩
    · rintro ⟨x, hx, hp⟩
      rw [← hall] at hx
      obtain ⟨w, hw, rfl⟩ := List.mem_map.1 hx
      exact ⟨w.2, List.mem_map.2 ⟨w, hw, rfl⟩, hp⟩
  · intro t ht
    have hclock : clock track (tickVia firstEntry (ms.filterMap tempoOf) t) =
        clockFrom (tempoEvents (entries firstEntry (ms.filterMap tempoOf))) firstEntry.ticks (uspq firstEntry.tempo) (tickVia firstEntry (ms.filterMap tempoOf) t) := by
      have hu : ((uspq firstEntry.tempo : Int) : Rat) = 500000 := by decide +kernel
      rw [hu]
      show clockFrom _ _ _ _ = _
      rw [x1, clockFrom_filter, addAll_filter hin, List.filter_eq_nil_iff.2 (fun e he => by rw [(hkind e he).1]; simp)]
      show clockFrom ((tempoEvents _).filter isTempo) _ _ _ = _
      rw [← clockFrom_filter]; rfl
    have hacc := clock_accurate (m := m) (by grind) (p := firstEntry) (ts := ms.filterMap tempoOf) (ms := t) firstEntry_sound hr hm'
      (fun x hx => by have := htempo x.1 x.2 (mem_tempos.1 hx); exact ⟨this, by grind⟩) ht
    have e1 : ((firstEntry.offsetMs : Int) : Rat) = 0 := rfl
    have e2 : ((firstEntry.ticks : Int) : Rat) = 0 := rfl
    simp only [e1, e2] at hacc
    have s0 : ∀ a : Rat, a - 0 = a := by intro a; grind
    rw [s0, s0, ← List.countP_eq_length_filter] at hacc
    have e : (tempoTimes ms).countP (fun o => decide (o ≤ t)) = (ms.filterMap tempoOf).countP (fun x => decide (x.1 ≤ t)) := by
      rw [tempoTimes_eq, List.countP_map]; rfl
    simp only [e]
    rw [hclock]
    exact hacc
  · rw [x1, addAll_filter hin, tempoEvents_notTempo, List.filter_eq_self.2 (fun e he => (hkind e he).2)]
    exact addAll_perm.trans x2
  · rw [x1]; exact addAll_inOrder hin
  · intro c k hown
    have hnone : (tempoEvents (entries firstEntry (ms.filterMap tempoOf))).filter (toChannel c) = [] := by
      rw [List.filter_eq_nil_iff]
      intro x hx hc
      have := List.filter_eq_nil_iff.1 (tempoEvents_notTempo (entries firstEntry (ms.filterMap tempoOf))) x hx
      obtain ⟨k', msg⟩ := x
      cases msg <;> simp_all [notTempo, toChannel]
    rw [x1, ← List.filter_filter, addAll_at hin, List.filter_append, List.filter_filter]
    have : (tempoEvents (entries firstEntry (ms.filterMap tempoOf))).filter (fun a => toChannel c a && decide (a.tick = k)) = [] := by
      rw [List.filter_eq_nil_iff] at hnone ⊢
      intro x hx hc
      simp only [Bool.and_eq_true] at hc
      exact hnone x hx hc.1
    rw [this, List.nil_append, List.filter_filter]
    refine x3 _ ?_
    intro u hu v hv h1 h2
    simp only [Bool.and_eq_true, decide_eq_true_eq] at h1 h2
    exact hown u hu v hv h1.1 h2.1 h1.2 h2.2

/-- What C55 says about two bundles: notes of the later one on a track start when those of the earlier one are over, and nothing that is sent to a playing player starts in the past. -/
theorem c55_in_turn {tick : Int → Int} (hmono : ∀ a b, 0 ≤ a → a ≤ b → tick a ≤ tick b) {done : List (Timing × List Msg × (Int → Int))} (h : InTurn tick done)
    {before later : List (Timing × List Msg × (Int → Int))} {x : Timing × List Msg × (Int → Int)} (hd : done = before ++ x :: later) (t : Int) :
    (∀ b ∈ before, ∀ c o n d a v, Msg.note t c o n d a v ∈ b.2.1 → o + d + b.2.2 t ≤ x.2.2 t) ∧
    ((∃ b ∈ before, Msg.play ∈ b.2.1) → ∀ o, 0 ≤ o → x.1.tickOf t ≤ tick (o + x.2.2 t)) := by
  obtain ⟨fin, ⟨⟨_, f1⟩, _⟩, now, n0, _, n2, n3, n4⟩ := h before x later hd t
  generalize hp : before.any (fun b => decide (Msg.play ∈ b.2.1)) = playing at *
  refine ⟨?_, ?_⟩
  · intro b hb c o n d a v hm
    have h1 := f1 b.2 (List.mem_map.2 ⟨b, hb, rfl⟩) c o n d a v hm
    cases playing with
    | false => have := n3 rfl; omega
    | true => have := n4 rfl; omega
  · rintro ⟨b, hb, hpl⟩ o ho
    have : playing = true := by
      rw [← hp, List.any_eq_true]
      exact ⟨b, hb, by simpa using hpl⟩
    subst this
    obtain ⟨_, n5, _⟩ := n4 rfl
    have := hmono (now + 1) (o + x.2.2 t) (by omega) (by omega)
    simp only [if_true] at n2
    omega

/-! ### The bundles of a score -/

theorem sendAll_valid (s : Score) (x : Transmission) (start : Rat) (es : List NoteEvent) : ∀ ch len,
    (∀ e ∈ es, Playable s start e ∧ 0 ≤ e.duration ∧ start + x.syncOffset e.part ≤ e.offset) →
    ∀ m ∈ (sendAll s x start es ch len).1, Valid m ∧ (∃ e ∈ es, ForTrack ((s.track e.part).getD 0) m) ∧ tempoOf m = none ∧ m ≠ .play := by
  induction es with
  | nil => intro ch len _ m hm; cases hm
  | cons e es ih =>
    intro ch len he m hm
    obtain ⟨h, hd, ho⟩ := he e (List.mem_cons_self ..)
    simp only [sendAll] at hm
    generalize hoff : goRound (e.offset - start - x.syncOffset e.part) = off at hm
    generalize htr : (s.track e.part).getD 0 = tr at hm
    generalize h1 : patchMsgs tr off (s.heap e.part).instr.patch e ch = r1 at hm
    generalize h2 : volumeMsgs tr off e r1.2 = r2 at hm
    generalize h3 : panningMsgs tr off e r2.2 = r3 at hm
    have ho : 0 ≤ off := by rw [← hoff]; exact goRound_nonneg (by grind)
    simp only [List.mem_append, List.mem_singleton] at hm
    rcases hm with (((hm | hm) | hm) | hm) | hm
    · rw [← h1] at hm; unfold patchMsgs at hm; split at hm
      · split at hm
        · simp only [List.mem_singleton] at hm
          subst hm
          exact ⟨⟨ho, h.channel.1, h.channel.2, by omega, by have := h.patch; omega⟩, ⟨e, List.mem_cons_self .., htr.symm⟩, rfl, by simp⟩
        · cases hm
      · cases hm
    · rw [← h2] at hm; unfold volumeMsgs at hm; split at hm
      · simp only [List.mem_singleton] at hm
        subst hm
        exact ⟨⟨ho, h.channel.1, h.channel.2, (goRound_fraction h.trackVolume).1, (goRound_fraction h.trackVolume).2⟩, ⟨e, List.mem_cons_self .., htr.symm⟩, rfl, by simp⟩
      · cases hm
    · rw [← h3] at hm; unfold panningMsgs at hm; split at hm
      · simp only [List.mem_singleton] at hm
        subst hm
        exact ⟨⟨ho, h.channel.1, h.channel.2, (goRound_fraction h.panning).1, (goRound_fraction h.panning).2⟩, ⟨e, List.mem_cons_self .., htr.symm⟩, rfl, by simp⟩
      · cases hm
    · subst hm
      exact ⟨⟨ho, goRound_nonneg hd, goRound_nonneg h.audible, h.channel.1, h.channel.2, h.note.1, h.note.2, (goRound_fraction h.volume).1, (goRound_fraction h.volume).2⟩,
        ⟨e, List.mem_cons_self .., htr.symm⟩, rfl, by simp [noteMsg]⟩
    · obtain ⟨q1, ⟨e', he', q2⟩, q3⟩ := ih _ _ (fun e he' => he e (List.mem_cons_of_mem _ he')) m hm
      exact ⟨q1, ⟨e', List.mem_cons_of_mem _ he', q2⟩, q3⟩

theorem rising_times {ms : List Msg} : ∀ {a : Int}, Rising a (ms.filterMap tempoOf) → (∀ o ∈ tempoTimes ms, a ≤ o) ∧ (tempoTimes ms).Pairwise (· ≤ ·) := by
  induction ms with
  | nil => intro a _; exact ⟨(by intro o ho; cases ho), .nil⟩
  | cons m ms ih =>
    intro a h
    cases m with
    | tempo o v =>
      obtain ⟨h1, h2, h3⟩ := h
      obtain ⟨i1, i2⟩ := ih h3
      simp only [tempoTimes, List.mem_cons, List.pairwise_cons]
      refine ⟨?_, i1, i2⟩
      rintro o' (rfl | h)
      · exact h1
      · have := i1 o' h; omega
    | _ => exact ih h

/-- C55: the bundles that the client makes of a score meet what `c55_partial` demands, if no note is before the place where its instrument stood when the last bundle was sent (which takes a jump
back to a marker). -/
theorem c55_bundles {sort : List NoteEvent → List NoteEvent} (hsort : SortsByOffset sort) (program : List Upd) (hw : WrittenL program) (s : Score) (hs : s = (update program newScore).s)
    (x : Transmission) (h1off : x.oneOff = false) (ms : List Msg) (h : scoreToBundle sort s x = .ok ms) (start stop : Rat) (h1 : Stands s x.from_ 0 start) (h2 : Stands s x.to_ maxFloat stop)
    (notes : List NoteEvent) (hn : notes = ((s.events.take (x.toIndex.getD s.events.length)).drop x.fromIndex).filter (fun e => decide (start ≤ e.offset) && decide (e.offset < stop)))
    (hlen : ∀ e ∈ notes, 0 ≤ e.duration ∧ 0 ≤ e.audible) (hsync : ∀ e ∈ notes, start + x.syncOffset e.part ≤ e.offset)
    (htempo : ∀ o v, Msg.tempo o v ∈ ms → 0 < v) (y : Timing) (hy : y.Fair) (hy0 : ∀ t, 0 ≤ y.tickOf t) :
    ProperBundle (y, ms) ∧ (tempoTimes ms).Pairwise (· ≤ ·) ∧ (x.hasSync = true → tempoTimes ms = []) ∧ (Msg.play ∈ ms ↔ x.loadOnly = false) := by
  obtain ⟨events, hv, hm⟩ := bundle_eq hsort h h1 h2
  have hevs : events = (s.events.take (x.toIndex.getD s.events.length)).drop x.fromIndex := by
    unfold eventSlice at hv
    simp only at hv
    split at hv
    · simp only [Except.ok.injEq] at hv; exact hv.symm
    · simp at hv
  simp only [h1off, Bool.false_eq_true, if_false, List.append_nil] at hm
  have hmem : ∀ e ∈ (sort events).filter (wanted start stop), e ∈ notes := by
    intro e he
    rw [hn, ← hevs]
    exact ((hsort events).1.filter _).mem_iff.1 he
  have hes : ∀ e ∈ (sort events).filter (wanted start stop), Playable s start e ∧ 0 ≤ e.duration ∧ start + x.syncOffset e.part ≤ e.offset := by
    intro e he
    have he := hmem e he
    refine ⟨?_, (hlen e he).1, hsync e he⟩
    have ha := (hlen e he).2
    rw [hn] at he
    obtain ⟨he, hc⟩ := List.mem_filter.1 he
    simp only [Bool.and_eq_true, decide_eq_true_eq] at hc
    have he := List.mem_of_mem_take (List.mem_of_mem_drop he)
    have hin := reachable_eventsIn ⟨program, hs⟩ e he
    obtain ⟨r1, r2, r3⟩ := (c26_in_range program hw s hs).2 e he
    refine ⟨hc.1, ha, (c03_channel_nine program s hs e he).2, by subst hs; exact c01_note_range program e he, r1, r2, r3, ?_⟩
    have w : WF s := Reachable.wf ⟨program, hs⟩
    subst hs
    exact reachable_patch program _ (instances_lt w hin)
  have hvalid := sendAll_valid s x start _ ⟨fun _ => none, fun _ => none, fun _ => none⟩ 0 hes
  have hnotes := sendAll_notes s x start ((sort events).filter (wanted start stop)) ⟨fun _ => none, fun _ => none, fun _ => none⟩ 0
  generalize (sendAll s x start ((sort events).filter (wanted start stop)) ⟨fun _ => none, fun _ => none, fun _ => none⟩ 0).1 = body at *
  generalize (sort events).filter (wanted start stop) = es at *
  have honly : ∀ m ∈ (if x.hasSync then [] else tempoMessages (tempoItinerary s) start stop), ∃ o v, m = Msg.tempo o v := by
    intro m hm
    split at hm
    · cases hm
    · exact tempoLoop_only _ _ _ _ _ m hm
  have hrising : Rising 0 ((if x.hasSync then [] else tempoMessages (tempoItinerary s) start stop).filterMap tempoOf) := by
    split
    · trivial
    · rename_i hns
      refine tempoLoop_rising _ _ _ _ _ 0 (sortedKeys_sorted _) ?_ ?_
      · intro k _
        exact goRound_nonneg (by split <;> grind)
      · intro o v ho
        refine htempo o v ?_
        rw [hm, if_neg hns]
        exact List.mem_append_left _ (List.mem_append_left _ ho)
  have hnosync : x.hasSync = true → (if x.hasSync then [] else tempoMessages (tempoItinerary s) start stop) = [] := fun h => if_pos h
  generalize (if x.hasSync then [] else tempoMessages (tempoItinerary s) start stop) = tempos at *
  have htimes : tempoTimes ms = tempoTimes tempos := by
    rw [tempoTimes_eq, tempoTimes_eq, hm, List.filterMap_append, List.filterMap_append]
    have e1 : body.filterMap tempoOf = [] := List.filterMap_eq_nil_iff.2 (fun m hm => (hvalid m hm).2.2.1)
    have e2 : (if x.loadOnly then [] else [Msg.play]).filterMap tempoOf = [] := by cases x.loadOnly <;> rfl
    rw [e1, e2]; simp
  obtain ⟨t1, t2⟩ := rising_times hrising
  refine ⟨⟨hy, hy0, ?_, ?_⟩, by rw [htimes]; exact t2, fun hx => by rw [htimes, hnosync hx]; rfl, ?_⟩
  · intro m hmem
    simp only at hmem
    rw [hm] at hmem
    rcases List.mem_append.1 hmem with hmem | hmem
    · rcases List.mem_append.1 hmem with hmem | hmem
      · obtain ⟨o, v, rfl⟩ := honly m hmem
        refine t1 o ?_
        rw [tempoTimes_eq]
        exact List.mem_map.2 ⟨(o, v), mem_tempos.2 hmem, rfl⟩
      · exact (hvalid m hmem).1
    · split at hmem
      · cases hmem
      · simp only [List.mem_singleton] at hmem; subst hmem; trivial
  · intro t m hmem hft
    simp only at hmem ⊢
    rw [hm] at hmem
    rcases List.mem_append.1 hmem with hmem | hmem
    · rcases List.mem_append.1 hmem with hmem | hmem
      · obtain ⟨o, v, rfl⟩ := honly m hmem; cases hft
      · obtain ⟨_, ⟨e, he, hft'⟩, _⟩ := hvalid m hmem
        have ht : t = (s.track e.part).getD 0 := by
          cases m <;> first | exact hft.symm.trans hft' | cases hft
        have : noteMsg ((s.track e.part).getD 0) (goRound (e.offset - start - x.syncOffset e.part)) e ∈ noteMsgs body := by
          rw [hnotes]; exact List.mem_map.2 ⟨e, he, rfl⟩
        have := (List.mem_filter.1 this).1
        rw [← ht] at this
        exact ⟨_, _, _, _, _, _, by rw [hm]; exact List.mem_append_left _ (List.mem_append_right _ this)⟩
    · split at hmem
      · cases hmem
      · simp only [List.mem_singleton] at hmem; subst hmem; cases hft
  · rw [hm, List.mem_append, List.mem_append]
    constructor
    · rintro ((h | h) | h)
      · obtain ⟨_, _, he⟩ := honly _ h; cases he
      · exact absurd rfl (hvalid _ h).2.2.2
      · cases hl : x.loadOnly with
        | false => rfl
        | true => rw [hl] at h; cases h
    · intro hl
      rw [hl]
      exact Or.inr (List.mem_singleton_self _)

end Alda
