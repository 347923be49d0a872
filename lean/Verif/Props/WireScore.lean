import Verif.Props.Wire
import Verif.Props.PlayerLiveWitness
/-!
C76: the bundle of a score, as the player reads it.
-/
namespace Alda
open Player Spec

theorem tracksFrom_range (s : Score) (o : Nat) (ps : List Nat) : ∀ (i : Int) (acc : Option Int), 0 ≤ i → (∀ a ∈ acc, 0 ≤ a ∧ a < i) →
    ∀ a ∈ tracksFrom s o i ps acc, 0 ≤ a ∧ a < i + ps.length := by
  induction ps with
  | nil => intro i acc _ h a ha; have := h a ha; simpa using this
  | cons p ps ih =>
    intro i acc hi h a ha
    simp only [tracksFrom] at ha
    have := ih (i + 1) _ (by omega) (by
      intro b hb
      split at hb
      · cases hb; omega
      · have := h b hb; omega) a ha
    simp only [List.length_cons]
    omega

theorem track_range (s : Score) (p : Nat) : 0 ≤ (s.track p).getD 0 ∧ (s.track p).getD 0 ≤ s.parts.length := by
  cases h : s.track p with
  | none => simp only [Option.getD_none]; omega
  | some t =>
    have := tracksFrom_range s p s.parts 1 none (by decide) (by simp) t h
    simp only [Option.getD_some]; omega

/-- The time a message is for, and the lengths it has, are at most `n` milliseconds. -/
def Within (n : Int) : Msg → Prop
  | .patch _ _ o _ | .volume _ _ o _ | .panning _ _ o _ | .tempo o _ | .shutdown o => o ≤ n
  | .note _ _ o _ d a _ => o ≤ n ∧ d ≤ n ∧ a ≤ n
  | .play => True

theorem sendAll_within (s : Score) (x : Transmission) (start : Rat) (n : Int) (es : List NoteEvent) : ∀ ch len,
    (∀ e ∈ es, e.offset - start - x.syncOffset e.part ≤ n ∧ e.duration ≤ n ∧ e.audible ≤ n) →
    ∀ m ∈ (sendAll s x start es ch len).1, Within n m := by
  induction es with
  | nil => intro ch len _ m hm; cases hm
  | cons e es ih =>
    intro ch len he m hm
    obtain ⟨h, hd, ha⟩ := he e (List.mem_cons_self ..)
    simp only [sendAll] at hm
    have ho := goRound_le h
    generalize goRound (e.offset - start - x.syncOffset e.part) = off at hm ho
    generalize (s.track e.part).getD 0 = tr at hm
    generalize h1 : patchMsgs tr off (s.heap e.part).instr.patch e ch = r1 at hm
    generalize h2 : volumeMsgs tr off e r1.2 = r2 at hm
    generalize h3 : panningMsgs tr off e r2.2 = r3 at hm
    simp only [List.mem_append, List.mem_singleton] at hm
    rcases hm with (((hm | hm) | hm) | hm) | hm
    · rw [← h1] at hm; unfold patchMsgs at hm; split at hm
      · split at hm
        · simp only [List.mem_singleton] at hm; subst hm; exact ho
        · cases hm
      · cases hm
    · rw [← h2] at hm; unfold volumeMsgs at hm; split at hm
      · simp only [List.mem_singleton] at hm; subst hm; exact ho
      · cases hm
    · rw [← h3] at hm; unfold panningMsgs at hm; split at hm
      · simp only [List.mem_singleton] at hm; subst hm; exact ho
      · cases hm
    · subst hm
      exact ⟨ho, goRound_le hd, goRound_le ha⟩
    · exact ih _ _ (fun e he' => he e (List.mem_cons_of_mem _ he')) m hm

theorem sendAll_end (s : Score) (x : Transmission) (start n : Rat) (es : List NoteEvent) : ∀ ch len, 0 ≤ len → len ≤ n →
    (∀ e ∈ es, e.offset - start - x.syncOffset e.part + e.audible ≤ n) →
    0 ≤ (sendAll s x start es ch len).2 ∧ (sendAll s x start es ch len).2 ≤ n := by
  induction es with
  | nil => intro ch len h0 hn _; exact ⟨h0, hn⟩
  | cons e es ih =>
    intro ch len h0 hn he
    have := he e (List.mem_cons_self ..)
    exact ih _ _ (by grind) (by grind) (fun e he' => he e (List.mem_cons_of_mem _ he'))

theorem tempoLoop_nonneg (it : List (Rat × Rat)) (start stop first : Rat) (ks : List Rat) :
    ∀ o v, Msg.tempo o v ∈ tempoLoop it start stop first ks → 0 ≤ o := by
  induction ks with
  | nil => intro o v h; cases h
  | cons k ks ih =>
    intro o v h
    simp only [tempoLoop] at h
    split at h
    · exact ih o v h
    · split at h
      · cases h
      · rcases List.mem_cons.1 h with h | h
        · cases h; exact goRound_nonneg (by split <;> grind)
        · exact ih o v h

/-- What is sent for a score, or for a part of it, is what the player reads: every note, instrument, volume, panning and tempo, to play and to end, if the score and its tempo changes take no longer
than 2147473 seconds (some 24 days). -/
theorem c76_score_partial {sort : List NoteEvent → List NoteEvent} (hsort : SortsByOffset sort) (program : List Upd) (hw : WrittenL program) (s : Score) (hs : s = (update program newScore).s)
    (x : Transmission) (ms : List Msg) (h : scoreToBundle sort s x = .ok ms) (start stop : Rat) (h1 : Stands s x.from_ 0 start) (h2 : Stands s x.to_ maxFloat stop)
    (notes : List NoteEvent) (hn : notes = ((s.events.take (x.toIndex.getD s.events.length)).drop x.fromIndex).filter (fun e => decide (start ≤ e.offset) && decide (e.offset < stop)))
    (hlen : ∀ e ∈ notes, 0 ≤ e.duration ∧ 0 ≤ e.audible) (hsync : ∀ e ∈ notes, start + x.syncOffset e.part ≤ e.offset)
    (hshort : ∀ e ∈ notes, e.offset - start - x.syncOffset e.part + e.audible ≤ 2147473647 ∧ e.duration ≤ 2147473647)
    (htempo : ∀ o v, Msg.tempo o v ∈ ms → o ≤ 2147483647) (hparts : s.parts.length ≤ 2147483647) (f32 : Rat → Rat) :
    readPacket (writeBundle f32 (ms.map .score)) = parseUpdates ((ms.map .score).map (single f32)) := by
  refine (c76_bundle f32 _ ?_).2
  obtain ⟨events, hv, hm⟩ := bundle_eq hsort h h1 h2
  have hevs : events = (s.events.take (x.toIndex.getD s.events.length)).drop x.fromIndex := by
    unfold eventSlice at hv
    simp only at hv
    split at hv
    · simp only [Except.ok.injEq] at hv; exact hv.symm
    · simp at hv
  have hmem : ∀ e ∈ (sort events).filter (wanted start stop), e ∈ notes := by
    intro e he
    rw [hn, ← hevs]
    exact ((hsort events).1.filter _).mem_iff.1 he
  have hes : ∀ e ∈ (sort events).filter (wanted start stop), Playable s start e ∧ 0 ≤ e.duration ∧ start + x.syncOffset e.part ≤ e.offset := by
    intro e he
    have he := hmem e he
    refine ⟨?_, (hlen e he).1, hsync e he⟩
    have ha := (hlen e he).2
    rw [hn] at he
    obtain ⟨he, hc⟩ := List.mem_filter.1 he
    simp only [Bool.and_eq_true, decide_eq_true_eq] at hc
    have he := List.mem_of_mem_take (List.mem_of_mem_drop he)
    have hin := reachable_eventsIn ⟨program, hs⟩ e he
    obtain ⟨r1, r2, r3⟩ := (c26_in_range program hw s hs).2 e he
    refine ⟨hc.1, ha, (c03_channel_nine program s hs e he).2, by subst hs; exact c01_note_range program e he, r1, r2, r3, ?_⟩
    have w : WF s := Reachable.wf ⟨program, hs⟩
    subst hs
    exact reachable_patch program _ (instances_lt w hin)
  have hvalid := sendAll_valid s x start _ ⟨fun _ => none, fun _ => none, fun _ => none⟩ 0 hes
  have hin := sendAll_within s x start 2147473647 ((sort events).filter (wanted start stop)) ⟨fun _ => none, fun _ => none, fun _ => none⟩ 0 (by
    intro e he
    have he := hmem e he
    have a1 := hlen e he
    have a2 := hshort e he
    have a3 := hsync e he
    have : ((2147473647 : Int) : Rat) = 2147473647 := rfl
    rw [this]
    refine ⟨by grind, by grind, by grind⟩)
  have hl := sendAll_end s x start 2147473647 ((sort events).filter (wanted start stop)) ⟨fun _ => none, fun _ => none, fun _ => none⟩ 0 (by decide +kernel) (by decide +kernel)
    (fun e he => (hshort e (hmem e he)).1)
  generalize sendAll s x start ((sort events).filter (wanted start stop)) ⟨fun _ => none, fun _ => none, fun _ => none⟩ 0 = r at *
  intro i hi
  obtain ⟨m, hmm, rfl⟩ := List.mem_map.1 hi
  have hm' := hmm
  rw [hm] at hm'
  simp only [List.mem_append] at hm'
  rcases hm' with ((hq | hq) | hq) | hq
  · split at hq
    · cases hq
    · obtain ⟨o, v, rfl⟩ := tempoLoop_only _ _ _ _ _ m hq
      have := tempoLoop_nonneg _ _ _ _ _ o v hq
      exact ⟨by omega, htempo o v hmm⟩
  · obtain ⟨v1, ⟨e, _, v2⟩, -, -⟩ := hvalid m hq
    have v3 := hin m hq
    have ht := track_range s e.part
    generalize (s.track e.part).getD 0 = t at v2 ht
    cases m <;> simp only [Valid, ForTrack, Within, Writable, Fits32] at * <;> omega
  · split at hq
    · cases hq
    · simp only [List.mem_singleton] at hq; subst hq; trivial
  · split at hq
    · simp only [List.mem_singleton] at hq; subst hq
      refine ⟨?_, ?_⟩
      · have := goRound_nonneg (r := r.2 + 10000) (by grind)
        omega
      · exact goRound_le (k := 2147483647) (by have : ((2147483647 : Int) : Rat) = 2147483647 := rfl; rw [this]; grind)
    · cases hq

/-- The hypotheses are met by a score of two instruments with a change of tempo. -/
example := c76_score_partial insertSort_sorts demoPlay demoPlay_written _ rfl { oneOff := true } demoPlayMs demoPlay_bundle 0 maxFloat (Or.inl ⟨rfl, rfl⟩) (Or.inl ⟨rfl, rfl⟩) _ rfl
  (by decide +kernel) (by decide +kernel) (by decide +kernel)
  (by
    intro o v hov
    exact of_decide_eq_true (tempos_of_all (ms := demoPlayMs) (P := fun o _ => decide (o ≤ 2147483647)) (by decide +kernel) o v hov))
  (by decide +kernel) id

/-- `piano: r2147483648ms c4`. -/
def demoLong : List Upd := [.partDecl ["piano"] "", .leaf (.rest [.ms 2147483648]), .leaf (.note (.letter .C none) [.length 4 0] false)]

/-- C76 is false of long scores: a note after 2147483648 ms (some 24 days and 20 hours) is read as one before the beginning, and so is the end, at once. -/
theorem c76_long_witness : ∃ (program : List Upd) (ms : List Msg), (update program newScore).err = none ∧
    (update program newScore).s.events.map (fun e => (e.note, e.offset)) = [(60, 2147483648)] ∧
    (scoreToBundle insertSort (update program newScore).s { oneOff := true }).toOption = some ms ∧
    ms.getLast? = some (.shutdown 2147494098) ∧
    (ms.map (fun m => read (write id (.score m)))).filterMap id =
      [.instr (.score (.tempo 0 120)), .instr (.score (.patch 1 0 (-2147483648) 0)), .instr (.score (.volume 1 0 (-2147483648) 100)),
        .instr (.score (.panning 1 0 (-2147483648) 64)), .instr (.score (.note 1 0 (-2147483648) 60 500 450 69)), .instr (.score .play),
        .instr (.score (.shutdown (-2147473198)))] :=
  ⟨demoLong, ((scoreToBundle insertSort (update demoLong newScore).s { oneOff := true }).toOption).getD [], by decide +kernel, by decide +kernel, by decide +kernel, by decide +kernel, by decide +kernel⟩

end Alda
