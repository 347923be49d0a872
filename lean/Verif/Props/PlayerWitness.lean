import Verif.Props.Player
/-!
C52 - C54: concrete cases, and scores that are not played as they are written.
-/
namespace Alda
open Player Spec

/-- Inserting a note. -/
def insertNote (e : NoteEvent) : List NoteEvent → List NoteEvent
  | [] => [e]
  | a :: l => if e.offset ≤ a.offset then e :: a :: l else a :: insertNote e l

/-- A way to sort that can be computed. -/
def insertSort (l : List NoteEvent) : List NoteEvent := l.foldr insertNote []

theorem insertNote_perm (e : NoteEvent) (l : List NoteEvent) : (insertNote e l).Perm (e :: l) := by
  induction l with
  | nil => exact .refl _
  | cons a l ih =>
    simp only [insertNote]
    split
    · exact .refl _
    · exact (ih.cons a).trans (.swap ..)

theorem insertNote_sorted (e : NoteEvent) (l : List NoteEvent) (h : l.Pairwise (fun a b => a.offset ≤ b.offset)) : (insertNote e l).Pairwise (fun a b => a.offset ≤ b.offset) := by
  induction l with
  | nil => simp [insertNote]
  | cons a l ih =>
    rw [List.pairwise_cons] at h
    simp only [insertNote]
    split
    · rename_i hle
      rw [List.pairwise_cons, List.pairwise_cons]
      refine ⟨?_, h⟩
      intro b hb
      rcases List.mem_cons.1 hb with rfl | hb
      · exact hle
      · exact Rat.le_trans hle (h.1 b hb)
    · rename_i hle
      rw [List.pairwise_cons]
      refine ⟨?_, ih h.2⟩
      intro b hb
      rcases List.mem_cons.1 ((insertNote_perm e l).mem_iff.1 hb) with rfl | hb
      · grind
      · exact h.1 b hb

theorem insertSort_sorts : SortsByOffset insertSort := by
  intro l
  induction l with
  | nil => exact ⟨.refl _, .nil⟩
  | cons a l ih => exact ⟨(insertNote_perm a _).trans (ih.1.cons a), insertNote_sorted a _ ih.2⟩

/-- The threads run one after the other, but the first one is held up before its last event. -/
def lateMix : List (Int × List Event) → List (Int × Event)
  | [] => []
  | (t, es) :: rest => es.dropLast.map (fun e => (t, e)) ++ (rest.flatMap (fun x => x.2.map (fun e => (x.1, e))) ++ es.getLast?.toList.map (fun e => (t, e)))

/-- The threads run one after the other. -/
def oneByOne : Timing := ⟨fun l => l.flatMap (fun x => x.2.map (fun e => (x.1, e))), fun _ => 0, 0⟩

/-- The same, but the first thread is held up. -/
def heldUp : Timing := ⟨lateMix, fun _ => 0, 0⟩

theorem filter_own (t : Int) (es : List Event) (t' : Int) :
    ((es.map (fun e => (t, e))).filter (fun e : Int × Event => decide (e.1 = t'))).map (·.2) = if t = t' then es else [] := by
  by_cases h : t = t'
  · rw [if_pos h, List.filter_eq_self.2 (by intro a ha; obtain ⟨e, _, rfl⟩ := List.mem_map.1 ha; simpa using h)]
    simp [Function.comp_def]
  · rw [if_neg h, List.filter_eq_nil_iff.2 (by intro a ha; obtain ⟨e, _, rfl⟩ := List.mem_map.1 ha; simpa using h)]
    rfl

theorem oneByOne_fair : oneByOne.Fair := by
  intro l
  simp only [oneByOne]
  induction l with
  | nil => intro _ t; rfl
  | cons a l ih =>
    intro hn t
    obtain ⟨k, es⟩ := a
    rw [List.map_cons, List.nodup_cons] at hn
    have ih := ih hn.2 t
    rw [List.flatMap_cons, List.filter_append, List.map_append, filter_own, ih, List.lookup_cons]
    by_cases h : k = t
    · subst h
      have : l.lookup k = none := by
        rw [List.lookup_eq_none_iff]
        intro p hp
        have : k ≠ p.1 := fun he => hn.1 (he ▸ List.mem_map.2 ⟨p, hp, rfl⟩)
        simpa using this
      simp [this]
    · have : (t == k) = false := by simpa using fun he => h he.symm
      simp [h, this]

theorem heldUp_fair : heldUp.Fair := by
  intro l hn t
  cases l with
  | nil => rfl
  | cons a l =>
    obtain ⟨k, es⟩ := a
    have h1 := oneByOne_fair ((k, es) :: l) hn t
    rw [← h1]
    simp only [heldUp, lateMix, oneByOne, List.flatMap_cons, List.filter_append, List.map_append, filter_own]
    by_cases h : k = t
    · subst h
      have : ((l.flatMap (fun x => x.2.map (fun e => (x.1, e)))).filter (fun e => decide (e.1 = k))).map (·.2) = [] := by
        rw [List.map_cons, List.nodup_cons] at hn
        have := oneByOne_fair l hn.2 k
        simp only [oneByOne] at this
        rw [this]
        have : l.lookup k = none := by
          rw [List.lookup_eq_none_iff]
          intro p hp
          have : k ≠ p.1 := fun he => hn.1 (he ▸ List.mem_map.2 ⟨p, hp, rfl⟩)
          simpa using this
        rw [this]; rfl
      rw [this]
      simp only [if_true, List.nil_append, List.append_nil]
      cases hl : es.getLast? with
      | none => rw [List.getLast?_eq_none_iff] at hl; subst hl; rfl
      | some e =>
        obtain ⟨l', rfl⟩ := List.getLast?_eq_some_iff.1 hl
        simp
    · simp [h]

/-! ### Concrete cases -/

/-- `piano: (tempo 100) c4 c (tempo 90) e violin: (quant 100) (vol 75) g2 > c8`. -/
def demoPlay : List Upd :=
  [.partDecl ["piano"] "", .lisp [.sym "tempo", .num 100], .leaf (.note (.letter .C none) [.length 4 0] false), .leaf (.note (.letter .C none) [] false), .lisp [.sym "tempo", .num 90],
   .leaf (.note (.letter .E none) [] false),
   .partDecl ["violin"] "", .lisp [.sym "quant", .num 100], .lisp [.sym "vol", .num 75], .leaf (.note (.letter .G none) [.length 2 0] false), .leaf (.attr .octaveUp),
   .leaf (.note (.letter .C none) [.length 8 0] false)]

/-- What is sent for it. -/
def demoPlayMs : List Msg := ((scoreToBundle insertSort (update demoPlay newScore).s { oneOff := true }).toOption).getD []

/-- Every tempo message meets a condition, as a test. -/
theorem tempos_of_all {ms : List Msg} {P : Int → Rat → Bool} (h : ms.all (fun msg => match msg with | .tempo o v => P o v | _ => true) = true) : ∀ o v, Msg.tempo o v ∈ ms → P o v = true :=
  fun _ _ hov => List.all_eq_true.1 h _ hov

/-- The hypotheses of `c52_partial` and `c53_partial` are met by a score of two instruments with a change of tempo. -/
theorem demoPlay_written : WrittenL demoPlay := by simp [demoPlay, WrittenL, Written, WrittenForms, WrittenForm, WrittenLeaf]
theorem demoPlay_bundle : scoreToBundle insertSort (update demoPlay newScore).s { oneOff := true } = .ok demoPlayMs := by
  have h : (scoreToBundle insertSort (update demoPlay newScore).s { oneOff := true }).toOption = some demoPlayMs := by decide +kernel
  cases hb : scoreToBundle insertSort (update demoPlay newScore).s { oneOff := true } with
  | error e => rw [hb] at h; cases h
  | ok ms => rw [hb] at h; simp only [Except.toOption, Option.some.injEq] at h; rw [h]
theorem demoPlay_tempos : ∀ o v, Msg.tempo o v ∈ demoPlayMs → (90 : Rat) ≤ v ∧ (0 < o → 234375 ≤ 1000 * o * (90 : Rat)) := by
  intro o v hov
  have := tempos_of_all (ms := demoPlayMs) (P := fun o v => decide ((90 : Rat) ≤ v ∧ (0 < o → 234375 ≤ 1000 * o * (90 : Rat)))) (by decide +kernel) o v hov
  exact of_decide_eq_true this

example : (update demoPlay newScore).err = none ∧ tempoTimes demoPlayMs = [0, 1200] := by decide +kernel

example := c52_partial insertSort_sorts demoPlay demoPlay_written _ rfl { oneOff := true } rfl (fun _ => rfl) _ demoPlay_bundle 0 maxFloat (Or.inl ⟨rfl, rfl⟩) (Or.inl ⟨rfl, rfl⟩) 90
  (by decide +kernel) (by decide +kernel) demoPlay_tempos _ rfl (by decide +kernel) (by decide +kernel) (by decide +kernel) heldUp heldUp_fair
example := c53_partial insertSort_sorts demoPlay demoPlay_written _ rfl { oneOff := true } rfl (fun _ => rfl) _ demoPlay_bundle 0 maxFloat (Or.inl ⟨rfl, rfl⟩) (Or.inl ⟨rfl, rfl⟩) 90
  (by decide +kernel) (by decide +kernel) demoPlay_tempos _ rfl (by decide +kernel) heldUp heldUp_fair

/-- What is heard of it. -/
example : (tones (receive heldUp (demoPlayMs.map .score) fresh).engine.track {}).map (fun t => (t.start, t.stop, t.note, t.patch, t.velocity)) =
    [(0, some 115, 60, some 0, 69), (0, some 213, 67, some 40, 95), (128, some 243, 60, some 0, 69), (213, some 266, 72, some 40, 95), (256, some 371, 64, some 0, 69)] := by decide +kernel

/-- A history for `c54_export`: the score is loaded with a rest in front of it. -/
example : (receive oneByOne [.exportTo "a.mid"] (receive oneByOne [.score (.volume 1 0 500 100), .score (.note 1 0 500 60 500 450 69)] fresh)).files =
    [("a.mid", [⟨0, .control 0 11 100⟩, ⟨0, .noteOn 0 60 69⟩, ⟨115, .noteOff 0 60 69⟩])] := by decide +kernel

/-! ### Scores that are not played as they are written -/

/-- `piano: (quant 100) c12 c c`. -/
def demoLegato : List Upd :=
  [.partDecl ["piano"] "", .lisp [.sym "quant", .num 100], .leaf (.note (.letter .C none) [.length 12 0] false), .leaf (.note (.letter .C none) [] false), .leaf (.note (.letter .C none) [] false)]

/-- C52 is false for notes that follow each other on the same key without a gap: the third one is turned off after 4 ms, since the second one, with its start and its length both rounded up, ends 1 ms too late. -/
theorem c52_legato_witness : ∃ (program : List Upd) (s : Score) (ms : List Msg), WrittenL program ∧ s = (update program newScore).s ∧ (update program newScore).err = none ∧
    (scoreToBundle insertSort s {}).toOption = some ms ∧
    let track := (receive oneByOne (ms.map .score) fresh).engine.track
    s.events.map (fun e => (e.offset, e.audible)) = [(0, 500 / 3), (500 / 3, 500 / 3), (1000 / 3, 500 / 3)] ∧
    (tones track {}).map (fun t => (clock track t.start / 1000, t.stop.map (fun o => clock track o / 1000))) =
      [(0, some (10750 / 64)), (10750 / 64, some (21500 / 64)), (21250 / 64, some (21500 / 64))] :=
  ⟨demoLegato, _, ((scoreToBundle insertSort (update demoLegato newScore).s {}).toOption).getD [], by simp [demoLegato, WrittenL, Written, WrittenForms, WrittenForm, WrittenLeaf], rfl,
    by decide +kernel, by decide +kernel, by decide +kernel, by decide +kernel⟩

/-- `piano: (tempo 3) c4 c c`. -/
def demoSlow : List Upd :=
  [.partDecl ["piano"] "", .lisp [.sym "tempo", .num 3], .leaf (.note (.letter .C none) [.length 4 0] false), .leaf (.note (.letter .C none) [] false), .leaf (.note (.letter .C none) [] false)]

/-- C52, C53 are false for a tempo of 3: the notes, which should come every 20 s, come every 0.5 s, and the player shuts down 0.25 s after the last of them. -/
theorem c52_slow_witness : ∃ (program : List Upd) (s : Score) (ms : List Msg), WrittenL program ∧ s = (update program newScore).s ∧ (update program newScore).err = none ∧
    (scoreToBundle insertSort s { oneOff := true }).toOption = some ms ∧
    let track := (receive oneByOne (ms.map .score) fresh).engine.track
    s.events.map (·.offset) = [0, 20000, 40000] ∧
    (tones track {}).map (fun t => clock track t.start / 1000) = [0, 500, 1000] ∧ (tones track {}).map (fun t => t.stop.map (fun o => clock track o / 1000)) = [some (28750 / 64), some (60750 / 64), some (92750 / 64)] ∧
    (track.filter (fun e => decide (e.msg = .shutdown))).map (fun e => clock track e.tick / 1000) = [108750 / 64] :=
  ⟨demoSlow, _, ((scoreToBundle insertSort (update demoSlow newScore).s { oneOff := true }).toOption).getD [], by simp [demoSlow, WrittenL, Written, WrittenForms, WrittenForm, WrittenLeaf], rfl,
    by decide +kernel, by decide +kernel, by decide +kernel, by decide +kernel, by decide +kernel, by decide +kernel⟩

/-- `midi-percussion "a": (pan 0) c4 midi-percussion "b": (pan 100) d4`. -/
def demoTwoDrums : List Upd :=
  [.partDecl ["midi-percussion"] "a", .lisp [.sym "panning", .num 0], .leaf (.note (.letter .C none) [.length 4 0] false),
   .partDecl ["midi-percussion"] "b", .lisp [.sym "panning", .num 100], .leaf (.note (.letter .D none) [.length 4 0] false)]

/-- C52 is false for instruments that play on the same channel at the same time, which percussion instruments always do: if the thread of the first track is held up before its note, the note is heard from the right
instead of from the left. -/
theorem c52_channel_witness : ∃ (program : List Upd) (s : Score) (ms : List Msg) (y : Timing), WrittenL program ∧ s = (update program newScore).s ∧ (update program newScore).err = none ∧
    (scoreToBundle insertSort s {}).toOption = some ms ∧ y.Fair ∧
    s.events.map (fun e => (e.note, e.channel, e.panning)) = [(60, 9, 0), (62, 9, 1)] ∧
    (tones (receive y (ms.map .score) fresh).engine.track {}).map (fun t => (t.note, t.channel, t.panning)) = [(62, 9, some 127), (60, 9, some 127)] :=
  ⟨demoTwoDrums, _, ((scoreToBundle insertSort (update demoTwoDrums newScore).s {}).toOption).getD [], heldUp, by simp [demoTwoDrums, WrittenL, Written, WrittenForms, WrittenForm, WrittenLeaf], rfl,
    by decide +kernel, by decide +kernel, heldUp_fair, by decide +kernel, by decide +kernel⟩

end Alda
