import Verif.Cmd.Browser
import Verif.Props.Commands
/-!
# C75: a web page gets the same music as a player
-/
namespace Alda
namespace Browser
open Cmd

/-- A message that is music: it neither starts nor ends playing. -/
def Musical (m : Msg) : Prop := m ≠ .play ∧ ∀ t, m ≠ .shutdown t

theorem patchMsgs_musical (track off patch : Int) (e : NoteEvent) (ch : Channels) : ∀ m ∈ (patchMsgs track off patch e ch).1, Musical m := by
  intro m hm
  unfold patchMsgs at hm
  split at hm
  · split at hm
    · rw [List.mem_singleton.1 hm]; exact ⟨by simp, fun t => by simp⟩
    · cases hm
  · cases hm

theorem volumeMsgs_musical (track off : Int) (e : NoteEvent) (ch : Channels) : ∀ m ∈ (volumeMsgs track off e ch).1, Musical m := by
  intro m hm
  unfold volumeMsgs at hm
  split at hm
  · rw [List.mem_singleton.1 hm]; exact ⟨by simp, fun t => by simp⟩
  · cases hm

theorem panningMsgs_musical (track off : Int) (e : NoteEvent) (ch : Channels) : ∀ m ∈ (panningMsgs track off e ch).1, Musical m := by
  intro m hm
  unfold panningMsgs at hm
  split at hm
  · rw [List.mem_singleton.1 hm]; exact ⟨by simp, fun t => by simp⟩
  · cases hm

theorem eventLoop_musical (s : Score) (x : Transmission) (start stop : Rat) : ∀ es ch len, ∀ m ∈ (eventLoop s x start stop es ch len).1, Musical m := by
  intro es
  induction es with
  | nil => intro ch len m hm; cases hm
  | cons e es ih =>
    intro ch len m hm
    unfold eventLoop at hm
    split at hm
    · exact ih _ _ m hm
    · split at hm
      · cases hm
      · simp only [List.mem_append, List.mem_singleton] at hm
        rcases hm with (((hm | hm) | hm) | rfl) | hm
        · exact patchMsgs_musical _ _ _ _ _ m hm
        · exact volumeMsgs_musical _ _ _ _ m hm
        · exact panningMsgs_musical _ _ _ _ m hm
        · exact ⟨by simp [noteMsg], fun t => by simp [noteMsg]⟩
        · exact ih _ _ m hm

theorem bundle_default (sort : List NoteEvent → List NoteEvent) (s : Score) :
    ∃ ms t, (∀ m ∈ ms, Musical m) ∧ ∀ o l, scoreToBundle sort s { oneOff := o, loadOnly := l } = .ok (ms ++ (if l then [] else [.play]) ++ (if o then [.shutdown t] else [])) := by
  refine ⟨tempoMessages (tempoItinerary s) 0 maxFloat ++ (eventLoop s {} 0 maxFloat (sort s.events) ⟨fun _ => none, fun _ => none, fun _ => none⟩ 0).1,
    goRound ((eventLoop s {} 0 maxFloat (sort s.events) ⟨fun _ => none, fun _ => none, fun _ => none⟩ 0).2 + 10000), fun m hm => ?_, fun o l => ?_⟩
  · rcases List.mem_append.1 hm with hm | hm
    · obtain ⟨o, v, rfl⟩ := tempoLoop_only _ _ _ _ _ m hm
      exact ⟨by simp, fun t => by simp⟩
    · exact eventLoop_musical _ _ _ _ _ _ _ m hm
  · have hloop : ∀ es ch len, eventLoop s { oneOff := o, loadOnly := l } 0 maxFloat es ch len = eventLoop s {} 0 maxFloat es ch len := by
      intro es
      induction es with
      | nil => intro ch len; rfl
      | cons e es ih => intro ch len; unfold eventLoop; simp only [ih]
    unfold scoreToBundle eventSlice offsetOr
    simp [hloop]

theorem toOSC_means {sort : List NoteEvent → List NoteEvent} {text : String} {program : List Upd} {s : Score} (hm : Means text program s) :
    toOSC sort text = scoreToBundle sort s { loadOnly := true } := by
  obtain ⟨h1, h2, h3⟩ := hm
  unfold toOSC
  rw [h1]
  simp only
  split
  · rename_i hu; rw [hu] at h2; cases h2
  · rename_i hu; rw [h3, hu]

theorem means_or (sort : List NoteEvent → List NoteEvent) (text : String) : (∃ program s, Means text program s) ∨
    ∃ e, toOSC sort text = .error e ∧ (Repl.parseCode text = .error e ∨ ∃ program, Repl.parseCode text = .ok program ∧ (update program newScore).err = some e) := by
  unfold toOSC
  cases hp : Repl.parseCode text with
  | error e => exact .inr ⟨e, rfl, .inl rfl⟩
  | ok program =>
    simp only
    split
    · rename_i e _ hu; exact .inr ⟨e, rfl, .inr ⟨program, rfl, by rw [hu]⟩⟩
    · rename_i s hu; exact .inl ⟨program, s, hp, by rw [hu], by rw [hu]⟩

/-- C75: the promise is resolved if and only if the text is a program that can be evaluated. -/
theorem c75_accepts (sort : List NoteEvent → List NoteEvent) (text : String) : (∃ ms, toOSC sort text = .ok ms) ↔ ∃ program s, Means text program s := by
  constructor
  · rintro ⟨ms, h⟩
    rcases means_or sort text with h' | ⟨e, h', _⟩
    · exact h'
    · rw [h] at h'; cases h'
  · rintro ⟨program, s, hm⟩
    obtain ⟨ms, t, _, hb⟩ := bundle_default sort s
    exact ⟨_, by rw [toOSC_means hm, hb]⟩

/-- C75: a web page gets exactly one message for each note of the text, and none that starts or ends playing. -/
theorem c75_notes {sort : List NoteEvent → List NoteEvent} (hs : SortsByOffset sort) {text : String} {program : List Upd} {s : Score} (hm : Means text program s) :
    ∃ ms, toOSC sort text = .ok ms ∧ (∀ m ∈ ms, Musical m) ∧ ∃ sent, sent.Perm (s.events.filter (fun e => decide (0 ≤ e.offset) && decide (e.offset < maxFloat))) ∧
      sent.Pairwise (fun a b => a.offset ≤ b.offset) ∧ Matches (SentAs s (fun _ => 0)) sent (noteMsgs ms) := by
  obtain ⟨ms, t, h1, hb⟩ := bundle_default sort s
  refine ⟨ms, by rw [toOSC_means hm, hb]; simp, h1, ?_⟩
  obtain ⟨sent, g1, g2, g3⟩ := c33_range hs s ⟨program, hm.2.2⟩ { loadOnly := true } ms (by rw [hb]; simp) 0 maxFloat (Or.inl ⟨rfl, rfl⟩) (Or.inl ⟨rfl, rfl⟩)
  refine ⟨sent, ?_, g2, g3.imp (fun e _ m h => ?_)⟩
  · have e : (s.events.take ((none : Option Nat).getD s.events.length)).drop 0 = s.events := by simp
    simp only at g1
    rw [e] at g1
    exact g1
  · have : (fun e : NoteEvent => (0 : Rat) + (fun _ : Nat => (0 : Rat)) e.part) = fun _ => 0 := by funext e; grind
    simpa only [this] using h

/-- C75: `alda play` sends for the same text what the web page gets, and the orders to play and to shut down after it. -/
theorem c75_play (sort : List NoteEvent → List NoteEvent) (w : Cmd.World) (f : Flags) (text : String) (hg : Given w f text) (h1 : f.from_ = "") (h2 : f.to_ = "")
    (hok : (play sort w f).failure = none) : ∃ port ms t, (play sort w f).sent = [(port, .bundle (ms ++ [.play, .shutdown t]))] ∧ toOSC sort text = .ok ms := by
  rcases play_text sort hg with ⟨port, program, s, ms, _, hm, hb, g1, _⟩ | ⟨g1, _⟩
  · obtain ⟨ms', t, _, hd⟩ := bundle_default sort s
    rw [h1, h2, hd] at hb
    refine ⟨port, ms', t, ?_, by rw [toOSC_means hm, hd]; simp⟩
    rw [g1]
    cases hb
    simp
  · exact absurd hok g1

/-- C75: if the promise is rejected, `alda play` fails for the same text, with the same error. -/
theorem c75_rejected (sort : List NoteEvent → List NoteEvent) (w : Cmd.World) (f : Flags) (text : String) (hg : Given w f text) (ha : f.args = []) {e : Err} (h : toOSC sort text = .error e) :
    (play sort w f).failure = some (.error e) ∧ (play sort w f).sent = [] := by
  rcases means_or sort text with ⟨program, s, hm⟩ | ⟨e', h', hwhy⟩
  · obtain ⟨ms, hok⟩ := (c75_accepts sort text).2 ⟨program, s, hm⟩
    rw [h] at hok; cases hok
  · rw [h] at h'
    cases h'
    unfold play
    rw [if_neg (by simp [ha]), input_given hg]
    rcases hwhy with hp | ⟨program, hp, hu⟩
    · rw [hp]; exact ⟨rfl, rfl⟩
    · rw [hp]
      simp only
      split
      · rename_i e2 _ hx
        rw [hx] at hu
        cases hu
        exact ⟨rfl, rfl⟩
      · rename_i hx
        rw [hx] at hu
        cases hu

/-- A text that can be evaluated, and one that cannot. -/
example : (∃ program s, Means "piano: c d" program s) ∧ Given demoWorld demoFlags "piano: c d" ∧ (play insertSort demoWorld demoFlags).failure = none ∧ demoFlags.from_ = "" ∧
    (match toOSC insertSort "piano: )" with | .error _ => true | .ok _ => false) = true := by
  have hg : Given demoWorld demoFlags "piano: c d" := .code rfl (by decide)
  have hok : (play insertSort demoWorld demoFlags).failure = none := by decide +kernel
  refine ⟨?_, hg, hok, rfl, by decide +kernel⟩
  rcases play_text insertSort hg with ⟨_, program, s, _, _, hm, _⟩ | ⟨h, _⟩
  · exact ⟨program, s, hm⟩
  · exact absurd hok h

end Browser
end Alda
