import Verif.Props.PlayerLive
import Verif.Props.PlayerWitness
import Verif.Repl.Server
/-!
C55: concrete cases, and sessions in which instruments do not stay together.
-/
namespace Alda
open Player Spec

/-- What the REPL server sends for lines of input. -/
def liveSent (lines : List (List Upd)) : List (List Msg) := (lines.foldl (fun s l => (Repl.evalAndPlay (fun _ => .ok l) insertSort {} "" "" "" s).s) Repl.newServer).sent

/-- The player after bundles, each with the tick where the sequencer is for each track. -/
def livePlayed (bundles : List ((Int → Int) × List Msg)) : State := bundles.foldl (fun s b => receive ⟨oneByOne.mix, b.1, 0⟩ (b.2.map .score) s) fresh

/-- `piano: c1 r1 violin: c1 c1`, and then `piano: d4 violin: d4`. -/
def demoRest : List (List Upd) :=
  [[.partDecl ["piano"] "", .leaf (.note (.letter .C none) [.length 1 0] false), .leaf (.rest [.length 1 0]), .partDecl ["violin"] "", .leaf (.note (.letter .C none) [.length 1 0] false), .leaf (.note (.letter .C none) [.length 1 0] false)],
   [.partDecl ["piano"] "", .leaf (.note (.letter .D none) [.length 4 0] false), .partDecl ["violin"] "", .leaf (.note (.letter .D none) [.length 4 0] false)]]

/-- C55 is false about rests at the end of a line: in the score both instruments play the new note at 4000 ms, but the piano, whose track is free after 2000 ms, plays it 2 s before the violin. -/
theorem c55_rest_witness : ∃ (lines : List (List Upd)) (first second : List Msg), (update lines.flatten newScore).err = none ∧ liveSent lines = [first, second] ∧
    (update lines.flatten newScore).s.events.map (fun e => (e.part, e.note, e.offset)) = [(0, 60, 0), (1, 60, 0), (1, 60, 2000), (0, 62, 4000), (1, 62, 4000)] ∧
    let track := (livePlayed [(fun _ => 0, first), (fun _ => 50, second)]).engine.track
    (tones track {}).map (fun t => (t.channel, t.note, clock track t.start / 1000)) = [(0, 60, 0), (1, 60, 0), (1, 60, 2000), (0, 62, 2000), (1, 62, 4000)] :=
  ⟨demoRest, (liveSent demoRest)[0]!, (liveSent demoRest)[1]!, by decide +kernel, by decide +kernel, by decide +kernel, by decide +kernel⟩

/-- `piano: c4 violin: c4`, and then `piano: d4 violin: d4`. -/
def demoTogether : List (List Upd) :=
  [[.partDecl ["piano"] "", .leaf (.note (.letter .C none) [.length 4 0] false), .partDecl ["violin"] "", .leaf (.note (.letter .C none) [.length 4 0] false)],
   [.partDecl ["piano"] "", .leaf (.note (.letter .D none) [.length 4 0] false), .partDecl ["violin"] "", .leaf (.note (.letter .D none) [.length 4 0] false)]]

/-- C55 is false about instruments that start together: the thread of each track looks at the clock for itself, here 5 ticks (20 ms) apart. -/
theorem c55_together_witness : ∃ (lines : List (List Upd)) (first second : List Msg), (update lines.flatten newScore).err = none ∧ liveSent lines = [first, second] ∧
    (update lines.flatten newScore).s.events.map (fun e => (e.part, e.note, e.offset)) = [(0, 60, 0), (1, 60, 0), (0, 62, 500), (1, 62, 500)] ∧
    let track := (livePlayed [(fun _ => 0, first), (fun t => if t = 1 then 1000 else 1005, second)]).engine.track
    (tones track {}).map (fun t => (t.channel, t.note, t.start)) = [(0, 60, 0), (1, 60, 0), (0, 62, 1128), (1, 62, 1133)] :=
  ⟨demoTogether, (liveSent demoTogether)[0]!, (liveSent demoTogether)[1]!, by decide +kernel, by decide +kernel, by decide +kernel, by decide +kernel⟩

/-- `piano: %a c1 c1 c1 c1`, and then `piano: @a d4`. -/
def demoBack : List (List Upd) :=
  [[.partDecl ["piano"] "", .marker "a", .leaf (.note (.letter .C none) [.length 1 0] false), .leaf (.note (.letter .C none) [.length 1 0] false),
    .leaf (.note (.letter .C none) [.length 1 0] false), .leaf (.note (.letter .C none) [.length 1 0] false)],
   [.partDecl ["piano"] "", .atMarker "a", .leaf (.note (.letter .D none) [.length 4 0] false)]]

/-- C55 needs that there is no jump back: here the note after the jump is sent with the offset -8000, and is scheduled for tick 0 when the sequencer is at tick 1000. -/
theorem c55_marker_witness : ∃ (lines : List (List Upd)) (first second : List Msg), (update lines.flatten newScore).err = none ∧ liveSent lines = [first, second] ∧
    Msg.note 1 0 (-8000) 62 500 450 69 ∈ second ∧
    ((livePlayed [(fun _ => 0, first), (fun _ => 1000, second)]).engine.track.filter (fun e => decide (e.msg = .noteOn 0 62 69))).map (·.tick) = [0] :=
  ⟨demoBack, (liveSent demoBack)[0]!, (liveSent demoBack)[1]!, by decide +kernel, by decide +kernel, by decide +kernel, by decide +kernel⟩

/-! ### Concrete cases -/

/-- The threads run one after the other, with the clock at a tick. -/
def clockAt (tick : Int) : Timing := ⟨oneByOne.mix, fun _ => tick, 0⟩

/-- The conditions on a bundle, as a test. -/
def checkBundle (ms : List Msg) : Bool :=
  ms.all (fun msg => match msg with
    | .patch _ c o v | .volume _ c o v | .panning _ c o v => decide (0 ≤ o ∧ 0 ≤ c ∧ c ≤ 15 ∧ 0 ≤ v ∧ v ≤ 127)
    | .note _ c o n d a v => decide (0 ≤ o ∧ 0 ≤ d ∧ 0 ≤ a ∧ 0 ≤ c ∧ c ≤ 15 ∧ 0 ≤ n ∧ n ≤ 127 ∧ 0 ≤ v ∧ v ≤ 127)
    | .tempo o _ => decide (0 ≤ o)
    | .play => true
    | .shutdown _ => false) &&
  ms.all (fun msg => match msg with
    | .patch t _ _ _ | .volume t _ _ _ | .panning t _ _ _ => ms.any (fun | .note t' _ _ _ _ _ _ => decide (t' = t) | _ => false)
    | _ => true)

theorem checkBundle_proper {ms : List Msg} (h : checkBundle ms = true) (tick : Int) (ht : 0 ≤ tick) : ProperBundle (clockAt tick, ms) := by
  simp only [checkBundle, Bool.and_eq_true, List.all_eq_true] at h
  refine ⟨oneByOne_fair, fun _ => ht, ?_, ?_⟩
  · intro msg hm
    have := h.1 msg hm
    cases msg <;> simp only [Valid, decide_eq_true_eq, Bool.false_eq_true] at this ⊢ <;> exact this
  · intro t msg hm hft
    have h2 := h.2 msg hm
    cases msg with
    | note t' c o n d a v => cases hft; exact ⟨c, o, n, d, a, v, hm⟩
    | patch t' c o v | volume t' c o v | panning t' c o v =>
      cases hft
      obtain ⟨x, hx, he⟩ := List.any_eq_true.1 h2
      cases x <;> simp only [decide_eq_true_eq, Bool.false_eq_true] at he
      subst he
      exact ⟨_, _, _, _, _, _, hx⟩
    | _ => cases hft

/-- The hypotheses of `c55_partial` are met by what the server sends for two lines. -/
example := c55_partial (clockAt 0, (liveSent demoTogether)[0]!) [(clockAt 1000, (liveSent demoTogether)[1]!)]
  (by
    intro b hb
    simp only [List.mem_cons, List.not_mem_nil, or_false] at hb
    rcases hb with rfl | rfl
    · exact checkBundle_proper (by decide +kernel) 0 (by decide)
    · exact checkBundle_proper (by decide +kernel) 1000 (by decide))
  120 (by decide +kernel) (by decide +kernel)
  (by
    intro o v hov
    exact of_decide_eq_true (tempos_of_all (ms := (liveSent demoTogether)[0]!) (P := fun _ v => decide ((120 : Rat) ≤ v)) (by decide +kernel) o v hov))
  (by decide +kernel)
  (by
    intro b hb
    simp only [List.mem_cons, List.not_mem_nil, or_false] at hb
    subst hb
    decide +kernel)

/-- What is heard in the end. -/
example : (tones (livePlayed [(fun _ => 0, (liveSent demoTogether)[0]!), (fun _ => 50, (liveSent demoTogether)[1]!)]).engine.track {}).map (fun t => (t.channel, t.note, t.start, t.stop)) =
    [(0, 60, 0, some 115), (1, 60, 0, some 115), (0, 62, 256, some 371), (1, 62, 256, some 371)] := by decide +kernel

/-- The hypotheses of `c55_bundles` are met by the second of these bundles. -/
example := c55_bundles insertSort_sorts demoTogether.flatten (by simp [demoTogether, WrittenL, Written, WrittenLeaf]) _ rfl
  { fromIndex := 2, syncOffset := fun _ => 500, hasSync := true } rfl ((liveSent demoTogether)[1]!)
  (by
    have h : (scoreToBundle insertSort (update demoTogether.flatten newScore).s { fromIndex := 2, syncOffset := fun _ => 500, hasSync := true }).toOption = some ((liveSent demoTogether)[1]!) := by decide +kernel
    cases hb : scoreToBundle insertSort (update demoTogether.flatten newScore).s { fromIndex := 2, syncOffset := fun _ => 500, hasSync := true } with
    | error e => rw [hb] at h; cases h
    | ok ms => rw [hb] at h; simp only [Except.toOption, Option.some.injEq] at h; rw [h])
  0 maxFloat (Or.inl ⟨rfl, rfl⟩) (Or.inl ⟨rfl, rfl⟩) _ rfl (by decide +kernel) (by decide +kernel)
  (by
    intro o v hov
    exact of_decide_eq_true (tempos_of_all (ms := (liveSent demoTogether)[1]!) (P := fun _ v => decide ((0 : Rat) < v)) (by decide +kernel) o v hov))
  (clockAt 1000) oneByOne_fair (fun _ => (by decide : (0 : Int) ≤ 1000))

end Alda
