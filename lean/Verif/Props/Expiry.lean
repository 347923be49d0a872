import Verif.Spec.Expiry
import Verif.Lemmas.PlayerClock
/-!
C59: a player exits for inactivity only when it has nothing left to play.
-/
namespace Alda
namespace Player

theorem Manager.delay_timeout (t : Int) (m : Manager) : (m.delay t).timeout = m.timeout := by
  unfold Manager.delay Manager.write
  simp only
  split <;> rfl


theorem Manager.setState_timeout (s : String) (m : Manager) : (m.setState s).timeout = m.timeout := by unfold Manager.setState Manager.write; split <;> rfl
theorem Manager.setState_expiry (s : String) (m : Manager) : (m.setState s).current.expiry = m.current.expiry := by unfold Manager.setState Manager.write; split <;> rfl

theorem Manager.delay_expiry (t : Int) (m : Manager) : (m.delay t).current.expiry = max m.current.expiry (t + m.timeout) := by
  unfold Manager.delay Manager.write
  simp only
  split
  · simp only; omega
  · omega

theorem Manager.delay_file (t : Int) (m : Manager) (h : m.file = some m.current) : (m.delay t).file = some (m.delay t).current := by
  unfold Manager.delay Manager.write
  simp only
  split <;> simp [h]

theorem Manager.setState_file (s : String) (m : Manager) (h : m.file = some m.current) : (m.setState s).file = some (m.setState s).current := by
  unfold Manager.setState Manager.write
  split <;> simp [h]

theorem step_timeout (p : Proc) (a : Act) : (p.step a).manager.timeout = p.manager.timeout := by
  unfold Proc.step
  split
  · rfl
  · cases a <;> simp [Manager.delay_timeout, Manager.setState_timeout]

theorem step_exited (p : Proc) (a : Act) (h : p.exited = true) : p.step a = p := by unfold Proc.step; rw [if_pos h]

theorem run_exited (as : List Act) (p : Proc) (h : p.exited = true) : p.run as = p := by
  unfold Proc.run
  induction as with
  | nil => rfl
  | cons a as ih => rw [List.foldl_cons, step_exited p a h]; exact ih

/-- What is scheduled is not forgotten: the process lives until it has been played, and a timeout longer, except for what has been put off. -/
def Covered (lost : Rat) (p : Proc) : Prop := ∀ o ∈ p.scheduled, (p.clock : Rat) + (o - p.offset) - 1 / 2 + p.manager.timeout - lost ≤ p.manager.current.expiry

theorem Covered.step {lost : Rat} (hl : 0 ≤ lost) {p : Proc} (h : Covered lost p) (he : p.exited = false) (a : Act) : Covered (lost + p.putOff [a]) (p.step a) := by
  intro o ho
  cases a with
  | pass ms =>
    simp only [Proc.step, he, Proc.putOff] at ho ⊢
    have := h o (by simpa using ho)
    simp only [Bool.false_eq_true, if_false]
    split <;> (push_cast; grind)
  | poll =>
    simp only [Proc.step, he, Proc.putOff] at ho ⊢
    have := h o (by simpa using ho)
    simp only [Bool.false_eq_true, if_false]
    grind
  | ready =>
    simp only [Proc.step, he, Proc.putOff] at ho ⊢
    have := h o (by simpa using ho)
    simp only [Bool.false_eq_true, if_false, Manager.setState_timeout, Manager.setState_expiry]
    grind
  | packet =>
    simp only [Proc.step, he, Proc.putOff] at ho ⊢
    have := h o (by simpa using ho)
    simp only [Bool.false_eq_true, if_false, Manager.delay_timeout, Manager.delay_expiry]
    have hm : ((p.manager.current.expiry : Int) : Rat) ≤ ((max p.manager.current.expiry (p.clock + p.manager.timeout) : Int) : Rat) := Rat.intCast_le_intCast.2 (by omega)
    grind
  | ping =>
    simp only [Proc.step, he, Proc.putOff] at ho ⊢
    have := h o (by simpa using ho)
    simp only [Bool.false_eq_true, if_false, Manager.delay_timeout, Manager.delay_expiry, Manager.setState_timeout, Manager.setState_expiry]
    have hm : ((p.manager.current.expiry : Int) : Rat) ≤ ((max p.manager.current.expiry (p.clock + p.manager.timeout) : Int) : Rat) := Rat.intCast_le_intCast.2 (by omega)
    grind
  | short offset =>
    simp only [Proc.step, he, Proc.putOff] at ho ⊢
    simp only [Bool.false_eq_true, if_false, Manager.delay_timeout, Manager.delay_expiry, Manager.setState_timeout, Manager.setState_expiry]
    have hm : ((p.manager.current.expiry : Int) : Rat) ≤ ((max p.manager.current.expiry (p.clock + (offset - javaRound p.offset) + p.manager.timeout) : Int) : Rat) :=
      Rat.intCast_le_intCast.2 (by omega)
    have hn : ((p.clock + (offset - javaRound p.offset) + p.manager.timeout : Int) : Rat) ≤
        ((max p.manager.current.expiry (p.clock + (offset - javaRound p.offset) + p.manager.timeout) : Int) : Rat) := Rat.intCast_le_intCast.2 (by omega)
    rw [Rat.intCast_add, Rat.intCast_add, Rat.intCast_sub] at hn
    have hr := javaRound_le p.offset
    simp only [Bool.false_eq_true, if_false, List.mem_cons] at ho
    rcases ho with rfl | ho
    · have hl : 0 ≤ lost := hl
      grind
    · have := h o ho
      grind
  | play =>
    simp only [Proc.step, he, Proc.putOff] at ho ⊢
    have := h o (by simpa using ho)
    simp only [Bool.false_eq_true, if_false]
    grind
  | stop =>
    simp only [Proc.step, he, Proc.putOff] at ho ⊢
    have := h o (by simpa using ho)
    simp only [Bool.false_eq_true, if_false]
    grind
  | jump offset =>
    simp only [Proc.step, he, Proc.putOff] at ho ⊢
    have := h o (by simpa using ho)
    simp only [Bool.false_eq_true, if_false]
    grind

theorem putOff_cons (p : Proc) (a : Act) (as : List Act) : p.putOff (a :: as) = p.putOff [a] + (p.step a).putOff as := by
  simp only [Proc.putOff]
  grind

theorem putOff_one (p : Proc) (a : Act) : 0 ≤ p.putOff [a] := by
  simp only [Proc.putOff]
  cases a with
  | pass ms => simp only; split <;> grind [Rat.natCast_nonneg]
  | jump offset => simp only; grind
  | _ => grind

theorem putOff_nonneg (as : List Act) (p : Proc) : 0 ≤ p.putOff as := by
  induction as generalizing p with
  | nil => simp [Proc.putOff]
  | cons a as ih =>
    rw [putOff_cons]
    have := putOff_one p a
    have := ih (p.step a)
    grind

/-- C59, unless the music is put off for longer than the timeout: a process that has exited for inactivity had nothing left to play. Missing from the full statement: music
that is paused or set back for longer, for which it is false (`c59_pause_witness`). -/
theorem c59_partial (now timeout : Int) (as : List Act) (h : (newProc now timeout).putOff as + 1 / 2 ≤ timeout) (he : ((newProc now timeout).run as).exited = true) :
    ¬ ((newProc now timeout).run as).Pending := by
  have key : ∀ (as : List Act) (lost : Rat) (p : Proc), 0 ≤ lost → Covered lost p → p.exited = false → lost + p.putOff as + 1 / 2 ≤ p.manager.timeout →
      (p.run as).exited = true → ¬ (p.run as).Pending := by
    intro as
    induction as with
    | nil => intro lost p _ _ h0 _ he; rw [Proc.run, List.foldl_nil, h0] at he; cases he
    | cons a as ih =>
      intro lost p hl hc h0 hb he
      rw [putOff_cons] at hb
      have h1 := putOff_one p a
      have h2 := putOff_nonneg as (p.step a)
      have hc' := hc.step hl h0 a
      have hrun : p.run (a :: as) = (p.step a).run as := rfl
      rw [hrun] at he ⊢
      cases hx : (p.step a).exited with
      | false => exact ih (lost + p.putOff [a]) (p.step a) (by grind) hc' hx (by rw [step_timeout]; grind) he
      | true =>
        rw [run_exited as _ hx]
        rintro ⟨o, ho, hp⟩
        have hco := hc' o ho
        rw [step_timeout] at hco
        cases a with
        | poll =>
          simp only [Proc.step, h0, Bool.false_eq_true, if_false, Manager.isExpired, decide_eq_true_eq] at hx hco hp
          have : ((p.manager.current.expiry : Int) : Rat) < (p.clock : Rat) := Rat.intCast_lt_intCast.2 hx
          grind
        | _ => simp [Proc.step, h0] at hx
  exact key as 0 _ (by grind) (by intro o ho; simp [newProc] at ho) rfl (by rw [show (newProc now timeout).manager.timeout = timeout from rfl]; grind) he

/-- The timeout is at least five minutes: five minutes of pause altogether are always survived. -/
theorem c59_five_minutes_partial (now timeout : Int) (ht : 5 * 60000 ≤ timeout) (as : List Act) (h : (newProc now timeout).putOff as ≤ 299999)
    (he : ((newProc now timeout).run as).exited = true) : ¬ ((newProc now timeout).run as).Pending := by
  refine c59_partial now timeout as ?_ he
  have h2 : ((300000 : Int) : Rat) ≤ (timeout : Rat) := Rat.intCast_le_intCast.2 (by omega)
  have h3 : ((300000 : Int) : Rat) = 300000 := rfl
  grind

theorem step_clock (p : Proc) (a : Act) (h : p.exited = false) : (p.step a).clock = p.clock + (passes [a] : Int) := by
  cases a <;> simp [Proc.step, h, passes]

theorem step_expiry (p : Proc) (a : Act) : p.manager.current.expiry ≤ (p.step a).manager.current.expiry := by
  unfold Proc.step
  split
  · omega
  · cases a <;> simp only [Manager.setState_expiry, Manager.delay_expiry] <;> omega

theorem passes_cons (a : Act) (as : List Act) : passes (a :: as) = passes [a] + passes as := by simp [passes]

/-- C59: a process that has received something does not exit within five minutes - whatever else happens to it, in particular if it is sent pings as by a REPL. -/
theorem c59_heard {p : Proc} (he : p.exited = false) (ht : 5 * 60000 ≤ p.manager.timeout) (as : List Act) (h : passes as ≤ 5 * 60000) : (p.run (.packet :: as)).exited = false := by
  have key : ∀ (as : List Act) (p : Proc) (limit : Int), p.exited = false → p.clock + (passes as : Int) ≤ limit → limit ≤ p.manager.current.expiry → (p.run as).exited = false := by
    intro as
    induction as with
    | nil => intro p _ h _ _; exact h
    | cons a as ih =>
      intro p limit h0 h1 h2
      have hrun : p.run (a :: as) = (p.step a).run as := rfl
      rw [hrun]
      rw [passes_cons] at h1
      have h3 := step_clock p a h0
      refine ih _ limit ?_ ?_ (Int.le_trans h2 (step_expiry p a))
      · cases a with
        | poll =>
          simp only [Proc.step, h0, Bool.false_eq_true, if_false, Manager.isExpired, decide_eq_false_iff_not]
          have : (passes [.poll] : Int) = 0 := rfl
          omega
        | _ => simp [Proc.step, h0]
      · rw [h3]; push_cast at h1; omega
  refine key as (p.step .packet) (p.clock + p.manager.timeout) ?_ ?_ ?_
  · simp [Proc.step, he]
  · rw [step_clock p _ he]
    have : (passes [.packet] : Int) = 0 := rfl
    omega
  · simp only [Proc.step, he, Bool.false_eq_true, if_false, Manager.delay_expiry]
    omega

/-- C59: left alone, a process exits: ten minutes after the last of what it has been told and what it has to play, the main loop sees to it. -/
theorem c59_exits {p : Proc} {last : Int} (ht : p.manager.timeout < 10 * 60000) (hl : p.manager.current.expiry ≤ last + p.manager.timeout) (as : List Act) (hs : ∀ a ∈ as, ¬ Speaks a)
    (hc : last + 10 * 60000 ≤ p.clock + (passes as : Int)) : (p.run (as ++ [.poll])).exited = true := by
  induction as generalizing p with
  | nil =>
    have : (passes [] : Int) = 0 := rfl
    simp only [Proc.run, List.nil_append, List.foldl_cons, List.foldl_nil, Proc.step]
    split
    next h => exact h
    next h =>
      simp only [Manager.isExpired, decide_eq_true_eq]
      omega
  | cons a as ih =>
    have hrun : p.run (a :: as ++ [.poll]) = (p.step a).run (as ++ [.poll]) := rfl
    rw [hrun]
    cases h0 : p.exited with
    | true => rw [step_exited p a h0, run_exited _ _ h0]; exact h0
    | false =>
      have h3 := step_clock p a h0
      rw [passes_cons] at hc
      refine ih (by rw [step_timeout]; exact ht) ?_ (fun b hb => hs b (List.mem_cons_of_mem _ hb)) (by rw [h3]; push_cast at hc; omega)
      rw [step_timeout]
      have hn := hs a (List.mem_cons_self ..)
      cases a <;> first | exact absurd trivial hn | simpa [Proc.step, h0, Manager.setState_expiry] using hl

/-- C59: the state file always says what the state of the process is. -/
theorem c59_file (now timeout : Int) (as : List Act) : ((newProc now timeout).run as).manager.file = some ((newProc now timeout).run as).manager.current := by
  have key : ∀ (as : List Act) (p : Proc), p.manager.file = some p.manager.current → (p.run as).manager.file = some (p.run as).manager.current := by
    intro as
    induction as with
    | nil => intro p h; exact h
    | cons a as ih =>
      intro p h
      refine ih (p.step a) ?_
      unfold Proc.step
      split
      · exact h
      · cases a with
        | ready => exact Manager.setState_file _ _ h
        | packet => exact Manager.delay_file _ _ h
        | ping => exact Manager.delay_file _ _ (Manager.setState_file _ _ h)
        | short _ => exact Manager.delay_file _ _ (Manager.setState_file _ _ h)
        | _ => exact h
  exact key as _ rfl

/-- Twenty minutes of music with a pause of twelve minutes. -/
def pauseDemo : List Act :=
  [.ready, .packet, .short 0, .short 1200000, .play, .pass 60000, .packet, .stop, .pass 720000, .poll, .packet, .play, .pass 1020000, .poll]

/-- C59 is false for music that is paused: twenty minutes of music are stopped after one minute (`alda stop`) and resumed (`alda play`) twelve minutes later; in the middle of
the rest the process exits. -/
theorem c59_pause_witness : ∃ p : Proc, p = (newProc 0 599999).run pauseDemo ∧ p.exited = true ∧ p.playing = true ∧ p.Pending ∧ p.offset + 2 * 60000 ≤ 1200000 := by
  refine ⟨_, rfl, ?_, ?_, ⟨1200000, ?_, ?_⟩, ?_⟩
  all_goals decide +kernel

/-- The hypotheses of `c59_partial`: without the pause, an exit after the music. -/
example : (newProc 0 300000).putOff [.packet, .short 0, .short 1200000, .play, .pass 1500000, .poll, .pass 1, .poll] = 0 ∧
    ((newProc 0 300000).run [.packet, .short 0, .short 1200000, .play, .pass 1500000, .poll]).exited = false ∧
    ((newProc 0 300000).run [.packet, .short 0, .short 1200000, .play, .pass 1500000, .poll, .pass 1, .poll]).exited = true := by
  decide +kernel

end Player
end Alda
