import Verif.Player.Patterns

/-!
C79: a pattern is played as often as asked, one time after the other, each time as it is then, on the channel that was asked for.
-/
namespace Alda
namespace Patterns

/-! ### Specification -/

/-- The same event, `t` milliseconds later; never a pattern. -/
def Later (t : Int) : Event → Event → Prop
  | .note o n d a v, e => e = .note (t + o) n d a v
  | .volume o v, e => e = .volume (t + o) v
  | .panning o p, e => e = .panning (t + o) p
  | .pattern _ _ _, _ => False

/-- The events of a pattern, all of them and in order, from time `t` on, on a channel. -/
inductive PlayedAt (channel t : Int) : List Event → List Scheduled → Prop
  | nil : PlayedAt channel t [] []
  | cons {e : Event} {s : Scheduled} {es : List Event} {out : List Scheduled} : s.channel = channel ∧ Later t e s.event → PlayedAt channel t es out → PlayedAt channel t (e :: es) (s :: out)

/-- A pattern contains another one, at some time, at some depth. -/
inductive Uses (w : Nat → Moment) : String → String → Prop
  | self (a : String) : Uses w a a
  | via {a b c : String} (k : Nat) (o t : Int) : .pattern o b t ∈ (w k).patterns a → Uses w b c → Uses w a c

/-- `t` is a time to start what is due at `d`: at `d` itself if there is time enough, and never too late to be heard or later than needed. -/
def Starts (m : Moment) (d t : Int) : Prop :=
  (m.playing = true → m.now + 500 ≤ d → t = d) ∧ (m.playing = false → m.now ≤ d → t = d) ∧
  (m.playing = true → m.now + 500 ≤ t) ∧ m.now ≤ t ∧ d ≤ t ∧ (t ≤ d + 500 ∨ t ≤ m.now + 500)

/-- When the last note of the events ends, if they are played at `t`. -/
def Ends (events : List Event) (t d : Int) : Prop :=
  (∃ o n x a v, Event.note o n x a v ∈ events ∧ d = t + o + x) ∧ ∀ o n x a v, Event.note o n x a v ∈ events → t + o + x ≤ d

/-- A pattern without other patterns in it, at any time. -/
def Flat (w : Nat → Moment) (name : String) : Prop := ∀ k, ∀ e ∈ (w k).patterns name, ∀ o n t, e ≠ .pattern o n t

/-- The pattern is played `n` times from moment `p` on, first when `first` is due, and `out` is scheduled. -/
def Times (w : Nat → Moment) (channel : Int) (name : String) (p n : Nat) (first : Int) (out : List Scheduled) : Prop :=
  ∃ (due start : Nat → Int) (outs : List (List Scheduled)),
    out = outs.flatten ∧ outs.length = n ∧ due 0 = first ∧
    ∀ k < n, (∀ o, outs[k]? = some o → PlayedAt channel (start k) ((w (p + k)).patterns name) o) ∧ Starts (w (p + k)) (due k) (start k) ∧
      ((w (p + k)).patterns name = [] → due (k + 1) = due k) ∧
      (∀ d, 0 ≤ d → Ends ((w (p + k)).patterns name) (start k) d → due (k + 1) = d)

/-! ### Proofs -/

theorem adjust_starts (m : Moment) (d : Int) : Starts m d (adjustStartOffset m d) := by
  unfold Starts adjustStartOffset bufferTime
  cases m.playing <;> simp <;> (repeat' split) <;> omega

theorem adjust_now (m : Moment) (d : Int) : m.now ≤ adjustStartOffset m d ∧ (m.playing = true → m.now + 500 ≤ adjustStartOffset m d) :=
  ⟨(adjust_starts m d).2.2.2.1, (adjust_starts m d).2.2.1⟩

theorem immediate_later {channel t : Int} {events : List Event} {s : Scheduled} (h : s ∈ immediate channel t events) :
    s.channel = channel ∧ ∃ e ∈ events, Later t e s.event := by
  simp only [immediate, List.mem_map, List.mem_filter] at h
  obtain ⟨e, ⟨he, hp⟩, rfl⟩ := h
  refine ⟨rfl, e, he, ?_⟩
  cases e <;> simp_all [isPattern, addOffset, Later] <;> omega

/-- What is scheduled, has been asked for. -/
def Sound (w : Nat → Moment) (channel : Int) (name : String) (s : Scheduled) : Prop :=
  s.channel = channel ∧ ∃ k other e t, (w k).active = true ∧ Uses w name other ∧ e ∈ (w k).patterns other ∧ Later t e s.event ∧
    (w k).now ≤ t ∧ ((w k).playing = true → (w k).now + 500 ≤ t)

theorem deferred_mem {f : String → Int → Int → Nat → Option (List Scheduled × Nat)} {t : Int} {s : Scheduled} :
    ∀ {es : List Event} {p p' : Nat} {out : List Scheduled}, deferred f t es p = some (out, p') → s ∈ out →
      ∃ o n k q q' out', .pattern o n k ∈ es ∧ f n k (t + o) q = some (out', q') ∧ s ∈ out' := by
  intro es
  induction es with
  | nil => intro p p' out h hs; simp only [deferred, Option.some.injEq, Prod.mk.injEq] at h; rw [← h.1] at hs; simp at hs
  | cons e es ih =>
    intro p p' out h hs
    have tail : ∀ {p p' out}, deferred f t es p = some (out, p') → s ∈ out →
        ∃ o n k q q' out', .pattern o n k ∈ e :: es ∧ f n k (t + o) q = some (out', q') ∧ s ∈ out' := by
      intro p p' out h hs
      obtain ⟨o, n, k, q, q', out', h1, h2⟩ := ih h hs
      exact ⟨o, n, k, q, q', out', List.mem_cons_of_mem _ h1, h2⟩
    cases e with
    | note => exact tail (by simpa only [deferred] using h) hs
    | volume => exact tail (by simpa only [deferred] using h) hs
    | panning => exact tail (by simpa only [deferred] using h) hs
    | pattern o n k =>
      simp only [deferred] at h
      split at h
      · cases h
      · rename_i out1 q hf
        split at h
        · cases h
        · rename_i outs q' hd
          simp only [Option.some.injEq, Prod.mk.injEq] at h
          rw [← h.1] at hs
          rcases List.mem_append.1 hs with hs | hs
          · exact ⟨o, n, k, p, q, out1, List.mem_cons_self, hf, hs⟩
          · exact tail hd hs

theorem loop_sound (w : Nat → Moment) (channel : Int) : ∀ (fuel : Nat) (name : String) (times : Option Int) (iteration start : Int) (p p' : Nat) (out : List Scheduled),
    loop w fuel channel name times iteration start p = some (out, p') → ∀ s ∈ out, Sound w channel name s := by
  intro fuel
  induction fuel with
  | zero => intro name times iteration start p p' out h; cases h
  | succ fuel ih =>
    intro name times iteration start p p' out h s hs
    unfold loop at h
    split at h
    · simp only [Option.some.injEq, Prod.mk.injEq] at h; rw [← h.1] at hs; cases hs
    · split at h
      · simp only [Option.some.injEq, Prod.mk.injEq] at h; rw [← h.1] at hs; cases hs
      · rename_i hact
        have hact : (w p).active = true := by simpa using hact
        dsimp only at h
        split at h
        · cases h
        · rename_i outs q hd
          split at h
          · cases h
          · rename_i rest q' hl
            simp only [Option.some.injEq, Prod.mk.injEq] at h
            rw [← h.1] at hs
            rcases List.mem_append.1 hs with hs | hs
            · rcases List.mem_append.1 hs with hs | hs
              · obtain ⟨h1, e, he, h2⟩ := immediate_later hs
                exact ⟨h1, p, name, e, _, hact, .self name, he, h2, adjust_now _ _⟩
              · obtain ⟨o, n, k, r, r', out', hm, hf, hs'⟩ := deferred_mem hd hs
                obtain ⟨h1, j, other, e, t, ha, hu, rest⟩ := ih _ _ _ _ _ _ _ hf s hs'
                exact ⟨h1, j, other, e, t, ha, .via p o k hm hu, rest⟩
            · exact ih _ _ _ _ _ _ _ hl s hs

/-- C79: whatever is scheduled for a pattern, at any depth of patterns in patterns, is on the channel that was asked for, is an event that the pattern or one that it contains had at the time, and is not in the
past; while playing, half a second ahead of the clock as it was read. -/
theorem c79_sound (w : Nat → Moment) (fuel : Nat) (channel : Int) (name : String) (times : Option Int) (offset start : Int) (out : List Scheduled)
    (h : schedulePattern w fuel channel name times offset start = some out) : ∀ s ∈ out, Sound w channel name s := by
  simp only [schedulePattern, Option.map_eq_some_iff] at h
  obtain ⟨⟨o, p'⟩, h1, rfl⟩ := h
  exact loop_sound w channel fuel name times 1 _ 0 p' o h1

theorem deferred_flat (f : String → Int → Int → Nat → Option (List Scheduled × Nat)) (t : Int) :
    ∀ (es : List Event) (p : Nat), (∀ e ∈ es, ∀ o n k, e ≠ .pattern o n k) → deferred f t es p = some ([], p) := by
  intro es
  induction es with
  | nil => intro p _; rfl
  | cons e es ih =>
    intro p h
    have := ih p (fun e he => h e (List.mem_cons_of_mem _ he))
    cases e with
    | pattern o n k => exact absurd rfl (h _ List.mem_cons_self o n k)
    | _ => simpa only [deferred] using this

theorem immediate_flat (channel t : Int) : ∀ (es : List Event), (∀ e ∈ es, ∀ o n k, e ≠ .pattern o n k) → PlayedAt channel t es (immediate channel t es) := by
  intro es
  induction es with
  | nil => intro _; exact .nil
  | cons e es ih =>
    intro h
    have hr := ih (fun e he => h e (List.mem_cons_of_mem _ he))
    have he := h e List.mem_cons_self
    have : immediate channel t (e :: es) = ⟨channel, addOffset t e⟩ :: immediate channel t es := by
      cases e <;> first | rfl | exact absurd rfl (he _ _ _)
    rw [this]
    refine .cons ⟨rfl, ?_⟩ hr
    cases e <;> first | exact absurd rfl (he _ _ _) | simp [Later, addOffset, Int.add_comm]

theorem lastEnd_ge : ∀ (l : List Scheduled) (s : Scheduled), s ∈ l → endOffset s.event ≤ lastEnd l
  | [], s, h => by cases h
  | [a], s, h => by simp only [List.mem_singleton] at h; subst h; exact Int.le_refl _
  | a :: b :: r, s, h => by
    have := lastEnd_ge (b :: r) s
    have heq : lastEnd (a :: b :: r) = max (endOffset a.event) (lastEnd (b :: r)) := rfl
    rcases List.mem_cons.1 h with rfl | h
    · omega
    · have := this h; omega

theorem lastEnd_mem : ∀ (l : List Scheduled), l ≠ [] → ∃ s ∈ l, lastEnd l = endOffset s.event
  | [], h => absurd rfl h
  | [a], _ => ⟨a, List.mem_singleton.2 rfl, rfl⟩
  | a :: b :: r, _ => by
    obtain ⟨s, hs, he⟩ := lastEnd_mem (b :: r) (by simp)
    have : lastEnd (a :: b :: r) = max (endOffset a.event) (lastEnd (b :: r)) := rfl
    by_cases hc : lastEnd (b :: r) ≤ endOffset a.event
    · exact ⟨a, List.mem_cons_self, by omega⟩
    · exact ⟨s, List.mem_cons_of_mem _ hs, by omega⟩

theorem lastEnd_ends {channel t d : Int} {es : List Event} (hd : 0 ≤ d) (h : Ends es t d) : lastEnd (immediate channel t es) = d ∧ immediate channel t es ≠ [] := by
  obtain ⟨⟨o, n, x, a, v, hm, rfl⟩, hmax⟩ := h
  have hin : (⟨channel, .note (o + t) n x a v⟩ : Scheduled) ∈ immediate channel t es := by
    simp only [immediate, List.mem_map, List.mem_filter]
    exact ⟨_, ⟨hm, rfl⟩, rfl⟩
  have hne : immediate channel t es ≠ [] := List.ne_nil_of_mem hin
  refine ⟨?_, hne⟩
  have h1 := lastEnd_ge _ _ hin
  simp only [endOffset] at h1
  obtain ⟨s, hs, he⟩ := lastEnd_mem _ hne
  simp only [immediate, List.mem_map, List.mem_filter] at hs
  obtain ⟨e, ⟨hes, _⟩, rfl⟩ := hs
  cases e with
  | note o' n' x' a' v' => have := hmax _ _ _ _ _ hes; simp only [addOffset, endOffset] at he; omega
  | volume => simp only [addOffset, endOffset] at he; omega
  | panning => simp only [addOffset, endOffset] at he; omega
  | pattern => simp only [addOffset, endOffset] at he; omega

/-- How often a pattern is played: as often as asked, unless it is stopped before. -/
def Count (w : Nat → Moment) (p : Nat) (times : Option Int) (done : Int) (n : Nat) : Prop :=
  (∀ k < n, (w (p + k)).active = true) ∧
  match times with
  | some t => (n : Int) = max 0 (t - done) ∨ ((n : Int) < t - done ∧ (w (p + n)).active = false)
  | none => (w (p + n)).active = false

theorem times_step {w : Nat → Moment} {channel : Int} {name : String} {p n : Nat} {start : Int} {rest : List Scheduled} (hflat : Flat w name)
    (h : Times w channel name (p + 1) n (if (immediate channel (adjustStartOffset (w p) start) ((w p).patterns name)).isEmpty then start
      else lastEnd (immediate channel (adjustStartOffset (w p) start) ((w p).patterns name))) rest) :
    Times w channel name p (n + 1) start (immediate channel (adjustStartOffset (w p) start) ((w p).patterns name) ++ rest) := by
  obtain ⟨due, st, outs, hout, hlen, h0, hall⟩ := h
  refine ⟨fun k => match k with | 0 => start | k + 1 => due k, fun k => match k with | 0 => adjustStartOffset (w p) start | k + 1 => st k,
    immediate channel (adjustStartOffset (w p) start) ((w p).patterns name) :: outs, ?_, ?_, rfl, ?_⟩
  · rw [hout]; rfl
  · simp [hlen]
  · intro k hk
    cases k with
    | zero =>
      refine ⟨?_, adjust_starts _ _, ?_, ?_⟩
      · intro o ho
        simp only [List.getElem?_cons_zero, Option.some.injEq] at ho
        rw [← ho]; exact immediate_flat _ _ _ (hflat p)
      · intro he
        show due 0 = start
        have he : (w p).patterns name = [] := he
        rw [h0, he]; rfl
      · intro d hd he
        show due 0 = d
        obtain ⟨h1, h2⟩ := lastEnd_ends (channel := channel) hd he
        rw [h0]
        have h2' : (immediate channel (adjustStartOffset (w p) start) ((w p).patterns name)).isEmpty = false := by
          cases hi : immediate channel (adjustStartOffset (w p) start) ((w p).patterns name) with
          | nil => exact absurd hi h2
          | cons => rfl
        rw [h2']; exact h1
    | succ k =>
      have := hall k (by omega)
      rw [show p + 1 + k = p + (k + 1) by omega] at this
      obtain ⟨h1, h2, h3, h4⟩ := this
      exact ⟨fun o ho => h1 o (by simpa using ho), h2, h3, h4⟩

theorem loop_times (w : Nat → Moment) (channel : Int) (name : String) (hflat : Flat w name) (times : Option Int) :
    ∀ (fuel : Nat) (done : Nat) (start : Int) (p p' : Nat) (out : List Scheduled),
    loop w fuel channel name times (done + 1) start p = some (out, p') → ∃ n, Count w p times done n ∧ Times w channel name p n start out := by
  intro fuel
  induction fuel with
  | zero => intro done start p p' out h; cases h
  | succ fuel ih =>
    intro done start p p' out h
    have zero : Times w channel name p 0 start [] := ⟨fun _ => start, fun _ => 0, [], rfl, rfl, rfl, fun k hk => by omega⟩
    unfold loop at h
    split at h
    · rename_i hdone
      simp only [Option.some.injEq, Prod.mk.injEq] at h; rw [← h.1]
      refine ⟨0, ⟨fun k hk => by omega, ?_⟩, zero⟩
      cases times with
      | none => simp [isDone] at hdone
      | some t => simp only [isDone, decide_eq_true_eq] at hdone; left; omega
    · rename_i hdone
      split at h
      · rename_i hact
        have hact : (w p).active = false := by simpa using hact
        simp only [Option.some.injEq, Prod.mk.injEq] at h; rw [← h.1]
        refine ⟨0, ⟨fun k hk => by omega, ?_⟩, zero⟩
        cases times with
        | none => exact hact
        | some t => simp only [isDone, decide_eq_true_eq] at hdone; right; exact ⟨by omega, hact⟩
      · rename_i hact
        have hact : (w p).active = true := by simpa using hact
        dsimp only at h
        rw [deferred_flat _ _ _ _ (hflat p)] at h
        dsimp only at h
        rw [List.append_nil] at h
        split at h
        · cases h
        · rename_i rest q' hl
          simp only [Option.some.injEq, Prod.mk.injEq] at h
          rw [← h.1]
          rw [show (done : Int) + 1 + 1 = (((done + 1 : Nat) : Int) + 1) by omega] at hl
          obtain ⟨n, ⟨hc1, hc2⟩, hn⟩ := ih (done + 1) _ (p + 1) q' rest hl
          refine ⟨n + 1, ⟨?_, ?_⟩, times_step hflat hn⟩
          · intro k hk
            cases k with
            | zero => exact hact
            | succ k => have := hc1 k (by omega); rwa [show p + 1 + k = p + (k + 1) by omega] at this
          · rw [show p + 1 + n = p + (n + 1) by omega] at hc2
            cases times with
            | none => exact hc2
            | some t =>
              simp only [isDone, decide_eq_true_eq] at hdone
              dsimp only at hc2 ⊢
              rcases hc2 with h | ⟨h, h'⟩
              · left; omega
              · right; exact ⟨by omega, h'⟩

/-- C79, for patterns that contain no patterns: the pattern is played as often as asked, or until the loop is ended or the track cleared; each time with the events that it has at that time, all of them and
once each; each time begins when the last note of the time before ends, if the clock is not too close to that. -/
theorem c79_times_partial (w : Nat → Moment) (fuel : Nat) (channel : Int) (name : String) (times : Option Int) (offset start : Int) (out : List Scheduled) (hflat : Flat w name)
    (h : schedulePattern w fuel channel name times offset start = some out) :
    ∃ n, Count w 0 times 0 n ∧ Times w channel name 0 n (start + offset) out := by
  simp only [schedulePattern, Option.map_eq_some_iff] at h
  obtain ⟨⟨o, p'⟩, h1, rfl⟩ := h
  exact loop_times w channel name hflat times fuel 0 _ 0 p' o h1

theorem loop_ends (w : Nat → Moment) (channel : Int) (name : String) (hflat : Flat w name) (t : Int) :
    ∀ (fuel : Nat) (iteration start : Int) (p : Nat), t - iteration + 1 < fuel → 0 < fuel → (loop w fuel channel name (some t) iteration start p).isSome = true := by
  intro fuel
  induction fuel with
  | zero => intro _ _ _ _ h; omega
  | succ fuel ih =>
    intro iteration start p hf _
    unfold loop
    split
    · rfl
    · rename_i hdone
      simp only [isDone, decide_eq_true_eq] at hdone
      split
      · rfl
      · dsimp only
        rw [deferred_flat _ _ _ _ (hflat p)]
        dsimp only
        have := ih (iteration + 1) (if (immediate channel (adjustStartOffset (w p) start) ((w p).patterns name) ++ []).isEmpty then start
          else lastEnd (immediate channel (adjustStartOffset (w p) start) ((w p).patterns name) ++ [])) (p + 1) (by omega) (by omega)
        split
        · rename_i hn; rw [hn] at this; cases this
        · rfl

/-- C79: a pattern without patterns that is asked for a number of times comes to an end. -/
theorem c79_ends_partial (w : Nat → Moment) (channel : Int) (name : String) (times offset start : Int) (hflat : Flat w name) :
    ∃ out, schedulePattern w (times.toNat + 1) channel name (some times) offset start = some out := by
  have h := loop_ends w channel name hflat times (times.toNat + 1) 1 (start + offset) 0 (by omega) (by omega)
  rw [Option.isSome_iff_exists] at h
  obtain ⟨r, hr⟩ := h
  exact ⟨r.1, by simp [schedulePattern, hr]⟩

/-- C79: a loop of a pattern ends only if it is stopped. -/
theorem c79_loop_partial (w : Nat → Moment) (fuel : Nat) (channel : Int) (name : String) (offset start : Int) (hflat : Flat w name) (hw : ∀ k, (w k).active = true) :
    schedulePattern w fuel channel name none offset start = none := by
  cases h : schedulePattern w fuel channel name none offset start with
  | none => rfl
  | some out =>
    obtain ⟨n, ⟨_, hc⟩, _⟩ := c79_times_partial w fuel channel name none offset start out hflat h
    have := hw (0 + n)
    rw [this] at hc
    cases hc

/-! ### Patterns in patterns -/

/-- When the last note of what is scheduled ends. -/
def LastNote (l : List Scheduled) (d : Int) : Prop :=
  (∃ c o n x a v, (⟨c, .note o n x a v⟩ : Scheduled) ∈ l ∧ d = o + x) ∧ ∀ c o n x a v, (⟨c, .note o n x a v⟩ : Scheduled) ∈ l → o + x ≤ d

/-- When the next time is due: after the last note, and if there is nothing, as before. -/
def Next (l : List Scheduled) (due due' : Int) : Prop := (l = [] → due' = due) ∧ ∀ d, 0 ≤ d → LastNote l d → due' = d

/-- Whether more times were asked for. -/
def More (times : Option Int) (done : Nat) : Prop := ∀ t, times = some t → done < t

/-- The events of a list that are no patterns, in order. -/
inductive Own : List Event → List Event → Prop
  | nil : Own [] []
  | skip {o t : Int} {n : String} {es own : List Event} : Own es own → Own (.pattern o n t :: es) own
  | keep {e : Event} {es own : List Event} : (∀ o n t, e ≠ .pattern o n t) → Own es own → Own (e :: es) (e :: own)

mutual
/-- How a pattern is to be played that has been played `done` times and is due next at `due`, if the moments before `p` have gone by; `p'`: the moments gone by in the end. -/
inductive Plays (w : Nat → Moment) (channel : Int) : String → Option Int → Nat → Int → Nat → List Scheduled → Nat → Prop
  /-- it has been played as often as asked -/
  | finished {name : String} {times : Option Int} {done : Nat} {due : Int} {p : Nat} : ¬ More times done → Plays w channel name times done due p [] p
  /-- it has been stopped -/
  | stopped {name : String} {times : Option Int} {done : Nat} {due : Int} {p : Nat} : More times done → (w p).active = false → Plays w channel name times done due p [] (p + 1)
  /-- it is played once more: its own events, and the patterns in it -/
  | again {name : String} {times : Option Int} {done : Nat} {due t due' : Int} {p q p' : Nat} {es : List Event} {own inner rest : List Scheduled} :
      More times done → (w p).active = true → Starts (w p) due t → Own ((w p).patterns name) es → PlayedAt channel t es own → PlaysAll w channel t ((w p).patterns name) (p + 1) inner q →
      Next (own ++ inner) due due' → Plays w channel name times (done + 1) due' q rest p' → Plays w channel name times done due p (own ++ inner ++ rest) p'
/-- How the patterns among some events are to be played, from time `t` on. -/
inductive PlaysAll (w : Nat → Moment) (channel : Int) : Int → List Event → Nat → List Scheduled → Nat → Prop
  | nil {t : Int} {p : Nat} : PlaysAll w channel t [] p [] p
  | pattern {t o k : Int} {n : String} {es : List Event} {p q p' : Nat} {out rest : List Scheduled} :
      Plays w channel n (some k) 0 (t + o) p out q → PlaysAll w channel t es q rest p' → PlaysAll w channel t (.pattern o n k :: es) p (out ++ rest) p'
  | other {t : Int} {e : Event} {es : List Event} {p p' : Nat} {out : List Scheduled} : (∀ o n k, e ≠ .pattern o n k) → PlaysAll w channel t es p out p' → PlaysAll w channel t (e :: es) p out p'
end

theorem own_filter : ∀ (es : List Event), Own es (es.filter (fun e => !isPattern e))
  | [] => .nil
  | e :: es => by
    have := own_filter es
    cases e with
    | pattern o n k => exact .skip this
    | _ => exact .keep (by intro o n t h; cases h) this

theorem own_flat (es : List Event) : ∀ e ∈ es.filter (fun e => !isPattern e), ∀ o n k, e ≠ .pattern o n k := by
  intro e he o n k heq
  subst heq
  simp [isPattern] at he

theorem immediate_filter (channel t : Int) (es : List Event) : immediate channel t (es.filter (fun e => !isPattern e)) = immediate channel t es := by
  simp [immediate]

theorem next_lastEnd (l : List Scheduled) (due : Int) : Next l due (if l.isEmpty then due else lastEnd l) := by
  constructor
  · intro h; rw [h]; rfl
  · intro d hd ⟨⟨c, o, n, x, a, v, hm, he⟩, hmax⟩
    have hne : l ≠ [] := List.ne_nil_of_mem hm
    have hem : l.isEmpty = false := by cases l with | nil => exact absurd rfl hne | cons => rfl
    rw [hem]
    have h1 := lastEnd_ge _ _ hm
    simp only [endOffset] at h1
    obtain ⟨s, hs, h2⟩ := lastEnd_mem _ hne
    show lastEnd l = d
    obtain ⟨c', e⟩ := s
    cases e with
    | note o' n' x' a' v' => have := hmax _ _ _ _ _ _ hs; simp only [endOffset] at h2; omega
    | volume => simp only [endOffset] at h2; omega
    | panning => simp only [endOffset] at h2; omega
    | pattern => simp only [endOffset] at h2; omega

theorem more_iff (times : Option Int) (done : Nat) : More times done ↔ isDone times ((done : Int) + 1) = false := by
  cases times with
  | none => simp [More, isDone]
  | some t => simp [More, isDone]; omega

theorem deferred_plays (w : Nat → Moment) (channel t : Int) (f : String → Int → Int → Nat → Option (List Scheduled × Nat))
    (hf : ∀ n k s p out p', f n k s p = some (out, p') → Plays w channel n (some k) 0 s p out p') :
    ∀ (es : List Event) (p p' : Nat) (out : List Scheduled), deferred f t es p = some (out, p') → PlaysAll w channel t es p out p' := by
  intro es
  induction es with
  | nil => intro p p' out h; simp only [deferred, Option.some.injEq, Prod.mk.injEq] at h; rw [← h.1, ← h.2]; exact .nil
  | cons e es ih =>
    intro p p' out h
    cases e with
    | note => exact .other (by intro o n t h; cases h) (ih _ _ _ (by simpa only [deferred] using h))
    | volume => exact .other (by intro o n t h; cases h) (ih _ _ _ (by simpa only [deferred] using h))
    | panning => exact .other (by intro o n t h; cases h) (ih _ _ _ (by simpa only [deferred] using h))
    | pattern o n k =>
      simp only [deferred] at h
      split at h
      · cases h
      · rename_i out1 q h1
        split at h
        · cases h
        · rename_i outs q' hd
          simp only [Option.some.injEq, Prod.mk.injEq] at h
          rw [← h.1, ← h.2]
          exact .pattern (hf _ _ _ _ _ _ h1) (ih _ _ _ hd)

theorem loop_plays (w : Nat → Moment) (channel : Int) : ∀ (fuel : Nat) (name : String) (times : Option Int) (done : Nat) (start : Int) (p p' : Nat) (out : List Scheduled),
    loop w fuel channel name times ((done : Int) + 1) start p = some (out, p') → Plays w channel name times done start p out p' := by
  intro fuel
  induction fuel with
  | zero => intro name times done start p p' out h; cases h
  | succ fuel ih =>
    intro name times done start p p' out h
    have hm := more_iff times done
    unfold loop at h
    split at h
    · rename_i hd
      simp only [Option.some.injEq, Prod.mk.injEq] at h
      rw [← h.1, ← h.2]
      exact .finished (by rw [hm, hd]; simp)
    · rename_i hd
      have hd : More times done := hm.2 (by simpa using hd)
      split at h
      · rename_i ha
        simp only [Option.some.injEq, Prod.mk.injEq] at h
        rw [← h.1, ← h.2]
        exact .stopped hd (by simpa using ha)
      · rename_i ha
        dsimp only at h
        split at h
        · cases h
        · rename_i outs q hdef
          split at h
          · cases h
          · rename_i rest q' hl
            simp only [Option.some.injEq, Prod.mk.injEq] at h
            rw [← h.1, ← h.2]
            rw [show (done : Int) + 1 + 1 = (((done + 1 : Nat) : Int) + 1) by omega] at hl
            refine .again hd (by simpa using ha) (adjust_starts _ _) (own_filter _) ?_ (deferred_plays w channel _ _ ?_ _ _ _ _ hdef) (next_lastEnd _ _) (ih _ _ _ _ _ _ _ hl)
            · rw [← immediate_filter]; exact immediate_flat _ _ _ (own_flat _)
            · intro n k s p out p' h; exact ih n (some k) 0 s p p' out (by simpa using h)

/-- C79, with patterns in patterns: whenever the scheduling of a pattern comes to an end, the pattern has been played as described by `Plays`: as often as asked or until it was stopped, each time all its
events, and all patterns in it as often as they are asked for there, from where they are due on. -/
theorem c79_nested (w : Nat → Moment) (fuel : Nat) (channel : Int) (name : String) (times : Option Int) (offset start : Int) (out : List Scheduled)
    (h : schedulePattern w fuel channel name times offset start = some out) : ∃ p, Plays w channel name times 0 (start + offset) 0 out p := by
  simp only [schedulePattern, Option.map_eq_some_iff] at h
  obtain ⟨⟨o, p'⟩, h1, rfl⟩ := h
  exact ⟨p', loop_plays w channel fuel name times 0 _ 0 p' o (by simpa using h1)⟩

/-! ### Cases -/

/-- A pattern that is changed after the first time. -/
def sample : Nat → Moment := fun k =>
  if k = 0 then ⟨true, 0, true, fun n => if n = "a" then [.note 0 60 600 500 80, .volume 0 90, .note 300 64 600 500 80] else []⟩
  else if k = 1 then ⟨true, 1000, true, fun n => if n = "a" then [.note 0 72 600 500 80] else []⟩
  else ⟨false, 3000, true, fun _ => []⟩

example : Flat sample "a" := by
  intro k e he o n t
  unfold sample at he
  split at he
  · simp at he; rcases he with rfl | rfl | rfl <;> simp
  · split at he
    · simp at he; subst he; simp
    · simp at he

example : schedulePattern sample 3 4 "a" (some 2) 1000 0 =
    some [⟨4, .note 1000 60 600 500 80⟩, ⟨4, .volume 1000 90⟩, ⟨4, .note 1300 64 600 500 80⟩, ⟨4, .note 1900 72 600 500 80⟩] := by decide +kernel

/-- The loop is stopped after two times. -/
example : (schedulePattern sample 9 4 "a" none 1000 0).map List.length = some 4 := by decide +kernel

/-- A pattern of another one, twice. -/
def sampleNested : Nat → Moment := fun k =>
  ⟨true, (k : Int) * 1000, true, fun n => if n = "b" then [.pattern 1000 "a" 1, .panning 0 30] else if n = "a" then [.note 0 60 600 500 80] else []⟩

example : schedulePattern sampleNested 5 2 "b" (some 1) 2000 0 = some [⟨2, .panning 2000 30⟩, ⟨2, .note 3000 60 600 500 80⟩] := by decide +kernel

example : Uses sampleNested "b" "a" := .via 0 1000 1 (by simp [sampleNested]) (.self "a")

/-! ### What fails -/

/-- C79 fails for short patterns: the next time is looked at when the one before begins, as its events are looked up only then; if a pattern lasts less than half a second, there is always a gap of half a second
after it. -/
theorem c79_gap_witness (w : Nat → Moment) (start x : Int) (hx : 0 ≤ x ∧ x < 500) (hs : 500 ≤ start)
    (h0 : w 0 = ⟨true, 0, true, fun _ => [.note 0 60 x x 80]⟩) (now : Int) (hnow : start ≤ now ∧ now ≤ start + x)
    (h1 : w 1 = ⟨true, now, true, fun _ => [.note 0 60 x x 80]⟩) :
    schedulePattern w 3 0 "a" (some 2) 0 start = some [⟨0, .note start 60 x x 80⟩, ⟨0, .note (start + x + 500) 60 x x 80⟩] := by
  have a0 : adjustStartOffset (w 0) start = start := by
    rw [h0]; unfold adjustStartOffset bufferTime
    simp only [Bool.true_and, decide_eq_true_eq]
    split <;> split <;> omega
  have a1 : adjustStartOffset (w 1) (start + x) = start + x + 500 := by
    rw [h1]; unfold adjustStartOffset bufferTime
    simp only [Bool.true_and, decide_eq_true_eq]
    split <;> split <;> omega
  simp only [schedulePattern, Int.add_zero]
  unfold loop
  simp only [isDone, h0]
  rw [← h0, a0]
  simp only [deferred, immediate, isPattern, List.filter, Bool.not_false, List.map, addOffset, List.append_nil, lastEnd, endOffset, List.isEmpty]
  unfold loop
  simp only [isDone, Nat.zero_add, h1]
  rw [← h1]
  simp [a1, deferred, immediate, isPattern, addOffset, loop, isDone]

/-- C79 fails for patterns that only change the volume or the panning: such events have no end, so that the next time is not after them, but as soon as possible; here it begins at 10500, before the change of
the first time, which is at 12000. -/
theorem c79_volume_witness : ∃ w : Nat → Moment, Flat w "a" ∧ (∀ k, (w k).active = true ∧ (w k).playing = true) ∧
    schedulePattern w 3 0 "a" (some 2) 0 10000 = some [⟨0, .volume 12000 50⟩, ⟨0, .volume 12500 50⟩] := by
  refine ⟨fun k => ⟨true, 10000 * k, true, fun _ => [.volume 2000 50]⟩, ?_, fun _ => ⟨rfl, rfl⟩, by decide +kernel⟩
  intro k e he o n t
  simp at he; subst he; simp

/-- The player is stuck. -/
def Stuck (s : Player) : Prop := s.awaiting = true ∧ s.playing = false ∧ 0 < s.latches

theorem stuck_step {s s' : Player} {a : Act} (h : Stuck s) (hs : step s a = some s') : Stuck s' ∧ s'.running = s.running := by
  obtain ⟨h1, h2, h3⟩ := h
  cases a with
  | receive => simp [step, h1] at hs
  | wake =>
    have : (s.latches == 0) = false := by simp; omega
    simp [step, h1, this] at hs
  | reach => simp [step, h2] at hs
  | arrive b => simp only [step, Option.some.injEq] at hs; subst hs; exact ⟨⟨h1, h2, h3⟩, rfl⟩

/-- C79 fails if a pattern comes together with the message to play: the player waits for the tasks of the track before it plays, and the pattern waits for the player to play. It never plays, and does not even
obey the message to shut down, whatever is sent to it. -/
theorem c79_stuck_witness (n : Nat) (acts : List Act) (s : Player)
    (h : run ⟨[⟨false, false, n + 1, true⟩], false, false, 0, true⟩ (.receive :: acts) = some s) : s.playing = false ∧ s.running = true := by
  simp only [run, step] at h
  have key : ∀ (acts : List Act) (s s' : Player), Stuck s → run s acts = some s' → Stuck s' ∧ s'.running = s.running := by
    intro acts
    induction acts with
    | nil => intro s s' hs h; simp only [run, Option.some.injEq] at h; subst h; exact ⟨hs, rfl⟩
    | cons a as ih =>
      intro s s' hs h
      simp only [run] at h
      split at h
      · cases h
      · rename_i s1 h1
        obtain ⟨k1, k2⟩ := stuck_step hs h1
        obtain ⟨k3, k4⟩ := ih _ _ k1 h
        exact ⟨k3, k4.trans k2⟩
  obtain ⟨h1, h2⟩ := key acts _ s ⟨rfl, rfl, by dsimp only; omega⟩ h
  exact ⟨h1.2.1, h2⟩

/-- The message to shut down is sent to it, and it goes on running. -/
example : (run ⟨[⟨false, false, 1, true⟩], false, false, 0, true⟩ [.receive, .arrive ⟨true, true, 0, false⟩]).isSome = true := by decide

/-- If the message to play comes first, the pattern is played. -/
example : run ⟨[⟨false, false, 0, true⟩, ⟨false, false, 1, false⟩], false, false, 0, true⟩ [.receive, .wake, .receive, .reach] = some ⟨[], false, true, 0, true⟩ := by decide

end Patterns
end Alda
