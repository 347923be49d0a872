import Verif.Player.TrackThreads
/-!
C78: what is sent to a track is scheduled, each bundle once, and an export waits for all of it.
-/
namespace Alda
namespace TrackThreads
variable {β : Type}

/-- The bundles sent, in order. -/
def sent (as : List (Act β)) : List β := as.filterMap (fun a => match a with | .send b => some b | _ => none)

/-- The bundles that are on their way to be scheduled, the first one first if the threads keep to their order. -/
def pending (s : State β) : List β := s.waiting.map (·.1) ++ s.started ++ s.queue

/-- The bundles whose scheduling has not ended. -/
def unfinished (s : State β) : Nat := (pending s).length + (if s.running.isSome then 1 else 0)

theorem exec_append (as bs : List (Act β)) : ∀ s : State β, exec (as ++ bs) s = (exec as s).bind (exec bs) := by
  induction as with
  | nil => intro s; rfl
  | cons a as ih =>
    intro s
    simp only [List.cons_append, exec]
    cases step s a with
    | none => rfl
    | some t => exact ih t

theorem sent_append (as bs : List (Act β)) : sent (as ++ bs) = sent as ++ sent bs := by simp [sent]

/-- The era never changes, as far as a comparison shows. -/
theorem era_same {as : List (Act β)} : ∀ {s t : State β}, (∀ w ∈ s.waiting, w.2.same s.era = true) → exec as s = some t → (∀ w ∈ t.waiting, w.2.same t.era = true) := by
  induction as with
  | nil => intro s t h e; cases e; exact h
  | cons a as ih =>
    intro s t h e
    simp only [exec] at e
    cases hs : step s a with
    | none => rw [hs] at e; cases e
    | some u =>
      rw [hs] at e
      refine ih ?_ e
      cases a with
      | send b => simp only [step, Option.some.injEq] at hs; subst hs; exact h
      | take =>
        simp only [step] at hs
        split at hs
        · cases hs
        · cases hs; exact h
      | arrive i =>
        simp only [step] at hs
        split at hs
        · cases hs
        · cases hs
          intro w hw
          rcases List.mem_append.1 hw with hw | hw
          · exact h w hw
          · simp only [List.mem_singleton] at hw; subst hw; simp [Counter.same]
      | lock =>
        simp only [step] at hs
        split at hs
        · rename_i b e0 ws _ hw
          cases hs
          intro w hw'
          exact h w (by rw [hw]; exact List.mem_cons_of_mem _ hw')
        · cases hs
      | finish x =>
        simp only [step] at hs
        split at hs
        · cases hs
        · cases hs; exact h
      | clear => simp only [step, Option.some.injEq] at hs; subst hs; exact h

/-- One step, when nothing is cleared: bundles move on, and nothing else happens to them. -/
theorem step_keeps {s t : State β} {a : Act β} (hw : ∀ w ∈ s.waiting, w.2.same s.era = true) (hc : a ≠ .clear) (h : step s a = some t) :
    (t.scheduled ++ pending t).Perm (s.scheduled ++ pending s ++ sent [a]) ∧ (s.activeTasks = unfinished s → t.activeTasks = unfinished t) := by
  cases a with
  | send b =>
    simp only [step, Option.some.injEq] at h; subst h
    refine ⟨?_, ?_⟩
    · simp [pending, sent]
    · intro ha; simp only [unfinished, pending, List.length_append, List.length_cons, List.length_nil] at *; omega
  | take =>
    simp only [step] at h
    split at h
    · cases h
    · rename_i b q hq
      cases h
      refine ⟨?_, ?_⟩
      · simp [pending, sent, hq]
      · intro ha; simp only [unfinished, pending, hq, List.length_append, List.length_cons, List.length_nil] at *; omega
  | arrive i =>
    simp only [step] at h
    split at h
    · cases h
    · rename_i b hb
      cases h
      have hlt : i < s.started.length := (List.getElem?_eq_some_iff.1 hb).1
      have hp : s.started.Perm (b :: s.started.eraseIdx i) := by
        have hb' : s.started[i] = b := (List.getElem?_eq_some_iff.1 hb).2
        have e : s.started = s.started.take i ++ s.started[i] :: s.started.drop (i + 1) := by
          rw [List.getElem_cons_drop, List.take_append_drop]
        rw [List.eraseIdx_eq_take_drop_succ, ← hb']
        exact (List.Perm.of_eq e).trans List.perm_middle
      refine ⟨?_, ?_⟩
      · simp only [pending, sent, List.map_append, List.map_cons, List.map_nil, List.filterMap_cons, List.filterMap_nil, List.append_nil]
        refine List.Perm.append_left _ (List.Perm.append_right _ ?_)
        rw [List.append_assoc]
        exact List.Perm.append_left _ hp.symm
      · intro ha
        have := hp.length_eq
        simp only [unfinished, pending, List.length_append, List.length_map, List.length_cons, List.length_nil] at *
        omega
  | lock =>
    simp only [step] at h
    split at h
    · rename_i b e0 ws hr hq
      cases h
      have := hw (b, e0) (by rw [hq]; simp)
      simp only at this
      rw [this]
      refine ⟨?_, ?_⟩
      · simp [pending, sent, hq]
      · intro ha
        simp only [unfinished, pending, hq, hr, List.map_cons, List.length_append, List.length_cons, Option.isSome_none, Option.isSome_some, if_true, Bool.false_eq_true, if_false] at *
        omega
    · cases h
  | finish x =>
    simp only [step] at h
    split at h
    · cases h
    · rename_i b same hr
      cases h
      refine ⟨by simp [pending, sent], ?_⟩
      intro ha
      simp only [unfinished, pending, hr, Option.isSome_none, Option.isSome_some, if_true, Bool.false_eq_true, if_false] at *
      split <;> omega
  | clear => exact absurd rfl hc

theorem exec_keeps (as : List (Act β)) : ∀ {s t : State β}, (∀ w ∈ s.waiting, w.2.same s.era = true) → .clear ∉ as → exec as s = some t →
    (t.scheduled ++ pending t).Perm (s.scheduled ++ pending s ++ sent as) ∧ (s.activeTasks = unfinished s → t.activeTasks = unfinished t) := by
  induction as with
  | nil => intro s t _ _ h; cases h; exact ⟨by simp [sent], id⟩
  | cons a as ih =>
    intro s t hw hc h
    simp only [exec] at h
    cases hs : step s a with
    | none => rw [hs] at h; cases h
    | some u =>
      rw [hs] at h
      have hu := era_same (as := [a]) (s := s) (t := u) hw (by simp [exec, hs])
      obtain ⟨k1, k2⟩ := step_keeps hw (fun e => hc (by rw [e]; simp)) hs
      obtain ⟨i1, i2⟩ := ih hu (fun hm => hc (List.mem_cons_of_mem _ hm)) h
      refine ⟨i1.trans ?_, fun ha => i2 (k2 ha)⟩
      have e : sent (a :: as) = sent [a] ++ sent as := sent_append [a] as
      rw [e, ← List.append_assoc]
      exact List.Perm.append_right _ k1

/-- Unless a track is cleared: every bundle sent to it has been scheduled once or is on its way, whatever the threads do; and as soon as the count of tasks is 0, on which export and play wait, all
of them have been scheduled. -/
theorem c78_complete_partial (as : List (Act β)) (s : State β) (hc : .clear ∉ as) (h : exec as (newTrack β) = some s) :
    (s.scheduled ++ pending s).Perm (sent as) ∧ (s.activeTasks = 0 → s.scheduled.Perm (sent as) ∧ s.running = none) := by
  obtain ⟨k1, k2⟩ := exec_keeps as (s := newTrack β) (by simp [newTrack]) hc h
  have e : (newTrack β).scheduled ++ pending (newTrack β) ++ sent as = sent as := by simp [newTrack, pending]
  rw [e] at k1
  refine ⟨k1, fun h0 => ?_⟩
  have k2 := k2 (by simp [newTrack, unfinished, pending])
  rw [h0] at k2
  unfold unfinished at k2
  have hp : pending s = [] := List.length_eq_zero_iff.1 (by omega)
  rw [hp, List.append_nil] at k1
  refine ⟨k1, ?_⟩
  cases hr : s.running with
  | none => rfl
  | some b => rw [hr] at k2; simp at k2

/-- The count becomes 0: the threads can always go on. -/
theorem c78_progress (s : State β) (h : 0 < unfinished s) : ∃ a t, (∀ b, a ≠ .send b) ∧ a ≠ .clear ∧ step s a = some t := by
  by_cases hr : s.running.isSome = true
  · obtain ⟨⟨b, f⟩, hb⟩ := Option.isSome_iff_exists.1 hr
    exact ⟨.finish 0, _, by simp, by simp, by simp only [step, hb]; rfl⟩
  · have hr' : s.running = none := by simpa using hr
    cases hw : s.waiting with
    | cons w ws => exact ⟨.lock, _, by simp, by simp, by simp only [step, hr', hw]; rfl⟩
    | nil =>
      cases hs : s.started with
      | cons b bs => exact ⟨.arrive 0, _, by simp, by simp, by simp only [step, hs]; rfl⟩
      | nil =>
        cases hq : s.queue with
        | cons b q => exact ⟨.take, _, by simp, by simp, by simp only [step, hq]; rfl⟩
        | nil => simp [unfinished, pending, hw, hs, hq, hr'] at h

/-- And they come to an end: without anything sent, there are at most four steps for each bundle. -/
theorem c78_ends (as : List (Act β)) : ∀ (s t : State β), (∀ a ∈ as, (∀ b, a ≠ .send b) ∧ a ≠ .clear) → exec as s = some t → as.length + unfinished t ≤ 4 * unfinished s := by
  let rank (s : State β) : Nat := 4 * s.queue.length + 3 * s.started.length + 2 * s.waiting.length + (if s.running.isSome then 1 else 0)
  have key : ∀ (as : List (Act β)) (s t : State β), (∀ a ∈ as, (∀ b, a ≠ .send b) ∧ a ≠ .clear) → exec as s = some t → as.length + rank t ≤ rank s := by
    intro as
    induction as with
    | nil => intro s t _ h; cases h; simp
    | cons a as ih =>
      intro s t ha h
      simp only [exec] at h
      cases hs : step s a with
      | none => rw [hs] at h; cases h
      | some u =>
        rw [hs] at h
        have ihu := ih u t (fun a h => ha a (List.mem_cons_of_mem _ h)) h
        have : rank u + 1 ≤ rank s := by
          cases a with
          | send b => exact absurd rfl ((ha (.send b) (by simp)).1 b)
          | clear => exact absurd rfl (ha .clear (by simp)).2
          | take =>
            simp only [step] at hs
            split at hs
            · cases hs
            · rename_i b q hq
              cases hs
              simp only [rank, hq, List.length_append, List.length_cons, List.length_nil]; omega
          | arrive i =>
            simp only [step] at hs
            split at hs
            · cases hs
            · rename_i b hb
              cases hs
              have hlt : i < s.started.length := (List.getElem?_eq_some_iff.1 hb).1
              simp only [rank, List.length_append, List.length_cons, List.length_nil, List.length_eraseIdx, if_pos hlt]; omega
          | lock =>
            simp only [step] at hs
            split at hs
            · rename_i b e0 ws hr hq
              cases hs
              simp only [rank, hq, hr, List.length_cons, Option.isSome_none, Option.isSome_some, if_true, Bool.false_eq_true, if_false]; omega
            · cases hs
          | finish x =>
            simp only [step] at hs
            split at hs
            · cases hs
            · rename_i b f hr
              cases hs
              simp only [rank, hr, Option.isSome_none, Option.isSome_some, if_true, Bool.false_eq_true, if_false]; omega
        simp only [List.length_cons]; omega
  intro s t ha h
  have k := key as s t ha h
  have h1 : rank s ≤ 4 * unfinished s := by simp only [rank, unfinished, pending, List.length_append, List.length_map]; omega
  have h2 : unfinished t ≤ rank t := by simp only [rank, unfinished, pending, List.length_append, List.length_map]; omega
  omega

/-- The threads get the lock in the order in which they were started. -/
def InOrder (as : List (Act β)) : Prop := ∀ i, .arrive i ∈ as → i = 0

/-- If the threads get the lock in the order in which they were started, bundles are scheduled in the order in which they were sent, also if the track is cleared. -/
theorem c78_order_partial (as : List (Act β)) (s : State β) (ho : InOrder as) (h : exec as (newTrack β) = some s) : (s.scheduled ++ pending s).Sublist (sent as) := by
  have key : ∀ (as : List (Act β)) (s t : State β) (before : List β), InOrder as → exec as s = some t → (s.scheduled ++ pending s).Sublist before →
      (t.scheduled ++ pending t).Sublist (before ++ sent as) := by
    intro as
    induction as with
    | nil => intro s t before _ h hb; cases h; simpa [sent] using hb
    | cons a as ih =>
      intro s t before ho h hb
      simp only [exec] at h
      cases hs : step s a with
      | none => rw [hs] at h; cases h
      | some u =>
        rw [hs] at h
        have e : sent (a :: as) = sent [a] ++ sent as := sent_append [a] as
        rw [e, ← List.append_assoc]
        refine ih u t _ (fun i hi => ho i (List.mem_cons_of_mem _ hi)) h ?_
        cases a with
        | send b =>
          simp only [step, Option.some.injEq] at hs; subst hs
          simpa [pending, sent] using List.Sublist.append hb (List.Sublist.refl [b])
        | take =>
          simp only [step] at hs
          split at hs
          · cases hs
          · rename_i b q hq
            cases hs
            simpa [pending, sent, hq] using hb
        | arrive i =>
          have := ho i (by simp); subst this
          simp only [step] at hs
          split at hs
          · cases hs
          · rename_i b hb0
            cases hs
            cases hst : s.started with
            | nil => rw [hst] at hb0; cases hb0
            | cons c cs =>
              rw [hst] at hb0
              simp only [List.getElem?_cons_zero, Option.some.injEq] at hb0
              subst hb0
              simpa [pending, sent, hst] using hb
        | lock =>
          simp only [step] at hs
          split at hs
          · rename_i b e0 ws hr hq
            cases hs
            simp only [pending, sent, List.filterMap_cons, List.filterMap_nil, List.append_nil]
            split
            · simpa [pending, hq] using hb
            · refine List.Sublist.trans ?_ hb
              simp [pending, hq]
          · cases hs
        | finish x =>
          simp only [step] at hs
          split at hs
          · cases hs
          · cases hs; simpa [pending, sent] using hb
        | clear =>
          simp only [step, Option.some.injEq] at hs; subst hs
          simp only [pending, sent, List.filterMap_cons, List.filterMap_nil, List.append_nil]
          refine List.Sublist.trans ?_ hb
          simp [pending]
  simpa using key as (newTrack β) s [] ho h (by simp [newTrack, pending])

/-- What nobody has taken from the queue when a track is cleared is never scheduled. -/
theorem c78_cleared_partial (after_ : List (Act β)) (s t : State β) (b : β) (huntaken : b ∉ s.scheduled ∧ b ∉ s.started ∧ b ∉ s.waiting.map (·.1))
    (hagain : b ∉ sent after_) (h : exec (.clear :: after_) s = some t) : b ∉ t.scheduled := by
  have key : ∀ (as : List (Act β)) (s t : State β), b ∉ sent as → exec as s = some t → b ∉ s.scheduled → b ∉ pending s → b ∉ t.scheduled ∧ b ∉ pending t := by
    intro as
    induction as with
    | nil => intro s t _ h h1 h2; cases h; exact ⟨h1, h2⟩
    | cons a as ih =>
      intro s t hn h h1 h2
      simp only [exec] at h
      have e : sent (a :: as) = sent [a] ++ sent as := sent_append [a] as
      rw [e] at hn
      simp only [List.mem_append, not_or] at hn
      cases hs : step s a with
      | none => rw [hs] at h; cases h
      | some u =>
        rw [hs] at h
        simp only [pending, List.mem_append, not_or] at h2
        have goal : b ∉ u.scheduled ∧ b ∉ pending u := by
          simp only [pending, List.mem_append, not_or]
          cases a with
          | send c =>
            simp only [step, Option.some.injEq] at hs; subst hs
            have : b ≠ c := by simpa [sent] using hn.1
            simp only [List.mem_append, List.mem_singleton, not_or]
            exact ⟨h1, h2.1, h2.2, this⟩
          | take =>
            simp only [step] at hs
            split at hs
            · cases hs
            · rename_i c q hq
              cases hs
              rw [hq] at h2
              simp only [List.mem_cons, not_or] at h2
              simp only [List.mem_append, List.mem_singleton, not_or]
              exact ⟨h1, ⟨h2.1.1, h2.1.2, h2.2.1⟩, h2.2.2⟩
          | arrive i =>
            simp only [step] at hs
            split at hs
            · cases hs
            · rename_i c hc
              cases hs
              have hcm : c ∈ s.started := List.mem_of_getElem? hc
              have hbc : b ≠ c := fun e => h2.1.2 (by rw [e]; exact hcm)
              refine ⟨h1, ⟨?_, fun hm => h2.1.2 (List.mem_of_mem_eraseIdx hm)⟩, h2.2⟩
              simp only [List.map_append, List.map_cons, List.map_nil, List.mem_append, List.mem_singleton, not_or]
              exact ⟨h2.1.1, hbc⟩
          | lock =>
            simp only [step] at hs
            split at hs
            · rename_i c e0 ws hr hq
              cases hs
              rw [hq] at h2
              simp only [List.map_cons, List.mem_cons, not_or] at h2
              refine ⟨?_, ⟨h2.1.1.2, h2.1.2⟩, h2.2⟩
              simp only []
              split
              · simp [h1, h2.1.1.1]
              · exact h1
            · cases hs
          | finish x =>
            simp only [step] at hs
            split at hs
            · cases hs
            · cases hs; exact ⟨h1, h2⟩
          | clear =>
            simp only [step, Option.some.injEq] at hs; subst hs
            exact ⟨h1, h2.1, by simp⟩
        exact ih u t hn.2 h goal.1 goal.2
  refine (key after_ { s with era := { s.era with value := s.era.value + 1 }, startOffset := 0, queue := [], activeTasks := 0 } t hagain h huntaken.1 ?_).1
  simp only [pending, List.mem_append, not_or]
  exact ⟨⟨huntaken.2.2, huntaken.2.1⟩, by simp⟩

/-- Two bundles, of which the second waits for the first. -/
example : ∃ s, exec [.send 1, .take, .send 2, .arrive 0, .lock, .take, .arrive 0, .finish 500] (newTrack Nat) = some s ∧ s.scheduled = [1] ∧ pending s = [2] ∧ s.activeTasks = 1 ∧ s.startOffset = 500 :=
  ⟨_, rfl, by decide⟩

/-- The hypotheses of `c78_cleared_partial` are met: 2 is in the queue when the track is cleared. -/
example : ∃ s t, exec [.send 1, .take, .send 2] (newTrack Nat) = some s ∧ 2 ∈ s.queue ∧ (2 ∉ s.scheduled ∧ 2 ∉ s.started ∧ 2 ∉ s.waiting.map (·.1)) ∧ exec [.clear, .send 3, .take, .arrive 0, .lock] s = some t ∧ t.scheduled = [1] ∧ t.started = [3] :=
  ⟨_, _, rfl, by decide, by decide, rfl, by decide⟩

/-- C78 is false of clearing: a thread that waits schedules its bundle after the track has been cleared, although it looks whether the era has changed, and the next bundle is put after it. -/
theorem c78_clear_witness : ∃ (as : List (Act Nat)) (s : State Nat), exec as (newTrack Nat) = some s ∧ as = [.send 1, .take, .arrive 0, .clear, .lock, .finish 4000] ∧
    s.era.value = 1 ∧ s.scheduled = [1] ∧ s.startOffset = 4000 :=
  ⟨_, _, rfl, rfl, by decide⟩

/-- C78 is false of the count of tasks after clearing: it is 0 although a bundle sent afterwards is not scheduled, so that an export lacks it. -/
theorem c78_count_witness : ∃ (as : List (Act Nat)) (s : State Nat), exec as (newTrack Nat) = some s ∧ as = [.send 1, .take, .arrive 0, .clear, .send 2, .lock, .finish 4000] ∧
    s.activeTasks = 0 ∧ s.queue = [2] ∧ s.scheduled = [1] :=
  ⟨_, _, rfl, rfl, by decide⟩

/-- C78 is false of the order: nothing makes the threads reach the lock in the order in which they were started. -/
theorem c78_order_witness : ∃ (as : List (Act Nat)) (s : State Nat), exec as (newTrack Nat) = some s ∧ .clear ∉ as ∧ sent as = [1, 2] ∧ s.scheduled = [2, 1] :=
  ⟨[.send 1, .take, .send 2, .take, .arrive 1, .arrive 0, .lock, .finish 500, .lock, .finish 1000], _, rfl, by decide, by decide, by decide⟩

end TrackThreads
end Alda
