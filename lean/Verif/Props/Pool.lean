import Verif.System.Pool
/-!
C46: the pool of players.
-/
namespace Alda
namespace Pool

/-- Some file says that there is such a player. -/
def Listed (dir : Directory) (state : String) (port : Nat) : Prop := ∃ name, (name, Contents.player state port) ∈ dir

/-- How many files say that their players are ready or starting. -/
def coming : Directory → Nat
  | [] => 0
  | (_, .player st _) :: files => (if st = "ready" ∨ st = "starting" then 1 else 0) + coming files
  | _ :: files => coming files

/-- Players that claim to be ready, but do not answer. -/
def Dead (w : World) (f : String × Contents) : Prop := ∃ port, f.2 = .player "ready" port ∧ w.answers port = false

instance (w : World) (f : String × Contents) : Decidable (Dead w f) :=
  match f with
  | (_, .player st port) =>
    if h : st = "ready" ∧ w.answers port = false then .isTrue ⟨port, by rw [h.1], h.2⟩
    else .isFalse (by rintro ⟨p, h1, h2⟩; simp only [Contents.player.injEq] at h1; obtain ⟨rfl, rfl⟩ := h1; exact h ⟨rfl, h2⟩)
  | (_, .empty) => .isFalse (by rintro ⟨p, h1, _⟩; simp at h1)
  | (_, .unreadable) => .isFalse (by rintro ⟨p, h1, _⟩; simp at h1)

/-- The name that players give to their state files: it ends with `.json`, and `.json` is nowhere else in it. -/
def ProperName (name : String) : Prop := ∃ id, name = id ++ ".json" ∧ playerId name = id

theorem coming_eq (dir : Directory) :
    ((readPlayerStates dir).filter (fun p => p.state == "ready" || p.state == "starting")).length = coming dir := by
  induction dir with
  | nil => rfl
  | cons f files ih =>
    obtain ⟨name, c⟩ := f
    cases c with
    | empty => exact ih
    | unreadable => exact ih
    | player st port =>
      simp only [readPlayerStates, coming, ← ih, List.filter_cons, Bool.or_eq_true, beq_iff_eq]
      split
      · simp; omega
      · simp

/-- C46: as many players are started as are missing from three. -/
theorem c46_fill (w : World) (dir : Directory) (hw : w.disabled = false ∧ w.path = none ∧ w.read = none) :
    ((fillPlayerPool w dir).1 + coming dir = 3 ∨ (3 ≤ coming dir ∧ (fillPlayerPool w dir).1 = 0)) := by
  unfold fillPlayerPool
  simp only [hw.1, hw.2.1, hw.2.2, coming_eq]
  simp only [Bool.false_eq_true, if_false]
  omega

/-- C46: none are started if that is disabled, or after an error. -/
theorem c46_disabled (w : World) (dir : Directory) (hw : w.disabled = true ∨ w.path ≠ none ∨ w.read ≠ none) : (fillPlayerPool w dir).1 = 0 := by
  unfold fillPlayerPool
  cases hd : w.disabled with
  | true => simp
  | false =>
    cases hp : w.path with
    | some e => simp
    | none =>
      cases hr : w.read with
      | some e => simp
      | none => simp [hd, hp, hr] at hw

theorem readPlayerStates_mem {dir : Directory} {p : PlayerState} (h : p ∈ readPlayerStates dir) :
    ∃ name, (name, Contents.player p.state p.port) ∈ dir ∧ p.id = playerId name := by
  induction dir with
  | nil => cases h
  | cons f files ih =>
    obtain ⟨name, c⟩ := f
    have rest : p ∈ readPlayerStates files → ∃ name', (name', Contents.player p.state p.port) ∈ (name, c) :: files ∧ p.id = playerId name' := by
      intro h
      obtain ⟨n, h1, h2⟩ := ih h
      exact ⟨n, List.mem_cons_of_mem _ h1, h2⟩
    cases c with
    | empty => exact rest h
    | unreadable => exact rest h
    | player st port =>
      rcases List.mem_cons.1 h with rfl | h
      · exact ⟨name, List.mem_cons_self .., rfl⟩
      · exact rest h

theorem readPlayerStates_listed {dir : Directory} {st : String} {port : Nat} (h : Listed dir st port) :
    ∃ p ∈ readPlayerStates dir, p.state = st ∧ p.port = port := by
  obtain ⟨name, h⟩ := h
  induction dir with
  | nil => cases h
  | cons f files ih =>
    rcases List.mem_cons.1 h with rfl | h
    · exact ⟨_, List.mem_cons_self .., rfl, rfl⟩
    · obtain ⟨p, hp, hq⟩ := ih h
      obtain ⟨n, c⟩ := f
      cases c with
      | empty => exact ⟨p, hp, hq⟩
      | unreadable => exact ⟨p, hp, hq⟩
      | player st port => exact ⟨p, List.mem_cons_of_mem _ hp, hq⟩

/-- C46: the player that is found said that it was ready, and answered. -/
theorem c46_found (w : World) (fuel : Nat) (dir : Directory) (p : PlayerState) (h : findAvailablePlayer w fuel dir = some (.player p)) :
    p.state = "ready" ∧ w.answers p.port = true ∧ ∃ dir', Listed dir' "ready" p.port ∧ (dir' = dir ∨ ∃ k d, dir' = w.later k d) := by
  have key : ∀ fuel dir, findAvailablePlayer w fuel dir = some (.player p) → p.state = "ready" ∧ w.answers p.port = true ∧
      ∃ dir', Listed dir' "ready" p.port ∧ (dir' = dir ∨ ∃ k d, dir' = w.later k d) := by
    intro fuel
    induction fuel with
    | zero => intro dir h; simp [findAvailablePlayer] at h
    | succ fuel ih =>
      intro dir h
      simp only [findAvailablePlayer] at h
      split at h
      · simp at h
      split at h
      · simp at h
      next q hq =>
        split at h
        next ha =>
          simp only [Option.some.injEq, Found.player.injEq] at h
          subst h
          have h1 := List.find?_some hq
          simp only [beq_iff_eq] at h1
          obtain ⟨name, hn, _⟩ := readPlayerStates_mem (List.mem_of_find?_eq_some hq)
          exact ⟨h1, ha, dir, ⟨name, by rw [← h1]; exact hn⟩, Or.inl rfl⟩
        · split at h
          · simp at h
          · split at h
            · simp at h
            · obtain ⟨h1, h2, dir', h3, h4⟩ := ih _ h
              refine ⟨h1, h2, dir', h3, Or.inr ?_⟩
              rcases h4 with rfl | h4
              · exact ⟨_, _, rfl⟩
              · exact h4
  exact key fuel dir h

/-- C46: if the first reading lists no player that is ready then none is found, and this is reported. -/
theorem c46_none (w : World) (fuel : Nat) (dir : Directory) (hr : w.read = none) (h : ∀ port, ¬ Listed dir "ready" port) :
    findAvailablePlayer w (fuel + 1) dir = some .noPlayersAvailable := by
  simp only [findAvailablePlayer, hr]
  have : (readPlayerStates dir).find? (fun p => p.state == "ready") = none := by
    rw [List.find?_eq_none]
    intro p hp hs
    simp only [beq_iff_eq] at hs
    obtain ⟨name, hn, _⟩ := readPlayerStates_mem hp
    exact h p.port ⟨name, by rw [← hs]; exact hn⟩
  rw [this]

/-- C46: that no players are available is reported only if some reading listed none that is ready; in particular no error is reported like this. -/
theorem c46_unavailable (w : World) (fuel : Nat) (dir : Directory) (h : findAvailablePlayer w fuel dir = some .noPlayersAvailable) :
    ∃ dir', (dir' = dir ∨ ∃ k d, dir' = w.later k d) ∧ ∀ port, ¬ Listed dir' "ready" port := by
  induction fuel generalizing dir with
  | zero => simp [findAvailablePlayer] at h
  | succ fuel ih =>
    simp only [findAvailablePlayer] at h
    split at h
    · simp at h
    split at h
    next hq =>
      refine ⟨dir, Or.inl rfl, fun port hl => ?_⟩
      obtain ⟨p, hp, h1, _⟩ := readPlayerStates_listed hl
      exact absurd (by simp [h1]) (List.find?_eq_none.1 hq p hp)
    · split at h
      · simp at h
      · split at h
        · simp at h
        · split at h
          · simp at h
          · obtain ⟨dir', h3, h4⟩ := ih _ h
            refine ⟨dir', Or.inr ?_, h4⟩
            rcases h3 with rfl | h3
            · exact ⟨_, _, rfl⟩
            · exact h3

/-- C46: if all players that are ready answer then one of them is found at once. -/
theorem c46_some (w : World) (fuel : Nat) (dir : Directory) (hr : w.read = none) (port : Nat) (h : Listed dir "ready" port)
    (ha : ∀ port, Listed dir "ready" port → w.answers port = true) :
    ∃ p, findAvailablePlayer w (fuel + 1) dir = some (.player p) := by
  simp only [findAvailablePlayer, hr]
  cases hf : (readPlayerStates dir).find? (fun p => p.state == "ready") with
  | none =>
    rw [List.find?_eq_none] at hf
    obtain ⟨p, hp, h1, _⟩ := readPlayerStates_listed h
    exact absurd (by simp [h1]) (hf p hp)
  | some q =>
    have h1 := List.find?_some hf
    simp only [beq_iff_eq] at h1
    obtain ⟨name, hn, _⟩ := readPlayerStates_mem (List.mem_of_find?_eq_some hf)
    have := ha q.port ⟨name, by rw [← h1]; exact hn⟩
    exact ⟨q, by simp [this]⟩

/-- How many players claim to be ready without answering. -/
def deadCount (w : World) (dir : Directory) : Nat := (dir.filter (fun f => decide (Dead w f))).length

theorem filter_length_lt {α : Type} {p q : α → Bool} {l : List α} {a : α} (ha : a ∈ l) (hp : p a = true) (hq : q a = false) :
    ((l.filter q).filter p).length < (l.filter p).length := by
  induction l with
  | nil => cases ha
  | cons x l ih =>
    have le : ((l.filter q).filter p).length ≤ (l.filter p).length := (List.filter_sublist.filter p).length_le
    rcases List.mem_cons.1 ha with rfl | ha
    · rw [List.filter_cons_of_neg (by simp [hq]), List.filter_cons_of_pos hp]
      simp only [List.length_cons]; omega
    · have := ih ha
      simp only [List.filter_cons]
      split <;> split <;> simp_all [List.filter_cons] <;> omega

/-- C46: the search ends, after at most as many attempts as there are players that do not answer and one more, if all state files have the names that players give them,
and no further players of this kind appear in the meantime. -/
theorem c46_ends_partial (w : World) (hl : ∀ k d, (∀ f ∈ d, ProperName f.1) → (∀ f ∈ w.later k d, ProperName f.1) ∧ deadCount w (w.later k d) ≤ deadCount w d)
    (dir : Directory) (hn : ∀ f ∈ dir, ProperName f.1) (fuel : Nat) (hf : deadCount w dir < fuel) : (findAvailablePlayer w fuel dir).isSome := by
  induction fuel generalizing dir with
  | zero => omega
  | succ fuel ih =>
    simp only [findAvailablePlayer]
    split
    · rfl
    split
    · rfl
    next q hq =>
      split
      · rfl
      next ha =>
        split
        · rfl
        · split
          · rfl
          next started _ =>
            have h1 := List.find?_some hq
            simp only [beq_iff_eq] at h1
            obtain ⟨name, hm, hid⟩ := readPlayerStates_mem (List.mem_of_find?_eq_some hq)
            have hdel : ∀ f ∈ deletePlayerStateFile q.id dir, ProperName f.1 := fun f hf => hn f (List.mem_filter.1 hf).1
            obtain ⟨l1, l2⟩ := hl started _ hdel
            refine ih _ l1 ?_
            have hlt : deadCount w (deletePlayerStateFile q.id dir) < deadCount w dir := by
              refine filter_length_lt hm ?_ ?_
              · simp only [decide_eq_true_eq]
                exact ⟨q.port, by rw [← h1], by simpa using ha⟩
              · obtain ⟨id, e1, e2⟩ := hn _ hm
                simp only at e1 e2
                rw [hid, e2, e1]; simp
            omega

/-- C46: a file that is not named like this is never deleted: if it says that its player is ready, and the player does not answer, then the search does not end. -/
theorem c46_hang_witness : ∃ (w : World) (dir : Directory), ∀ fuel, findAvailablePlayer w fuel dir = none := by
  refine ⟨{ answers := fun _ => false }, [("abc.json~", .player "ready" 27278)], fun fuel => ?_⟩
  induction fuel with
  | zero => rfl
  | succ fuel ih =>
    have h1 : (readPlayerStates [("abc.json~", Contents.player "ready" 27278)]).find? (fun p => p.state == "ready") =
        some { state := "ready", port := 27278, id := "abc~" } := by decide +kernel
    have h2 : deletePlayerStateFile "abc~" [("abc.json~", .player "ready" 27278)] = [("abc.json~", .player "ready" 27278)] := by decide +kernel
    have h3 : fillPlayerPool { answers := fun _ => false } [("abc.json~", .player "ready" 27278)] = (2, none) := by decide +kernel
    simp only [findAvailablePlayer, h1, h2, h3]
    exact ih

/-- C46: the search does not end either if all players that are started become ready without answering. -/
theorem c46_dead_witness : ∃ (w : World) (dir : Directory), (∀ f ∈ dir, ProperName f.1) ∧ ∀ fuel, findAvailablePlayer w fuel dir = none := by
  have hp : playerId "abc.json" = "abc" := by decide +kernel
  refine ⟨{ answers := fun _ => false, later := fun _ _ => [("abc.json", .player "ready" 27278)] }, [("abc.json", .player "ready" 27278)], ?_, fun fuel => ?_⟩
  · intro f hf
    simp only [List.mem_singleton] at hf
    subst hf
    exact ⟨"abc", by decide +kernel, hp⟩
  induction fuel with
  | zero => rfl
  | succ fuel ih =>
    have h1 : (readPlayerStates [("abc.json", Contents.player "ready" 27278)]).find? (fun p => p.state == "ready") =
        some { state := "ready", port := 27278, id := "abc" } := by decide +kernel
    have h2 : deletePlayerStateFile "abc" [("abc.json", .player "ready" 27278)] = [] := by decide +kernel
    have h3 : fillPlayerPool { answers := fun _ => false, later := fun _ _ => [("abc.json", .player "ready" 27278)] } [] = (3, none) := by decide +kernel
    simp only [findAvailablePlayer, h1, h2, h3]
    exact ih

/-- One player plays, one starts, one is ready: one is missing. Of two that are ready the second answers. -/
example : fillPlayerPool { answers := fun _ => true } [("a.json", .player "active" 1), ("b.json", .player "starting" 2), ("c.json", .player "ready" 3), ("d.json", .empty)] = (1, none) ∧
    coming [("a.json", .player "active" 1), ("b.json", .player "starting" 2), ("c.json", .player "ready" 3), ("d.json", .empty)] = 2 ∧
    findAvailablePlayer { answers := fun p => p == 2 } 2 [("a.json", .player "ready" 1), ("b.json", .player "ready" 2)] = some (.player ⟨"ready", 2, "b"⟩) ∧
    deadCount { answers := fun p => p == 2 } [("a.json", .player "ready" 1), ("b.json", .player "ready" 2)] = 1 := by decide +kernel

/-- The condition of `c46_ends_partial` holds if players that are started are not ready at once. -/
example : ∀ k d, (∀ f ∈ d, ProperName f.1) → (∀ f ∈ (fun (k : Nat) (d : Directory) => d ++ List.replicate k ("new.json", Contents.player "starting" 5)) k d, ProperName f.1) := by
  intro k d h f hf
  rcases List.mem_append.1 hf with hf | hf
  · exact h f hf
  · rw [List.eq_of_mem_replicate hf]
    exact ⟨"new", by decide +kernel, by decide +kernel⟩

end Pool
end Alda
