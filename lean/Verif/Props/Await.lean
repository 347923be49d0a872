import Verif.System.Await
/-!
# C73: waiting for a player is neither given up early nor goes on for ever
-/
namespace Alda
namespace Waiting

/-- When the attempts begin: with 100 milliseconds, or more, between the end of one and the next. -/
def beginning (env : Env) : Nat → Nat
  | 0 => 0
  | k + 1 => beginning env k + env.took k + (100 + env.late k)

/-- When they end. -/
def ending (env : Env) (k : Nat) : Nat := beginning env k + env.took k

theorem hundred (env : Env) (k : Nat) : 100 * k ≤ beginning env k := by
  induction k with
  | zero => simp
  | succ k ih => unfold beginning; omega

theorem await_from (env : Env) (fires k t : Nat) (ht : t = beginning env k) : ∃ n, k ≤ n ∧ await env fires k t = (env.result n, ending env n, n + 1) ∧
    (∀ j, k ≤ j → j < n → env.result j ≠ none ∧ ending env j < fires) ∧ (env.result n = none ∨ fires ≤ ending env n) := by
  fun_induction await env fires k t with
  | case1 k t h => exact ⟨k, Nat.le_refl _, by rw [h, ending, ← ht], fun j h1 h2 => by omega, .inl h⟩
  | case2 k t e h hf => exact ⟨k, Nat.le_refl _, by rw [h, ending, ← ht], fun j h1 h2 => by omega, .inr (by rw [ending, ← ht]; exact hf)⟩
  | case3 k t e h hf ih =>
    obtain ⟨n, h1, h2, h3, h4⟩ := ih (by rw [beginning, ← ht])
    refine ⟨n, by omega, h2, fun j hj hjn => ?_, h4⟩
    rcases Nat.lt_or_eq_of_le hj with hj | rfl
    · exact h3 j hj hjn
    · exact ⟨by rw [h]; simp, by rw [ending, ← ht]; omega⟩

/-- C73: what is returned is the result of the last attempt, when that ends; all before it failed before the time was over, and it succeeds unless the time is over. -/
theorem c73_attempts (env : Env) (fires : Nat) : ∃ n, await env fires 0 0 = (env.result n, ending env n, n + 1) ∧
    (∀ j < n, env.result j ≠ none ∧ ending env j < fires) ∧ (env.result n = none ∨ fires ≤ ending env n) := by
  obtain ⟨n, _, h1, h2, h3⟩ := await_from env fires 0 0 rfl
  exact ⟨n, h1, fun j hj => h2 j (Nat.zero_le _) hj, h3⟩

/-- C73: success means that an attempt was successful, and an error that the last attempt failed with it, after the time was over, and that no attempt was successful. -/
theorem c73_result (env : Env) (fires : Nat) :
    ((await env fires 0 0).1 = none ↔ ∃ k, env.result k = none ∧ ∀ j < k, ending env j < fires) ∧
    (∀ e, (await env fires 0 0).1 = some e → fires ≤ (await env fires 0 0).2.1 ∧ ∀ j < (await env fires 0 0).2.2, env.result j ≠ none) := by
  obtain ⟨n, h1, h2, h3⟩ := c73_attempts env fires
  rw [h1]
  refine ⟨⟨fun h => ⟨n, h, fun j hj => (h2 j hj).2⟩, fun ⟨k, hk, hj⟩ => ?_⟩, fun e he => ?_⟩
  · rcases Nat.lt_trichotomy k n with h | rfl | h
    · exact absurd hk (h2 k h).1
    · exact hk
    · exact h3.resolve_right (by have := hj n h; omega)
  · simp only at he
    refine ⟨h3.resolve_left (by rw [he]; simp), fun j hj => ?_⟩
    rcases Nat.lt_succ_iff_lt_or_eq.1 hj with hj | rfl
    · exact (h2 j hj).1
    · rw [he]; simp

/-- C73: if tests take at most `d` and sleeping is at most `s` late, it ends, at the latest, one attempt after the time is over, and it is not tried more often than ten times a second. -/
theorem c73_ends (env : Env) (fires d s : Nat) (hd : ∀ k, env.took k ≤ d) (hs : ∀ k, env.late k ≤ s) :
    (await env fires 0 0).2.1 < fires + (100 + s) + d + 1 ∧ 100 * ((await env fires 0 0).2.2 - 1) ≤ (await env fires 0 0).2.1 := by
  obtain ⟨n, h1, h2, _⟩ := c73_attempts env fires
  rw [h1]
  refine ⟨?_, ?_⟩
  · cases n with
    | zero => have := hd 0; simp only [ending, beginning]; omega
    | succ n =>
      have := (h2 n (Nat.lt_succ_self n)).2
      have h3 := hd (n + 1)
      have h4 := hs n
      simp only [ending, beginning] at this ⊢
      omega
  · have := hundred env n
    simp only [ending, Nat.add_sub_cancel]
    omega

/-- C73: if a player answers whoever asks from time `up` on, and that leaves the time for an attempt, it is found, soon after `up`. -/
theorem c73_found (env : Env) (fires up d s : Nat) (hd : ∀ k, env.took k ≤ d) (hs : ∀ k, env.late k ≤ s) (hup : ∀ k, up ≤ beginning env k → env.result k = none) (ht : up + d ≤ fires) :
    (await env fires 0 0).1 = none ∧ (await env fires 0 0).2.1 < up + d + (100 + s) + d + 1 := by
  obtain ⟨n, h1, h2, h3⟩ := c73_attempts env fires
  rw [h1]
  have early : ∀ j < n, beginning env j < up := by
    intro j hj
    rcases Nat.lt_or_ge (beginning env j) up with h | h
    · exact h
    · exact absurd (hup j h) (h2 j hj).1
  have hn : env.result n = none := by
    rcases h3 with h | h
    · exact h
    · rcases Nat.lt_or_ge (beginning env n) up with h' | h'
      · have := hd n
        unfold ending at h
        omega
      · exact hup n h'
  refine ⟨hn, ?_⟩
  cases n with
  | zero => have := hd 0; simp only [ending, beginning]; omega
  | succ n =>
    have := early n (Nat.lt_succ_self n)
    have h5 := hd n
    have h3 := hd (n + 1)
    have h4 := hs n
    simp only [ending, beginning] at this ⊢
    omega

/-- A player that answers after 250 milliseconds; a ping that is refused takes 3. -/
def demo : Env := ⟨fun _ => 3, fun k => if k < 3 then some "connection refused" else none, fun _ => 1⟩

example : await demo 20000 0 0 = (none, 315, 4) := by decide +kernel
example : await demo 150 0 0 = (some "connection refused", 211, 3) := by decide +kernel
example : ∀ k, 250 ≤ beginning demo k → demo.result k = none := by
  intro k hk
  rcases Nat.lt_or_ge k 3 with h | h
  · exfalso
    have : k = 0 ∨ k = 1 ∨ k = 2 := by omega
    rcases this with rfl | rfl | rfl <;> revert hk <;> decide
  · simp only [demo]
    rw [if_neg (by omega)]

end Waiting
end Alda
