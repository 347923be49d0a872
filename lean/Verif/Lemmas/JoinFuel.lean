import Verif.Lemmas.Parse
/-!
More fuel does not change what the parser reads. (For C56.)
-/
namespace Alda
namespace Syn

theorem parser_more (fuel : Nat) : ∀ T,
    (innerEvent fuel T ≠ .error .unreachable → innerEvent (fuel + 1) T = innerEvent fuel T) ∧
    (∀ loop, events fuel loop T ≠ .error .unreachable → events (fuel + 1) loop T = events fuel loop T) ∧
    (∀ n, voices fuel n T ≠ .error .unreachable → voices (fuel + 1) n T = voices fuel n T) := by
  induction fuel with
  | zero =>
    intro T
    refine ⟨fun h => ?_, fun loop h => ?_, fun n h => ?_⟩
    · simp [innerEvent] at h
    · simp [events] at h
    · simp [voices] at h
  | succ fuel ih =>
    intro T
    have hE : ∀ {loop U e}, events fuel loop U = .error e → e ≠ .unreachable → events (fuel + 1) loop U = .error e := by
      intro loop U e h he
      rw [(ih U).2.1 loop (by rw [h]; simpa using he), h]
    have hO : ∀ {loop U r}, events fuel loop U = .ok r → events (fuel + 1) loop U = .ok r := by
      intro loop U r h
      rw [(ih U).2.1 loop (by rw [h]; simp), h]
    have hVE : ∀ {n U e}, voices fuel n U = .error e → e ≠ .unreachable → voices (fuel + 1) n U = .error e := by
      intro n U e h he
      rw [(ih U).2.2 n (by rw [h]; simpa using he), h]
    have hVO : ∀ {n U r}, voices fuel n U = .ok r → voices (fuel + 1) n U = .ok r := by
      intro n U r h
      rw [(ih U).2.2 n (by rw [h]; simp), h]
    refine ⟨fun h => ?_, fun loop h => ?_, fun n h => ?_⟩
    · rw [innerEvent.eq_def] at h
      rw [innerEvent.eq_def, innerEvent.eq_def (fuel + 1)]
      simp only at h ⊢
      split
      · rfl
      · rename_i text pos t2 p2 toks
        simp only at h ⊢
        split
        · rfl
        · rename_i t more
          simp only at h
          split
          · rfl
          · rename_i hc
            rw [if_neg hc] at h
            cases hx : events fuel (.varDef pos.line) (t :: more) with
            | error e =>
              rw [hx] at h
              rw [hE hx (by simpa using h)]
            | ok r => rw [hO hx]
      · rfl
      · rfl
      · rfl
      · rfl
      · rfl
      · rfl
      · rfl
      · rename_i toks
        simp only at h ⊢
        cases hx : events fuel .seq toks with
        | error e => rw [hx] at h; rw [hE hx (by simpa using h)]
        | ok r => rw [hO hx]
      · rename_i toks
        simp only at h ⊢
        cases hx : events fuel .cram toks with
        | error e => rw [hx] at h; rw [hE hx (by simpa using h)]
        | ok r => rw [hO hx]
      · rename_i n text pos toks
        simp only at h ⊢
        cases hx : voices fuel n toks with
        | error e => rw [hx] at h; rw [hVE hx (by simpa using h)]
        | ok r => rw [hVO hx]
      · rfl
      · rfl
      · rfl
    · rw [events.eq_def] at h
      rw [events.eq_def, events.eq_def (fuel + 1)]
      simp only at h ⊢
      cases hs : loop.stop T with
      | error e => rfl
      | ok o =>
        cases o with
        | some U => rfl
        | none =>
          rw [hs] at h
          simp only at h ⊢
          cases hx : innerEvent fuel T with
          | error e =>
            rw [hx] at h
            have : innerEvent (fuel + 1) T = .error e := by rw [(ih T).1 (by rw [hx]; simpa using h), hx]
            rw [this]
          | ok r =>
            have : innerEvent (fuel + 1) T = .ok r := by rw [(ih T).1 (by rw [hx]; simp), hx]
            rw [this]
            rw [hx] at h
            obtain ⟨node, U⟩ := r
            simp only at h ⊢
            rcases hd : loop.decorate node U with ⟨node', U'⟩
            rw [hd] at h
            simp only at h ⊢
            cases hy : events fuel loop U' with
            | error e => rw [hy] at h; rw [hE hy (by simpa using h)]
            | ok r => rw [hO hy]
    · rw [voices.eq_def] at h
      rw [voices.eq_def, voices.eq_def (fuel + 1)]
      simp only at h ⊢
      cases hx : events fuel .voice T with
      | error e => rw [hx] at h; rw [hE hx (by simpa using h)]
      | ok r =>
        rw [hO hx]
        rw [hx] at h
        obtain ⟨nodes, U⟩ := r
        simp only at h ⊢
        split
        · rename_i m text pos toks
          simp only at h
          split
          · rfl
          · rename_i hm
            rw [if_neg hm] at h
            cases hy : voices fuel m toks with
            | error e => rw [hy] at h; rw [hVE hy (by simpa using h)]
            | ok r => rw [hVO hy]
        · rfl

theorem innerEvent_mono {f f' : Nat} {T : List Token} {r : Node × List Token} (h : innerEvent f T = .ok r) (hf : f ≤ f') : innerEvent f' T = .ok r := by
  induction hf with
  | refl => exact h
  | step _ ih => rw [((parser_more _ T).1 (by rw [ih]; simp)), ih]

theorem events_mono {f f' : Nat} {loop : EventLoop} {T : List Token} {r : List Node × List Token} (h : events f loop T = .ok r) (hf : f ≤ f') :
    events f' loop T = .ok r := by
  induction hf with
  | refl => exact h
  | step _ ih => rw [((parser_more _ T).2.1 loop (by rw [ih]; simp)), ih]

theorem voices_mono {f f' : Nat} {n : Int} {T : List Token} {r : List Node × List Token} (h : voices f n T = .ok r) (hf : f ≤ f') :
    voices f' n T = .ok r := by
  induction hf with
  | refl => exact h
  | step _ ih => rw [((parser_more _ T).2.2 n (by rw [ih]; simp)), ih]

/-- With enough fuel for the result not to be for want of it, the result is that of any fuel that works. -/
theorem events_enough {f f' : Nat} {loop : EventLoop} {T : List Token} {r : List Node × List Token} (h : events f loop T = .ok r)
    (hn : events f' loop T ≠ .error .unreachable) : events f' loop T = .ok r := by
  rcases Nat.le_total f f' with hf | hf
  · exact events_mono h hf
  · have : ∀ k, events (f' + k) loop T = events f' loop T := by
      intro k
      induction k with
      | zero => rfl
      | succ k ih => rw [← Nat.add_assoc, (parser_more _ T).2.1 loop (by rw [ih]; exact hn), ih]
    have e := this (f - f')
    rw [show f' + (f - f') = f by omega] at e
    rw [← e, h]

end Syn
end Alda
