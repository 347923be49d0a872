import Verif.Importer.Util
/-!
Lemmas about the arithmetic of the importer.
-/
namespace Alda
namespace Importer

/-! ### Decomposition into note lengths -/

/-- The sum of the lengths, in whole notes. -/
def wholes : List Rat → Rat
  | [] => 0
  | n :: ns => 1 / n + wholes ns

theorem wholes_append (a b : List Rat) : wholes (a ++ b) = wholes a + wholes b := by
  induction a with
  | nil => simp [wholes]; grind
  | cons x xs ih => simp only [List.cons_append, wholes, ih]; grind

theorem mem_normal {n : Rat} (h : n ∈ normalLengths) : n = 1 ∨ n = 2 ∨ n = 4 ∨ n = 8 ∨ n = 16 := by
  simpa [normalLengths] using h

theorem inv_sub_pos {r n : Rat} (hr : 0 < r) (h : r < n) : 0 < 1 / r - 1 / n := by
  have hn : 0 < n := by grind
  have h1 : r * (1 / r) = 1 := by grind
  have h2 : n * (1 / n) = 1 := by grind
  have e : r * n * (1 / r - 1 / n) = n - r := by grind
  have hp : 0 < r * n := Rat.mul_pos hr hn
  by_cases h0 : 0 < 1 / r - 1 / n
  · exact h0
  · exfalso
    replace h0 := Rat.not_lt.mp h0
    have := Rat.mul_le_mul_of_nonneg_left h0 (Rat.le_of_lt hp)
    grind

theorem one_div_pos {x : Rat} (h : 0 < x) : 0 < 1 / x := by
  by_cases h0 : 0 < 1 / x
  · exact h0
  · exfalso
    replace h0 := Rat.not_lt.mp h0
    have := Rat.mul_le_mul_of_nonneg_left h0 (Rat.le_of_lt h)
    grind

theorem one_div_one_div {x : Rat} (h : 0 < x) : 1 / (1 / x) = x := by
  have := one_div_pos h
  grind

/-- The loop ends. -/
theorem decompose_ends : ∀ (k : Nat) (ns : List Rat) (r : Rat) (picks : List Rat), 0 < r → (∀ n ∈ ns, n ∈ normalLengths) →
    16 * (1 / r) + (ns.length : Rat) ≤ (k : Rat) → ∃ x, decompose k ns r picks = some x := by
  intro k
  induction k with
  | zero =>
    intro ns r picks hr hn h
    cases ns with
    | nil => exact ⟨_, rfl⟩
    | cons n ns =>
      exfalso
      have := one_div_pos hr
      have hl : (0 : Rat) ≤ ((n :: ns).length : Rat) := by exact_mod_cast Nat.zero_le _
      grind
  | succ k ih =>
    intro ns r picks hr hn h
    cases ns with
    | nil => exact ⟨_, rfl⟩
    | cons n ns =>
      simp only [decompose]
      have hcast : ((k + 1 : Nat) : Rat) = (k : Rat) + 1 := by push_cast; rfl
      have hlen : (((n :: ns).length : Nat) : Rat) = (ns.length : Rat) + 1 := by simp
      split
      · exact ⟨_, rfl⟩
      · split
        · rename_i hlt
          rw [if_neg (by grind)]
          have hp := inv_sub_pos hr hlt
          refine ih _ _ _ (one_div_pos hp) hn ?_
          rw [one_div_one_div hp]
          have h1 : 1 ≤ 16 * (1 / n) := by rcases mem_normal (hn n (by simp)) with e | e | e | e | e <;> subst e <;> decide +kernel
          grind
        · refine ih ns r picks hr (fun m hm => hn m (by simp [hm])) ?_
          grind

/-- What the loop finds: the sum is exact, except that the last remainder may have been taken for a note length within a hundredth of it. -/
theorem decompose_sum : ∀ (k : Nat) (ns : List Rat) (r : Rat) (picks : List Rat) (picks' : List Rat), 0 < r → (∀ n ∈ ns, n ∈ normalLengths) →
    (∀ n ∈ picks, n ∈ normalLengths) → (∀ n ∈ ns.head?, ∃ j : Int, wholes picks * n = j) → (ns <:+ normalLengths) →
    decompose k ns r picks = some (0, picks') →
    (∀ n ∈ picks', n ∈ normalLengths) ∧ ∃ r' n, n ∈ normalLengths ∧ 0 < r' ∧ (r' - n).abs < 1 / 100 ∧
      wholes picks' = wholes picks + 1 / r - 1 / r' + 1 / n ∧ ∃ j : Int, (wholes picks + 1 / r - 1 / r') * n = j := by
  intro k
  induction k with
  | zero =>
    intro ns r picks picks' hr hn hp hj hs h
    cases ns with
    | nil => simp only [decompose, Option.some.injEq, Prod.mk.injEq] at h; grind
    | cons n ns => simp [decompose] at h
  | succ k ih =>
    intro ns r picks picks' hr hn hp hj hs h
    cases ns with
    | nil => simp only [decompose, Option.some.injEq, Prod.mk.injEq] at h; grind
    | cons n ns =>
      simp only [decompose] at h
      have hnm := hn n (by simp)
      have hp' : ∀ m ∈ picks ++ [n], m ∈ normalLengths := by
        intro m hm
        rcases List.mem_append.mp hm with hm | hm
        · exact hp m hm
        · simp at hm; rw [hm]; exact hnm
      obtain ⟨j, hj'⟩ := hj n (by simp)
      split at h
      · rename_i hc
        simp only [Option.some.injEq, Prod.mk.injEq, true_and] at h
        subst h
        refine ⟨hp', r, n, hnm, hr, hc, ?_, j, ?_⟩
        · rw [wholes_append]; simp only [wholes]; grind
        · grind
      · split at h
        · rename_i hlt
          rw [if_neg (by grind)] at h
          have hpos := inv_sub_pos hr hlt
          have hn0 : n ≠ 0 := by grind
          have hw : wholes (picks ++ [n]) = wholes picks + 1 / n := by rw [wholes_append]; simp only [wholes]; grind
          obtain ⟨a, r', m, hm, h1, h2, h3, j', h4⟩ := ih _ _ _ _ (one_div_pos hpos) hn hp' (by
            intro m hm
            simp only [List.head?_cons, Option.mem_some] at hm
            subst hm
            refine ⟨j + 1, ?_⟩
            rw [hw]; push_cast; grind) hs h
          rw [hw, one_div_one_div hpos] at h3 h4
          exact ⟨a, r', m, hm, h1, h2, by grind, j', by grind⟩
        · refine ih ns r picks picks' hr (fun m hm => hn m (by simp [hm])) hp ?_ ((List.suffix_cons n ns).trans hs) h
          intro m hm
          have : m = 2 * n := by
            cases ns with
            | nil => simp at hm
            | cons m' ns =>
              simp only [List.head?_cons, Option.mem_some] at hm
              subst hm
              obtain ⟨pre, hpre⟩ := hs
              simp only [normalLengths] at hpre
              rcases pre with _ | ⟨a, _ | ⟨b, _ | ⟨c, _ | ⟨d, _ | ⟨e, pre⟩⟩⟩⟩⟩ <;> simp at hpre <;> grind
          exact ⟨2 * j, by rw [this]; push_cast; grind⟩

/-! ### The representation of a decomposition -/

theorem wholes_count : ∀ (picks : List Rat), (∀ n ∈ picks, n ∈ normalLengths) →
    wholes picks = (picks.count 1 : Rat) + (picks.count 2 : Rat) / 2 + (picks.count 4 : Rat) / 4 + (picks.count 8 : Rat) / 8 + (picks.count 16 : Rat) / 16 := by
  intro picks
  induction picks with
  | nil => intro _; simp [wholes]; grind
  | cons n ns ih =>
    intro h
    simp only [wholes, ih (fun m hm => h m (by simp [hm]))]
    rcases mem_normal (h n (by simp)) with e | e | e | e | e <;> subst e <;>
      simp only [List.count_cons, beq_self_eq_true, if_true, show ((1 : Rat) == 2) = false from rfl, show ((1 : Rat) == 4) = false from rfl, show ((1 : Rat) == 8) = false from rfl,
        show ((1 : Rat) == 16) = false from rfl, show ((2 : Rat) == 1) = false from rfl, show ((2 : Rat) == 4) = false from rfl, show ((2 : Rat) == 8) = false from rfl, show ((2 : Rat) == 16) = false from rfl,
        show ((4 : Rat) == 1) = false from rfl, show ((4 : Rat) == 2) = false from rfl, show ((4 : Rat) == 8) = false from rfl, show ((4 : Rat) == 16) = false from rfl,
        show ((8 : Rat) == 1) = false from rfl, show ((8 : Rat) == 2) = false from rfl, show ((8 : Rat) == 4) = false from rfl, show ((8 : Rat) == 16) = false from rfl,
        show ((16 : Rat) == 1) = false from rfl, show ((16 : Rat) == 2) = false from rfl, show ((16 : Rat) == 4) = false from rfl, show ((16 : Rat) == 8) = false from rfl,
        if_false, Nat.add_zero, Bool.false_eq_true] <;> push_cast <;> grind

theorem toBeats_append (a b : List DurComp) (x : Rat) : ∀ acc, Dur.toBeatsFrom acc a = .ok x → Dur.toBeatsFrom acc (a ++ b) = Dur.toBeatsFrom x b := by
  induction a with
  | nil => intro acc h; simp only [Dur.toBeatsFrom, BeatsResult.ok.injEq] at h; subst h; rfl
  | cons c cs ih =>
    intro acc h
    simp only [List.cons_append, Dur.toBeatsFrom] at h ⊢
    cases hc : c.toBeats with
    | ok q => rw [hc] at h; exact ih _ h
    | panic => rw [hc] at h; simp at h
    | nonFinite => rw [hc] at h; simp at h

theorem toBeats_replicate (d : Rat) (hd : d ≠ 0) : ∀ (k : Nat) (acc : Rat),
    Dur.toBeatsFrom acc (List.replicate k (.length d 0)) = .ok (acc + (k : Rat) * (4 / d)) := by
  intro k
  induction k with
  | zero => intro acc; simp [Dur.toBeatsFrom]; grind
  | succ k ih =>
    intro acc
    simp only [List.replicate_succ, Dur.toBeatsFrom, DurComp.toBeats, noteLengthBeats, if_neg hd, ih]
    congr 1
    push_cast
    grind

theorem tied_beats (picks : List Rat) (h : ∀ n ∈ picks, n ∈ normalLengths) :
    Dur.toBeats (normalLengths.flatMap (fun d => List.replicate (decompCount picks d) (DurComp.length d 0))) = .ok (4 * wholes picks) := by
  simp only [normalLengths, List.flatMap_cons, List.flatMap_nil, Dur.toBeats, decompCount]
  rw [toBeats_append _ _ _ _ (toBeats_replicate 1 (by decide +kernel) _ _), toBeats_append _ _ _ _ (toBeats_replicate 2 (by decide +kernel) _ _),
    toBeats_append _ _ _ _ (toBeats_replicate 4 (by decide +kernel) _ _), toBeats_append _ _ _ _ (toBeats_replicate 8 (by decide +kernel) _ _),
    toBeats_append _ _ _ _ (toBeats_replicate 16 (by decide +kernel) _ _), wholes_count picks h]
  simp only [Dur.toBeatsFrom]
  congr 1
  grind

theorem decomposed_beats (picks : List Rat) (h : ∀ n ∈ picks, n ∈ normalLengths) : (decomposed picks).toBeats = .ok (4 * wholes picks) := by
  unfold decomposed
  split
  · rename_i d hd
    split at hd
    · rename_i hs
      rw [wholes_count picks h]
      simp only [decompSize, normalLengths, decompCount] at hs
      simp only [dottedOf, normalLengths, decompCount] at hd
      simp only [List.filter_cons, List.filter_nil, decide_eq_true_eq] at hs
      have key : (d = 1 ∧ picks.count 1 = 1 ∧ picks.count 2 = 1 ∧ picks.count 4 = 0 ∧ picks.count 8 = 0 ∧ picks.count 16 = 0) ∨
          (d = 2 ∧ picks.count 1 = 0 ∧ picks.count 2 = 1 ∧ picks.count 4 = 1 ∧ picks.count 8 = 0 ∧ picks.count 16 = 0) ∨
          (d = 4 ∧ picks.count 1 = 0 ∧ picks.count 2 = 0 ∧ picks.count 4 = 1 ∧ picks.count 8 = 1 ∧ picks.count 16 = 0) ∨
          (d = 8 ∧ picks.count 1 = 0 ∧ picks.count 2 = 0 ∧ picks.count 4 = 0 ∧ picks.count 8 = 1 ∧ picks.count 16 = 1) := by
        clear h
        rcases Nat.eq_zero_or_pos (picks.count 1) with h1 | h1 <;> rcases Nat.eq_zero_or_pos (picks.count 2) with h2 | h2 <;>
          rcases Nat.eq_zero_or_pos (picks.count 4) with h3 | h3 <;> rcases Nat.eq_zero_or_pos (picks.count 8) with h4 | h4 <;>
          rcases Nat.eq_zero_or_pos (picks.count 16) with h5 | h5 <;>
          simp [h1, h2, h3, h4, h5] at hs hd <;> grind
      rcases key with ⟨k1, k2, k3, k4, k5, k6⟩ | ⟨k1, k2, k3, k4, k5, k6⟩ | ⟨k1, k2, k3, k4, k5, k6⟩ | ⟨k1, k2, k3, k4, k5, k6⟩ <;>
        rw [k1, k2, k3, k4, k5, k6] <;> decide +kernel
    · simp at hd
  · exact tied_beats picks h

end Importer
end Alda
