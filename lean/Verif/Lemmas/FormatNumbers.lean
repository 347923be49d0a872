import Verif.Lemmas.FormatTree
import Verif.Lemmas.Scan
/-!
What the formatter writes for numbers reads as these numbers.
-/
namespace Alda
namespace Syn
open Spec Tree

theorem digitChar_mem {n : Nat} (h : n < 10) : digitChar n ∈ digits := by
  have : ∀ n : Fin 10, digitChar n.1 ∈ digits := by decide
  exact this ⟨n, h⟩

theorem digitChar_idx {n : Nat} (h : n < 10) : digits.idxOf (digitChar n) = n := by
  have : ∀ n : Fin 10, digits.idxOf (digitChar n.1) = n.1 := by decide
  exact this ⟨n, h⟩

theorem decimal_append (a b : List Char) : decimal (a ++ b) = decimal a * 10 ^ b.length + decimal b := by
  induction a with
  | nil => simp [decimal]
  | cons c a ih =>
    simp only [List.cons_append, decimal, ih, List.length_append, Nat.pow_add]
    grind

theorem natDigitsFrom_spec (fuel n : Nat) (h : n ≤ fuel) :
    natDigitsFrom fuel n ≠ [] ∧ AllDigits (natDigitsFrom fuel n) ∧ decimal (natDigitsFrom fuel n) = n := by
  induction fuel generalizing n with
  | zero =>
    have : n = 0 := by omega
    subst this
    refine ⟨by simp [natDigitsFrom], ?_, ?_⟩
    · intro c hc; simp only [natDigitsFrom, List.mem_singleton] at hc; subst hc; exact digitChar_mem (by omega)
    · simp only [natDigitsFrom, decimal]; rw [digitChar_idx (by omega)]; simp
  | succ fuel ih =>
    simp only [natDigitsFrom]
    split
    next hn =>
      refine ⟨by simp, ?_, ?_⟩
      · intro c hc; simp only [List.mem_singleton] at hc; subst hc; exact digitChar_mem hn
      · simp only [decimal]; rw [digitChar_idx hn]; simp
    next hn =>
      obtain ⟨h1, h2, h3⟩ := ih (n / 10) (by omega)
      refine ⟨by simp, ?_, ?_⟩
      · intro c hc
        rcases List.mem_append.1 hc with hc | hc
        · exact h2 c hc
        · simp only [List.mem_singleton] at hc; subst hc; exact digitChar_mem (by omega)
      · rw [decimal_append, h3]
        simp only [decimal, List.length_cons, List.length_nil]
        rw [digitChar_idx (by omega)]
        omega

theorem natDigits_ne_nil (n : Nat) : natDigits n ≠ [] := (natDigitsFrom_spec n n (Nat.le_refl _)).1
theorem natDigits_digits (n : Nat) : AllDigits (natDigits n) := (natDigitsFrom_spec n n (Nat.le_refl _)).2.1
theorem natDigits_value (n : Nat) : decimal (natDigits n) = n := (natDigitsFrom_spec n n (Nat.le_refl _)).2.2

theorem intDigits_nat (n : Nat) : intDigits (n : Int) = natDigits n := by
  unfold intDigits
  rw [if_neg (by omega)]; simp

theorem dvd_pow_self (d : Nat) (k : Nat) (h : d ∣ 10 ^ k) : d ∣ 10 ^ d := by
  induction d using Nat.strongRecOn with
  | ind d ih =>
    by_cases h1 : d = 1
    · subst h1; exact Nat.one_dvd _
    · have h0 : 0 < d := Nat.pos_of_dvd_of_pos h (Nat.pow_pos (by omega))
      have hg : Nat.gcd d 10 ≠ 1 := by
        intro hc
        have : Nat.Coprime d (10 ^ k) := Nat.Coprime.pow_right k hc
        exact h1 (Nat.Coprime.eq_one_of_dvd this h)
      obtain ⟨e, he⟩ := Nat.gcd_dvd_left d 10
      have hgpos : 0 < Nat.gcd d 10 := Nat.gcd_pos_of_pos_left _ h0
      have he0 : 0 < e := by
        rcases Nat.eq_zero_or_pos e with h | h
        · subst h; simp only [Nat.mul_zero] at he; omega
        · exact h
      have hlt : e < d := by
        have : 2 * e ≤ Nat.gcd d 10 * e := Nat.mul_le_mul_right e (by omega)
        omega
      have hed : e ∣ 10 ^ k := Nat.dvd_trans ⟨Nat.gcd d 10, by rw [Nat.mul_comm]; exact he⟩ h
      have h2 := ih e hlt hed
      have h3 : Nat.gcd d 10 * e ∣ 10 * 10 ^ e := Nat.mul_dvd_mul (Nat.gcd_dvd_right d 10) h2
      have h4 : 10 * 10 ^ e ∣ 10 ^ d := by
        have : 10 * 10 ^ e = 10 ^ (e + 1) := by rw [Nat.pow_succ, Nat.mul_comm]
        rw [this]
        exact Nat.pow_dvd_pow 10 (by omega)
      have h5 := Nat.dvd_trans h3 h4
      rwa [← he] at h5

theorem rat_den_mul (q : Rat) : q * (q.den : Rat) = (q.num : Rat) := by
  have h := Rat.num_divInt_den q
  rw [Rat.divInt_eq_div] at h
  have hd : (q.den : Rat) ≠ 0 := by exact_mod_cast q.den_nz
  have h2 : ((q.den : Int) : Rat) = (q.den : Rat) := rfl
  rw [h2] at h
  generalize (q.den : Rat) = d at *
  generalize (q.num : Rat) = n at *
  grind

theorem isDecimal_den {q : Rat} (h : IsDecimal q) : ∃ z : Int, 10 ^ q.den * q = z := by
  obtain ⟨k, z, h⟩ := h
  have h1 : (10 ^ k * q.num : Rat) = z * q.den := by
    rw [← rat_den_mul q, ← h]; grind
  have h2 : (10 : Int) ^ k * q.num = z * q.den := by
    have : (((10 : Int) ^ k * q.num : Int) : Rat) = ((z * q.den : Int) : Rat) := by push_cast; exact h1
    exact_mod_cast this
  have h3 : q.den ∣ 10 ^ k := by
    have hc : Nat.Coprime q.den q.num.natAbs := q.reduced.symm
    have hd : q.den ∣ 10 ^ k * q.num.natAbs := by
      refine ⟨z.natAbs, ?_⟩
      have := congrArg Int.natAbs h2
      simp only [Int.natAbs_mul, Int.natAbs_pow, Int.natAbs_natCast] at this
      rw [Nat.mul_comm q.den]
      exact this
    exact Nat.Coprime.dvd_of_dvd_mul_right hc hd
  obtain ⟨c, hc⟩ := dvd_pow_self q.den k h3
  refine ⟨c * q.num, ?_⟩
  have h4 : (10 ^ q.den : Rat) = (q.den : Rat) * c := by exact_mod_cast hc
  rw [h4]
  have := rat_den_mul q
  push_cast
  grind

theorem fracDigits_spec (m : Nat) : ∀ (k : Nat) (x : Rat), m ≤ k → 0 ≤ x → x < 1 → (∃ z : Int, 10 ^ m * x = z) →
    AllDigits (fracDigits k x) ∧ x = (decimal (fracDigits k x) : Rat) / 10 ^ (fracDigits k x).length := by
  induction m with
  | zero =>
    intro k x hk h0 h1 ⟨z, hz⟩
    have hx : x = 0 := by
      have e : x = (z : Rat) := by rw [← hz]; grind
      rw [e] at h0 h1
      have h0 : 0 ≤ z := by exact_mod_cast h0
      have h1 : z < 1 := by exact_mod_cast h1
      have : z = 0 := by omega
      rw [e, this]; rfl
    subst hx
    have : fracDigits k 0 = [] := by cases k <;> simp [fracDigits]
    rw [this]
    refine ⟨fun c hc => by simp at hc, ?_⟩
    simp [decimal]; grind
  | succ m ih =>
    intro k x hk h0 h1 ⟨z, hz⟩
    obtain ⟨k, rfl⟩ : ∃ k', k = k' + 1 := ⟨k - 1, by omega⟩
    by_cases hx : x = 0
    · subst hx
      simp only [fracDigits, if_true]
      refine ⟨fun c hc => by simp at hc, ?_⟩
      simp [decimal]; grind
    · simp only [fracDigits, hx, if_false]
      have hf1 : ((10 * x).floor : Rat) ≤ 10 * x := Rat.floor_le _
      have hf2 : 10 * x < ((10 * x).floor : Rat) + 1 := by
        have := Rat.lt_floor_add_one (10 * x)
        push_cast at this
        exact this
      have hf0 : 0 ≤ (10 * x).floor := by
        have : (0 : Int) ≤ (10 * x).floor ↔ ((0 : Int) : Rat) ≤ 10 * x := Rat.le_floor_iff
        exact this.2 (by grind)
      have hf9 : (10 * x).floor < 10 := by
        have : ((10 * x).floor : Rat) < (10 : Int) := by grind
        exact_mod_cast this
      obtain ⟨i1, i2⟩ := ih k (10 * x - (10 * x).floor) (by omega) (by grind) (by grind)
        ⟨z - 10 ^ m * (10 * x).floor, by
          push_cast
          rw [← hz, show (10 : Rat) ^ (m + 1) = 10 ^ m * 10 from by rw [Rat.pow_succ]]
          grind⟩
      refine ⟨all_cons (digitChar_mem (by omega)) i1, ?_⟩
      simp only [decimal, List.length_cons]
      rw [digitChar_idx (by omega)]
      generalize hds : fracDigits k (10 * x - (10 * x).floor) = ds at i1 i2 ⊢
      have e1 : (((10 * x).floor.toNat : Nat) : Rat) = ((10 * x).floor : Rat) := by
        have : (((10 * x).floor.toNat : Nat) : Int) = (10 * x).floor := Int.toNat_of_nonneg hf0
        exact_mod_cast congrArg (fun i : Int => (i : Rat)) this
      have hp : (10 : Rat) ^ ds.length ≠ 0 := by
        have : (0 : Rat) < 10 ^ ds.length := Rat.pow_pos (by decide)
        grind
      push_cast
      rw [e1, show (10 : Rat) ^ (ds.length + 1) = 10 ^ ds.length * 10 from by rw [Rat.pow_succ]]
      generalize (10 : Rat) ^ ds.length = p at *
      generalize ((10 * x).floor : Rat) = fl at *
      generalize (decimal ds : Rat) = dd at *
      grind

/-- What is written for a number that is not negative. -/
theorem formatUnsigned_spec {x : Rat} (h0 : 0 ≤ x) (h : IsDecimal x) : ∃ w f, w ≠ [] ∧ AllDigits w ∧ AllDigits f ∧
    formatUnsigned x = w ++ (if f.isEmpty then [] else '.' :: f) ∧ x = decimalValue w f := by
  have hf1 : (x.floor : Rat) ≤ x := Rat.floor_le _
  have hf2 : x < (x.floor : Rat) + 1 := by
    have := Rat.lt_floor_add_one x
    push_cast at this
    exact this
  have hf0 : 0 ≤ x.floor := by
    have : (0 : Int) ≤ x.floor ↔ ((0 : Int) : Rat) ≤ x := Rat.le_floor_iff
    exact this.2 (by grind)
  obtain ⟨z, hz⟩ := isDecimal_den h
  obtain ⟨i1, i2⟩ := fracDigits_spec x.den x.den (x - x.floor) (Nat.le_refl _) (by grind) (by grind)
    ⟨z - 10 ^ x.den * x.floor, by push_cast; rw [← hz]; grind⟩
  refine ⟨natDigits x.floor.toNat, fracDigits x.den (x - x.floor), natDigits_ne_nil _, natDigits_digits _, i1, ?_, ?_⟩
  · simp only [formatUnsigned]
    split <;> simp
  · simp only [decimalValue, natDigits_value]
    rw [← i2]
    have e1 : ((x.floor.toNat : Nat) : Rat) = (x.floor : Rat) := by
      have : ((x.floor.toNat : Nat) : Int) = x.floor := Int.toNat_of_nonneg hf0
      exact_mod_cast congrArg (fun i : Int => (i : Rat)) this
    rw [e1]; grind

theorem isDecimal_value (w f : List Char) : IsDecimal (decimalValue w f) := by
  refine ⟨f.length, decimal w * 10 ^ f.length + decimal f, ?_⟩
  have hp : (10 : Rat) ^ f.length ≠ 0 := by
    have : (0 : Rat) < 10 ^ f.length := Rat.pow_pos (by decide)
    grind
  simp only [decimalValue]
  push_cast
  generalize (10 : Rat) ^ f.length = p at *
  grind

theorem isDecimal_neg {q : Rat} (h : IsDecimal q) : IsDecimal (-q) := by
  obtain ⟨k, z, h⟩ := h
  exact ⟨k, -z, by push_cast; rw [← h]; grind⟩

end Syn
end Alda
