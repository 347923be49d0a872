import Verif.Spec.Text
/-!
Lemmas about reading digits and dots.
-/
namespace Alda
open Spec

theorem isDigit_iff (c : Char) : isDigit c = true ↔ c ∈ digits := by
  constructor
  · intro h
    simp only [isDigit, Bool.and_eq_true, decide_eq_true_eq, Char.le_def, UInt32.le_iff_toNat_le] at h
    have h1 : (48 : Nat) ≤ c.toNat := h.1
    have h2 : c.toNat ≤ 57 := h.2
    have key : ∀ n, n < 10 → Char.ofNat (48 + n) ∈ digits := by decide
    have e : c = Char.ofNat (48 + (c.toNat - 48)) := by
      have h3 : 48 + (c.toNat - 48) = c.toNat := by omega
      rw [h3, Char.ofNat_toNat]
    rw [e]; exact key _ (by omega)
  · have h : ∀ c ∈ digits, isDigit c = true := by decide
    exact h c

theorem digitVal_eq (c : Char) (h : c ∈ digits) : digitVal c = digits.idxOf c := by
  have : ∀ c ∈ digits, digitVal c = digits.idxOf c := by decide
  exact this c h

theorem digitsVal_foldl (cs : List Char) (h : AllDigits cs) (n : Nat) :
    cs.foldl (fun n c => 10 * n + digitVal c) n = n * 10 ^ cs.length + decimal cs := by
  induction cs generalizing n with
  | nil => simp [decimal]
  | cons c cs ih =>
    have h' : AllDigits cs := fun d hd => h d (List.mem_cons_of_mem _ hd)
    simp only [List.foldl_cons, List.length_cons, decimal]
    rw [ih h', digitVal_eq c (h c (List.mem_cons_self ..)), Nat.add_mul, Nat.pow_succ]
    have : 10 * n * 10 ^ cs.length = n * (10 ^ cs.length * 10) := by
      rw [Nat.mul_comm 10 n, Nat.mul_assoc, Nat.mul_comm 10]
    omega

/-- Reading digits one by one from the left gives the positional value. -/
theorem digitsVal_eq (cs : List Char) (h : AllDigits cs) : digitsVal cs = decimal cs := by
  unfold digitsVal; rw [digitsVal_foldl cs h]; simp

theorem spanDigits_spec (cs : List Char) :
    (spanDigits cs).1 ++ (spanDigits cs).2 = cs ∧ AllDigits (spanDigits cs).1 ∧
    (∀ c rest, (spanDigits cs).2 = c :: rest → c ∉ digits) := by
  induction cs with
  | nil => simp [spanDigits, AllDigits]
  | cons c cs ih =>
    by_cases h : isDigit c = true
    · simp only [spanDigits, h, ↓reduceIte, List.cons_append, ih.1]
      refine ⟨trivial, ?_, ih.2.2⟩
      intro d hd
      rcases List.mem_cons.1 hd with rfl | hd
      · exact (isDigit_iff _).1 h
      · exact ih.2.1 d hd
    · simp only [spanDigits, h]
      refine ⟨by simp, by simp [AllDigits], ?_⟩
      intro d rest hd
      simp only [Bool.false_eq_true, ↓reduceIte, List.cons.injEq] at hd
      rw [← hd.1]; intro hc; exact h ((isDigit_iff _).2 hc)

/-- If a string is digits followed by something not starting with a digit, that is how it is split. -/
theorem spanDigits_append (w rest : List Char) (hw : AllDigits w) (hr : ∀ c cs, rest = c :: cs → c ∉ digits) :
    spanDigits (w ++ rest) = (w, rest) := by
  induction w with
  | nil =>
    cases rest with
    | nil => rfl
    | cons c cs =>
      have : isDigit c = false := by
        cases h : isDigit c with
        | false => rfl
        | true => exact absurd ((isDigit_iff _).1 h) (hr c cs rfl)
      simp [spanDigits, this]
  | cons c cs ih =>
    have hc : isDigit c = true := (isDigit_iff _).2 (hw c (List.mem_cons_self ..))
    simp [spanDigits, hc, ih (fun d hd => hw d (List.mem_cons_of_mem _ hd))]

theorem spanDots_spec (cs : List Char) :
    List.replicate (spanDots cs).1 '.' ++ (spanDots cs).2 = cs ∧ (∀ c rest, (spanDots cs).2 = c :: rest → c ≠ '.') := by
  induction cs with
  | nil => simp [spanDots]
  | cons c cs ih =>
    by_cases h : c = '.'
    · subst h; simp only [spanDots, ↓reduceIte, List.replicate_succ, List.cons_append, ih.1]
      exact ⟨trivial, ih.2⟩
    · simp only [spanDots, h, ↓reduceIte, List.replicate_zero, List.nil_append]
      refine ⟨trivial, ?_⟩
      intro d rest hd
      simp only [List.cons.injEq] at hd
      rw [← hd.1]; exact h

theorem spanDots_replicate (k : Nat) : spanDots (List.replicate k '.') = (k, []) := by
  induction k with
  | zero => rfl
  | succ k ih => simp [List.replicate_succ, spanDots, ih]

end Alda
