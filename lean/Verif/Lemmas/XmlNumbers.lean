import Verif.Spec.MusicXml
import Verif.Lemmas.Text
/-!
Numbers in MusicXML files are read as what they are.
-/
namespace Alda
namespace Importer
open Spec

theorem xmlDigitVal_eq {c : Char} (h : c ∈ digits) : Importer.digitVal c = some (digits.idxOf c) := by
  have : ∀ c ∈ digits, Importer.digitVal c = some (digits.idxOf c) := by decide
  exact this c h

theorem digitsValue_eq (cs : List Char) (h : AllDigits cs) : ∀ n, digitsValue n cs = some (n * 10 ^ cs.length + decimal cs) := by
  induction cs with
  | nil => intro n; simp [digitsValue, decimal]
  | cons c cs ih =>
    intro n
    have h' : AllDigits cs := fun d hd => h d (List.mem_cons_of_mem _ hd)
    simp only [digitsValue, List.length_cons, decimal]
    rw [xmlDigitVal_eq (h c (List.mem_cons_self ..))]
    simp only
    rw [ih h', Nat.add_mul, Nat.pow_succ]
    have : 10 * n * 10 ^ cs.length = n * (10 ^ cs.length * 10) := by
      rw [Nat.mul_comm 10 n, Nat.mul_assoc, Nat.mul_comm 10]
    congr 1; omega

theorem naturalOf_eq {cs : List Char} (h0 : cs ≠ []) (h : AllDigits cs) : naturalOf cs = some (decimal cs) := by
  unfold naturalOf
  split
  · contradiction
  · rw [digitsValue_eq _ h]; simp

theorem digits_no {c : Char} (h : c ∈ digits) : c ≠ '-' ∧ c ≠ '+' ∧ c ≠ '.' := by
  have : ∀ c ∈ digits, c ≠ '-' ∧ c ≠ '+' ∧ c ≠ '.' := by decide
  exact this c h

theorem integerOf_digits {cs : List Char} (h0 : cs ≠ []) (h : AllDigits cs) : integerOf cs = some ((decimal cs : Nat) : Int) := by
  match cs, h0 with
  | c :: cs, h0 =>
    have hc := digits_no (h c (List.mem_cons_self ..))
    unfold integerOf
    split
    · rename_i e; simp only [List.cons.injEq] at e; exact absurd e.1 hc.1
    · rename_i e; simp only [List.cons.injEq] at e; exact absurd e.1 hc.2.1
    · rw [naturalOf_eq h0 h]; rfl

theorem parseInt_numeral {n bits : Nat} {s : String} (h : NumeralOf n s) (hb : (n : Int) ≤ 2 ^ (bits - 1) - 1) : parseInt bits s = n := by
  unfold parseInt
  rw [integerOf_digits h.1 h.2.1, h.2.2]
  simp only
  have : (0 : Int) < 2 ^ (bits - 1) := Int.pow_pos (by omega)
  omega

theorem parseInt_integer {z : Int} {bits : Nat} {s : String} (h : IntegerOf z s) (h1 : -(2 ^ (bits - 1)) ≤ z) (h2 : z ≤ 2 ^ (bits - 1) - 1) : parseInt bits s = z := by
  rcases h with ⟨n, h, e⟩ | ⟨cs, n, hs, h, e⟩
  · subst e; exact parseInt_numeral h h2
  · unfold parseInt
    rw [hs]
    simp only [integerOf]
    have h0 : (String.ofList cs).toList = cs := by simp
    obtain ⟨a, b, c⟩ := h
    rw [h0] at a b c
    rw [naturalOf_eq a b, c]
    show max _ (min _ (-(n : Int))) = z
    omega

theorem span_loop_all {p : Char → Bool} : ∀ (cs acc : List Char), (∀ c ∈ cs, p c = true) → List.span.loop p cs acc = (acc.reverse ++ cs, []) := by
  intro cs
  induction cs with
  | nil => intro acc _; simp [List.span.loop]
  | cons c cs ih =>
    intro acc h
    rw [List.span.loop, h c (List.mem_cons_self ..)]
    simp only
    rw [ih _ (fun d hd => h d (List.mem_cons_of_mem _ hd))]
    simp

theorem span_all {p : Char → Bool} (cs : List Char) (h : ∀ c ∈ cs, p c = true) : cs.span p = (cs, []) := by
  unfold List.span
  rw [span_loop_all cs [] h]; rfl

theorem decimalOf_digits {cs : List Char} (h0 : cs ≠ []) (h : AllDigits cs) : decimalOf cs = some ((decimal cs : Nat) : Rat) := by
  unfold decimalOf
  rw [span_all cs (fun c hc => by simpa using (digits_no (h c hc)).2.2)]
  simp only
  rw [naturalOf_eq h0 h]; rfl

theorem parseFloat_numeral {n : Nat} {s : String} (h : NumeralOf n s) : Importer.parseFloat s = some (n : Rat) := by
  unfold Importer.parseFloat
  obtain ⟨a, b, c⟩ := h
  generalize s.toList = cs at a b c
  match cs, a with
  | d :: cs, a =>
    have hd := digits_no (b d (List.mem_cons_self ..))
    split
    · rename_i e; simp only [List.cons.injEq] at e; exact absurd e.1 hd.1
    · rename_i e; simp only [List.cons.injEq] at e; exact absurd e.1 hd.2.1
    · rw [decimalOf_digits a b, c]

end Importer
end Alda
