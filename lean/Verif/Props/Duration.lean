import Verif.Spec.Duration
/-!
C08: duration arithmetic.
-/
namespace Alda
open Spec

theorem pow_half_succ (k : Nat) : ((1 : Rat) / 2) ^ (k + 1) = (1 / 2) ^ k / 2 := by
  rw [Rat.pow_succ]; grind

theorem one_div_two_pow (k : Nat) : (1 : Rat) / 2 ^ k = (1 / 2) ^ k := by
  induction k with
  | zero => decide +kernel
  | succ k ih =>
    rw [pow_half_succ, ← ih, Rat.pow_succ]
    have : (2 : Rat) ^ k ≠ 0 := by
      have := Rat.pow_pos (a := 2) (n := k) (by decide)
      grind
    grind

/-- The closed form used by the code is the geometric sum. -/
theorem dotted_closed (k : Nat) : dotted k = 2 - (1 / 2) ^ k := by
  induction k with
  | zero => simp [dotted]; grind
  | succ k ih => rw [dotted, ih, one_div_two_pow, pow_half_succ]; grind

theorem dotted_pos (k : Nat) : 0 < dotted k := by
  induction k with
  | zero => decide +kernel
  | succ k ih =>
    rw [dotted]
    have : (0 : Rat) < 1 / 2 ^ (k + 1) := by
      rw [one_div_two_pow]; exact Rat.pow_pos (by decide +kernel)
    grind

theorem total_append (t : Rat) (as bs : List Atom) : total t (as ++ bs) = total t as + total t bs := by
  induction as with
  | nil => simp only [List.nil_append, total]; grind
  | cons a as ih => simp only [List.cons_append, total, ih]; grind

/-- C08: a note length with denominator d and k dots lasts 4/d * (1 + 1/2 + ... + 1/2^k) beats. -/
theorem c08_note_length (d : Rat) (k : Nat) (hd : 0 < d) :
    DurComp.toBeats (.length d k) = .ok (4 / d * dotted k) := by
  have h : d ≠ 0 := by grind
  simp [DurComp.toBeats, noteLengthBeats, h, dotted_closed]

mutual
theorem toMs_atoms (t : Rat) (ht : 0 < t) (c : DurComp) (hv : c.valid = true) :
    c.toMs t = some (total t (atomsOf c)) := by
  have ht' : t ≠ 0 := by grind
  cases c with
  | length d k =>
    simp only [DurComp.valid, decide_eq_true_eq] at hv
    have h : d ≠ 0 := by grind
    simp only [DurComp.toMs, noteLengthBeats, h, ↓reduceIte, beatsMs, ht', atomsOf, total, Atom.length, dotted_closed]
    congr 1
    grind
  | beats q =>
    simp only [DurComp.toMs, beatsMs, ht', ↓reduceIte, atomsOf, total, Atom.length]; congr 1; grind
  | ms q => simp only [DurComp.toMs, atomsOf, total, Atom.length]; congr 1; grind
  | seconds q => simp only [DurComp.toMs, atomsOf, total, Atom.length]; congr 1; grind
  | nested cs =>
    simp only [DurComp.valid] at hv
    simp only [DurComp.toMs, atomsOf]
    rw [toMsFrom_atoms t ht cs hv]; congr 1; grind
  | barline => simp [DurComp.toMs, atomsOf, total]
theorem toMsFrom_atoms (t : Rat) (ht : 0 < t) (cs : List DurComp) (hv : Dur.validList cs = true) (acc : Rat) :
    Dur.toMsFrom t acc cs = some (acc + total t (atoms cs)) := by
  cases cs with
  | nil => simp only [Dur.toMsFrom, atoms, total]; congr 1; grind
  | cons c cs =>
    simp only [Dur.validList, Bool.and_eq_true] at hv
    simp only [Dur.toMsFrom, toMs_atoms t ht c hv.1, atoms, total_append]
    rw [toMsFrom_atoms t ht cs hv.2]
    congr 1; grind
end

/-- C08: a valid duration lasts the sum of the lengths of the notes it is tied together from. In particular neither grouping nor barlines matter,
since they do not change `atoms`. -/
theorem c08_duration_is_sum (d : Dur) (t : Rat) (ht : 0 < t) (hv : d.valid = true) :
    d.toMs t = some (total t (atoms d)) := by
  unfold Dur.toMs
  rw [toMsFrom_atoms t ht d hv]; congr 1; grind

/-- C08: two valid durations made of the same notes, however grouped and with barlines anywhere, last equally long. -/
theorem c08_grouping_and_barlines (d e : Dur) (t : Rat) (ht : 0 < t) (hd : d.valid = true) (he : e.valid = true)
    (h : atoms d = atoms e) : d.toMs t = e.toMs t := by
  rw [c08_duration_is_sum d t ht hd, c08_duration_is_sum e t ht he, h]

mutual
theorem atomsOf_positive (c : DurComp) : c.valid = true ↔ ∀ a ∈ atomsOf c, a.Positive := by
  cases c with
  | length d k => simp [DurComp.valid, atomsOf, Atom.Positive]
  | beats q => simp [DurComp.valid, atomsOf, Atom.Positive]
  | ms q => simp [DurComp.valid, atomsOf, Atom.Positive]
  | seconds q => simp [DurComp.valid, atomsOf, Atom.Positive]; constructor <;> intro h <;> grind
  | nested cs => simp only [DurComp.valid, atomsOf]; exact atoms_positive cs
  | barline => simp [DurComp.valid, atomsOf]
theorem atoms_positive (cs : List DurComp) : Dur.validList cs = true ↔ ∀ a ∈ atoms cs, a.Positive := by
  cases cs with
  | nil => simp [Dur.validList, atoms]
  | cons c cs =>
    simp only [Dur.validList, Bool.and_eq_true, atoms, List.mem_append, atomsOf_positive c, atoms_positive cs]
    constructor
    · rintro ⟨h1, h2⟩ a (h | h)
      · exact h1 a h
      · exact h2 a h
    · intro h; exact ⟨fun a ha => h a (Or.inl ha), fun a ha => h a (Or.inr ha)⟩
end

/-- C08: what is accepted as a duration: exactly those made of positive quantities. -/
theorem c08_valid_iff_positive (d : Dur) : d.valid = true ↔ ∀ a ∈ atoms d, a.Positive := atoms_positive d

theorem Atom.length_pos (t : Rat) (ht : 0 < t) (a : Atom) (h : a.Positive) : 0 < a.length t := by
  have hm : ∀ a b : Rat, 0 < a → 0 < b → 0 < a * b := fun a b => Rat.mul_pos
  have hi : ∀ a : Rat, 0 < a → 0 < a⁻¹ := fun a h => Rat.inv_pos.2 h
  cases a with
  | note d k =>
    simp only [Atom.length, Rat.div_def]
    exact hm _ _ (hm _ _ (hm _ _ (hm _ _ (by decide) (hi _ h)) (dotted_pos k)) (by decide)) (hi _ ht)
  | beats q =>
    simp only [Atom.length, Rat.div_def]
    exact hm _ _ (hm _ _ h (by decide)) (hi _ ht)
  | ms q => exact h

theorem total_nonneg (t : Rat) (ht : 0 < t) (as : List Atom) (h : ∀ a ∈ as, a.Positive) : 0 ≤ total t as := by
  induction as with
  | nil => simp [total]
  | cons a as ih =>
    have h1 := Atom.length_pos t ht a (h a (List.mem_cons_self ..))
    have h2 := ih (fun b hb => h b (List.mem_cons_of_mem _ hb))
    simp only [total]; grind

/-- C08: a valid duration containing at least one note length takes a positive time at any tempo. -/
theorem c08_positive (d : Dur) (t : Rat) (ht : 0 < t) (hv : d.valid = true) (hne : atoms d ≠ []) :
    ∃ x, d.toMs t = some x ∧ 0 < x := by
  refine ⟨_, c08_duration_is_sum d t ht hv, ?_⟩
  have hp := (c08_valid_iff_positive d).1 hv
  cases hcs : atoms d with
  | nil => exact absurd hcs hne
  | cons a as =>
    rw [hcs] at hp
    have h1 := Atom.length_pos t ht a (hp a (List.mem_cons_self ..))
    have h2 := total_nonneg t ht as (fun b hb => hp b (List.mem_cons_of_mem _ hb))
    simp only [total]; grind

-- a half note tied over a barline to a dotted eighth: 2 + 3/4 beats at tempo 120 = 1375 ms
example : (0 : Rat) < 120 ∧ Dur.valid [.length 2 0, .barline, .nested [.length 8 1]] = true
    ∧ Dur.toMs [.length 2 0, .barline, .nested [.length 8 1]] 120 = some 1375
    ∧ atoms [.length 2 0, .barline, .nested [.length 8 1]] = atoms [.length 2 0, .length 8 1]
    ∧ atoms [.length 2 0, .length 8 1] ≠ [] := by
  refine ⟨by decide +kernel, by decide +kernel, by decide +kernel, by simp [atoms, atomsOf], by simp [atoms, atomsOf]⟩

end Alda
