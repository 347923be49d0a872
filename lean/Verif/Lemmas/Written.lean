import Verif.Parse.Ast
import Verif.Spec.Range
/-!
What comes out of the parser is what can be written (`Spec/Range.lean`).
-/
namespace Alda
namespace Syn
open Spec

theorem bind_eq_ok {ε α β : Type} {x : Except ε α} {f : α → Except ε β} {b : β} (h : (x >>= f) = .ok b) : ∃ a, x = .ok a ∧ f a = .ok b := by
  cases x with
  | error e => cases h
  | ok a => exact ⟨a, rfl, h⟩

theorem pure_eq_ok {ε α : Type} {a b : α} (h : (pure a : Except ε α) = .ok b) : b = a := by cases h; rfl

theorem WrittenL_append : ∀ (us vs : List Upd), WrittenL us → WrittenL vs → WrittenL (us ++ vs)
  | [], _, _, h => h
  | u :: us, vs, h1, h2 => by
    rw [WrittenL] at h1
    rw [List.cons_append, WrittenL]
    exact ⟨h1.1, WrittenL_append us vs h1.2 h2⟩

theorem oneOrSeq_written {us : List Upd} (h : WrittenL us) : Written (oneOrSeq us) := by
  unfold oneOrSeq
  split
  · rw [WrittenL] at h; exact h.1
  · rw [Written]; exact h

mutual
theorem lispFormOf_written : ∀ (n : Node) (f : LispForm), lispFormOf n = .ok f → WrittenForm f
  | .mk t l cs, f, h => by
    unfold lispFormOf at h
    split at h
    · obtain ⟨fs, h1, h2⟩ := bind_eq_ok h
      cases pure_eq_ok h2
      rw [WrittenForm]; exact lispFormsOf_written cs fs h1
    · obtain ⟨a, _, h2⟩ := bind_eq_ok h
      cases pure_eq_ok h2; rw [WrittenForm]; trivial
    · split at h
      next c =>
        obtain ⟨a, h1, h2⟩ := bind_eq_ok h
        cases pure_eq_ok h2; rw [WrittenForm]; exact lispFormOf_written c a h1
      · cases h
    · obtain ⟨a, _, h2⟩ := bind_eq_ok h
      cases pure_eq_ok h2; rw [WrittenForm]; trivial
    · obtain ⟨a, _, h2⟩ := bind_eq_ok h
      cases pure_eq_ok h2; rw [WrittenForm]; trivial
    · cases h
theorem lispFormsOf_written : ∀ (ns : List Node) (fs : List LispForm), lispFormsOf ns = .ok fs → WrittenForms fs
  | [], fs, h => by rw [lispFormsOf] at h; cases h; rw [WrittenForms]; trivial
  | n :: ns, fs, h => by
    rw [lispFormsOf] at h
    obtain ⟨a, h1, h2⟩ := bind_eq_ok h
    obtain ⟨b, h3, h4⟩ := bind_eq_ok h2
    cases pure_eq_ok h4
    rw [WrittenForms]; exact ⟨lispFormOf_written n a h1, lispFormsOf_written ns b h3⟩
end

theorem noteOf_written {cs : List Node} {u : Upd} (h : noteOf cs = .ok u) : Written u := by
  unfold noteOf at h
  split at h
  · cases h
  · obtain ⟨_, _, h⟩ := bind_eq_ok h
    obtain ⟨_, _, h⟩ := bind_eq_ok h
    obtain ⟨⟨d, s⟩, _, h⟩ := bind_eq_ok h
    cases pure_eq_ok h
    rw [Written, WrittenLeaf]; trivial

theorem declarationOf_written {n : Node} {u : Upd} (h : declarationOf n = .ok u) : Written u := by
  unfold declarationOf at h
  obtain ⟨_, _, h⟩ := bind_eq_ok h
  split at h
  · cases h
  · obtain ⟨_, _, h⟩ := bind_eq_ok h
    simp only at h
    split at h
    · obtain ⟨_, h', h⟩ := bind_eq_ok h
      cases h'
    · obtain ⟨_, _, h⟩ := bind_eq_ok h
      obtain ⟨_, _, h⟩ := bind_eq_ok h
      cases pure_eq_ok h
      rw [Written] <;> simp

theorem written_one {u : Upd} (h : Written u) : WrittenL [u] := by rw [WrittenL, WrittenL]; exact ⟨h, trivial⟩

mutual
theorem updatesOf_written : ∀ (n : Node) (us : List Upd), updatesOf n = .ok us → WrittenL us
  | .mk t l cs, us, h => by
    unfold updatesOf at h
    simp only at h
    split at h
    · obtain ⟨a, _, h⟩ := bind_eq_ok h
      cases pure_eq_ok h; exact written_one (by rw [Written] <;> simp)
    · cases h; exact written_one (by rw [Written] <;> simp)
    · split at h
      · cases h
      · obtain ⟨a, h1, h⟩ := bind_eq_ok h
        cases pure_eq_ok h; exact written_one (by rw [Written]; exact concatUpdates_written cs a h1)
    · split at h
      next e =>
        obtain ⟨a, h1, h⟩ := bind_eq_ok h
        cases pure_eq_ok h; exact written_one (by rw [Written]; exact innerUpdates_written e _ a h1)
      next e d =>
        obtain ⟨a, h1, h⟩ := bind_eq_ok h
        obtain ⟨b, _, h⟩ := bind_eq_ok h
        cases pure_eq_ok h; exact written_one (by rw [Written]; exact innerUpdates_written e _ a h1)
      · cases h
    · obtain ⟨a, h1, h⟩ := bind_eq_ok h
      cases pure_eq_ok h; exact written_one (by rw [Written]; exact concatUpdates_written cs a h1)
    · split at h
      next e => exact innerUpdates_written e _ us h
      · cases h
    · obtain ⟨a, h1, h⟩ := bind_eq_ok h
      cases pure_eq_ok h; exact written_one (by rw [Written]; exact lispFormsOf_written cs a h1)
    · obtain ⟨a, _, h⟩ := bind_eq_ok h
      cases pure_eq_ok h; exact written_one (by rw [Written] <;> simp)
    · obtain ⟨a, h1, h⟩ := bind_eq_ok h
      cases pure_eq_ok h; exact written_one (noteOf_written h1)
    · cases h; exact written_one (by rw [Written, WrittenLeaf]; trivial)
    · obtain ⟨a, _, h⟩ := bind_eq_ok h
      cases pure_eq_ok h; exact written_one (by rw [Written, WrittenLeaf]; trivial)
    · cases h; exact written_one (by rw [Written, WrittenLeaf]; trivial)
    · split at h
      next e r =>
        obtain ⟨a, h1, h⟩ := bind_eq_ok h
        obtain ⟨b, _, h⟩ := bind_eq_ok h
        split at h
        · obtain ⟨_, h', _⟩ := bind_eq_ok h; cases h'
        · obtain ⟨_, _, h⟩ := bind_eq_ok h
          cases pure_eq_ok h; exact written_one (by rw [Written]; exact oneOrSeq_written (updatesOf_written e a h1))
      · cases h
    · split at h
      next d e =>
        obtain ⟨a, h1, h⟩ := bind_eq_ok h
        obtain ⟨b, h2, h⟩ := bind_eq_ok h
        cases pure_eq_ok h
        rw [WrittenL]; exact ⟨declarationOf_written h1, innerUpdates_written e _ b h2⟩
      · cases h
    · split at h
      next e n =>
        obtain ⟨a, _, h⟩ := bind_eq_ok h
        obtain ⟨b, h1, h⟩ := bind_eq_ok h
        obtain ⟨c, _, h⟩ := bind_eq_ok h
        cases pure_eq_ok h; exact written_one (by rw [Written]; exact oneOrSeq_written (updatesOf_written e b h1))
      · cases h
    · split at h
      · cases h; exact written_one (by rw [Written, WrittenLeaf]; trivial)
      · obtain ⟨a, _, h⟩ := bind_eq_ok h
        cases pure_eq_ok h; exact written_one (by rw [Written, WrittenLeaf]; trivial)
      · cases h
    · exact concatUpdates_written cs us h
    · split at h
      next n e =>
        obtain ⟨a, _, h⟩ := bind_eq_ok h
        obtain ⟨b, _, h⟩ := bind_eq_ok h
        obtain ⟨c, h1, h⟩ := bind_eq_ok h
        cases pure_eq_ok h; exact written_one (by rw [Written]; exact innerUpdates_written e _ c h1)
      · cases h
    · obtain ⟨a, _, h⟩ := bind_eq_ok h
      cases pure_eq_ok h; exact written_one (by rw [Written] <;> simp)
    · exact concatUpdates_written cs us h
    · cases h; exact written_one (by rw [Written] <;> simp)
    · split at h
      next n e =>
        obtain ⟨a, _, h⟩ := bind_eq_ok h
        obtain ⟨b, h1, h⟩ := bind_eq_ok h
        obtain ⟨c, _, h⟩ := bind_eq_ok h
        cases pure_eq_ok h
        rw [WrittenL]; exact ⟨by rw [Written] <;> simp, innerUpdates_written e _ b h1⟩
      · cases h
    · cases h
theorem innerUpdates_written : ∀ (n : Node) (t : NodeType) (us : List Upd), innerUpdates n t = .ok us → WrittenL us
  | .mk t l cs, x, us, h => by
    rw [innerUpdates] at h
    split at h
    · exact concatUpdates_written cs us h
    · cases h
theorem concatUpdates_written : ∀ (ns : List Node) (us : List Upd), concatUpdates ns = .ok us → WrittenL us
  | [], us, h => by rw [concatUpdates] at h; cases h; rw [WrittenL]; trivial
  | n :: ns, us, h => by
    rw [concatUpdates] at h
    obtain ⟨a, h1, h⟩ := bind_eq_ok h
    obtain ⟨b, h2, h⟩ := bind_eq_ok h
    cases pure_eq_ok h
    exact WrittenL_append a b (updatesOf_written n a h1) (concatUpdates_written ns b h2)
end

end Syn
end Alda
