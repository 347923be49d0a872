import Verif.Lemmas.Written
/-!
The notes that come out of the parser have no empty list of accidentals: without accidentals there is no list.
-/
namespace Alda
namespace Syn

/-- Notes without an empty list of accidentals. -/
def SpelledLeaf : Leaf → Prop
  | .note (.letter _ (some [])) _ _ => False
  | _ => True

mutual
/-- Updates in which all notes are so. -/
def Spelled : Upd → Prop
  | .leaf l => SpelledLeaf l
  | .chord es => SpelledL es
  | .cram es _ => SpelledL es
  | .seq es => SpelledL es
  | .rep e _ => Spelled e
  | .onReps _ e => Spelled e
  | .varDef _ es => SpelledL es
  | _ => True
def SpelledL : List Upd → Prop
  | [] => True
  | e :: es => Spelled e ∧ SpelledL es
end

theorem pitchOf_spelled {n : Node} {p : Pitch} (h : pitchOf n = .ok p) (d : Dur) (s : Bool) : SpelledLeaf (.note p d s) := by
  unfold pitchOf at h
  split at h
  · cases h
  · obtain ⟨_, _, h⟩ := bind_eq_ok h
    obtain ⟨_, _, h⟩ := bind_eq_ok h
    obtain ⟨_, _, h⟩ := bind_eq_ok h
    obtain ⟨as, _, h⟩ := bind_eq_ok h
    cases pure_eq_ok h
    cases as <;> simp [SpelledLeaf]

theorem SpelledL_append : ∀ (us vs : List Upd), SpelledL us → SpelledL vs → SpelledL (us ++ vs)
  | [], _, _, h => h
  | u :: us, vs, h1, h2 => by
    rw [SpelledL] at h1
    rw [List.cons_append, SpelledL]
    exact ⟨h1.1, SpelledL_append us vs h1.2 h2⟩

theorem oneOrSeq_spelled {us : List Upd} (h : SpelledL us) : Spelled (oneOrSeq us) := by
  unfold oneOrSeq
  split
  · rw [SpelledL] at h; exact h.1
  · rw [Spelled]; exact h

theorem noteOf_spelled {cs : List Node} {u : Upd} (h : noteOf cs = .ok u) : Spelled u := by
  unfold noteOf at h
  split at h
  · cases h
  · obtain ⟨_, _, h⟩ := bind_eq_ok h
    obtain ⟨p, hp, h⟩ := bind_eq_ok h
    obtain ⟨⟨d, s⟩, _, h⟩ := bind_eq_ok h
    cases pure_eq_ok h
    rw [Spelled]; exact pitchOf_spelled hp d s

theorem declarationOf_spelled {n : Node} {u : Upd} (h : declarationOf n = .ok u) : Spelled u := by
  unfold declarationOf at h
  obtain ⟨_, _, h⟩ := bind_eq_ok h
  split at h
  · cases h
  · obtain ⟨_, _, h⟩ := bind_eq_ok h
    simp only at h
    split at h
    · obtain ⟨_, h', h⟩ := bind_eq_ok h
      cases h'
    · obtain ⟨_, _, h⟩ := bind_eq_ok h
      obtain ⟨_, _, h⟩ := bind_eq_ok h
      cases pure_eq_ok h
      rw [Spelled] <;> simp

theorem spelled_one {u : Upd} (h : Spelled u) : SpelledL [u] := by rw [SpelledL, SpelledL]; exact ⟨h, trivial⟩

mutual
theorem updatesOf_spelled : ∀ (n : Node) (us : List Upd), updatesOf n = .ok us → SpelledL us
  | .mk t l cs, us, h => by
    unfold updatesOf at h
    simp only at h
    split at h
    · obtain ⟨a, _, h⟩ := bind_eq_ok h
      cases pure_eq_ok h; exact spelled_one (by rw [Spelled] <;> simp)
    · cases h; exact spelled_one (by rw [Spelled] <;> simp)
    · split at h
      · cases h
      · obtain ⟨a, h1, h⟩ := bind_eq_ok h
        cases pure_eq_ok h; exact spelled_one (by rw [Spelled]; exact concatUpdates_spelled cs a h1)
    · split at h
      next e =>
        obtain ⟨a, h1, h⟩ := bind_eq_ok h
        cases pure_eq_ok h; exact spelled_one (by rw [Spelled]; exact innerUpdates_spelled e _ a h1)
      next e d =>
        obtain ⟨a, h1, h⟩ := bind_eq_ok h
        obtain ⟨b, _, h⟩ := bind_eq_ok h
        cases pure_eq_ok h; exact spelled_one (by rw [Spelled]; exact innerUpdates_spelled e _ a h1)
      · cases h
    · obtain ⟨a, h1, h⟩ := bind_eq_ok h
      cases pure_eq_ok h; exact spelled_one (by rw [Spelled]; exact concatUpdates_spelled cs a h1)
    · split at h
      next e => exact innerUpdates_spelled e _ us h
      · cases h
    · obtain ⟨a, h1, h⟩ := bind_eq_ok h
      cases pure_eq_ok h; exact spelled_one (by rw [Spelled] <;> simp)
    · obtain ⟨a, _, h⟩ := bind_eq_ok h
      cases pure_eq_ok h; exact spelled_one (by rw [Spelled] <;> simp)
    · obtain ⟨a, h1, h⟩ := bind_eq_ok h
      cases pure_eq_ok h; exact spelled_one (noteOf_spelled h1)
    · cases h; exact spelled_one (by simp [Spelled, SpelledLeaf])
    · obtain ⟨a, _, h⟩ := bind_eq_ok h
      cases pure_eq_ok h; exact spelled_one (by simp [Spelled, SpelledLeaf])
    · cases h; exact spelled_one (by simp [Spelled, SpelledLeaf])
    · split at h
      next e r =>
        obtain ⟨a, h1, h⟩ := bind_eq_ok h
        obtain ⟨b, _, h⟩ := bind_eq_ok h
        split at h
        · obtain ⟨_, h', _⟩ := bind_eq_ok h; cases h'
        · obtain ⟨_, _, h⟩ := bind_eq_ok h
          cases pure_eq_ok h; exact spelled_one (by rw [Spelled]; exact oneOrSeq_spelled (updatesOf_spelled e a h1))
      · cases h
    · split at h
      next d e =>
        obtain ⟨a, h1, h⟩ := bind_eq_ok h
        obtain ⟨b, h2, h⟩ := bind_eq_ok h
        cases pure_eq_ok h
        rw [SpelledL]; exact ⟨declarationOf_spelled h1, innerUpdates_spelled e _ b h2⟩
      · cases h
    · split at h
      next e n =>
        obtain ⟨a, _, h⟩ := bind_eq_ok h
        obtain ⟨b, h1, h⟩ := bind_eq_ok h
        obtain ⟨c, _, h⟩ := bind_eq_ok h
        cases pure_eq_ok h; exact spelled_one (by rw [Spelled]; exact oneOrSeq_spelled (updatesOf_spelled e b h1))
      · cases h
    · split at h
      · cases h; exact spelled_one (by simp [Spelled, SpelledLeaf])
      · obtain ⟨a, _, h⟩ := bind_eq_ok h
        cases pure_eq_ok h; exact spelled_one (by simp [Spelled, SpelledLeaf])
      · cases h
    · exact concatUpdates_spelled cs us h
    · split at h
      next n e =>
        obtain ⟨a, _, h⟩ := bind_eq_ok h
        obtain ⟨b, _, h⟩ := bind_eq_ok h
        obtain ⟨c, h1, h⟩ := bind_eq_ok h
        cases pure_eq_ok h; exact spelled_one (by rw [Spelled]; exact innerUpdates_spelled e _ c h1)
      · cases h
    · obtain ⟨a, _, h⟩ := bind_eq_ok h
      cases pure_eq_ok h; exact spelled_one (by rw [Spelled] <;> simp)
    · exact concatUpdates_spelled cs us h
    · cases h; exact spelled_one (by rw [Spelled] <;> simp)
    · split at h
      next n e =>
        obtain ⟨a, _, h⟩ := bind_eq_ok h
        obtain ⟨b, h1, h⟩ := bind_eq_ok h
        obtain ⟨c, _, h⟩ := bind_eq_ok h
        cases pure_eq_ok h
        rw [SpelledL]; exact ⟨by rw [Spelled] <;> simp, innerUpdates_spelled e _ b h1⟩
      · cases h
    · cases h
theorem innerUpdates_spelled : ∀ (n : Node) (t : NodeType) (us : List Upd), innerUpdates n t = .ok us → SpelledL us
  | .mk t l cs, x, us, h => by
    rw [innerUpdates] at h
    split at h
    · exact concatUpdates_spelled cs us h
    · cases h
theorem concatUpdates_spelled : ∀ (ns : List Node) (us : List Upd), concatUpdates ns = .ok us → SpelledL us
  | [], us, h => by rw [concatUpdates] at h; cases h; rw [SpelledL]; trivial
  | n :: ns, us, h => by
    rw [concatUpdates] at h
    obtain ⟨a, h1, h⟩ := bind_eq_ok h
    obtain ⟨b, h2, h⟩ := bind_eq_ok h
    cases pure_eq_ok h
    exact SpelledL_append a b (updatesOf_spelled n a h1) (concatUpdates_spelled ns b h2)
end

end Syn
end Alda
