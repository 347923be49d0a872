import Verif.Lemmas.AcceptParts
/-!
A check whether a program is tidy.
-/
namespace Alda
namespace Syn
namespace Accept
open Spec

/-- `[` or `{`. -/
def opens (t : Token) : Bool := t.tok = .eventSeqOpen || t.tok = .cramOpen

/-- `]` or `}`. -/
def closes (t : Token) : Bool := t.tok = .eventSeqClose || t.tok = .cramClose

/-- Repetitions. -/
def isReps (t : Token) : Bool :=
  match t.tok with
  | .repetitions _ => true
  | _ => false

/-- After `=`: none of the tokens outside inner brackets is a wrong one on this line. -/
def checkDef (line : Nat) : Nat → List Token → Bool
  | _, [] => true
  | d, c :: post =>
    if d = 0 ∧ (closes c ∨ isReps c ∨ looksLikePartDeclaration (c :: post)) ∧ c.pos.line = line then false
    else if opens c then checkDef line (d + 1) post
    else if closes c then (if d = 0 then true else checkDef line (d - 1) post)
    else checkDef line d post

/-- After a voice marker: no repetitions outside inner brackets. -/
def checkVoice : Nat → List Token → Bool
  | _, [] => true
  | d, c :: post =>
    if d = 0 ∧ isReps c then false
    else if opens c then checkVoice (d + 1) post
    else if closes c then (if d = 0 then true else checkVoice (d - 1) post)
    else checkVoice d post

/-- A voice marker. -/
def isVoice (t : Token) : Bool :=
  match t.tok with
  | .voiceMarker _ => true
  | _ => false

/-- If a definition begins here, it is tidy. -/
def checkName (t : Token) : List Token → Bool
  | eq :: post => if t.tok = .name ∧ eq.tok = .equals then checkDef t.pos.line 0 post else true
  | [] => true

/-- Whether the tokens are tidy. -/
def tidy : List Token → Bool
  | [] => true
  | t :: ts =>
    checkName t ts && (if isVoice t then checkVoice 0 ts else true) && tidy ts

theorem opens_iff {t : Token} : opens t = true ↔ Opens t := by simp [opens, Opens]

theorem closes_iff {t : Token} : closes t = true ↔ Closes t := by simp [closes, Closes]

theorem not_both {t : Token} (h : closes t = true) : opens t = false := by
  simp only [closes, opens, Bool.or_eq_true, decide_eq_true_eq] at h ⊢
  rcases h with h | h <;> simp [h]

theorem checkDef_balanced {mid : List Token} (h : Balanced mid) (line : Nat) : ∀ (d : Nat) (X : List Token),
    checkDef line d (mid ++ X) = true → checkDef line d X = true := by
  induction h with
  | nil => intro d X h; exact h
  | other t ts h1 h2 _ ih =>
    intro d X h
    rw [List.cons_append, checkDef] at h
    have h1' : opens t = false := by rw [← Bool.not_eq_true, opens_iff]; exact h1
    have h2' : closes t = false := by rw [← Bool.not_eq_true, closes_iff]; exact h2
    rw [h1', h2'] at h
    split at h
    · cases h
    · exact ih d X (by simpa using h)
  | pair o c ts us h1 h2 _ _ ih1 ih2 =>
    intro d X h
    rw [List.cons_append, List.cons_append, checkDef] at h
    have h1' : opens o = true := opens_iff.2 h1
    have h2' : closes c = true := closes_iff.2 h2
    rw [h1'] at h
    split at h
    · cases h
    · have a := ih1 (d + 1) (c :: (us ++ X)) (by simpa using h)
      rw [checkDef, not_both h2', h2'] at a
      exact ih2 d X (by simpa using a)

theorem checkVoice_balanced {mid : List Token} (h : Balanced mid) : ∀ (d : Nat) (X : List Token),
    checkVoice d (mid ++ X) = true → checkVoice d X = true := by
  induction h with
  | nil => intro d X h; exact h
  | other t ts h1 h2 _ ih =>
    intro d X h
    rw [List.cons_append, checkVoice] at h
    have h1' : opens t = false := by rw [← Bool.not_eq_true, opens_iff]; exact h1
    have h2' : closes t = false := by rw [← Bool.not_eq_true, closes_iff]; exact h2
    rw [h1', h2'] at h
    split at h
    · cases h
    · exact ih d X (by simpa using h)
  | pair o c ts us h1 h2 _ _ ih1 ih2 =>
    intro d X h
    rw [List.cons_append, List.cons_append, checkVoice] at h
    have h1' : opens o = true := opens_iff.2 h1
    have h2' : closes c = true := closes_iff.2 h2
    rw [h1'] at h
    split at h
    · cases h
    · have a := ih1 (d + 1) (c :: (us ++ X)) (by simpa using h)
      rw [checkVoice, not_both h2', h2'] at a
      exact ih2 d X (by simpa using a)

theorem tidy_append {pre ts : List Token} (h : tidy (pre ++ ts) = true) : tidy ts = true := by
  induction pre with
  | nil => exact h
  | cons t pre ih =>
    rw [List.cons_append, tidy, Bool.and_eq_true] at h
    exact ih h.2

theorem tidy_sound (toks : List Token) (h : tidy toks = true) : Tidy toks := by
  refine ⟨?_, ?_⟩
  · rintro pre n eq mid c post rfl hn he hb hc hl
    rw [List.append_assoc] at h
    have h := tidy_append h
    rw [List.cons_append, tidy, Bool.and_eq_true, Bool.and_eq_true] at h
    have a := h.1.1
    rw [List.cons_append] at a
    simp only [checkName, hn, he, and_self, if_true] at a
    have b := checkDef_balanced hb _ _ _ a
    rw [checkDef, if_pos] at b
    · cases b
    · refine ⟨rfl, ?_, hl⟩
      rcases hc with hc | ⟨rs, hc⟩ | hc
      · exact .inl (closes_iff.2 hc)
      · exact .inr (.inl (by simp [isReps, hc]))
      · exact .inr (.inr hc.looks)
  · rintro pre v k mid c post rfl hv hb ⟨rs, hc⟩
    rw [List.append_assoc] at h
    have h := tidy_append h
    rw [List.cons_append, tidy, Bool.and_eq_true, Bool.and_eq_true] at h
    have a := h.1.2
    rw [if_pos (by simp [isVoice, hv])] at a
    have b := checkVoice_balanced hb _ _ a
    rw [checkVoice, if_pos] at b
    · cases b
    · exact ⟨rfl, by simp [isReps, hc]⟩

end Accept
end Syn
end Alda
