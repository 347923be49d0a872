import Verif.Model.Offsets
import Verif.Lemmas.Text
/-!
C45: offset references.
-/
namespace Alda
open Spec

theorem colon_not_digit : ':' ∉ digits := by decide

/-- A reference is read as a time marking exactly if it is digits, a colon, digits. -/
theorem timeMarking_iff (cs m s : List Char) :
    timeMarking cs = some (m, s) ↔ cs = m ++ ':' :: s ∧ m ≠ [] ∧ s ≠ [] ∧ AllDigits m ∧ AllDigits s := by
  constructor
  · intro h
    unfold timeMarking at h
    have h1 := spanDigits_spec cs
    split at h
    · rename_i c mm rest heq
      rw [heq] at h1
      have h2 := spanDigits_spec rest
      split at h
      · rename_i d sec heq2
        rw [heq2] at h2
        simp only [Option.some.injEq, Prod.mk.injEq] at h
        obtain ⟨rfl, rfl⟩ := h
        simp only at h1 h2
        refine ⟨?_, by simp, by simp, h1.2.1, h2.2.1⟩
        rw [← h1.1, ← h2.1]; simp
      · simp at h
    · simp at h
  · rintro ⟨rfl, hm, hs, dm, ds⟩
    unfold timeMarking
    rw [spanDigits_append m _ dm (fun c cs h => by simp only [List.cons.injEq] at h; rw [← h.1]; exact colon_not_digit)]
    have e : spanDigits s = (s, []) := by
      have := spanDigits_append s [] ds (by simp)
      simpa using this
    cases m with
    | nil => exact absurd rfl hm
    | cons c m =>
      cases s with
      | nil => exact absurd rfl hs
      | cons d s => simp [e]

/-- C45: a time marking `m:s` means m minutes and s seconds, in milliseconds (as long as these fit in 64 bits). Any number of digits and any value of
seconds are allowed; a marker of that name is not looked at. -/
theorem c45_time_marking (sc : Score) (ref : String) (m s : List Char) (he : ref.toList = m ++ ':' :: s)
    (hm : m ≠ []) (hs : s ≠ []) (dm : AllDigits m) (ds : AllDigits s)
    (bm : decimal m ≤ 153722867280912) (bs : decimal s ≤ 9223372036854775) :
    interpretOffsetReference sc ref = .ok ((decimal m : Rat) * 60000 + (decimal s : Rat) * 1000) := by
  have h := (timeMarking_iff ref.toList m s).2 ⟨he, hm, hs, dm, ds⟩
  have e1 : atoi64 m = decimal m := by
    unfold atoi64; rw [digitsVal_eq m dm]; split <;> omega
  have e2 : atoi64 s = decimal s := by
    unfold atoi64; rw [digitsVal_eq s ds]; split <;> omega
  have w1 : wrap64 (wrap64 ((decimal m : Int) * 60) * 1000) = (decimal m : Int) * 60000 := by
    unfold wrap64; omega
  have w2 : wrap64 ((decimal s : Int) * 1000) = (decimal s : Int) * 1000 := by
    unfold wrap64; omega
  unfold interpretOffsetReference
  rw [h]
  show Except.ok _ = _
  rw [e1, e2, w1, w2, Rat.intCast_mul, Rat.intCast_mul]
  rfl

/-- C45: anything that is not a time marking must be the name of a marker, and means its offset; otherwise it is an error. -/
theorem c45_marker (sc : Score) (ref : String)
    (hn : ∀ m s, ref.toList = m ++ ':' :: s → m ≠ [] → s ≠ [] → AllDigits m → AllDigits s → False) :
    (∀ o, sc.markers ref = some o → interpretOffsetReference sc ref = .ok o) ∧
    (sc.markers ref = none → ∃ w, interpretOffsetReference sc ref = .error (.user w)) := by
  have h : timeMarking ref.toList = none := by
    cases ht : timeMarking ref.toList with
    | none => rfl
    | some r =>
      obtain ⟨m, s⟩ := r
      have := (timeMarking_iff _ _ _).1 ht
      exact absurd this.1 (fun h => hn m s h this.2.1 this.2.2.1 this.2.2.2.1 this.2.2.2.2)
  constructor
  · intro o ho; simp [interpretOffsetReference, h, ho]
  · intro ho; exact ⟨_, by simp [interpretOffsetReference, h, ho]; rfl⟩

-- "1:75" is 135 seconds; "verse2" is a marker name
example : "1:75".toList = ['1'] ++ ':' :: ['7', '5'] ∧ decimal ['1'] = 1 ∧ decimal ['7', '5'] = 75 := by decide
example : ∀ m s, "verse2".toList = m ++ ':' :: s → m ≠ [] → s ≠ [] → AllDigits m → AllDigits s → False := by
  intro m s h _ _ _ _
  have : ':' ∈ "verse2".toList := by rw [h]; simp
  exact absurd this (by decide)

end Alda
