import Verif.Lemmas.PlayerTrack
import Verif.Spec.Player
/-!
What is heard of a sequence depends, for each channel and each note, on few of its events.
-/
namespace Alda
namespace Player
open Spec

/-- Whether a message is for a channel. -/
def onChannel (c : Int) (e : MidiEvent) : Bool := match e.msg with
  | .noteOn x _ _ | .noteOff x _ _ | .program x _ | .control x _ _ => decide (x = c)
  | _ => false

/-- Whether a message is other than turning a note off. -/
def notOff (e : MidiEvent) : Bool := match e.msg with
  | .noteOff .. => false
  | _ => true

/-- Whether a message turns a note on or off. -/
def onKey (c n : Int) (e : MidiEvent) : Bool := match e.msg with
  | .noteOn x y _ | .noteOff x y _ => decide (x = c) && decide (y = n)
  | _ => false

theorem turnedOff_filter {c n : Int} {P : MidiEvent → Bool} (h : ∀ t v, P ⟨t, .noteOff c n v⟩ = true) (l : List MidiEvent) :
    turnedOff c n (l.filter P) = turnedOff c n l := by
  induction l with
  | nil => rfl
  | cons e l ih =>
    obtain ⟨t, m⟩ := e
    by_cases hp : P ⟨t, m⟩
    · rw [List.filter_cons_of_pos hp]
      simp only [turnedOff, ih]
    · rw [List.filter_cons_of_neg hp, ih]
      cases m with
      | noteOff x y v =>
        simp only [turnedOff]
        split
        · rename_i hx; obtain ⟨rfl, rfl⟩ := hx; exact absurd (h t v) hp
        · rfl
      | _ => rfl

/-- The same state of a channel. -/
def SameAt (c : Int) (k k' : Controls) : Prop := k.patch c = k'.patch c ∧ k.volume c = k'.volume c ∧ k.panning c = k'.panning c

theorem after_same {c : Int} {k k' : Controls} (h : SameAt c k k') (m : MidiMsg) : SameAt c (after k m) (after k' m) := by
  obtain ⟨h1, h2, h3⟩ := h
  cases m with
  | program x v =>
    simp only [after, SameAt]
    exact ⟨by split <;> first | rfl | exact h1, h2, h3⟩
  | control x n v =>
    simp only [after, SameAt]
    split
    · exact ⟨h1, (by simp only; split <;> first | rfl | exact h2), h3⟩
    split
    · exact ⟨h1, h2, (by simp only; split <;> first | rfl | exact h3)⟩
    · exact ⟨h1, h2, h3⟩
  | _ => exact ⟨h1, h2, h3⟩

theorem after_other {c : Int} {k : Controls} {t : Int} {m : MidiMsg} (h : onChannel c ⟨t, m⟩ = false) : SameAt c (after k m) k := by
  cases m with
  | program x v =>
    have h : x ≠ c := by simpa [onChannel] using h
    simp only [after, SameAt]
    refine ⟨if_neg (fun e => h e.symm), ?_, ?_⟩ <;> trivial
  | control x n v =>
    have h : x ≠ c := by simpa [onChannel] using h
    have h : c ≠ x := fun e => h e.symm
    simp only [after, SameAt]
    split
    · exact ⟨rfl, if_neg h, rfl⟩
    split
    · exact ⟨rfl, rfl, if_neg h⟩
    · exact ⟨rfl, rfl, rfl⟩
  | _ => exact ⟨rfl, rfl, rfl⟩

theorem SameAt.trans {c : Int} {a b d : Controls} (h : SameAt c a b) (h' : SameAt c b d) : SameAt c a d :=
  ⟨h.1.trans h'.1, h.2.1.trans h'.2.1, h.2.2.trans h'.2.2⟩

theorem sounds_channel (c : Int) (l : List MidiEvent) : ∀ {k k' : Controls}, SameAt c k k' →
    (tones l k).filter (fun s => decide (s.channel = c)) = tones (l.filter (onChannel c)) k' := by
  induction l with
  | nil => intro k k' _; rfl
  | cons e l ih =>
    intro k k' h
    obtain ⟨t, m⟩ := e
    by_cases hp : onChannel c ⟨t, m⟩
    · rw [List.filter_cons_of_pos hp]
      simp only [tones, List.filter_append]
      rw [ih (after_same h m)]
      congr 1
      cases m with
      | noteOn x y v =>
        have hx : x = c := by simpa [onChannel] using hp
        subst hx
        simp only
        rw [List.filter_cons_of_pos (by simp), turnedOff_filter (by intro t v; simp [onChannel]), h.1, h.2.1, h.2.2]; rfl
      | _ => rfl
    · rw [List.filter_cons_of_neg hp]
      have hp : onChannel c ⟨t, m⟩ = false := by simpa using hp
      simp only [tones, List.filter_append]
      rw [ih ((after_other hp).trans h)]
      cases m with
      | noteOn x y v =>
        have hx : x ≠ c := by simpa [onChannel] using hp
        simp only
        rw [List.filter_cons_of_neg (by simpa using hx)]; rfl
      | _ => rfl

/-- A note without its end. -/
def openEnd (s : Tone) : Tone := { s with stop := none }

theorem sounds_open (l : List MidiEvent) : ∀ k : Controls, (tones l k).map openEnd = (tones (l.filter notOff) k).map openEnd := by
  induction l with
  | nil => intro k; rfl
  | cons e l ih =>
    intro k
    obtain ⟨t, m⟩ := e
    cases m with
    | noteOff x y v => exact ih _
    | noteOn x y v =>
      rw [List.filter_cons_of_pos (by rfl)]
      simp only [tones, List.map_append, ih]; rfl
    | _ =>
      rw [List.filter_cons_of_pos (by rfl)]
      simp only [tones, List.map_append, ih]

theorem sounds_stop (c n : Int) (l : List MidiEvent) : ∀ k k' : Controls,
    ((tones l k).filter (fun s => decide (s.channel = c) && decide (s.note = n))).map (·.stop) = (tones (l.filter (onKey c n)) k').map (·.stop) := by
  induction l with
  | nil => intro k k'; rfl
  | cons e l ih =>
    intro k k'
    obtain ⟨t, m⟩ := e
    by_cases hp : onKey c n ⟨t, m⟩
    · rw [List.filter_cons_of_pos hp]
      simp only [tones, List.filter_append, List.map_append]
      rw [ih (after k m) (after k' m)]
      congr 1
      cases m with
      | noteOn x y v =>
        have hx : x = c ∧ y = n := by simpa [onKey] using hp
        obtain ⟨rfl, rfl⟩ := hx
        simp only
        rw [List.filter_cons_of_pos (by simp), turnedOff_filter (by intro t v; simp [onKey])]; rfl
      | _ => rfl
    · rw [List.filter_cons_of_neg hp]
      have hp : onKey c n ⟨t, m⟩ = false := by simpa using hp
      simp only [tones, List.filter_append, List.map_append]
      rw [ih _ k']
      cases m with
      | noteOn x y v =>
        simp only
        rw [List.filter_cons_of_neg (by simpa [onKey] using hp)]; rfl
      | _ => rfl

theorem sound_ext {a b : Tone} (h : openEnd a = openEnd b) (hs : a.stop = b.stop) : a = b := by
  cases a; cases b
  simp only [openEnd, Tone.mk.injEq] at h hs ⊢
  simp_all

theorem sounds_ext {a b : List Tone} (h : a.map openEnd = b.map openEnd)
    (hs : ∀ c n : Int, (a.filter (fun s => decide (s.channel = c) && decide (s.note = n))).map (·.stop) = (b.filter (fun s => decide (s.channel = c) && decide (s.note = n))).map (·.stop)) : a = b := by
  induction a generalizing b with
  | nil => cases b with
    | nil => rfl
    | cons y b => simp at h
  | cons x a ih =>
    cases b with
    | nil => simp at h
    | cons y b =>
      simp only [List.map_cons, List.cons.injEq] at h
      have hc : x.channel = y.channel := by have := congrArg Tone.channel h.1; exact this
      have hn : x.note = y.note := by have := congrArg Tone.note h.1; exact this
      have e : x = y := by
        have := hs x.channel x.note
        rw [List.filter_cons_of_pos (by simp), List.filter_cons_of_pos (by simp [hc, hn])] at this
        exact sound_ext h.1 (List.cons.inj this).1
      subst e
      rw [ih h.2]
      intro c n
      have := hs c n
      by_cases hx : x.channel = c ∧ x.note = n
      · rw [List.filter_cons_of_pos (by simpa using hx), List.filter_cons_of_pos (by simpa using hx)] at this
        exact (List.cons.inj this).2
      · rw [List.filter_cons_of_neg (by simpa using hx), List.filter_cons_of_neg (by simpa using hx)] at this
        exact this

theorem perm_of_filters {α : Type} [DecidableEq α] {κ : Type} [DecidableEq κ] (key : α → κ) {a b : List α}
    (h : ∀ c, a.filter (fun x => decide (key x = c)) = b.filter (fun x => decide (key x = c))) : a.Perm b := by
  rw [List.perm_iff_count]
  intro x
  have e : ∀ l : List α, l.count x = (l.filter (fun y => decide (key y = key x))).count x := by
    intro l
    rw [List.count_filter]; simp
  rw [e a, e b, h]

/-- If the controls and the beginnings of notes of each channel, and the beginnings and ends of each note, are given in the order of their times, then what is heard is what would be heard in the order given. -/
theorem sounds_addAll {xs ys t0 : List MidiEvent} (h0 : InOrder t0) (hn : ∀ c, t0.filter (onChannel c) = []) (hxy : ∀ c v, (xs.filter (onChannel c)).filter (fun x => decide (x.tick = v)) = (ys.filter (onChannel c)).filter (fun x => decide (x.tick = v)))
    (h1 : ∀ c, InOrder ((ys.filter (onChannel c)).filter notOff)) (h2 : ∀ c n, InOrder (ys.filter (onKey c n))) (k : Controls) :
    (tones (addAll xs t0) k).Perm (tones ys k) := by
  refine perm_of_filters (·.channel) (fun c => ?_)
  rw [sounds_channel c _ (k' := k) ⟨rfl, rfl, rfl⟩, sounds_channel c _ (k' := k) ⟨rfl, rfl, rfl⟩, addAll_filter h0, hn c,
    inOrder_ext (addAll_inOrder .nil) (addAll_inOrder .nil) (fun v => by rw [addAll_at .nil, addAll_at .nil, hxy c v] : ∀ v : Int, (addAll (xs.filter (onChannel c)) []).filter (fun x => decide (x.tick = v)) = (addAll (ys.filter (onChannel c)) []).filter (fun x => decide (x.tick = v)))]
  have key : ∀ P : MidiEvent → Bool, InOrder ((ys.filter (onChannel c)).filter P) → (addAll (ys.filter (onChannel c)) []).filter P = (ys.filter (onChannel c)).filter P := by
    intro P hP
    rw [addAll_filter .nil]
    exact addAll_eq hP (fun v => rfl)
  refine sounds_ext ?_ ?_
  · rw [sounds_open, key notOff (h1 c), ← sounds_open]
  · intro c' n
    have hk : InOrder ((ys.filter (onChannel c)).filter (onKey c' n)) := by
      rw [List.filter_filter]
      have := (h2 c' n).filter (onChannel c)
      rw [List.filter_filter] at this
      simp only [Bool.and_comm] at this ⊢
      exact this
    rw [sounds_stop c' n _ _ k, sounds_stop c' n _ _ k, key _ hk]

end Player
end Alda
