import Verif.Player.Player
/-!
The order of the events in a track of the sequencer.
-/
namespace Alda
namespace Player

/-- The events are in the order of their ticks. -/
def InOrder (l : List MidiEvent) : Prop := l.Pairwise (fun a b => a.tick ≤ b.tick)

theorem addFromEnd_eq {e : MidiEvent} {l : List MidiEvent} (h : l.Pairwise (fun a b => b.tick ≤ a.tick)) :
    addFromEnd e l = l.filter (fun x => decide (e.tick < x.tick)) ++ e :: l.filter (fun x => decide (x.tick ≤ e.tick)) := by
  induction l with
  | nil => rfl
  | cons x xs ih =>
    rw [List.pairwise_cons] at h
    simp only [addFromEnd]
    by_cases hx : x.tick ≤ e.tick
    · have h1 : (x :: xs).filter (fun x => decide (e.tick < x.tick)) = [] := by
        rw [List.filter_eq_nil_iff]
        intro a ha
        rcases List.mem_cons.1 ha with rfl | ha
        · simp; omega
        · have := h.1 a ha; simp; omega
      have h2 : (x :: xs).filter (fun x => decide (x.tick ≤ e.tick)) = x :: xs := by
        rw [List.filter_eq_self]
        intro a ha
        rcases List.mem_cons.1 ha with rfl | ha
        · simpa using hx
        · have := h.1 a ha; simp; omega
      rw [if_pos hx, h1, h2]; rfl
    · rw [if_neg hx, ih h.2, List.filter_cons_of_pos (by simp; omega), List.filter_cons_of_neg (by simp; omega)]
      rfl

theorem addEvent_eq {e : MidiEvent} {l : List MidiEvent} (h : InOrder l) :
    addEvent e l = l.filter (fun x => decide (x.tick ≤ e.tick)) ++ e :: l.filter (fun x => decide (e.tick < x.tick)) := by
  unfold addEvent
  rw [addFromEnd_eq (by rw [List.pairwise_reverse]; exact h)]
  simp [List.filter_reverse]

theorem inOrder_split {l : List MidiEvent} (h : InOrder l) (v : Int) :
    l.filter (fun x => decide (x.tick ≤ v)) ++ l.filter (fun x => decide (v < x.tick)) = l := by
  induction l with
  | nil => rfl
  | cons x xs ih =>
    unfold InOrder at h
    rw [List.pairwise_cons] at h
    by_cases hx : x.tick ≤ v
    · rw [List.filter_cons_of_pos (by simpa using hx), List.filter_cons_of_neg (by simp; omega), List.cons_append, ih h.2]
    · have h1 : (x :: xs).filter (fun x => decide (x.tick ≤ v)) = [] := by
        rw [List.filter_eq_nil_iff]
        intro a ha
        rcases List.mem_cons.1 ha with rfl | ha
        · simpa using hx
        · have := h.1 a ha; simp; omega
      have h2 : (x :: xs).filter (fun x => decide (v < x.tick)) = x :: xs := by
        rw [List.filter_eq_self]
        intro a ha
        rcases List.mem_cons.1 ha with rfl | ha
        · simp; omega
        · have := h.1 a ha; simp; omega
      rw [h1, h2]; rfl

theorem addEvent_inOrder {e : MidiEvent} {l : List MidiEvent} (h : InOrder l) : InOrder (addEvent e l) := by
  rw [addEvent_eq h]
  unfold InOrder
  rw [List.pairwise_append, List.pairwise_cons]
  refine ⟨h.filter _, ⟨?_, h.filter _⟩, ?_⟩
  · intro a ha
    have := (List.mem_filter.1 ha).2
    simp at this; omega
  · intro a ha b hb
    have ha := (List.mem_filter.1 ha).2
    simp at ha
    rcases List.mem_cons.1 hb with rfl | hb
    · exact ha
    · have hb := (List.mem_filter.1 hb).2
      simp at hb; omega

theorem addEvent_filter {e : MidiEvent} {l : List MidiEvent} (h : InOrder l) (P : MidiEvent → Bool) :
    (addEvent e l).filter P = if P e then addEvent e (l.filter P) else l.filter P := by
  rw [addEvent_eq h, List.filter_append]
  split
  · rename_i hp
    rw [addEvent_eq (h.filter _), List.filter_cons_of_pos hp, List.filter_filter, List.filter_filter, List.filter_filter, List.filter_filter]
    simp only [Bool.and_comm]
  · rename_i hp
    rw [List.filter_cons_of_neg hp, ← List.filter_append, inOrder_split h]

theorem addEvent_at {e : MidiEvent} {l : List MidiEvent} (h : InOrder l) (v : Int) :
    (addEvent e l).filter (fun x => decide (x.tick = v)) = l.filter (fun x => decide (x.tick = v)) ++ (if e.tick = v then [e] else []) := by
  rw [addEvent_filter h]
  by_cases hv : e.tick = v
  · rw [if_pos (by simpa using hv), if_pos hv, addEvent_eq (h.filter _)]
    have h1 : (l.filter (fun x => decide (x.tick = v))).filter (fun x => decide (x.tick ≤ e.tick)) = l.filter (fun x => decide (x.tick = v)) := by
      rw [List.filter_eq_self]
      intro a ha
      have := (List.mem_filter.1 ha).2
      simp at this ⊢; omega
    have h2 : (l.filter (fun x => decide (x.tick = v))).filter (fun x => decide (e.tick < x.tick)) = [] := by
      rw [List.filter_eq_nil_iff]
      intro a ha
      have := (List.mem_filter.1 ha).2
      simp at this ⊢; omega
    rw [h1, h2]
  · rw [if_neg (by simpa using hv), if_neg hv, List.append_nil]

/-- Adding events one after the other. -/
def addAll (xs : List MidiEvent) (l : List MidiEvent) : List MidiEvent := xs.foldl (fun l e => addEvent e l) l

theorem addAll_inOrder {xs l : List MidiEvent} (h : InOrder l) : InOrder (addAll xs l) := by
  unfold addAll
  induction xs generalizing l with
  | nil => exact h
  | cons x xs ih => exact ih (addEvent_inOrder h)

theorem addAll_append {xs ys l : List MidiEvent} : addAll (xs ++ ys) l = addAll ys (addAll xs l) := List.foldl_append ..

theorem addAll_filter {xs l : List MidiEvent} (h : InOrder l) (P : MidiEvent → Bool) : (addAll xs l).filter P = addAll (xs.filter P) (l.filter P) := by
  induction xs generalizing l with
  | nil => rfl
  | cons x xs ih =>
    show (addAll xs (addEvent x l)).filter P = _
    rw [ih (addEvent_inOrder h), addEvent_filter h]
    by_cases hx : P x
    · rw [if_pos hx, List.filter_cons_of_pos hx]; rfl
    · rw [if_neg hx, List.filter_cons_of_neg hx]

theorem addAll_at {xs l : List MidiEvent} (h : InOrder l) (v : Int) :
    (addAll xs l).filter (fun x => decide (x.tick = v)) = l.filter (fun x => decide (x.tick = v)) ++ xs.filter (fun x => decide (x.tick = v)) := by
  induction xs generalizing l with
  | nil => simp [addAll]
  | cons x xs ih =>
    show (addAll xs (addEvent x l)).filter _ = _
    rw [ih (addEvent_inOrder h), addEvent_at h]
    by_cases hx : x.tick = v
    · rw [if_pos hx, List.filter_cons_of_pos (by simpa using hx)]; simp
    · rw [if_neg hx, List.filter_cons_of_neg (by simpa using hx)]; simp

theorem filter_ne_nil_of_mem {α : Type} {P : α → Bool} {a : α} {l : List α} (h : a ∈ l) (hp : P a) : l.filter P ≠ [] := by
  intro hn
  have : a ∈ l.filter P := List.mem_filter.2 ⟨h, hp⟩
  rw [hn] at this; cases this

/-- Two lists in order that agree at each tick are the same. -/
theorem inOrder_ext {a b : List MidiEvent} (ha : InOrder a) (hb : InOrder b)
    (h : ∀ v : Int, a.filter (fun x => decide (x.tick = v)) = b.filter (fun x => decide (x.tick = v))) : a = b := by
  induction a generalizing b with
  | nil =>
    cases b with
    | nil => rfl
    | cons y ys => have := h y.tick; rw [List.filter_cons_of_pos (by simp)] at this; simp at this
  | cons x xs ih =>
    unfold InOrder at ha
    rw [List.pairwise_cons] at ha
    cases b with
    | nil => have := h x.tick; rw [List.filter_cons_of_pos (by simp)] at this; simp at this
    | cons y ys =>
      have hb' := hb
      unfold InOrder at hb
      rw [List.pairwise_cons] at hb
      have hxy : x.tick = y.tick := by
        have h1 : y.tick ≤ x.tick := by
          have := h x.tick
          rw [List.filter_cons_of_pos (by simp)] at this
          have hm : x ∈ (y :: ys).filter (fun z => decide (z.tick = x.tick)) := by rw [← this]; exact List.mem_cons_self ..
          rcases List.mem_cons.1 (List.mem_filter.1 hm).1 with rfl | hm
          · omega
          · exact hb.1 x hm
        have h2 : x.tick ≤ y.tick := by
          have := h y.tick
          rw [List.filter_cons_of_pos (l := ys) (by simp)] at this
          have hm : y ∈ (x :: xs).filter (fun z => decide (z.tick = y.tick)) := by rw [this]; exact List.mem_cons_self ..
          rcases List.mem_cons.1 (List.mem_filter.1 hm).1 with rfl | hm
          · omega
          · exact ha.1 y hm
        omega
      have h0 := h x.tick
      rw [List.filter_cons_of_pos (by simp), List.filter_cons_of_pos (by simp [hxy])] at h0
      have e : x = y := (List.cons.inj h0).1
      subst e
      congr 1
      refine ih ha.2 hb.2 (fun v => ?_)
      have hv := h v
      by_cases hx : x.tick = v
      · rw [List.filter_cons_of_pos (by simpa using hx), List.filter_cons_of_pos (by simpa using hx)] at hv
        exact (List.cons.inj hv).2
      · rw [List.filter_cons_of_neg (by simpa using hx), List.filter_cons_of_neg (by simpa using hx)] at hv
        exact hv

/-- What the events of a list are in order, whatever the order in which they are added, if those for the same tick are added in the right order. -/
theorem addAll_eq {xs ys : List MidiEvent} (hy : InOrder ys)
    (h : ∀ v : Int, xs.filter (fun x => decide (x.tick = v)) = ys.filter (fun x => decide (x.tick = v))) : addAll xs [] = ys := by
  refine inOrder_ext (addAll_inOrder .nil) hy (fun v => ?_)
  rw [addAll_at .nil, ← h v]; rfl

theorem mem_addFromEnd {e x : MidiEvent} {l : List MidiEvent} : x ∈ addFromEnd e l ↔ x = e ∨ x ∈ l := by
  induction l with
  | nil => simp [addFromEnd]
  | cons a l ih =>
    simp only [addFromEnd]
    split
    · simp
    · simp only [List.mem_cons, ih]
      constructor <;> (rintro (h | h | h) <;> simp [h])

theorem mem_addAll {x : MidiEvent} {xs : List MidiEvent} : ∀ {l : List MidiEvent}, x ∈ addAll xs l ↔ x ∈ xs ∨ x ∈ l := by
  induction xs with
  | nil => intro l; simp [addAll]
  | cons e xs ih =>
    intro l
    show x ∈ addAll xs (addEvent e l) ↔ _
    rw [ih]
    unfold addEvent
    rw [List.mem_reverse, mem_addFromEnd, List.mem_reverse, List.mem_cons]
    rw [or_left_comm, or_assoc]

end Player
end Alda
