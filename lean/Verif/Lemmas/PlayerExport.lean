import Verif.Lemmas.PlayerTrack
import Verif.Spec.Player
/-!
The events of an exported file.
-/
namespace Alda
namespace Player
open Spec

/-- Moving an event, as it is done for a file. -/
def MidiEvent.back (by_ : Int) (e : MidiEvent) : MidiEvent := { e with tick := max 0 (e.tick - by_) }

theorem addEvent_end {e : MidiEvent} {l : List MidiEvent} (h : ∀ x ∈ l, x.tick ≤ e.tick) : addEvent e l = l ++ [e] := by
  unfold addEvent
  cases hl : l.reverse with
  | nil => rw [List.reverse_eq_nil_iff] at hl; subst hl; rfl
  | cons x xs =>
    have : x ∈ l := by rw [← List.mem_reverse, hl]; exact List.mem_cons_self ..
    have := h x this
    simp only [addFromEnd, ge_iff_le, this, if_true, List.reverse_cons]
    have e : l = xs.reverse ++ [x] := by rw [← List.reverse_reverse l, hl, List.reverse_cons]
    rw [e]

theorem foldl_back (by_ : Int) (l : List MidiEvent) : ∀ acc, InOrder (acc ++ l.map (MidiEvent.back by_)) →
    l.foldl (fun copy e => addEvent { e with tick := max 0 (e.tick - by_) } copy) acc = acc ++ l.map (MidiEvent.back by_) := by
  induction l with
  | nil => intro acc _; simp
  | cons e l ih =>
    intro acc h
    simp only [List.foldl_cons]
    rw [addEvent_end, ih]
    · simp [MidiEvent.back]
    · simpa [MidiEvent.back] using h
    · intro x hx
      unfold InOrder at h
      rw [List.pairwise_append] at h
      exact h.2.2 x hx (MidiEvent.back by_ e) (by simp)

theorem back_inOrder {l : List MidiEvent} (h : InOrder l) (by_ : Int) : InOrder (l.map (MidiEvent.back by_)) := by
  unfold InOrder
  rw [List.pairwise_map]
  refine h.imp ?_
  intro a b hab
  simp only [MidiEvent.back]; omega

/-- Moving a tone. -/
def toneBack (by_ : Int) (t : Tone) : Tone := { t with start := t.start - by_, stop := t.stop.map (· - by_) }

theorem turnedOff_ge {c n : Int} {l : List MidiEvent} {k o : Int} (h : ∀ x ∈ l, k ≤ x.tick) (ho : turnedOff c n l = some o) : k ≤ o := by
  induction l with
  | nil => cases ho
  | cons e l ih =>
    have ih := ih (fun x hx => h x (List.mem_cons_of_mem _ hx))
    have he := h e (List.mem_cons_self ..)
    simp only [turnedOff] at ho
    split at ho
    · split at ho
      · simp only [Option.some.injEq] at ho; omega
      · exact ih ho
    · exact ih ho

theorem turnedOff_back (by_ c n : Int) {l : List MidiEvent} (h : ∀ x ∈ l, by_ ≤ x.tick) :
    turnedOff c n (l.map (MidiEvent.back by_)) = (turnedOff c n l).map (· - by_) := by
  induction l with
  | nil => rfl
  | cons e l ih =>
    have ih := ih (fun x hx => h x (List.mem_cons_of_mem _ hx))
    have he := h e (List.mem_cons_self ..)
    obtain ⟨k, msg⟩ := e
    simp only at he
    cases msg <;> simp only [List.map_cons, MidiEvent.back, turnedOff, ih]
    split
    · simp; omega
    · rfl

theorem tones_back (by_ : Int) {l : List MidiEvent} (h : InOrder l) (hb : ∀ x ∈ l, ∀ c n v, x.msg = .noteOn c n v → by_ ≤ x.tick) : ∀ k,
    tones (l.map (MidiEvent.back by_)) k = (tones l k).map (toneBack by_) := by
  induction l with
  | nil => intro k; rfl
  | cons e l ih =>
    intro k
    unfold InOrder at h
    rw [List.pairwise_cons] at h
    have ih := ih h.2 (fun x hx => hb x (List.mem_cons_of_mem _ hx))
    have he := hb e (List.mem_cons_self ..)
    obtain ⟨t, msg⟩ := e
    cases msg with
    | noteOn c n v =>
      have he := he c n v rfl
      simp only at he
      have : turnedOff c n (l.map (MidiEvent.back by_)) = (turnedOff c n l).map (· - by_) :=
        turnedOff_back by_ c n (fun x hx => by have := h.1 x hx; simp only at this; omega)
      simp only [List.map_cons, MidiEvent.back, tones, after, ih, this, toneBack, List.cons_append, List.nil_append, List.cons.injEq, and_true, Tone.mk.injEq]
      omega
    | _ => simp only [List.map_cons, MidiEvent.back, tones, ih, List.nil_append]

theorem clockFrom_late (by_ : Int) {l : List MidiEvent} : ∀ (a : Int) (u : Rat) (t : Int), (∀ x ∈ l, by_ ≤ x.tick) →
    clockFrom (l.map (MidiEvent.back by_)) (a - by_) u (t - by_) = clockFrom l a u t := by
  induction l with
  | nil =>
    intro a u t _
    simp only [List.map_nil, clockFrom, Rat.intCast_sub]
    grind
  | cons e l ih =>
    intro a u t h
    have he := h e (List.mem_cons_self ..)
    obtain ⟨k, msg⟩ := e
    simp only at he
    have e1 : max 0 (k - by_) = k - by_ := by omega
    cases msg with
    | setTempo u' =>
      simp only [List.map_cons, MidiEvent.back, clockFrom, e1]
      have e2 : (k - by_ ≤ t - by_) ↔ k ≤ t := by omega
      simp only [e2]
      split
      · rw [ih k u' t (fun x hx => h x (List.mem_cons_of_mem _ hx)), Rat.intCast_sub, Rat.intCast_sub]; grind
      · rw [Rat.intCast_sub, Rat.intCast_sub]; grind
    | _ => exact ih a u t (fun x hx => h x (List.mem_cons_of_mem _ hx))

theorem clockFrom_back (by_ : Int) {l : List MidiEvent} (ho : InOrder l) : ∀ (a : Int) (u : Rat) (t : Int), by_ ≤ t →
    clockFrom (l.map (MidiEvent.back by_)) 0 u (t - by_) = clockFrom l a u t - clockFrom l a u by_ := by
  induction l with
  | nil =>
    intro a u t _
    simp only [List.map_nil, clockFrom, Rat.intCast_sub]
    grind
  | cons e l ih =>
    intro a u t ht
    unfold InOrder at ho
    rw [List.pairwise_cons] at ho
    have ih := ih ho.2
    obtain ⟨k, msg⟩ := e
    cases msg with
    | setTempo u' =>
      simp only [List.map_cons, MidiEvent.back, clockFrom]
      by_cases hk : k ≤ by_
      · have e1 : max 0 (k - by_) = 0 := by omega
        rw [e1, if_pos (by omega), if_pos (by omega), if_pos hk, ih k u' t ht]
        have : ((0 : Int) : Rat) = 0 := rfl
        grind
      · have e1 : max 0 (k - by_) = k - by_ := by omega
        rw [e1, if_neg hk]
        have z : ((0 : Int) : Rat) = 0 := rfl
        by_cases hkt : k ≤ t
        · rw [if_pos (by omega), if_pos hkt, clockFrom_late by_ k u' t (fun x hx => by have := ho.1 x hx; simp only at this; omega), Rat.intCast_sub]; grind
        · rw [if_neg (by omega), if_neg hkt, Rat.intCast_sub]; grind
    | _ => exact ih a u t ht

/-! ### The events of a track are always in order -/

theorem scheduleMsg_inOrder {o : Int} {msg : MidiMsg} {m m' : Engine} (h : InOrder m.track) (he : m.scheduleMsg o msg = some m') : InOrder m'.track := by
  unfold Engine.scheduleMsg at he
  obtain ⟨t, _, rfl⟩ := Option.map_eq_some_iff.1 he
  exact addEvent_inOrder h

theorem schedule_inOrder {e : Event} {m m' : Engine} (h : InOrder m.track) (he : e.schedule m = some m') : InOrder m'.track := by
  cases e <;> simp only [Event.schedule, Engine.note, Engine.patch, Engine.volume, Engine.panning] at he <;> split at he <;> try (cases he)
  case note =>
    obtain ⟨m1, h1, h2⟩ := Option.bind_eq_some_iff.1 he
    exact scheduleMsg_inOrder (scheduleMsg_inOrder h h1) h2
  all_goals exact scheduleMsg_inOrder h he

theorem eachOf_inOrder {α : Type} {f : α → Engine → Option Engine} (hf : ∀ a m m', InOrder m.track → f a m = some m' → InOrder m'.track) (l : List α) : ∀ m, InOrder m.track →
    InOrder (eachOf f l m).1.track := by
  induction l with
  | nil => intro m h; exact h
  | cons a l ih =>
    intro m h
    simp only [eachOf]
    cases he : f a m with
    | none => exact h
    | some m' => exact ih m' (hf a m m' h he)

theorem steps_inOrder (base : Int → Option Int) (l : List (Int × Event)) : ∀ r : Engine × List Int, InOrder r.1.track → InOrder (l.foldl (scheduleStep base) r).1.track := by
  induction l with
  | nil => intro r h; exact h
  | cons e l ih =>
    intro r h
    simp only [List.foldl_cons]
    refine ih _ ?_
    unfold scheduleStep
    split
    · exact h
    · split
      · exact h
      · split
        · exact h
        · rename_i m' he
          exact schedule_inOrder h he

theorem apply_inOrder (y : Timing) (u : Updates) (s : State) (h : InOrder s.engine.track) (h1 : u.shutdown = false) (h2 : u.stop = false) : InOrder (applyUpdates y u s).engine.track := by
  unfold applyUpdates
  simp only [h1, h2, Bool.false_eq_true, if_false]
  have h1 := eachOf_inOrder (f := Engine.setOffset) (by
    intro a m m' hm he
    unfold Engine.setOffset at he
    obtain ⟨t, _, rfl⟩ := Option.map_eq_some_iff.1 he
    exact hm) u.offsets _ h
  split
  · exact h1
  · have h2 := eachOf_inOrder (f := fun (t : Int × Rat) m => m.setTempo t.1 t.2) (by
      intro a m m' hm he
      unfold Engine.setTempo at he
      obtain ⟨t, _, rfl⟩ := Option.map_eq_some_iff.1 he
      exact addEvent_inOrder hm) u.tempos _ h1
    split
    · exact h2
    · generalize (eachOf (fun t m => Engine.setTempo t.1 t.2 m) u.tempos _).1 = m at h2
      have h3 : InOrder (scheduleTracks y u.tracks { s with engine := m }).engine.track := steps_inOrder _ (y.mix u.tracks) (m, []) h2
      generalize scheduleTracks y u.tracks { s with engine := m } = s' at *
      have h4 := eachOf_inOrder (f := fun o m => Engine.scheduleShutdown o (m.moved y.tickLater)) (by
        intro a m m' hm he
        unfold Engine.scheduleShutdown at he
        obtain ⟨n, _, he⟩ := Option.bind_eq_some_iff.1 he
        refine scheduleMsg_inOrder ?_ he
        unfold Engine.moved
        split <;> exact hm) u.shutdowns _ h3
      split
      · exact h4
      · split
        · exact h4
        · exact h4

theorem receive_inOrder (y : Timing) (is : List Instr) (s : State) (h : InOrder s.engine.track) : InOrder (receive y is s).engine.track := by
  unfold receive
  generalize parseUpdates is = u
  have := apply_inOrder y { u with shutdown := false, stop := false }
    (if u.stop then { (if u.shutdown then { s with running := false } else s) with engine := { (if u.shutdown then { s with running := false } else s).engine with playing := false } }
      else if u.shutdown then { s with running := false } else s) (by split <;> split <;> exact h) rfl rfl
  exact this

end Player
end Alda
