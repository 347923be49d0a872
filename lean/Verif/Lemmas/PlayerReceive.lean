import Verif.Lemmas.PlayerClock
import Verif.Lemmas.PlayerSound
/-!
What a player does with the bundle of a score.
-/
namespace Alda
namespace Player
open Spec

/-! ### Reading the bundle -/

/-- The event of a track that a message is for. -/
def trackEvent : Msg → Option (Int × Event)
  | .patch t c o v => some (t, .patch c o v)
  | .volume t c o v => some (t, .volume c o v)
  | .panning t c o v => some (t, .panning c o v)
  | .note t c o n d a v => some (t, .note c o n d a v)
  | _ => none

/-- The tempo that a message sets. -/
def tempoOf : Msg → Option (Int × Rat)
  | .tempo o v => some (o, v)
  | _ => none

/-- When a message wants the player to shut down. -/
def shutdownOf : Msg → Option Int
  | .shutdown o => some o
  | _ => none

/-- The tracks of events. -/
def grouped (l : List (Int × List Event)) (es : List (Int × Event)) : List (Int × List Event) := es.foldl (fun l e => addTrackEvent e.1 e.2 l) l

theorem parse_score (ms : List Msg) (h0 : ∀ o, Msg.shutdown o ∈ ms → o ≠ 0) : ∀ u : Updates, (ms.map Instr.score).foldl Updates.parse u =
    { u with
      play := u.play || decide (Msg.play ∈ ms)
      shutdowns := u.shutdowns ++ ms.filterMap shutdownOf
      tempos := u.tempos ++ ms.filterMap tempoOf
      tracks := grouped u.tracks (ms.filterMap trackEvent) } := by
  induction ms with
  | nil => intro u; simp [grouped]
  | cons m ms ih =>
    intro u
    have ih := ih (fun o ho => h0 o (List.mem_cons_of_mem _ ho))
    rw [List.map_cons, List.foldl_cons, ih]
    cases m with
    | shutdown o =>
      have : o ≠ 0 := h0 o (List.mem_cons_self ..)
      simp only [Updates.parse, if_neg this]
      simp [List.filterMap_cons, shutdownOf, tempoOf, trackEvent]
    | _ => simp [List.filterMap_cons, Updates.parse, shutdownOf, tempoOf, trackEvent, grouped]

theorem addTrackEvent_lookup (t : Int) (e : Event) (l : List (Int × List Event)) (t' : Int) :
    ((addTrackEvent t e l).lookup t').getD [] = (l.lookup t').getD [] ++ (if t = t' then [e] else []) := by
  induction l with
  | nil =>
    simp only [addTrackEvent, List.lookup_cons, List.lookup_nil]
    by_cases h : t = t'
    · subst h; simp
    · have : (t' == t) = false := by simpa using fun e => h e.symm
      rw [this]; simp [h]
  | cons a l ih =>
    obtain ⟨k, es⟩ := a
    simp only [addTrackEvent]
    by_cases hk : k = t
    · rw [if_pos hk]
      subst hk
      simp only [List.lookup_cons]
      by_cases h : k = t'
      · subst h; simp
      · have : (t' == k) = false := by simpa using fun e => h e.symm
        rw [this]; simp [h]
    · rw [if_neg hk]
      simp only [List.lookup_cons]
      by_cases h : t' = k
      · subst h
        have : t ≠ t' := fun e => hk e.symm
        simp [this]
      · have : (t' == k) = false := by simpa using h
        rw [this]; exact ih

theorem addTrackEvent_keys (t : Int) (e : Event) (l : List (Int × List Event)) (x : Int) :
    x ∈ (addTrackEvent t e l).map (·.1) ↔ x = t ∨ x ∈ l.map (·.1) := by
  induction l with
  | nil => simp [addTrackEvent]
  | cons a l ih =>
    obtain ⟨k, es⟩ := a
    simp only [addTrackEvent]
    split
    · subst_vars; simp
    · simp only [List.map_cons, List.mem_cons, ih]
      constructor <;> (intro h; rcases h with h | h | h <;> simp [h])

theorem addTrackEvent_nodup (t : Int) (e : Event) (l : List (Int × List Event)) (h : (l.map (·.1)).Nodup) : ((addTrackEvent t e l).map (·.1)).Nodup := by
  induction l with
  | nil => simp [addTrackEvent]
  | cons a l ih =>
    obtain ⟨k, es⟩ := a
    rw [List.map_cons, List.nodup_cons] at h
    simp only [addTrackEvent]
    split
    · rw [List.map_cons, List.nodup_cons]; exact h
    · rename_i hk
      rw [List.map_cons, List.nodup_cons]
      refine ⟨?_, ih h.2⟩
      rw [addTrackEvent_keys]
      rintro (hx | hx)
      · exact hk hx
      · exact h.1 hx

theorem grouped_nodup (es : List (Int × Event)) : ∀ l : List (Int × List Event), (l.map (·.1)).Nodup → ((grouped l es).map (·.1)).Nodup := by
  induction es with
  | nil => intro l h; exact h
  | cons e es ih => intro l h; exact ih _ (addTrackEvent_nodup e.1 e.2 l h)

theorem grouped_lookup (es : List (Int × Event)) (t : Int) : ∀ l : List (Int × List Event),
    ((grouped l es).lookup t).getD [] = (l.lookup t).getD [] ++ (es.filter (fun e => decide (e.1 = t))).map (·.2) := by
  induction es with
  | nil => intro l; simp [grouped]
  | cons e es ih =>
    intro l
    show ((grouped (addTrackEvent e.1 e.2 l) es).lookup t).getD [] = _
    rw [ih, addTrackEvent_lookup]
    by_cases h : e.1 = t
    · rw [if_pos h, List.filter_cons_of_pos (by simpa using h)]; simp
    · rw [if_neg h, List.filter_cons_of_neg (by simpa using h)]; simp

/-! ### Scheduling -/

/-- The events of the sequencer for an event of a track. -/
def midiOf (tick : Int → Int) : Event → List MidiEvent
  | .patch c o v => [⟨tick o, .program c v⟩]
  | .volume c o v => [⟨tick o, .control c expression v⟩]
  | .panning c o v => [⟨tick o, .control c panPosition v⟩]
  | .note c o n _ a v => [⟨tick o, .noteOn c n v⟩, ⟨tick (o + a), .noteOff c n v⟩]

/-- An event that the player can schedule. -/
def Event.Fits : Event → Prop
  | .patch c o v | .volume c o v | .panning c o v => 0 ≤ o ∧ 0 ≤ c ∧ c ≤ 15 ∧ 0 ≤ v ∧ v ≤ 127
  | .note c o n _ a v => 0 ≤ o ∧ 0 ≤ a ∧ 0 ≤ c ∧ c ≤ 15 ∧ 0 ≤ n ∧ n ≤ 127 ∧ 0 ≤ v ∧ v ≤ 127

theorem schedule_fits {tick : Int → Int} {m : Engine} (hi : ∀ o : Int, 0 ≤ o → msToTicks m.itinerary o = some (tick o)) {e : Event} (h : e.Fits) :
    (e.shift 0).schedule m = some { m with track := addAll (midiOf tick e) m.track } := by
  cases e with
  | patch c o v =>
    obtain ⟨h1, h2, h3, h4, h5⟩ := h
    have hv : validShort c v 0 = true := by simp [validShort]; omega
    simp only [Event.shift, Int.add_zero, Event.schedule, Engine.patch, hv, if_true, Engine.scheduleMsg, hi o h1, Option.map_some]; rfl
  | volume c o v =>
    obtain ⟨h1, h2, h3, h4, h5⟩ := h
    have hv : validShort c expression v = true := by simp [validShort, expression]; omega
    simp only [Event.shift, Int.add_zero, Event.schedule, Engine.volume, hv, if_true, Engine.scheduleMsg, hi o h1, Option.map_some]; rfl
  | panning c o v =>
    obtain ⟨h1, h2, h3, h4, h5⟩ := h
    have hv : validShort c panPosition v = true := by simp [validShort, panPosition]; omega
    simp only [Event.shift, Int.add_zero, Event.schedule, Engine.panning, hv, if_true, Engine.scheduleMsg, hi o h1, Option.map_some]; rfl
  | note c o n d a v =>
    obtain ⟨h1, ha, h2, h3, h4, h5, h6, h7⟩ := h
    have hv : validShort c n v = true := by simp [validShort]; omega
    simp only [Event.shift, Int.add_zero, Event.schedule, Engine.note, hv, if_true, Engine.scheduleMsg, hi o h1, hi (o + a) (by omega), Option.map_some, Option.bind_some]; rfl

theorem schedule_all {tick : Int → Int} {base : Int → Option Int} (hb : ∀ t, base t = some 0) (xs : List (Int × Event)) : ∀ {m : Engine},
    (∀ o : Int, 0 ≤ o → msToTicks m.itinerary o = some (tick o)) → (∀ x ∈ xs, x.2.Fits) →
    xs.foldl (scheduleStep base) (m, []) = ({ m with track := addAll (xs.flatMap (fun x => midiOf tick x.2)) m.track }, []) := by
  induction xs with
  | nil => intro m _ _; rfl
  | cons x xs ih =>
    intro m hi hx
    have e : scheduleStep base (m, []) x = ({ m with track := addAll (midiOf tick x.2) m.track }, []) := by
      unfold scheduleStep
      simp only [List.not_mem_nil, if_false, hb]
      rw [schedule_fits hi (hx x (List.mem_cons_self ..))]
    rw [List.foldl_cons, e, ih (m := { m with track := addAll (midiOf tick x.2) m.track }) hi (fun y hy => hx y (List.mem_cons_of_mem _ hy)), List.flatMap_cons, addAll_append]

/-! ### What is heard -/

/-- A note as it is heard if everything is right. -/
def toSound (tick : Int → Int) (h : Msg × Option Int × Option Int × Option Int) : Tone := match h.1 with
  | .note _ c o n _ a v => ⟨tick o, some (tick (o + a)), c, n, v, h.2.1, h.2.2.1, h.2.2.2⟩
  | _ => ⟨0, none, 0, 0, 0, none, none, none⟩

/-- The events of the sequencer for messages. -/
def midiAll (tick : Int → Int) (ms : List Msg) : List MidiEvent := (ms.filterMap trackEvent).flatMap (fun e => midiOf tick e.2)

theorem sounds_midiAll (tick : Int → Int) (ms : List Msg) : ∀ k, tones (midiAll tick ms) k = (listen ms k).map (toSound tick) := by
  induction ms with
  | nil => intro k; rfl
  | cons m ms ih =>
    intro k
    cases m with
    | note t c o n d a v =>
      show tones (⟨tick o, .noteOn c n v⟩ :: ⟨tick (o + a), .noteOff c n v⟩ :: midiAll tick ms) k = _
      simp only [tones, listen, List.map_cons, after, turnedOff, and_self, if_true, ih, toSound, List.nil_append, List.singleton_append]
    | patch t c o v => exact ih _
    | volume t c o v => exact ih _
    | panning t c o v => exact ih _
    | _ => exact ih _

theorem mem_of_filters {α : Type} {l l' : List (Int × α)} (h : ∀ t, (l.filter (fun e => decide (e.1 = t))).map (·.2) = (l'.filter (fun e => decide (e.1 = t))).map (·.2)) :
    ∀ x ∈ l, x ∈ l' := by
  intro x hx
  have : x.2 ∈ (l.filter (fun e => decide (e.1 = x.1))).map (·.2) := List.mem_map.2 ⟨x, List.mem_filter.2 ⟨hx, by simp⟩, rfl⟩
  rw [h] at this
  obtain ⟨y, hy, he⟩ := List.mem_map.1 this
  obtain ⟨hy, h1⟩ := List.mem_filter.1 hy
  have h1 : y.1 = x.1 := by simpa using h1
  have : y = x := Prod.ext h1 he
  rw [← this]; exact hy

/-- Lists that have the same events of each track give the same events of the sequencer where only one track is concerned. -/
theorem flatMap_filter_same {α β : Type} {l l' : List (Int × α)} (h : ∀ t, (l.filter (fun e => decide (e.1 = t))).map (·.2) = (l'.filter (fun e => decide (e.1 = t))).map (·.2))
    (f : α → List β) (P : β → Bool) (hP : ∀ x ∈ l', ∀ y ∈ l', ∀ a ∈ f x.2, ∀ b ∈ f y.2, P a → P b → x.1 = y.1) :
    (l.flatMap (fun x => f x.2)).filter P = (l'.flatMap (fun x => f x.2)).filter P := by
  have hm := mem_of_filters h
  by_cases hex : ∃ x ∈ l', ∃ a ∈ f x.2, P a
  · obtain ⟨x, hx, a, ha, hpa⟩ := hex
    have key : ∀ l'' : List (Int × α), (∀ y ∈ l'', y ∈ l') → (l''.flatMap (fun x => f x.2)).filter P = (((l''.filter (fun e => decide (e.1 = x.1))).map (·.2)).flatMap f).filter P := by
      intro l''
      induction l'' with
      | nil => intro _; rfl
      | cons y l'' ih =>
        intro hs
        have ih := ih (fun z hz => hs z (List.mem_cons_of_mem _ hz))
        rw [List.flatMap_cons, List.filter_append, ih]
        by_cases hy : y.1 = x.1
        · rw [List.filter_cons_of_pos (by simpa using hy), List.map_cons, List.flatMap_cons, List.filter_append]
        · rw [List.filter_cons_of_neg (by simpa using hy)]
          have : (f y.2).filter P = [] := by
            rw [List.filter_eq_nil_iff]
            intro b hb hpb
            exact hy (hP y (hs y (List.mem_cons_self ..)) x hx b hb a ha hpb hpa)
          rw [this]; rfl
    rw [key l hm, key l' (fun y hy => hy), h]
  · have none : ∀ l'' : List (Int × α), (∀ y ∈ l'', y ∈ l') → (l''.flatMap (fun x => f x.2)).filter P = [] := by
      intro l'' hs
      rw [List.filter_eq_nil_iff]
      intro b hb hpb
      obtain ⟨y, hy, hb⟩ := List.mem_flatMap.1 hb
      exact hex ⟨y, hs y hy, b, hb, hpb⟩
    rw [none l hm, none l' (fun y hy => hy)]

end Player
end Alda
