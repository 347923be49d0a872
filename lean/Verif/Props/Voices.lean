import Verif.Lemmas.TrackVoices
import Verif.Props.Group
import Verif.Props.Line
/-!
C15: voices start together, and the part resumes at the last one to finish.
-/
namespace Alda
open Spec

/-- Everything but numbered endings, and no voices in variables. -/
def voiceMode : Mode := ⟨false, true, false⟩

theorem playVoices_tame {mo : Mode} : ∀ (segs : List (Int × List Upd)), (∀ x ∈ segs, TameL mo false x.2) → TameL mo true (playVoices segs) := by
  have app : ∀ es fs : List Upd, TameL mo true es → TameL mo true fs → TameL mo true (es ++ fs) := by
    intro es fs h1 h2
    induction es with
    | nil => exact h2
    | cons e es ih => simp only [TameL, List.cons_append] at h1 ⊢; exact ⟨h1.1, ih h1.2⟩
  intro segs
  induction segs with
  | nil => intro _; simp [playVoices, TameL]
  | cons x segs ih =>
    intro h
    have : playVoices (x :: segs) = (.voice x.1 :: x.2) ++ playVoices segs := by simp [playVoices]
    rw [this]
    refine app _ _ ?_ (ih (fun y hy => h y (List.mem_cons_of_mem _ hy)))
    simp only [TameL, Tame, true_and]
    exact TameL.mono (by simp) _ (h x (List.mem_cons_self ..))

theorem tameL_append {mo : Mode} {vf : Bool} {es fs : List Upd} (h1 : TameL mo vf es) (h2 : TameL mo vf fs) : TameL mo vf (es ++ fs) := by
  induction es with
  | nil => exact h2
  | cons e es ih => simp only [TameL, List.cons_append] at h1 ⊢; exact ⟨h1.1, ih h1.2⟩

theorem update_prefix {es fs : List Upd} {s : Score} (h : (update (es ++ fs) s).err = none) : (update es s).err = none := by
  rw [update_append] at h
  unfold Out.andThen at h
  split at h
  · assumption
  · simp at h

/-- What a run does to the `i`-th active part, in terms of its track. -/
theorem attributesAfter_track {s : Score} {mo : Mode} (r : Ready mo s) {i id : Nat} (hid : s.current[i]? = some id) (es : List Upd) (ht : TameL mo true es)
    (h : (update es s).err = none) : ∃ u, Track.list es (trackOf s id) = some u ∧ attributesAfter s i es = some (attributes u.cell) := by
  have ran := update_ran true es s ht r h
  obtain ⟨id', h1, h2⟩ := ran.track i id hid
  refine ⟨_, h2, ?_⟩
  unfold attributesAfter
  rw [h1]; rfl

/-- C15: in a voice group every voice starts with the position and attributes the part had when the group began (or, if it is taken up again, with
those it had reached), and after the group the part continues with exactly the attributes of the voice that is furthest.
`segs` are the voices of the group with their events, `stops` the attributes at the end of each. -/
theorem c15_voices {s : Score} (hr : Reachable s) (hv : ∀ n vs, s.vars n = some vs → TameL voiceMode false vs) {i id : Nat}
    (hid : s.current[i]? = some id) (hg : s.vheap (s.heap id).voices = []) (segs : List (Int × List Upd)) (hne : segs ≠ [])
    (hm : ∀ x ∈ segs, TameL voiceMode false x.2) (h : (update (playVoices segs ++ [.voiceEnd]) s).err = none) :
    ∃ stops : List Attributes, stops.length = segs.length ∧
      (∀ (k : Nat) n es, segs[k]? = some (n, es) →
        attributesAfter s i (playVoices (segs.take k) ++ [.voice n]) =
          some (((reached (((segs.take k).map (·.1)).zip stops)).lookup n).getD (attributesAt s id)) ∧
        attributesAfter s i (playVoices (segs.take (k + 1))) = stops[k]?) ∧
      ∃ a, attributesAfter s i (playVoices segs ++ [.voiceEnd]) = some a ∧ Furthest (reached ((segs.map (·.1)).zip stops)) a := by
  have r : Ready voiceMode s := ⟨hr.good.weaken _, fun _ => hv, by simp [voiceMode]⟩
  have hgt : (trackOf s id).group = [] := by show groupOf s id = []; unfold groupOf; rw [hg]; rfl
  have hvt : VarsTame voiceMode (trackOf s id) := fun _ => hv
  have t0 := playVoices_tame segs hm
  have tend : TameL voiceMode true [Upd.voiceEnd] := by simp [TameL, Tame]
  obtain ⟨u, hu, _⟩ := attributesAfter_track r hid _ t0 (update_prefix h)
  have hrev : segs.reverse.reverse = segs := List.reverse_reverse segs
  obtain ⟨stops, ok, _, hin⟩ := group_ok (mo := voiceMode) rfl (trackOf s id) hgt hvt segs.reverse (by rw [hrev]; exact hm) u (by rw [hrev]; exact hu)
  rw [hrev] at ok hin
  refine ⟨stops, ok.length, ?_, ?_⟩
  · intro k n es hk
    have hpre : ∃ fs, playVoices segs ++ [Upd.voiceEnd] = (playVoices (segs.take k) ++ [.voice n]) ++ fs ∧
        ∃ gs, playVoices segs ++ [Upd.voiceEnd] = playVoices (segs.take (k + 1)) ++ gs := by
      have h1 : segs = segs.take k ++ (n, es) :: segs.drop (k + 1) := by
        obtain ⟨hlt, he⟩ := List.getElem?_eq_some_iff.1 hk
        rw [← he, List.getElem_cons_drop, List.take_append_drop]
      refine ⟨es ++ playVoices (segs.drop (k + 1)) ++ [.voiceEnd], ?_, playVoices (segs.drop (k + 1)) ++ [.voiceEnd], ?_⟩
      · conv => lhs; rw [h1]
        simp [playVoices]
      · unfold playVoices
        rw [← List.append_assoc, ← List.flatMap_append, List.take_append_drop]
    obtain ⟨fs, e1, gs, e2⟩ := hpre
    have tk : ∀ j, TameL voiceMode true (playVoices (segs.take j)) := fun j => playVoices_tame _ (fun x hx => hm x (List.mem_of_mem_take hx))
    obtain ⟨u1, a1, b1⟩ := attributesAfter_track r hid (playVoices (segs.take k) ++ [.voice n])
      (tameL_append (tk k) (by simp [TameL, Tame])) (update_prefix (fs := fs) (by rw [← e1]; exact h))
    obtain ⟨u2, a2, b2⟩ := attributesAfter_track r hid (playVoices (segs.take (k + 1))) (tk (k + 1)) (update_prefix (fs := gs) (by rw [← e2]; exact h))
    obtain ⟨v1, c1, d1⟩ := ok.starts k n es hk
    obtain ⟨v2, c2, d2⟩ := ok.stops k n es hk
    rw [a1, Option.some.injEq] at c1; subst c1
    rw [a2, Option.some.injEq] at c2; subst c2
    exact ⟨by rw [b1, d1]; rfl, by rw [b2, d2]⟩
  · obtain ⟨w, a, b⟩ := attributesAfter_track r hid _ (tameL_append t0 tend) h
    refine ⟨_, b, ?_⟩
    rcases hin with ⟨h1, _⟩ | ⟨c, hc⟩
    · exact absurd h1 hne
    · rw [Track.list_append, hu, Option.bind_some] at a
      simp only [Track.list, Track.listWith, Track.updWith] at a
      obtain ⟨w', h5, h6⟩ := bind_some_iff a
      simp only [Option.some.injEq] at h6; subst h6
      exact hc.finish h5

/-- C15: in particular, if no voice is taken up again, every voice starts exactly where and how the group started. -/
theorem c15_start_together {s : Score} (hr : Reachable s) (hv : ∀ n vs, s.vars n = some vs → TameL voiceMode false vs) {i id : Nat}
    (hid : s.current[i]? = some id) (hg : s.vheap (s.heap id).voices = []) (segs : List (Int × List Upd))
    (hm : ∀ x ∈ segs, TameL voiceMode false x.2) (h : (update (playVoices segs ++ [.voiceEnd]) s).err = none) (k : Nat) (n : Int) (es : List Upd)
    (hk : segs[k]? = some (n, es)) (hfresh : n ∉ (segs.take k).map (·.1)) :
    attributesAfter s i (playVoices (segs.take k) ++ [.voice n]) = some (attributesAt s id) := by
  have hne : segs ≠ [] := by rintro rfl; simp at hk
  obtain ⟨stops, hl, hs, _⟩ := c15_voices hr hv hid hg segs hne hm h
  rw [(hs k n es hk).1]
  have : (reached (((segs.take k).map (·.1)).zip stops)).lookup n = none := by
    rw [lookup_mem_keys]
    intro hmem
    have sub : ∀ (l acc : List (Int × Attributes)) (n : Int), n ∈ (l.foldl (fun acc x => place acc x.1 x.2) acc).map (·.1) → n ∈ acc.map (·.1) ∨ n ∈ l.map (·.1) := by
      intro l
      induction l with
      | nil => intro acc n h; exact Or.inl h
      | cons x l ih =>
        intro acc n h
        rcases ih _ n h with h | h
        · rw [place_keys] at h
          split at h
          · exact Or.inl h
          · rcases List.mem_append.1 h with h | h
            · exact Or.inl h
            · simp only [List.mem_singleton] at h; subst h; exact Or.inr (by simp)
        · exact Or.inr (by simp only [List.map_cons, List.mem_cons]; exact Or.inr h)
    rcases sub _ _ n hmem with h | h
    · simp at h
    · apply hfresh
      obtain ⟨x, hx, rfl⟩ := List.mem_map.1 h
      exact (List.of_mem_zip hx).1
  rw [this]; rfl

/-- Three voices; the first two end at the same position, the third earlier. -/
def demoVoices : List (Int × List Upd) :=
  [(1, [.leaf (.note (.letter .C none) [.length 2 0] false)]), (2, [.leaf (.attr (.octave 5)), .leaf (.note (.letter .E none) [.length 2 0] false)]),
   (3, [.leaf (.note (.letter .G none) [.length 4 0] false)])]

/-- The hypotheses of C15 hold for them, for two active parts; and (ties!) the part goes on with the octave of the first voice. -/
example : ∃ s, Reachable s ∧ s.current = [0, 1] ∧ s.vheap (s.heap 1).voices = [] ∧ (∀ n vs, s.vars n = some vs → TameL voiceMode false vs) ∧
    (∀ x ∈ demoVoices, TameL voiceMode false x.2) ∧ (update (playVoices demoVoices ++ [.voiceEnd]) s).err = none ∧
    (attributesAfter s 1 (playVoices demoVoices ++ [.voiceEnd])).map (fun a => (a.position, a.octave)) = some (1000, 4) := by
  refine ⟨(update [.partDecl ["piano", "violin"] ""] newScore).s, ⟨_, rfl⟩, by decide +kernel, by decide +kernel, ?_, ?_, by decide +kernel, by decide +kernel⟩
  · intro n vs h
    have : (update [.partDecl ["piano", "violin"] ""] newScore).s.vars n = none := by with_unfolding_all rfl
    rw [this] at h; simp at h
  · simp [demoVoices, TameL, Tame]

end Alda
