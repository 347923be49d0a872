import Verif.Lemmas.Cells
/-!
What the steps other than part declarations leave alone.
-/
namespace Alda

/-- Without part declarations the current instruments stay the same ones, in the same order. -/
theorem Step.current_origins {L D} (hD : ¬ D) {s t : Score} (h : Step L D s t) (w : WF s) :
    origins t t.current = origins s s.current := by
  have shape : ∀ {u : Score}, SameShape s u → origins u u.current = origins s s.current := by
    intro u hh; rw [hh.current]; exact origins_congr (fun i _ => (hh.cells i).origin)
  have stab := (h.stable w).2
  cases h with
  | attr hid hL hu => exact shape (SameShape.setPart ((updatePart_identity hu).override _))
  | globals hid => exact shape (applyGlobalsPart_shape _ s)
  | record o u hL => exact shape ⟨fun _ => .refl _, rfl, rfl, rfl, rfl, rfl, rfl⟩
  | emit d a hid ha hn hd hc => exact shape (emitted_shape _ _ _ _ _ _)
  | timing o l t d r hid => exact shape (SameShape.setPart ⟨rfl, rfl, rfl, rfl, rfl, rfl⟩)
  | chordMode b => exact shape ⟨fun _ => .refl _, rfl, rfl, rfl, rfl, rfl, rfl⟩
  | marker n o => exact shape ⟨fun _ => .refl _, rfl, rfl, rfl, rfl, rfl, rfl⟩
  | setVar n es hes => exact shape ⟨fun _ => .refl _, rfl, rfl, rfl, rfl, rfl, rfl⟩
  | @template id hid hv ht =>
    exact origins_congr (fun i hi => (stab i (w.cur_lt i hi)).1)
  | @newVoice id t n hid ht hn =>
    obtain ⟨_, _, _, h⟩ := addVoice_rest id n s
    have hc : (addVoice id n s).1.s.current = s.current := by rw [h]
    rw [hc]
    exact origins_congr (fun i hi => (stab i (w.cur_lt i hi)).1)
  | @enterVoice id n v hid hv =>
    obtain ⟨_, h2⟩ := w.vo_mem id (w.cur_lt id hid) _ hv
    exact replaceByOrigin_origins s _ v h2 _
  | endVoices i =>
    rcases voiceEndAt_cases i s with h | ⟨id, v, num, e⟩
    · rw [h]
    · rw [e.current]
      obtain ⟨hm, _, _, hvo⟩ := e.lt w
      have : origins (voiceEndAt i s).s (s.current.set i v) = origins s (s.current.set i v) :=
        origins_congr (fun j _ => e.origin j)
      rw [this]
      simp only [origins, List.map_set, hvo]
      apply List.ext_getElem?
      intro k
      rw [List.getElem?_set]
      split
      · rename_i hk; subst hk
        split
        · rw [List.getElem?_map, e.cur]; rfl
        · rename_i hl; exact (List.getElem?_eq_none (by omega)).symm
      · rfl
  | newPart hD' name h => exact absurd hD' hD
  | declare hD' parts alias hp hn hne hg => exact absurd hD' hD

/-- Without part declarations, parts of instruments that are not current are not changed. -/
theorem Step.frame {L D} (hD : ¬ D) {s t : Score} (h : Step L D s t) (w : WF s) (j : Nat) (hj : j < s.next)
    (ho : (s.heap j).origin ∉ origins s s.current) :
    t.heap j = s.heap j ∧ t.vheap (s.heap j).voices = s.vheap (s.heap j).voices := by
  have ne : ∀ {id}, id ∈ s.current → j ≠ id := fun hid h => ho (by subst h; exact mem_origins hid)
  cases h with
  | attr hid hL hu => exact ⟨if_neg (ne hid), rfl⟩
  | globals hid => obtain ⟨p, h⟩ := applyGlobalsPart_rest _ s; rw [h]; exact ⟨if_neg (ne hid), rfl⟩
  | record o u hL => exact ⟨rfl, rfl⟩
  | @emit id ch note d a hid ha hn hd hc =>
    refine ⟨?_, by rw [(emitted_shape s id ch note d a).vheap]⟩
    rw [emitted_heap, if_neg]
    rintro (h | h)
    · exact ne hid h
    · apply ho; rw [h, w.org_org id (w.cur_lt id hid)]; exact mem_origins hid
  | timing o l t d r hid => exact ⟨if_neg (ne hid), rfl⟩
  | chordMode b => exact ⟨rfl, rfl⟩
  | marker n o => exact ⟨rfl, rfl⟩
  | setVar n es hes => exact ⟨rfl, rfl⟩
  | @template id hid hv ht =>
    refine ⟨?_, rfl⟩
    simp only [Score.modPart, Score.setPart, Score.alloc]
    rw [if_neg (ne hid), if_neg (by omega)]
  | @newVoice id t n hid ht hn =>
    constructor
    · simp only [addVoice, ht, Score.alloc, Score.setPart, Out.ok]; rw [if_neg (by omega)]
    · simp only [addVoice, ht, Score.alloc, Score.setPart, Out.ok]; rw [if_neg]
      intro hv
      apply ho; rw [w.vo_share j hj id (w.cur_lt id hid) hv]; exact mem_origins hid
  | @enterVoice id n v hid hv => exact ⟨rfl, rfl⟩
  | endVoices i =>
    rcases voiceEndAt_cases i s with h | ⟨id, v, num, e⟩
    · rw [h]; exact ⟨rfl, rfl⟩
    · obtain ⟨hm, _, _, hvo⟩ := e.lt w
      refine ⟨?_, ?_⟩
      · rw [e.heap, if_neg]
        intro h; apply ho; rw [h, hvo]; exact mem_origins hm
      · rw [e.vheap, if_neg]
        have := w.vo_lt j hj; omega
  | newPart hD' name h => exact absurd hD' hD
  | declare hD' parts alias hp hn hne hg => exact absurd hD' hD

end Alda
