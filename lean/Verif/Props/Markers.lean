import Verif.Lemmas.Still
import Verif.Lemmas.TrackLine
import Verif.Lemmas.Demo
/-!
C16: markers.
-/
namespace Alda
open Spec

theorem commonOffset_iff (s : Score) (i : Nat) (is : List Nat) (o : Rat) : commonOffset s (i :: is) = some o ↔ ∀ j ∈ i :: is, (s.heap j).offset = o := by
  simp only [commonOffset]
  constructor
  · intro h
    split at h
    · rename_i ha
      cases h
      intro j hj
      rcases List.mem_cons.1 hj with rfl | hj
      · rfl
      · exact eq_of_beq (List.all_eq_true.1 ha j hj)
    · cases h
  · intro h
    have ho := h i (List.mem_cons_self ..)
    have ha : is.all (fun j => (s.heap j).offset == (s.heap i).offset) = true := by
      rw [List.all_eq_true]
      intro j hj
      rw [h j (List.mem_cons_of_mem _ hj), ho]
      exact beq_self_eq_true o
    rw [if_pos ha, ho]

theorem update_one (e : Upd) (s : Score) : update [e] s = upd e s := by
  simp only [update, updListWith, upd]
  rcases updWith derefUpd e s with ⟨x, t⟩
  cases x <;> rfl

/-- C16: a marker can be placed exactly if there are active parts and all are at the same position. Otherwise there is an error and nothing changes. -/
theorem c16_placing (s : Score) (m : String) :
    ((update [.marker m] s).err = none ↔ s.current ≠ [] ∧ ∀ i ∈ s.current, ∀ j ∈ s.current, (s.heap i).offset = (s.heap j).offset) ∧
    ((update [.marker m] s).err ≠ none → (update [.marker m] s).s = s) := by
  rw [update_one]
  simp only [upd, updWith, markerUpd]
  cases hc : s.current with
  | nil => exact ⟨⟨(fun h => by cases h), fun h => absurd rfl h.1⟩, fun _ => rfl⟩
  | cons i is =>
    simp only
    cases ho : commonOffset s (i :: is) with
    | none =>
      refine ⟨⟨(fun h => by cases h), fun h => ?_⟩, fun _ => rfl⟩
      have := (commonOffset_iff s i is (s.heap i).offset).2 (fun j hj => h.2 j hj i (List.mem_cons_self ..))
      rw [ho] at this
      cases this
    | some o =>
      have := (commonOffset_iff s i is o).1 ho
      exact ⟨⟨fun _ => ⟨List.cons_ne_nil _ _, fun a ha b hb => (this a ha).trans (this b hb).symm⟩, fun _ => rfl⟩, fun h => absurd rfl h⟩

/-- What a jump does to the parts. -/
theorem jump_heap (o : Rat) : ∀ (l : List Nat) (s : Score), (forIds (jumpPart o) l s).err = none ∧ (forIds (jumpPart o) l s).s.current = s.current ∧
    (forIds (jumpPart o) l s).s.events = s.events ∧ (∀ id ∈ l, ((forIds (jumpPart o) l s).s.heap id).offset = o) ∧
    ∀ id, id ∉ l → (forIds (jumpPart o) l s).s.heap id = s.heap id := by
  intro l
  induction l with
  | nil => intro s; exact ⟨rfl, rfl, rfl, fun _ h => (by cases h), fun _ _ => rfl⟩
  | cons i l ih =>
    intro s
    simp only [forIds, jumpPart, Out.ok, Out.andThen]
    generalize ht : s.modPart i (fun p => { p with lastOffset := p.offset, offset := o }) = t
    obtain ⟨h1, h2, h3, h4, h5⟩ := ih t
    have hti : (t.heap i).offset = o := by rw [← ht]; simp [Score.modPart, Score.setPart]
    refine ⟨h1, h2.trans (by rw [← ht]; rfl), h3.trans (by rw [← ht]; rfl), ?_, ?_⟩
    · intro id hid
      by_cases hl : id ∈ l
      · exact h4 id hl
      · rcases List.mem_cons.1 hid with rfl | hid
        · show ((forIds (jumpPart o) l t).s.heap id).offset = o
          rw [h5 id hl]; exact hti
        · exact absurd hid hl
    · intro id hid
      have h6 := List.ne_of_not_mem_cons hid
      have h7 := List.not_mem_of_not_mem_cons hid
      show (forIds (jumpPart o) l t).s.heap id = s.heap id
      rw [h5 id h7, ← ht]
      simp [Score.modPart, Score.setPart, h6]

theorem applyGlobals_elsewhere : ∀ (l : List Nat) (s : Score), (forIds applyGlobalsPart l s).s.current = s.current ∧
    (forIds applyGlobalsPart l s).s.events = s.events ∧ ∀ id, id ∉ l → (forIds applyGlobalsPart l s).s.heap id = s.heap id := by
  intro l
  induction l with
  | nil => intro s; exact ⟨rfl, rfl, fun _ _ => rfl⟩
  | cons i l ih =>
    intro s
    obtain ⟨p, hp⟩ := applyGlobalsPart_rest i s
    have h0 : (applyGlobalsPart i s).s.current = s.current ∧ (applyGlobalsPart i s).s.events = s.events ∧
        ∀ id, id ≠ i → (applyGlobalsPart i s).s.heap id = s.heap id := by
      rw [hp]; exact ⟨rfl, rfl, fun id hid => by simp [Score.setPart, hid]⟩
    simp only [forIds]
    rcases hg : applyGlobalsPart i s with ⟨e, t⟩
    rw [hg] at h0
    cases e with
    | some e => exact ⟨h0.1, h0.2.1, fun id hid => h0.2.2 id (List.ne_of_not_mem_cons hid)⟩
    | none =>
      obtain ⟨h1, h2, h3⟩ := ih t
      exact ⟨h1.trans h0.1, h2.trans h0.2.1, fun id hid => (h3 id (List.not_mem_of_not_mem_cons hid)).trans (h0.2.2 id (List.ne_of_not_mem_cons hid))⟩

/-- C16: after a marker was placed, and any events that do not place it again, going to it moves every part that is active then to the position that the parts had when
the marker was placed. No other part changes, and no note is added or lost. -/
theorem c16_returns (s : Score) (m : String) (hok : (update [.marker m] s).err = none) (hv : NoPlace m s.vars) (between : List Upd) (hb : ¬ PlacesL m between) :
    let s' := (update between (update [.marker m] s).s).s
    let r := update [.atMarker m] s'
    (r.err = none → ∀ id ∈ s'.current, ∀ j ∈ s.current, (r.s.heap id).offset = (s.heap j).offset) ∧
    r.s.current = s'.current ∧ r.s.events = s'.events ∧ (∀ id, id ∉ s'.current → r.s.heap id = s'.heap id) ∧
    (NoGlobal s'.globals [.midiChannel] → r.err = none) := by
  intro s' r
  rw [update_one] at hok
  simp only [upd, updWith, markerUpd] at hok
  cases hc : s.current with
  | nil => rw [hc] at hok; cases hok
  | cons i is =>
    rw [hc] at hok
    simp only at hok
    cases ho : commonOffset s (i :: is) with
    | none => rw [ho] at hok; cases hok
    | some o =>
      have hall := (commonOffset_iff s i is o).1 ho
      have e0 : update [.marker m] s = .ok { s with markers := fun n => if n = m then some o else s.markers n } := by
        rw [update_one]
        simp only [upd, updWith, markerUpd, hc, ho]
      have hm : s'.markers m = some o := by
        rw [show s'.markers m = _ from (update_keepsMarker m between hb _ (by rw [e0]; exact hv)).1, e0]
        simp only [Out.ok, if_pos]
      obtain ⟨a1, a2, a3⟩ := applyGlobals_elsewhere s'.current s'
      have am : (applyGlobals s').s.markers m = some o := by rw [(applyGlobals_still s').1]; exact hm
      have hr : r = (applyGlobals s').andThen (fun s => match s.markers m with
          | none => .fail (.user "Marker undefined") s
          | some o => forIds (jumpPart o) s.current s) := by
        show update [.atMarker m] s' = _
        rw [update_one]; simp only [upd, updWith, atMarkerUpd]; rfl
      have hg : NoGlobal s'.globals [.midiChannel] → (applyGlobals s').err = none := by
        intro hn
        have key : ∀ us p, (∀ u ∈ us, u.kind ∉ [AttrKind.midiChannel]) → (applyUpdates us p).1 = none := by
          intro us
          induction us with
          | nil => intro p _; rfl
          | cons u us ih =>
            intro p h
            simp only [applyUpdates]
            split
            · exact ih p (fun u hu => h u (List.mem_cons_of_mem _ hu))
            · have hk := h u (List.mem_cons_self ..)
              have ht := fun p => ih p (fun u hu => h u (List.mem_cons_of_mem _ hu))
              cases u with
              | midiChannel n => exact (hk (by simp [PartUpd.kind])).elim
              | _ => exact ht _
        have loop : ∀ (l : List Nat) (t : Score), t.globals = s'.globals → (forIds applyGlobalsPart l t).err = none := by
          intro l
          induction l with
          | nil => intro t _; rfl
          | cons i l ih =>
            intro t ht
            have h0 := key (t.globals.inWindow (t.heap i).lastOffset (t.heap i).offset) (t.heap i) (by
              intro u hu
              obtain ⟨x, us, h1, h2⟩ := inWindowFrom_mem _ hu
              rw [ht] at h1
              exact hn x us h1 u h2)
            simp only [forIds, applyGlobalsPart]
            rcases hx : applyUpdates (t.globals.inWindow (t.heap i).lastOffset (t.heap i).offset) (t.heap i) with ⟨e, p⟩
            rw [hx] at h0
            simp only at h0
            subst h0
            exact ih _ ht
        exact loop s'.current s' rfl
      unfold applyGlobals at am hr hg
      rw [hr]
      rcases hx : forIds applyGlobalsPart s'.current s' with ⟨e, t⟩
      rw [hx] at a1 a2 a3 am hg
      simp only at a1 a2 a3 am hg
      cases e with
      | some e =>
        refine ⟨fun h => (by cases h), a1, a2, a3, fun h => ?_⟩
        cases hg h
      | none =>
        obtain ⟨j1, j2, j3, j4, j5⟩ := jump_heap o t.current t
        simp only [Out.andThen, am]
        refine ⟨fun _ id hid j hj => ?_, j2.trans a1, j3.trans a2, fun id hid => ?_, fun _ => j1⟩
        · rw [hall j hj]
          exact j4 id (a1 ▸ hid)
        · rw [j5 id (by rw [a1]; exact hid), a3 id hid]

/-- C16: going to a marker that no event has placed is an error. -/
theorem c16_undefined (program : List Upd) (m : String) (h : ¬ PlacesL m program) :
    (update [.atMarker m] (update program newScore).s).err ≠ none := by
  have hm : (update program newScore).s.markers m = none := (update_keepsMarker m program h newScore (fun _ _ hn => by cases hn)).1
  rw [update_one]
  simp only [upd, updWith, atMarkerUpd]
  have am : (applyGlobals (update program newScore).s).s.markers m = none := by rw [(applyGlobals_still _).1]; exact hm
  rcases hx : applyGlobals (update program newScore).s with ⟨e, t⟩
  rw [hx] at am
  cases e with
  | some e => exact fun h => by cases h
  | none =>
    simp only [Out.andThen]
    rw [show t.markers m = none from am]
    exact fun h => by cases h

/-- `piano: c c %here d violin: r1 r1 r1 %there @here`: the violin goes back to the piano's third beat. -/
example :
    let c : Upd := .leaf (.note (.letter .C none) [] false)
    let s := (update [.partDecl ["piano"] "", c, c] newScore).s
    let between : List Upd := [c, .partDecl ["violin"] "", .rep (.leaf (.rest [.length 1 0])) 3, .marker "there"]
    (update [.marker "here"] s).err = none ∧ NoPlace "here" s.vars ∧ ¬ PlacesL "here" between ∧
    (let s' := (update between (update [.marker "here"] s).s).s
     let r := update [.atMarker "here"] s'
     r.err = none ∧ s'.current = [1] ∧ (s'.heap 1).offset = 6000 ∧ (r.s.heap 1).offset = 1000 ∧ NoGlobal s'.globals [.midiChannel]) := by
  refine ⟨by decide +kernel, ?_, by simp [PlacesL, Places], by decide +kernel, by decide +kernel, by decide +kernel, by decide +kernel, ?_⟩
  · intro n es h
    have : (update [.partDecl ["piano"] "", .leaf (.note (.letter .C none) [] false), .leaf (.note (.letter .C none) [] false)] newScore).s.vars n = none := by
      with_unfolding_all rfl
    rw [this] at h
    cases h
  · intro o us h
    exact absurd h (by
      have : NoGlobals newScore.globals := fun _ => rfl
      exact fun h => by with_unfolding_all cases h)

end Alda
