import Verif.Lemmas.Enough
/-!
C49: fifteen instruments get a channel of their own each.
-/
namespace Alda
open Spec

/-- The instruments of a score that are not percussion. -/
def Spec.melodic (s : Score) : List Nat := (instances s).filter (fun o => !(s.heap o).instr.percussion)

theorem isMelodic_mem {s : Score} {o : Nat} : IsMelodic s o ↔ o ∈ melodic s := by
  simp [IsMelodic, melodic]

theorem update_usage {program : List Upd} (hL : AllLeavesL NoChannelLeaf program) (hm : (melodic (update program newScore).s).length ≤ 15) :
    UsageInv (update program newScore).s :=
  (enough_update program hL).usage ⟨_, hm, fun _ h => isMelodic_mem.1 h⟩

/-- C49: in a program that sets no MIDI channel and has at most fifteen instruments besides percussion, two notes of such instruments are on the same channel exactly
if the same instrument plays them. -/
theorem c49_own_channel (program : List Upd) (hL : AllLeavesL NoChannelLeaf program) (s : Score) (hs : s = (update program newScore).s)
    (hm : (melodic s).length ≤ 15) (a b : NoteEvent) (ha : a ∈ s.events) (hb : b ∈ s.events) (hpa : ¬ IsPercussive s a) (hpb : ¬ IsPercussive s b) :
    a.channel = b.channel ↔ a.part = b.part := by
  subst hs
  have u := update_usage hL hm
  have c := channelInv_update program
  have key : ∀ e ∈ (update program newScore).s.events, ¬ IsPercussive (update program newScore).s e →
      0 ≤ e.channel ∧ e.channel.toNat < 16 ∧ e.channel.toNat ≠ 9 ∧ (update program newScore).s.usage e.channel.toNat = [e.part] := by
    intro e he hp
    obtain ⟨_, _, h3, h4, h5, h6⟩ := c.notes e he
    have h9 : e.channel ≠ 9 := fun h => hp (h6.2 h)
    refine ⟨h3, by omega, by omega, ?_⟩
    rcases u.single e.channel.toNat (by omega) (by omega) with h | ⟨o, h, _⟩
    · rw [h] at h5; simp at h5
    · rw [h] at h5 ⊢
      simp only [List.mem_singleton] at h5
      rw [h5]
  obtain ⟨a0, a1, a2, a3⟩ := key a ha hpa
  obtain ⟨b0, b1, b2, b3⟩ := key b hb hpb
  constructor
  · intro e
    rw [e, b3] at a3
    simpa using a3.symm
  · intro e
    have := u.distinct _ a1 _ b1 a2 b2 _ a3 (by rw [b3, e])
    omega

theorem Step.toTrue {L D} {s t : Score} (h : Step L D s t) : Step L True s t := by
  cases h with
  | newPart hD name h => exact .newPart trivial name h
  | declare hD parts alias hp hn hne hg => exact .declare trivial parts alias hp hn hne hg
  | attr hid hL hu => exact .attr hid hL hu
  | globals hid => exact .globals hid
  | record o u hL => exact .record o u hL
  | emit d a hid ha hn hd hc => exact .emit d a hid ha hn hd hc
  | timing o l t d r hid => exact .timing o l t d r hid
  | chordMode b => exact .chordMode b
  | marker n o => exact .marker n o
  | setVar n es hes hpl => exact .setVar n es hes hpl
  | template hid hv ht => exact .template hid hv ht
  | newVoice n hid ht hn => exact .newVoice n hid ht hn
  | enterVoice hid hv => exact .enterVoice hid hv
  | endVoices i => exact .endVoices i

theorem Steps.toTrue {L D} {s t : Score} (h : Steps L D s t) : Steps L True s t := by
  induction h with
  | refl => exact .refl _
  | tail _ hst ih => exact .tail ih hst.toTrue

theorem Steps.stable {L D} {s t : Score} (h : Steps L D s t) (w : WF s) : WF t ∧ s.next ≤ t.next ∧ ∀ i < s.next, (t.heap i).origin = (s.heap i).origin ∧ (t.heap i).instr = (s.heap i).instr := by
  induction h with
  | refl => exact ⟨w, Nat.le_refl _, fun _ _ => ⟨rfl, rfl⟩⟩
  | tail _ hst ih =>
    obtain ⟨w1, h1, h2⟩ := ih
    obtain ⟨h3, h4⟩ := hst.stable w1
    exact ⟨hst.wf w1, by omega, fun i hi => ⟨(h4 i (by omega)).1.trans (h2 i hi).1, (h4 i (by omega)).2.1.trans (h2 i hi).2⟩⟩

theorem Steps.melodic {L} {s t : Score} (h : Steps L False s t) (w : WF s) : Spec.melodic t = Spec.melodic s := by
  have v := (h.view w).1
  have e : ∀ u : Score, instances u = (partView u).map (·.1) := fun u => by simp [instances, partView, List.map_map, Function.comp_def]
  have he : instances t = instances s := by rw [e, v.1, ← e]
  unfold Spec.melodic
  rw [he]
  refine List.filter_congr (fun o ho => ?_)
  rw [((h.stable w).2.2 o (instances_lt w ho)).2]

/-- A state in which at most fifteen instruments share the channels. -/
structure FewInv (s : Score) : Prop where
  inv : EnoughInv (fun m => m.length ≤ 15) s
  few : (melodic s).length ≤ 15

theorem FewInv.steps {s t : Score} (f : FewInv s) (h : Steps NoChannelLeaf False s t) : FewInv t :=
  ⟨h.toTrue.invariant (fun _ _ h => h.enough) f.inv, by rw [h.melodic f.inv.good.wf]; exact f.few⟩

theorem FewInv.usage {s : Score} (f : FewInv s) : UsageInv s := f.inv.usage ⟨_, f.few, fun _ h => isMelodic_mem.1 h⟩

/-- There is a channel for every active part. -/
theorem FewInv.assign {s : Score} (f : FewInv s) {id : Nat} (hid : id ∈ s.current) (a : Rat) :
    ∃ ch : Int, determineMidiChannel s (s.heap id) a = .ok ch ∧ 0 ≤ ch ∧ ch < 16 := by
  have w := f.inv.good.wf
  have hlt := w.cur_lt id hid
  cases hperc : (s.heap id).instr.percussion with
  | true => exact ⟨9, by simp [determineMidiChannel, hperc], by decide, by decide⟩
  | false =>
    obtain ⟨ch, h, h16, _⟩ := channel_ok f.usage (fun _ h => isMelodic_mem.1 h) f.few (current_melodic w hid hperc) hperc (f.inv.any id hlt) (f.inv.nine id hlt) a
    exact ⟨ch, h, by omega, by omega⟩

/-- The reasons for which a note can fail. -/
def Spec.NoteErr (e : Err) : Prop :=
  e = .nonFinite ∨ e = .user "invalid duration" ∨ e = .user "MIDI note out of the 0-127 range"

theorem FewInv.emitNote {s : Score} (f : FewInv s) {id : Nat} (hid : id ∈ s.current) (pitch : Pitch) (ms aud : Rat) (e : Err)
    (h : (emitNote pitch ms aud id s).err = some e) : Spec.NoteErr e := by
  simp only [Alda.emitNote] at h
  split at h
  · simp only [Out.fail, Option.some.injEq] at h; exact .inr (.inr h.symm)
  · obtain ⟨ch, hc, h0, h16⟩ := f.assign hid aud
    simp only [assignMidiChannel, hc, h0, h16, and_self, if_true] at h
    simp [Out.ok] at h

theorem FewInv.notePart {s : Score} (f : FewInv s) {id : Nat} (hid : id ∈ s.current) (pitch : Pitch) (d : Dur) (sl : Bool) (e : Err)
    (h : (notePart pitch d sl id s).err = some e) : Spec.NoteErr e := by
  simp only [Alda.notePart] at h
  split at h
  · simp only [Out.fail, Option.some.injEq] at h; exact .inl h.symm
  · rename_i ms _
    generalize hms : ms * (s.heap id).timeScale = dms at h
    generalize (if sl = true then dms else dms * (s.heap id).quant) = aud at h
    by_cases ha : aud > 0
    · rw [if_pos ha] at h
      rcases Out.andThen_s (Alda.emitNote pitch dms aud id s) (fun s' => .ok (advancePart s' id dms (effectiveDuration d (s.heap id)))) with ⟨h1, _, h2⟩ | ⟨x, h1, _, h2⟩
      · rw [h2] at h; simp [Out.ok] at h
      · rw [h2] at h
        simp only [Option.some.injEq] at h
        subst h
        exact f.emitNote hid pitch dms aud x h1
    · rw [if_neg ha] at h
      simp [Out.andThen, Out.ok] at h

theorem applyUpdates_noChannel : ∀ (us : List PartUpd) (p : Part), (∀ u ∈ us, NoChannelLeaf (.globalAttr u)) → (applyUpdates us p).1 = none := by
  intro us
  induction us with
  | nil => intro p _; rfl
  | cons u us ih =>
    intro p h
    have ih' := fun p => ih p (fun v hv => h v (List.mem_cons_of_mem _ hv))
    have hu := h u (List.mem_cons_self ..)
    simp only [applyUpdates]
    split
    · exact ih' p
    · split
      · rename_i e he
        cases u <;> first | exact hu.elim | simp [updatePart] at he
      · exact ih' _

theorem FewInv.globals {s : Score} (f : FewInv s) (id : Nat) : (applyGlobalsPart id s).err = none := by
  have := applyUpdates_noChannel (s.globals.inWindow (s.heap id).lastOffset (s.heap id).offset) (s.heap id) (by
    intro u hu
    obtain ⟨o, us, h1, h2⟩ := inWindowFrom_mem _ hu
    exact f.inv.globals o us h1 u h2)
  simp only [applyGlobalsPart]
  split
  · rename_i e p h; rw [h] at this; simp at this
  · rfl

/-- A loop over active parts fails only for reasons for which its body fails. -/
theorem FewInv.forIds {E : Err → Prop} {g : Nat → Score → Out} (hg : ∀ i s, i ∈ s.current → Steps NoChannelLeaf False s (g i s).s ∧ (g i s).s.current = s.current)
    (he : ∀ i s, FewInv s → i ∈ s.current → ∀ e, (g i s).err = some e → E e) : ∀ (ids : List Nat) (s : Score), FewInv s → (∀ i ∈ ids, i ∈ s.current) →
      ∀ e, (forIds g ids s).err = some e → E e := by
  intro ids
  induction ids with
  | nil => intro s _ _ e h; simp [Alda.forIds, Out.ok] at h
  | cons i is ih =>
    intro s f hi e h
    obtain ⟨h1, h2⟩ := hg i s (hi i (List.mem_cons_self ..))
    simp only [Alda.forIds] at h
    rcases Out.andThen_s (g i s) (Alda.forIds g is) with ⟨_, _, h3⟩ | ⟨x, h3, _, h4⟩
    · rw [h3] at h
      exact ih _ (f.steps h1) (fun j hj => by rw [h2]; exact hi j (List.mem_cons_of_mem _ hj)) e h
    · rw [h4] at h
      simp only [Option.some.injEq] at h
      subst h
      exact he i s f (hi i (List.mem_cons_self ..)) x h3

theorem FewInv.beforeNote {s : Score} (f : FewInv s) (d : Dur) (e : Err) (h : (beforeNote d s).err = some e) : Spec.NoteErr e := by
  simp only [Alda.beforeNote] at h
  have h1 : (if s.chordMode = true then Out.ok s else applyGlobals s).err = none := by
    split
    · rfl
    · cases hx : (applyGlobals s).err with
      | none => rfl
      | some x =>
        have : (applyGlobals s).err = some x → False := fun hh => FewInv.forIds (E := fun _ => False) (g := applyGlobalsPart)
          (fun i s hi => ⟨.one (.globals hi), by obtain ⟨p, h⟩ := applyGlobalsPart_rest i s; rw [h]; rfl⟩)
          (fun i s f _ e he => by rw [f.globals i] at he; simp at he) s.current s f (fun _ h => h) x hh
        exact (this hx).elim
  rcases Out.andThen_s (if s.chordMode = true then Out.ok s else applyGlobals s) (fun s => if d.valid then .ok s else .fail (.user "invalid duration") s) with ⟨_, _, h3⟩ | ⟨x, h3, _, h4⟩
  · rw [h3] at h
    split at h
    · simp [Out.ok] at h
    · simp only [Out.fail, Option.some.injEq] at h; exact .inr (.inl h.symm)
  · rw [h1] at h3; simp at h3

theorem FewInv.note {s : Score} (f : FewInv s) (pitch : Pitch) (d : Dur) (sl : Bool) (e : Err) (h : (noteUpd pitch d sl s).err = some e) : Spec.NoteErr e := by
  simp only [noteUpd] at h
  have hb := f.steps (beforeNote_steps (L := NoChannelLeaf) (D := False) d s)
  rcases Out.andThen_s (Alda.beforeNote d s) (fun s => Alda.forIds (Alda.notePart pitch d sl) s.current s) with ⟨_, _, h3⟩ | ⟨x, h3, _, h4⟩
  · rw [h3] at h
    exact FewInv.forIds (fun i s hi => notePart_steps pitch d sl i s hi) (fun i s f hi e he => f.notePart hi pitch d sl e he) _ _ hb (fun _ h => h) e h
  · rw [h4] at h
    simp only [Option.some.injEq] at h
    subst h
    exact f.beforeNote d x h3

theorem update_one_leaf (l : Leaf) (s : Score) : update [.leaf l] s = leafUpd l s := by
  simp only [update, updListWith, updWith]
  rcases leafUpd l s with ⟨x, t⟩
  cases x <;> rfl

/-- C49, no shortage: in such a program a note never fails for want of a channel; the only errors are a duration that is invalid or not finite, and a note outside of
0-127. -/
theorem c49_no_shortage (program : List Upd) (hL : AllLeavesL NoChannelLeaf program) (s : Score) (hs : s = (update program newScore).s)
    (hm : (melodic s).length ≤ 15) (pitch : Pitch) (d : Dur) (slurred : Bool) (e : Err) (h : (update [.leaf (.note pitch d slurred)] s).err = some e) : Spec.NoteErr e := by
  have f : FewInv s := by subst hs; exact ⟨enough_update program hL, hm⟩
  rw [update_one_leaf] at h
  exact f.note pitch d slurred e h

/-! ### Fifteen instruments and drums at the same time, and one more -/

/-- Instruments that are not percussion. -/
def fifteen : List String := ["piano", "flute", "violin", "viola", "cello", "clarinet", "oboe", "bassoon", "trumpet", "trombone", "tuba", "banjo", "harmonica",
  "accordion", "sitar"]

/-- Each of the instruments plays a note and then another one. -/
def tutti (names : List String) : List Upd :=
  names.flatMap (fun n => [.partDecl [n] "", .leaf (.note (.letter .C none) [] false), .leaf (.note (.letter .G none) [] false)])

example : AllLeavesL NoChannelLeaf (tutti (fifteen ++ ["percussion"])) := by simp [tutti, fifteen, AllLeavesL, AllLeaves, NoChannelLeaf]

example : (melodic (update (tutti (fifteen ++ ["percussion"])) newScore).s).length = 15 := by decide +kernel

example : (update (tutti (fifteen ++ ["percussion"])) newScore).err = none ∧
    (update (tutti (fifteen ++ ["percussion"])) newScore).s.events.map (·.channel) =
      [0, 0, 1, 1, 2, 2, 3, 3, 4, 4, 5, 5, 6, 6, 7, 7, 8, 8, 10, 10, 11, 11, 12, 12, 13, 13, 14, 14, 15, 15, 9, 9] := by decide +kernel

/-- The bound is exact: there is no channel for a sixteenth instrument that plays along. -/
theorem c49_sixteen : (melodic (update (tutti (fifteen ++ ["guitar"])) newScore).s).length = 16 ∧
    (update (tutti (fifteen ++ ["guitar"])) newScore).err = some (.user "No MIDI channel available") := by decide +kernel

end Alda
