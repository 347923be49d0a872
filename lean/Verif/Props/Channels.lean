import Verif.Lemmas.Frame
import Verif.Lemmas.Demo
import Verif.Spec.Notes
/-!
C01 - C04: notes and MIDI channels.
-/
namespace Alda
open Spec

/-! ### C01 -/

theorem Step.noteRange {L D} {s t : Score} (h : Step L D s t) (hs : ∀ e ∈ s.events, 0 ≤ e.note ∧ e.note ≤ 127) :
    ∀ e ∈ t.events, 0 ≤ e.note ∧ e.note ≤ 127 := by
  rcases h.notes with ⟨h, _⟩ | ⟨id, ch, note, d, a, _, _, hn, _, _, rfl⟩
  · rw [h]; exact hs
  · intro e he
    rw [emitted_events] at he
    rcases List.mem_append.1 he with he | he
    · exact hs e he
    · simp only [List.mem_singleton] at he; subst he; exact hn

/-- C01: whatever the program, every note in the score has a MIDI number between 0 and 127 (also when evaluation stopped with an error). -/
theorem c01_note_range (program : List Upd) : ∀ e ∈ (update program newScore).s.events, 0 ≤ e.note ∧ e.note ≤ 127 :=
  (update_all_steps program newScore (newScore_good _ _)).invariant (fun _ _ h => h.noteRange) (by simp [newScore])

example : (update demo newScore).s.events.map (·.note) = [60, 64, 67, 60] := by decide +kernel

/-! ### What the channel assignment returns -/

theorem simpleCheckFrom_some (s : Score) (p : Part) : ∀ (chs : List Nat) (ch : Nat), simpleCheckFrom s p chs = some ch →
    ch ∈ chs ∧ ch ≠ 9 ∧ (s.usage ch = [] ∨ s.usage ch = [p.origin]) := by
  intro chs
  induction chs with
  | nil => intro ch h; simp [simpleCheckFrom] at h
  | cons c cs ih =>
    intro ch h
    simp only [simpleCheckFrom] at h
    split at h
    · obtain ⟨a, b⟩ := ih ch h; exact ⟨List.mem_cons_of_mem _ a, b⟩
    · split at h
      · rename_i hu
        simp only [Option.some.injEq] at h
        subst h
        refine ⟨List.mem_cons_self .., by assumption, ?_⟩
        simpa [channelIsUnused, partHasExclusiveAccess] using hu
      · obtain ⟨a, b⟩ := ih ch h; exact ⟨List.mem_cons_of_mem _ a, b⟩

theorem complexCheckFrom_some (s : Score) (p : Part) (d : Rat) : ∀ (chs : List Nat) (ch : Int),
    complexCheckFrom s p d chs = some ch → (∃ c ∈ chs, ch = (c : Int)) ∧ ch ≠ 9 ∧ channelUnavailable s p d ch = false := by
  intro chs
  induction chs with
  | nil => intro ch h; simp [complexCheckFrom] at h
  | cons c cs ih =>
    intro ch h
    simp only [complexCheckFrom] at h
    split at h
    · obtain ⟨⟨x, hx, hxe⟩, b⟩ := ih ch h; exact ⟨⟨x, List.mem_cons_of_mem _ hx, hxe⟩, b⟩
    · rename_i h9
      split at h
      · obtain ⟨⟨x, hx, hxe⟩, b⟩ := ih ch h; exact ⟨⟨x, List.mem_cons_of_mem _ hx, hxe⟩, b⟩
      · rename_i hu
        simp only [Option.some.injEq] at h
        subst h
        exact ⟨⟨c, List.mem_cons_self .., rfl⟩, by omega, by simpa using hu⟩

/-- Why a channel was acceptable for a new note of a non-percussion part. -/
def ChannelFree (s : Score) (p : Part) (d : Rat) (ch : Int) : Prop :=
  s.usage ch.toNat = [] ∨ s.usage ch.toNat = [p.origin] ∨ channelUnavailable s p d ch = false

theorem availableMidiChannel_ok (s : Score) (p : Part) (d : Rat) (ch : Int) (h9 : p.midiChannel ≠ 9)
    (h : availableMidiChannel s p d = .ok ch) : ch ≠ 9 ∧ ChannelFree s p d ch := by
  simp only [availableMidiChannel] at h
  split at h
  · rename_i c hc
    simp only [Except.ok.injEq] at h
    subst h
    obtain ⟨_, a, b⟩ := simpleCheckFrom_some s p _ c hc
    exact ⟨by omega, b.elim Or.inl (fun h => Or.inr (Or.inl h))⟩
  · split at h
    · rename_i c hc
      simp only [Except.ok.injEq] at h
      subst h
      simp only [complexCheck] at hc
      split at hc
      · rename_i hh
        simp only [Option.some.injEq] at hc
        subst hc
        exact ⟨h9, Or.inr (Or.inr hh.2)⟩
      · obtain ⟨_, a, b⟩ := complexCheckFrom_some s p d _ _ hc
        exact ⟨a, Or.inr (Or.inr b)⟩
    · simp at h

theorem complexCheck_ok (s : Score) (p : Part) (d : Rat) (ch : Int) (h : complexCheck s p d = some ch) :
    channelUnavailable s p d ch = false := by
  simp only [complexCheck] at h
  split at h
  · rename_i hh
    simp only [Option.some.injEq] at h
    subst h
    exact hh.2
  · exact (complexCheckFrom_some s p d _ _ h).2.2

/-- The channel found for a part: percussion is always on 9; others are never on 9 and the channel is free for them. -/
theorem determineMidiChannel_ok (s : Score) (p : Part) (d : Rat) (ch : Int)
    (h9 : p.instr.percussion = false → p.midiChannel ≠ 9) (h : determineMidiChannel s p d = .ok ch) :
    (p.instr.percussion = true → ch = 9) ∧ (p.instr.percussion = false → ch ≠ 9 ∧ ChannelFree s p d ch) := by
  simp only [determineMidiChannel] at h
  split at h
  · rename_i hp
    simp only [Except.ok.injEq] at h
    subst h
    exact ⟨fun _ => rfl, fun h => by rw [hp] at h; simp at h⟩
  rename_i hp
  have hp' : p.instr.percussion = false := by simpa using hp
  refine ⟨fun h => absurd h hp, fun _ => ?_⟩
  have h9 := h9 hp'
  have usage_cases : ∀ u, s.usageAt p.midiChannel = some u → s.usage p.midiChannel.toNat = u := by
    intro u hu
    unfold Score.usageAt at hu
    split at hu
    · simpa using hu
    · simp at hu
  split at h
  · split at h
    · simp at h
    rename_i u hu
    split at h
    · rename_i hc
      simp only [Except.ok.injEq] at h
      subst h
      refine ⟨h9, ?_⟩
      simp only [ChannelFree, usage_cases u hu]
      simp only [Bool.or_eq_true, List.isEmpty_iff, beq_iff_eq] at hc
      exact hc.elim Or.inl (fun h => Or.inr (Or.inl h))
    · split at h
      · simp at h
      · rename_i hc
        simp only [Except.ok.injEq] at h
        subst h
        refine ⟨h9, Or.inr (Or.inr ?_)⟩
        simp only [ne_eq, Decidable.not_not] at hc
        cases hcc : complexCheck s p d with
        | none =>
          rw [hcc] at hc
          simp only [Option.getD_none] at hc
          rw [← hc] at hu
          simp [Score.usageAt] at hu
        | some c =>
          rw [hcc] at hc
          simp only [Option.getD_some] at hc
          subst hc
          exact complexCheck_ok s p d _ hcc
  · split at h
    · exact availableMidiChannel_ok s p d ch h9 h
    · split at h
      · simp at h
      rename_i u hu
      split at h
      · rename_i hc
        simp only [Except.ok.injEq] at h
        subst h
        refine ⟨h9, Or.inr (Or.inl ?_)⟩
        rw [usage_cases u hu]; simpa using hc
      · exact availableMidiChannel_ok s p d ch h9 h

/-! ### C02, C03 -/

/-- A part of a non-percussion instrument never has channel 9. -/
def NotNine (p : Part) : Prop := p.instr.percussion = false → p.midiChannel ≠ 9

theorem notNine_cell : CellInv (fun _ => True) NotNine where
  upd := by
    intro u g p q _ h hu hp
    cases u with
    | midiChannel n =>
      simp only [updatePart] at hu
      split at hu
      · simp at hu
      · rename_i hn
        simp only [Except.ok.injEq] at hu; subst hu
        simp only at hp ⊢
        intro h9; exact hn ⟨h9, hp⟩
    | tempo t => cases g <;> simp [updatePart, Part.recordTempoValue] at hu <;> subst hu <;> exact h hp
    | metricModulation t => cases g <;> simp [updatePart, Part.recordTempoValue] at hu <;> subst hu <;> exact h hp
    | _ => simp only [updatePart, Except.ok.injEq] at hu; subst hu; exact h hp
  override := fun p o h => h
  timing := fun p _ _ _ _ _ h => h
  chan := by
    intro s p q a ch hd hp hq hi hperc
    simp only at hperc ⊢
    rw [hi] at hperc
    exact ((determineMidiChannel_ok s p a ch hp hd).2 hperc).1
  struct := fun p _ _ _ h => h
  new := by intro p _ _ _ _ _ _ h10 _ _ _ _ _ _ _; rw [h10]; decide

/-- Two notes do not sound at the same time. -/
def Apart (a b : NoteEvent) : Prop := a.offset + a.audible ≤ b.offset ∨ b.offset + b.audible ≤ a.offset

/-- The invariant behind C02 and C03. -/
structure ChannelInv (s : Score) : Prop where
  good : Good (fun _ => True) True s
  nine : ∀ i < s.next, NotNine (s.heap i)
  notes : ∀ e ∈ s.events, e.part < s.next ∧ (s.heap e.part).origin = e.part ∧ 0 ≤ e.channel ∧ e.channel < 16 ∧
    e.part ∈ s.usage e.channel.toNat ∧ ((s.heap e.part).instr.percussion = true ↔ e.channel = 9)
  apart : ∀ a ∈ s.events, ∀ b ∈ s.events, a.part ≠ b.part → a.channel = b.channel → a.channel ≠ 9 → Apart a b

theorem apart_of_available {s : Score} {p : Part} {d : Rat} {ch : Int} (h : channelUnavailable s p d ch = false)
    {e : NoteEvent} (he : e ∈ s.events) (ho : (s.heap e.part).origin ≠ p.origin) (hc : e.channel = ch) :
    e.offset + e.audible ≤ p.offset ∨ p.offset + d ≤ e.offset := by
  unfold channelUnavailable at h
  have := (List.any_eq_false).1 h e he
  simp only [Bool.and_eq_true, bne_iff_ne, ne_eq, beq_iff_eq, overlaps, decide_eq_true_eq, not_and] at this
  have := this ⟨ho, hc⟩
  grind

theorem Step.channelInv {s t : Score} (h : Step (fun _ => True) True s t) (c : ChannelInv s) : ChannelInv t := by
  have w := c.good.wf
  obtain ⟨hnext, hst⟩ := h.stable w
  have nine' := notNine_cell.step h w (fun _ _ _ _ _ => trivial) c.nine
  rcases h.notes with ⟨he, hu⟩ | ⟨id, ch, note, d, a, hid, ha, hn, hd, hc, ht⟩
  · refine ⟨h.good c.good, nine', ?_, ?_⟩
    · intro e hee
      rw [he] at hee
      obtain ⟨h1, h2, h3, h4, h5, h6⟩ := c.notes e hee
      obtain ⟨o1, i1, _⟩ := hst _ h1
      exact ⟨by omega, by rw [o1, h2], h3, h4, by rw [hu]; exact h5, by rw [i1]; exact h6⟩
    · rw [he]; exact c.apart
  · have hlt := w.cur_lt id hid
    obtain ⟨hp1, hp2⟩ := determineMidiChannel_ok s (s.heap id) a ch (c.nine id hlt) hd
    have hev : t.events = s.events ++ [emittedNote s id ch note d a] := by rw [ht]; exact emitted_events ..
    have hus : (∀ c, ∀ o ∈ s.usage c, o ∈ t.usage c) ∧ (s.heap id).origin ∈ t.usage ch.toNat := by rw [ht]; exact emitted_usage ..
    have holt := w.org_lt id hlt
    refine ⟨h.good c.good, nine', ?_, ?_⟩
    · intro e hee
      rw [hev] at hee
      rcases List.mem_append.1 hee with hee | hee
      · obtain ⟨h1, h2, h3, h4, h5, h6⟩ := c.notes e hee
        obtain ⟨o1, i1, _⟩ := hst _ h1
        exact ⟨by omega, by rw [o1, h2], h3, h4, hus.1 _ _ h5, by rw [i1]; exact h6⟩
      · simp only [List.mem_singleton] at hee
        subst hee
        obtain ⟨o1, i1, _⟩ := hst _ holt
        refine ⟨by show (s.heap id).origin < t.next; omega, ?_, hc.1, hc.2, hus.2, ?_⟩
        · show (t.heap (s.heap id).origin).origin = (s.heap id).origin
          rw [o1, w.org_org id hlt]
        · show (t.heap (s.heap id).origin).instr.percussion = true ↔ ch = 9
          rw [i1, w.org_instr id hlt]
          constructor
          · exact hp1
          · intro h9
            cases hperc : (s.heap id).instr.percussion with
            | true => rfl
            | false => exact absurd h9 (hp2 hperc).1
    · have new_apart : ∀ e ∈ s.events, e.part ≠ (s.heap id).origin → e.channel = ch → ch ≠ 9 →
          e.offset + e.audible ≤ (s.heap id).offset ∨ (s.heap id).offset + a ≤ e.offset := by
        intro e hee hne hce h9
        obtain ⟨h1, h2, h3, h4, h5, h6⟩ := c.notes e hee
        have hperc : (s.heap id).instr.percussion = false := by
          cases hh : (s.heap id).instr.percussion with
          | true => exact absurd (hp1 hh) h9
          | false => rfl
        rw [hce] at h5
        rcases (hp2 hperc).2 with hf | hf | hf
        · rw [hf] at h5; simp at h5
        · rw [hf] at h5; simp only [List.mem_singleton] at h5; exact absurd h5 hne
        · exact apart_of_available hf hee (by rw [h2]; exact hne) hce
      intro x hx y hy hne hce h9
      rw [hev] at hx hy
      rcases List.mem_append.1 hx with hx | hx <;> rcases List.mem_append.1 hy with hy | hy
      · exact c.apart x hx y hy hne hce h9
      · simp only [List.mem_singleton] at hy; subst hy
        exact new_apart x hx hne hce (by rw [hce] at h9; exact h9)
      · simp only [List.mem_singleton] at hx; subst hx
        rcases new_apart y hy (Ne.symm hne) hce.symm h9 with h | h
        · exact Or.inr h
        · exact Or.inl h
      · simp only [List.mem_singleton] at hx hy; subst hx; subst hy; exact absurd rfl hne

theorem channelInv_update (program : List Upd) : ChannelInv (update program newScore).s :=
  (update_all_steps program newScore (newScore_good _ _)).invariant (fun _ _ h => h.channelInv)
    ⟨newScore_good _ _, by simp [newScore], by simp [newScore], by simp [newScore]⟩

/-- C02: two notes of different instruments, neither a percussion instrument, on the same channel are never audible at the same time. -/
theorem c02_no_overlap (program : List Upd) (s : Score) (hs : s = (update program newScore).s) (a b : NoteEvent)
    (ha : a ∈ s.events) (hb : b ∈ s.events) (hparts : a.part ≠ b.part) (hpa : ¬ IsPercussive s a)
    (hch : a.channel = b.channel) (t : Rat) : ¬ (SoundsAt a t ∧ SoundsAt b t) := by
  subst hs
  have c := channelInv_update program
  have h9 : a.channel ≠ 9 := fun h => hpa ((c.notes a ha).2.2.2.2.2.2 h)
  rcases c.apart a ha b hb hparts hch h9 with h | h <;> unfold SoundsAt <;> grind

/-- C03: percussion is on channel index 9 and nothing else is; channel indices are 0 to 15. -/
theorem c03_channel_nine (program : List Upd) (s : Score) (hs : s = (update program newScore).s) (a : NoteEvent) (ha : a ∈ s.events) :
    (IsPercussive s a ↔ a.channel = 9) ∧ 0 ≤ a.channel ∧ a.channel ≤ 15 := by
  subst hs
  obtain ⟨_, _, h3, h4, _, h6⟩ := (channelInv_update program).notes a ha
  exact ⟨h6, h3, by omega⟩

example : (update demoShared newScore).err = none ∧
    (update demoShared newScore).s.events.map (fun e => (e.part, e.channel, e.offset, e.audible)) =
      [(0, 3, 0, 450), (1, 3, 500, 450), (2, 9, 0, 450)] := by decide +kernel

/-! ### C04 -/

/-- C04, decision: a channel set explicitly is used or there is an error. -/
theorem explicit_channel {s : Score} {p : Part} {d : Rat} {ch : Int} (hp : p.instr.percussion = false)
    (he : p.explicitChannel = true) (h : determineMidiChannel s p d = .ok ch) : ch = p.midiChannel := by
  simp only [determineMidiChannel, hp, he, Bool.false_eq_true, if_false, if_true] at h
  split at h
  · simp at h
  split at h
  · simpa using h.symm
  split at h
  · simp at h
  · simpa using h.symm

/-- The leaf does not set a MIDI channel. -/
def NoChannelLeaf : Leaf → Prop
  | .attr (.midiChannel _) => False
  | .globalAttr (.midiChannel _) => False
  | _ => True

/-- The part has the explicit channel `c`. -/
def HasChannel (c : Int) (p : Part) : Prop := p.explicitChannel = true ∧ p.midiChannel = c ∧ p.instr.percussion = false

/-- All that is or can become the state of instrument `o` (its part, the voices and the voice template that can be reached from it) has the explicit
channel `c`. -/
structure InstrumentChannel (s : Score) (o : Nat) (c : Int) (A : Nat → Prop) : Prop where
  exist : ∃ q ∈ s.parts, (s.heap q).origin = o
  start : ∀ id, id ∈ s.current ∨ id ∈ s.parts → (s.heap id).origin = o → A id
  closed : ∀ i, A i → i < s.next ∧ (s.heap i).origin = o ∧ HasChannel c (s.heap i) ∧
    (∀ x ∈ s.vheap (s.heap i).voices, A x.2) ∧ ∀ t, (s.heap i).template = some t → A t

theorem InstrumentChannel.shape {s t : Score} {o c A} (h : InstrumentChannel s o c A) (hs : SameShape s t)
    (hp : ∀ i, i < s.next → (s.heap i).origin = o → HasChannel c (s.heap i) → HasChannel c (t.heap i)) : InstrumentChannel t o c A := by
  obtain ⟨e, st, cl⟩ := h
  constructor
  · obtain ⟨q, hq, hqo⟩ := e
    exact ⟨q, by rw [hs.parts]; exact hq, by rw [(hs.cells q).origin]; exact hqo⟩
  · intro id hid ho
    rw [hs.current, hs.parts] at hid
    rw [(hs.cells id).origin] at ho
    exact st id hid ho
  · intro i hi
    obtain ⟨h1, h2, h3, h4, h5⟩ := cl i hi
    refine ⟨by rw [hs.next]; exact h1, by rw [(hs.cells i).origin]; exact h2, hp i h1 h2 h3, ?_, ?_⟩
    · rw [hs.vheap, (hs.cells i).voices]; exact h4
    · rw [(hs.cells i).template]; exact h5

theorem HasChannel.update {c : Int} {u : PartUpd} {g : Bool} {p q : Part} (hu : updatePart u g p = .ok q)
    (hn : NoChannelLeaf (.attr u)) (h : HasChannel c p) : HasChannel c q := by
  cases u with
  | midiChannel n => exact hn.elim
  | tempo t => cases g <;> simp [updatePart, Part.recordTempoValue] at hu <;> subst hu <;> exact h
  | metricModulation t => cases g <;> simp [updatePart, Part.recordTempoValue] at hu <;> subst hu <;> exact h
  | _ => simp only [updatePart, Except.ok.injEq] at hu; subst hu; exact h

theorem HasChannel.applyUpdates {c : Int} (us : List PartUpd) (hus : ∀ u ∈ us, NoChannelLeaf (.attr u)) :
    ∀ p, HasChannel c p → HasChannel c (Alda.applyUpdates us p).2 := by
  induction us with
  | nil => intro p h; exact h
  | cons u us ih =>
    intro p h
    have ih := ih (fun v hv => hus v (List.mem_cons_of_mem _ hv))
    simp only [Alda.applyUpdates]
    split
    · exact ih p h
    · split
      · exact h
      · rename_i q hq; exact ih q (h.update hq (hus u (List.mem_cons_self ..)))

theorem noChannel_global {u : PartUpd} (h : NoChannelLeaf (.globalAttr u)) : NoChannelLeaf (.attr u) := by
  cases u <;> exact h

/-- The step cannot set the channel of instrument `o`. -/
def StepKeeps (L : Leaf → Prop) (o : Nat) (s : Score) : Prop :=
  ((∀ l, L l → NoChannelLeaf l) ∧ GlobalsOk NoChannelLeaf s) ∨ o ∉ origins s s.current

theorem Step.instrumentChannel {L D} {s t : Score} {o : Nat} {c : Int} (h : Step L D s t) (w : WF s) (k : StepKeeps L o s)
    (ic : ∃ A, InstrumentChannel s o c A) : ∃ A, InstrumentChannel t o c A := by
  obtain ⟨A, ic⟩ := ic
  have hex := ic.exist
  have hst := ic.start
  have hcl := ic.closed
  have set_one : ∀ id p, id ∈ s.current → SameIdentity (s.heap id) p →
      ((s.heap id).origin = o → HasChannel c (s.heap id) → HasChannel c p) → ∃ A, InstrumentChannel (s.setPart id p) o c A := by
    intro id p hid hsi hp
    refine ⟨A, ic.shape (SameShape.setPart hsi) ?_⟩
    intro i hi hio hc
    simp only [Score.setPart]
    split
    · rename_i he; subst he; exact hp hio hc
    · exact hc
  cases h with
  | @attr id u p hid hL hu =>
    refine set_one id _ hid ((updatePart_identity hu).override _) ?_
    intro ho hc
    rcases k with ⟨k, _⟩ | k
    · have := hc.update hu (k _ hL)
      exact this
    · exact absurd (by rw [← ho]; exact mem_origins hid) k
  | @globals id hid =>
    refine ⟨A, ic.shape (applyGlobalsPart_shape _ s) ?_⟩
    intro i hi hio hc
    rw [applyGlobalsPart_heap]
    split
    · rename_i he; subst he
      rcases k with ⟨_, k⟩ | k
      · have := hc.applyUpdates (s.globals.inWindow (s.heap i).lastOffset (s.heap i).offset) (fun u hu => by
          obtain ⟨o', us, h1, h2⟩ := inWindowFrom_mem _ hu
          exact noChannel_global (k o' us h1 u h2))
        split
        · rename_i he; rw [he] at this; exact this
        · rename_i he; rw [he] at this; exact this
      · exact absurd (by rw [← hio]; exact mem_origins hid) k
    · exact hc
  | record o u hL => exact ⟨A, ic.shape ⟨fun _ => .refl _, rfl, rfl, rfl, rfl, rfl, rfl⟩ (fun _ _ _ h => h)⟩
  | @emit id ch note d a hid ha hn hd hc =>
    refine ⟨A, ic.shape (emitted_shape _ _ _ _ _ _) ?_⟩
    intro i hi hio hhc
    rw [emitted_heap]
    split
    · rename_i he
      have hoo : (s.heap id).origin = o := by
        rcases he with he | he
        · rw [← he]; exact hio
        · rw [← w.org_org id (w.cur_lt id hid), ← he]; exact hio
      obtain ⟨_, _, hcid, _⟩ := hcl id (hst id (Or.inl hid) hoo)
      have := explicit_channel hcid.2.2 hcid.1 hd
      rw [hcid.2.1] at this
      exact ⟨hhc.1, this, hhc.2.2⟩
    · exact hhc
  | @timing id o' l t d r hid =>
    exact set_one id _ hid ⟨rfl, rfl, rfl, rfl, rfl, rfl⟩ (fun _ h => h)
  | chordMode b => exact ⟨A, ic.shape ⟨fun _ => .refl _, rfl, rfl, rfl, rfl, rfl, rfl⟩ (fun _ _ _ h => h)⟩
  | marker n o => exact ⟨A, ic.shape ⟨fun _ => .refl _, rfl, rfl, rfl, rfl, rfl, rfl⟩ (fun _ _ _ h => h)⟩
  | setVar n es hes => exact ⟨A, ic.shape ⟨fun _ => .refl _, rfl, rfl, rfl, rfl, rfl, rfl⟩ (fun _ _ _ h => h)⟩
  | @template id hid hv ht =>
    have hlt := w.cur_lt id hid
    generalize hs' : ((s.alloc { (s.heap id).clone with template := some s.next }).2.modPart id
      (fun p => { p with template := some s.next })) = s'
    have hp : ∀ j, s'.heap j = if j = id then { s.heap id with template := some s.next }
        else if j = s.next then { (s.heap id).clone with template := some s.next } else s.heap j := by
      intro j; subst hs'
      have : id ≠ s.next := by omega
      simp only [Score.modPart, Score.setPart, Score.alloc, this, if_false]
    have e1 : s'.next = s.next + 1 := by subst hs'; rfl
    have e2 : s'.vheap = s.vheap := by subst hs'; rfl
    have e3 : s'.parts = s.parts := by subst hs'; rfl
    have e4 : s'.current = s.current := by subst hs'; rfl
    clear hs'
    have orig : ∀ j < s.next, (s'.heap j).origin = (s.heap j).origin := by
      intro j hj; rw [hp]; split
      · rename_i h; rw [h]
      · rw [if_neg (by omega)]
    refine ⟨fun i => A i ∨ (i = s.next ∧ (s.heap id).origin = o), ?_, ?_, ?_⟩
    · obtain ⟨q, hq, hqo⟩ := hex
      exact ⟨q, by rw [e3]; exact hq, by rw [orig q (w.parts_lt q hq)]; exact hqo⟩
    · intro j hj hjo
      rw [e3, e4] at hj
      have : j < s.next := hj.elim (w.cur_lt j) (w.parts_lt j)
      rw [orig j this] at hjo
      exact Or.inl (hst j hj hjo)
    · intro i hi
      have new : (s.heap id).origin = o → HasChannel c (s.heap id) ∧ (∀ x ∈ s.vheap (s.heap id).voices, A x.2) := by
        intro h; obtain ⟨_, _, a, b, _⟩ := hcl id (hst id (Or.inl hid) h); exact ⟨a, b⟩
      rcases hi with hi | ⟨hi, hio⟩
      · obtain ⟨h1, h2, h3, h4, h5⟩ := hcl i hi
        refine ⟨by omega, by rw [orig i h1]; exact h2, ?_, ?_, ?_⟩
        · rw [hp]; split
          · rename_i h; subst h; exact h3
          · rw [if_neg (by omega)]; exact h3
        · intro x hx
          rw [e2, hp] at hx
          refine Or.inl (h4 x ?_)
          split at hx
          · rename_i h; rw [h]; exact hx
          · rw [if_neg (by omega)] at hx; exact hx
        · intro t htt
          rw [hp] at htt
          split at htt
          · rename_i h; subst h; simp only [Option.some.injEq] at htt; exact Or.inr ⟨htt.symm, h2⟩
          · rw [if_neg (by omega)] at htt; exact Or.inl (h5 t htt)
      · subst hi
        have hne : s.next ≠ id := by omega
        have hc : s'.heap s.next = { (s.heap id).clone with template := some s.next } := by rw [hp, if_neg hne, if_pos rfl]
        rw [hc]
        refine ⟨by omega, hio, (new hio).1, ?_, ?_⟩
        · intro x hx; rw [e2] at hx; exact Or.inl ((new hio).2 x hx)
        · intro t htt; simp only [Option.some.injEq] at htt; exact Or.inr ⟨htt.symm, hio⟩
  | @newVoice id t n hid ht hn =>
    have hlt := w.cur_lt id hid
    obtain ⟨htl, hto⟩ := w.tmpl id hlt t ht
    generalize hs' : (addVoice id n s).1.s = s'
    have heap' : ∀ i, s'.heap i = if i = s.next then (s.heap t).clone else s.heap i := by
      intro i; subst hs'; simp only [addVoice, ht, Score.alloc, Score.setPart, Out.ok]
    have e1 : s'.next = s.next + 1 := by subst hs'; simp only [addVoice, ht, Score.alloc, Out.ok]
    have e2 : ∀ i, s'.vheap i = if i = (s.heap id).voices then s.vheap (s.heap id).voices ++ [(n, s.next)] else s.vheap i := by
      intro i; subst hs'; simp only [addVoice, ht, Score.alloc, Score.setPart, Out.ok]
    have e3 : s'.parts = s.parts := by subst hs'; simp only [addVoice, ht, Score.alloc, Score.setPart, Out.ok]
    have e4 : s'.current = s.current := by subst hs'; simp only [addVoice, ht, Score.alloc, Score.setPart, Out.ok]
    clear hs'
    have old : ∀ j < s.next, s'.heap j = s.heap j := by
      intro j hj; rw [heap', if_neg (by omega)]
    refine ⟨fun i => A i ∨ (i = s.next ∧ (s.heap id).origin = o), ?_, ?_, ?_⟩
    · obtain ⟨q, hq, hqo⟩ := hex
      exact ⟨q, by rw [e3]; exact hq, by rw [old q (w.parts_lt q hq)]; exact hqo⟩
    · intro j hj hjo
      rw [e3, e4] at hj
      have : j < s.next := hj.elim (w.cur_lt j) (w.parts_lt j)
      rw [old j this] at hjo
      exact Or.inl (hst j hj hjo)
    · have voices : ∀ j < s.next, (s.heap j).origin = o → (∀ x ∈ s.vheap (s.heap j).voices, A x.2) →
          ∀ x ∈ s'.vheap (s.heap j).voices, A x.2 ∨ (x.2 = s.next ∧ (s.heap id).origin = o) := by
        intro j hj hjo hA x hx
        rw [e2] at hx
        split at hx
        · rename_i hv
          rcases List.mem_append.1 hx with hx | hx
          · exact Or.inl (hA x (by rw [hv]; exact hx))
          · simp only [List.mem_singleton] at hx; subst hx
            exact Or.inr ⟨rfl, by rw [← hjo, w.vo_share j hj id hlt hv]⟩
        · exact Or.inl (hA x hx)
      intro i hi
      rcases hi with hi | ⟨hi, hio⟩
      · obtain ⟨h1, h2, h3, h4, h5⟩ := hcl i hi
        rw [old i h1]
        exact ⟨by omega, h2, h3, voices i h1 h2 h4, fun t ht => Or.inl (h5 t ht)⟩
      · subst hi
        obtain ⟨_, _, _, _, h5⟩ := hcl id (hst id (Or.inl hid) hio)
        obtain ⟨h1, h2, h3, h4, h6⟩ := hcl t (h5 t ht)
        have hc : s'.heap s.next = (s.heap t).clone := by rw [heap', if_pos rfl]
        rw [hc]
        exact ⟨by omega, h2, h3, voices t h1 h2 h4, fun t ht => Or.inl (h6 t ht)⟩
  | @enterVoice id n v hid hv =>
    refine ⟨A, hex, ?_, hcl⟩
    intro j hj hjo
    rcases hj with hj | hj
    · simp only [replaceByOrigin, List.mem_map] at hj
      obtain ⟨k, hk, rfl⟩ := hj
      split at hjo
      · rename_i hko
        rw [if_pos hko]
        obtain ⟨_, hvo⟩ := w.vo_mem id (w.cur_lt id hid) _ hv
        simp only at hjo hvo
        have := (hcl id (hst id (Or.inl hid) (by rw [← hvo]; exact hjo))).2.2.2.1 _ hv
        exact this
      · rename_i hko
        rw [if_neg hko]
        exact hst k (Or.inl hk) hjo
    · exact hst j (Or.inr hj) hjo
  | endVoices i =>
    rcases voiceEndAt_cases i s with h | ⟨id, v, num, e⟩
    · rw [h]; exact ⟨A, ic⟩
    · obtain ⟨hm, hidlt, hvlt, hvo⟩ := e.lt w
      have hv : (s.heap v).origin = o → A v := fun hh =>
        (hcl id (hst id (Or.inl hm) (by rw [← hvo]; exact hh))).2.2.2.1 _ e.mem
      refine ⟨A, ?_, ?_, ?_⟩
      · obtain ⟨q, hq, hqo⟩ := hex
        have : o ∈ origins s (replaceByOrigin s (s.heap id).origin v s.parts) := by
          rw [show origins s (replaceByOrigin s (s.heap id).origin v s.parts) = origins s s.parts from
            replaceByOrigin_origins s _ v hvo _, ← hqo]; exact mem_origins hq
        obtain ⟨q', hq', hqo'⟩ := List.mem_map.1 this
        exact ⟨q', by rw [e.parts]; exact hq', by rw [e.origin]; exact hqo'⟩
      · intro j hj hjo
        rw [e.origin] at hjo
        rw [e.current, e.parts] at hj
        rcases hj with hj | hj
        · rcases List.mem_or_eq_of_mem_set hj with hj | hj
          · exact hst j (Or.inl hj) hjo
          · subst hj; exact hv hjo
        · simp only [replaceByOrigin, List.mem_map] at hj
          obtain ⟨k, hk, rfl⟩ := hj
          split at hjo
          · rename_i hko; rw [if_pos hko]; exact hv hjo
          · rename_i hko; rw [if_neg hko]; exact hst k (Or.inr hk) hjo
      · intro j hj
        obtain ⟨h1, h2, h3, h4, h5⟩ := hcl j hj
        refine ⟨by rw [e.next]; exact h1, by rw [e.origin]; exact h2, ?_, ?_, ?_⟩
        · rw [e.heap]; split
          · rename_i hh; subst hh; exact h3
          · exact h3
        · intro x hx
          rw [e.vheap, e.heap] at hx
          by_cases hjv : j = v
          · simp [hjv] at hx
          · rw [if_neg hjv] at hx
            have := w.vo_lt j h1
            rw [if_neg (by omega)] at hx
            exact h4 x hx
        · intro t ht
          rw [e.heap] at ht
          split at ht
          · simp at ht
          · exact h5 t ht
  | newPart hD name h =>
    obtain ⟨instr, hi, _, p, _, _, h2, _, h3, _, h5, h6, h7, h8, h9, h10, h11, _, h13, h14, h15, h16, _, _, rfl⟩ := newPart_eq h
    refine ⟨A, ?_, ?_, ?_⟩
    · obtain ⟨q, hq, hqo⟩ := hex
      exact ⟨q, hq, by have := w.parts_lt q hq; simp only; rw [if_neg (by omega)]; exact hqo⟩
    · intro j hj hjo
      have : j < s.next := hj.elim (w.cur_lt j) (w.parts_lt j)
      simp only at hjo
      rw [if_neg (by omega)] at hjo
      exact hst j hj hjo
    · intro j hj
      obtain ⟨h1, h2, h3, h4, h5⟩ := hcl j hj
      simp only
      rw [if_neg (by omega)]
      refine ⟨by omega, h2, h3, ?_, h5⟩
      have := w.vo_lt j h1
      rw [if_neg (by omega)]; exact h4
  | declare hD parts alias hp hn hne hg =>
    have hh : ∀ i, SameIdentity (s.heap i) { (declareParts parts alias s).heap i with tempoMaster := (s.heap i).tempoMaster } ∧
        (HasChannel c (s.heap i) → HasChannel c ((declareParts parts alias s).heap i)) := by
      intro i
      rw [declareParts_heap]
      rcases markMaster_heap parts s i with h | ⟨_, _, h⟩ <;> rw [h] <;> exact ⟨⟨rfl, rfl, rfl, rfl, rfl, rfl⟩, fun h => h⟩
    have ho : ∀ i, ((declareParts parts alias s).heap i).origin = (s.heap i).origin := fun i => (hh i).1.origin
    have hpp : (declareParts parts alias s).parts = dedup s.parts parts := by
      simp only [declareParts]; rw [markMaster_rest]
    have hcc : (declareParts parts alias s).current = parts := rfl
    have hvh : (declareParts parts alias s).vheap = s.vheap := by
      obtain ⟨_, _, _, h⟩ := declareParts_rest parts alias s; rw [h]
    have hnx : (declareParts parts alias s).next = s.next := by
      obtain ⟨_, _, _, h⟩ := declareParts_rest parts alias s; rw [h]
    obtain ⟨q, hq, hqo⟩ := hex
    refine ⟨A, ⟨q, by rw [hpp]; exact (dedup_mem _ _ _).2 (Or.inl hq), by rw [ho]; exact hqo⟩, ?_, ?_⟩
    · intro j hj hjo
      rw [ho] at hjo
      have : j ∈ s.parts ∨ Fresh s j := by
        rcases hj with hj | hj
        · rw [hcc] at hj; exact hp j hj
        · rw [hpp] at hj
          rcases (dedup_mem _ _ _).1 hj with hj | hj
          · exact Or.inl hj
          · exact hp j hj
      rcases this with hj | hj
      · exact hst j (Or.inr hj) hjo
      · exfalso
        rw [hj.org] at hjo
        have := hj.only q (w.parts_lt q hq) (by rw [hqo, hjo])
        subst this
        exact hj.notPart hq
    · intro i hi
      obtain ⟨h1, h2, h3, h4, h5⟩ := hcl i hi
      have hv : ((declareParts parts alias s).heap i).voices = (s.heap i).voices := (hh i).1.voices
      have ht : ((declareParts parts alias s).heap i).template = (s.heap i).template := (hh i).1.template
      exact ⟨by rw [hnx]; exact h1, by rw [ho]; exact h2, (hh i).2 h3, by rw [hv, hvh]; exact h4, by rw [ht]; exact h5⟩

/-- A note added by a step while instrument `o` has the explicit channel `c`. -/
theorem Step.newNoteChannel {L D} {s t : Score} {o : Nat} {c : Int} (h : Step L D s t)
    (ic : ∃ A, InstrumentChannel s o c A) : ∃ new, t.events = s.events ++ new ∧ ∀ e ∈ new, e.part = o → e.channel = c := by
  obtain ⟨A, ic⟩ := ic
  rcases h.notes with ⟨he, _⟩ | ⟨id, ch, note, d, a, hid, ha, hn, hd, hc, ht⟩
  · exact ⟨[], by simp [he], by simp⟩
  · refine ⟨[emittedNote s id ch note d a], by rw [ht]; exact emitted_events .., ?_⟩
    intro e he ho
    simp only [List.mem_singleton] at he
    subst he
    obtain ⟨_, _, hh, _⟩ := ic.closed id (ic.start id (Or.inl hid) ho)
    have := explicit_channel hh.2.2 hh.1 hd
    rw [hh.2.1] at this; exact this

theorem Steps.newNotesChannel {L D} {s t : Score} {o : Nat} {c : Int} (h : Steps L D s t) (w : WF s)
    (keep : ∀ u, Steps L D s u → StepKeeps L o u) (ic : ∃ A, InstrumentChannel s o c A) :
    (∃ A, InstrumentChannel t o c A) ∧ WF t ∧ ∃ new, t.events = s.events ++ new ∧ ∀ e ∈ new, e.part = o → e.channel = c := by
  induction h with
  | refl => exact ⟨ic, w, [], by simp, by simp⟩
  | @tail t u hst hs ih =>
    obtain ⟨h1, h2, new, h3, h4⟩ := ih
    obtain ⟨new', h5, h6⟩ := hs.newNoteChannel h1
    refine ⟨hs.instrumentChannel h2 (keep _ hst) h1, hs.wf h2, new ++ new', by rw [h5, h3, List.append_assoc], ?_⟩
    intro e he
    rcases List.mem_append.1 he with he | he
    · exact h4 e he
    · exact h6 e he

/-- C04: suppose an instrument (its origin is `o`) is outside of any voice group and has the explicit channel `c`. Then whatever is evaluated
next, as long as no MIDI channel is set, every note it gets is on channel `c`. That includes part declarations, voices and evaluation that stops with an error. -/
theorem c04_explicit_channel (s : Score) (hr : Reachable s) (o q : Nat) (c : Int) (hq : q ∈ s.parts) (ho : (s.heap q).origin = o)
    (hc : HasChannel c (s.heap q)) (hv : s.vheap (s.heap q).voices = []) (ht : (s.heap q).template = none)
    (hcur : ∀ id ∈ s.current, (s.heap id).origin = o → id = q)
    (hvars : VarsOk NoChannelLeaf s) (hglob : GlobalsOk NoChannelLeaf s) (events : List Upd) (hno : AllLeavesL NoChannelLeaf events) :
    ∃ new, (update events s).s.events = s.events ++ new ∧ ∀ e ∈ new, e.part = o → e.channel = c := by
  have w := hr.wf
  have hs : Steps NoChannelLeaf True s (update events s).s := update_steps events s hno (Or.inl trivial) ⟨w, hvars, hr.good.voices, hr.good.idle⟩
  refine (hs.newNotesChannel w ?_ ⟨(· = q), ⟨q, hq, ho⟩, ?_, ?_⟩).2.2
  · intro u hu
    exact Or.inl ⟨fun _ h => h, hu.invariant (fun _ _ h => h.globalsOk) hglob⟩
  · intro id hid hio
    rcases hid with hid | hid
    · exact hcur id hid hio
    · exact inj_of_nodup_map w.parts_nodup hid hq (by rw [ho]; exact hio)
  · intro i hi
    subst hi
    exact ⟨w.parts_lt i hq, ho, hc, by simp [hv], by simp [ht]⟩

/-- The hypotheses can be met: a piano that has set channel 3, and some notes. -/
example : ∃ new, (update [.leaf (.note (.letter .C none) [] false)] (update (demoShared.take 2) newScore).s).s.events =
    (update (demoShared.take 2) newScore).s.events ++ new ∧ ∀ e ∈ new, e.part = 0 → e.channel = 3 :=
  c04_explicit_channel (update (demoShared.take 2) newScore).s ⟨_, rfl⟩ 0 0 3 (by decide +kernel) (by decide +kernel)
    (by unfold HasChannel; decide +kernel) (by decide +kernel) (by decide +kernel) (by decide +kernel)
    (by intro n es h; have h' : (update (demoShared.take 2) newScore).s.vars n = none := by rfl
        rw [h'] at h; simp at h)
    (by intro o us h; have h' : (update (demoShared.take 2) newScore).s.globals.itinerary o = none := by rfl
        rw [h'] at h; simp at h) _ ⟨trivial, trivial⟩

end Alda
