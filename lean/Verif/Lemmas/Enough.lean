import Verif.Props.Channels
import Verif.Lemmas.Parts
import Verif.Spec.Parts
/-!
There are enough MIDI channels for fifteen instruments: as long as no channel is asked for explicitly, every instrument gets one of its own.
-/
namespace Alda
open Spec

theorem nodup_subset_length : ∀ (l m : List Nat), l.Nodup → (∀ x ∈ l, x ∈ m) → l.length ≤ m.length := by
  intro l
  induction l with
  | nil => intro m _ _; simp
  | cons a l ih =>
    intro m hn hs
    simp only [List.nodup_cons] at hn
    have ha := hs a (List.mem_cons_self ..)
    have := ih (m.erase a) hn.2 (fun x hx => (List.mem_erase_of_ne (fun e => hn.1 (by rw [← e]; exact hx))).2 (hs x (List.mem_cons_of_mem _ hx)))
    rw [List.length_erase_of_mem ha] at this
    have hp : 0 < m.length := List.length_pos_of_mem ha
    simp only [List.length_cons]
    omega

/-- The instances of other than percussion instruments. -/
def IsMelodic (s : Score) (o : Nat) : Prop := o ∈ instances s ∧ (s.heap o).instr.percussion = false

/-- Every channel but the tenth is unused or belongs to one instrument, no instrument has two, and they are used from the first one on. -/
structure UsageInv (s : Score) : Prop where
  single : ∀ ch < 16, ch ≠ 9 → s.usage ch = [] ∨ ∃ o, s.usage ch = [o] ∧ IsMelodic s o
  distinct : ∀ ch < 16, ∀ ch' < 16, ch ≠ 9 → ch' ≠ 9 → ∀ o, s.usage ch = [o] → s.usage ch' = [o] → ch = ch'
  first : ∀ ch < 16, ch ≠ 9 → s.usage ch ≠ [] → ∀ ch' < ch, ch' ≠ 9 → s.usage ch' ≠ []

/-- No channel was asked for, and the number is that of a channel. -/
def AnyChannel (p : Part) : Prop := p.explicitChannel = false ∧ (p.midiChannel = -1 ∨ (0 ≤ p.midiChannel ∧ p.midiChannel < 16))

theorem simpleCheckFrom_none (s : Score) (p : Part) : ∀ (chs : List Nat), simpleCheckFrom s p chs = none →
    ∀ ch ∈ chs, ch ≠ 9 → s.usage ch ≠ [] ∧ s.usage ch ≠ [p.origin] := by
  intro chs
  induction chs with
  | nil => intro _ ch h; simp at h
  | cons c cs ih =>
    intro h ch hch h9
    simp only [simpleCheckFrom] at h
    by_cases hc : c = 9
    · rw [if_pos hc] at h
      rcases List.mem_cons.1 hch with rfl | hch
      · exact absurd hc h9
      · exact ih h ch hch h9
    · rw [if_neg hc] at h
      split at h
      · simp at h
      · rename_i hn
        rcases List.mem_cons.1 hch with rfl | hch
        · simp only [channelIsUnused, partHasExclusiveAccess, Bool.or_eq_true, List.isEmpty_iff, beq_iff_eq, not_or] at hn
          exact hn
        · exact ih h ch hch h9

/-- It returns the first channel that fits. -/
theorem simpleCheckFrom_first (s : Score) (p : Part) : ∀ (n k : Nat) (ch : Nat), simpleCheckFrom s p (List.range' k n) = some ch →
    ∀ c, k ≤ c → c < ch → c ≠ 9 → s.usage c ≠ [] ∧ s.usage c ≠ [p.origin] := by
  intro n
  induction n with
  | zero => intro k ch h; simp [simpleCheckFrom] at h
  | succ n ih =>
    intro k ch h c hkc hcc h9
    simp only [List.range'_succ, simpleCheckFrom] at h
    by_cases hk : k = 9
    · rw [if_pos hk] at h
      exact ih (k + 1) ch h c (by omega) hcc h9
    · rw [if_neg hk] at h
      split at h
      · simp only [Option.some.injEq] at h; omega
      · rename_i hn
        by_cases e : c = k
        · subst e
          simp only [channelIsUnused, partHasExclusiveAccess, Bool.or_eq_true, List.isEmpty_iff, beq_iff_eq, not_or] at hn
          exact hn
        · exact ih (k + 1) ch h c (by omega) hcc h9

/-- The channels for other than percussion instruments. -/
def melodicChannels : List Nat := [0, 1, 2, 3, 4, 5, 6, 7, 8, 10, 11, 12, 13, 14, 15]

theorem melodicChannels_mem {ch : Nat} (h : ch ∈ melodicChannels) : ch < 16 ∧ ch ≠ 9 := by
  have : ∀ ch ∈ melodicChannels, ch < 16 ∧ ch ≠ 9 := by decide
  exact this ch h

theorem simpleCheck_some {s : Score} (u : UsageInv s) {M : List Nat} (hM : ∀ o, IsMelodic s o → o ∈ M) (hl : M.length ≤ 15) {p : Part} (hp : IsMelodic s p.origin) :
    ∃ ch, simpleCheck s p = some ch := by
  cases h : simpleCheck s p with
  | some ch => exact ⟨ch, rfl⟩
  | none =>
    exfalso
    have hn : ∀ ch ∈ melodicChannels, ∃ o, s.usage ch = [o] ∧ o ∈ M ∧ o ≠ p.origin := by
      intro ch hch
      obtain ⟨h16, h9⟩ := melodicChannels_mem hch
      obtain ⟨a, b⟩ := simpleCheckFrom_none s p _ h ch (List.mem_range.2 h16) h9
      rcases u.single ch h16 h9 with e | ⟨o, e, ho⟩
      · exact absurd e a
      · exact ⟨o, e, hM o ho, fun eo => b (by rw [e, eo])⟩
    have key : ∀ l : List Nat, (∀ ch ∈ l, ch ∈ melodicChannels) → l.Nodup →
        (l.map (fun ch => (s.usage ch).headD 0)).Nodup := by
      intro l
      induction l with
      | nil => intro _ _; simp
      | cons c l ih =>
        intro hl hnd
        simp only [List.nodup_cons] at hnd
        simp only [List.map_cons, List.nodup_cons]
        refine ⟨fun hmem => ?_, ih (fun ch hch => hl ch (List.mem_cons_of_mem _ hch)) hnd.2⟩
        obtain ⟨c', hc', e⟩ := List.mem_map.1 hmem
        have hc := hl c (List.mem_cons_self ..)
        have hcc := hl c' (List.mem_cons_of_mem _ hc')
        obtain ⟨o, ho, _⟩ := hn c hc
        obtain ⟨o', ho', _⟩ := hn c' hcc
        rw [ho, ho'] at e
        simp only [List.headD_cons] at e
        subst e
        have := u.distinct c (melodicChannels_mem hc).1 c' (melodicChannels_mem hcc).1 (melodicChannels_mem hc).2 (melodicChannels_mem hcc).2 o' ho ho'
        subst this
        exact hnd.1 hc'
    have hnd := key melodicChannels (fun _ h => h) (by decide)
    have hall : (p.origin :: melodicChannels.map (fun ch => (s.usage ch).headD 0)).Nodup := by
      simp only [List.nodup_cons]
      refine ⟨fun hmem => ?_, hnd⟩
      obtain ⟨c, hc, e⟩ := List.mem_map.1 hmem
      obtain ⟨o, ho, _, hne⟩ := hn c hc
      rw [ho] at e
      exact hne e
    have := nodup_subset_length _ M hall (by
      intro x hx
      rcases List.mem_cons.1 hx with rfl | hx
      · exact hM _ hp
      · obtain ⟨c, hc, e⟩ := List.mem_map.1 hx
        obtain ⟨o, ho, hm, _⟩ := hn c hc
        rw [ho] at e
        simp only [List.headD_cons] at e
        subst e; exact hm)
    simp only [List.length_cons, List.length_map] at this
    have : melodicChannels.length = 15 := rfl
    omega

/-- The channel of a note: unused or its own. -/
theorem channel_ok {s : Score} (u : UsageInv s) {M : List Nat} (hM : ∀ o, IsMelodic s o → o ∈ M) (hl : M.length ≤ 15) {p : Part} (hp : IsMelodic s p.origin)
    (hperc : p.instr.percussion = false) (ha : AnyChannel p) (hn9 : NotNine p) (d : Rat) :
    ∃ ch : Nat, determineMidiChannel s p d = .ok ch ∧ ch < 16 ∧ ch ≠ 9 ∧ (s.usage ch = [] ∨ s.usage ch = [p.origin]) ∧
      (s.usage ch = [] → (∀ c < 16, c ≠ 9 → s.usage c ≠ [p.origin]) ∧ ∀ c < ch, c ≠ 9 → s.usage c ≠ []) := by
  have main : ∃ ch : Nat, availableMidiChannel s p d = .ok ch ∧ ch < 16 ∧ ch ≠ 9 ∧ (s.usage ch = [] ∨ s.usage ch = [p.origin]) ∧
      (s.usage ch = [] → (∀ c < 16, c ≠ 9 → s.usage c ≠ [p.origin]) ∧ ∀ c < ch, c ≠ 9 → s.usage c ≠ []) := by
    obtain ⟨ch, hc⟩ := simpleCheck_some u hM hl hp
    obtain ⟨h1, h2, h3⟩ := simpleCheckFrom_some s p _ _ hc
    have hlow := simpleCheckFrom_first s p 16 0 ch (by rw [← List.range_eq_range']; exact hc)
    refine ⟨ch, by unfold availableMidiChannel; rw [hc], List.mem_range.1 h1, h2, h3, fun he => ⟨fun c hc9 h9 e => ?_, fun c hlt h9 => (hlow c (by omega) hlt h9).1⟩⟩
    by_cases hcc : c < ch
    · exact (hlow c (by omega) hcc h9).2 e
    · by_cases e' : c = ch
      · subst e'; rw [he] at e; simp at e
      · exact u.first c hc9 h9 (by rw [e]; simp) ch (by omega) h2 he
  unfold determineMidiChannel
  rw [if_neg (by rw [hperc]; simp), if_neg (by rw [ha.1]; simp)]
  rcases ha.2 with e | ⟨h0, h16⟩
  · rw [if_pos e]; exact main
  · by_cases e : p.midiChannel = -1
    · rw [if_pos e]; exact main
    · rw [if_neg e]
      have hu : s.usageAt p.midiChannel = some (s.usage p.midiChannel.toNat) := by unfold Score.usageAt; rw [if_pos ⟨h0, h16⟩]
      rw [hu]
      simp only
      split
      · rename_i hx
        have hx : s.usage p.midiChannel.toNat = [p.origin] := by simpa using hx
        refine ⟨p.midiChannel.toNat, by rw [Int.toNat_of_nonneg h0], by omega, ?_, .inr hx, fun e => by rw [e] at hx; simp at hx⟩
        have := hn9 hperc
        omega
      · exact main

theorem availableMidiChannel_range {s : Score} {p : Part} {d : Rat} {ch : Int} (hp : AnyChannel p) (h : availableMidiChannel s p d = .ok ch) : 0 ≤ ch ∧ ch < 16 := by
  simp only [availableMidiChannel] at h
  split at h
  · rename_i c hc
    simp only [Except.ok.injEq] at h
    subst h
    have := List.mem_range.1 (simpleCheckFrom_some s p _ c hc).1
    omega
  · split at h
    · rename_i c hc
      simp only [Except.ok.injEq] at h
      subst h
      simp only [complexCheck] at hc
      split at hc
      · rename_i hh
        simp only [Option.some.injEq] at hc
        subst hc
        rcases hp.2 with e | e
        · exact absurd e hh.1
        · exact e
      · obtain ⟨⟨c', hm, e⟩, _⟩ := complexCheckFrom_some s p d _ _ hc
        have := List.mem_range.1 hm
        omega
    · simp at h

theorem determineMidiChannel_range {s : Score} {p : Part} {d : Rat} {ch : Int} (hp : AnyChannel p) (h : determineMidiChannel s p d = .ok ch) : 0 ≤ ch ∧ ch < 16 := by
  simp only [determineMidiChannel, hp.1, Bool.false_eq_true, if_false] at h
  split at h
  · simp only [Except.ok.injEq] at h; omega
  split at h
  · exact availableMidiChannel_range hp h
  · rename_i hm
    split at h
    · simp at h
    split at h
    · simp only [Except.ok.injEq] at h
      subst h
      rcases hp.2 with e | e
      · exact absurd e hm
      · exact e
    · exact availableMidiChannel_range hp h

theorem anyChannel_cell : CellInv NoChannelLeaf AnyChannel where
  upd := by
    intro u g p q hL h hu
    cases u with
    | midiChannel n => rcases hL with ⟨_, h⟩ | ⟨_, h⟩ <;> exact h.elim
    | tempo t => cases g <;> simp [updatePart, Part.recordTempoValue] at hu <;> subst hu <;> exact h
    | metricModulation t => cases g <;> simp [updatePart, Part.recordTempoValue] at hu <;> subst hu <;> exact h
    | _ => simp only [updatePart, Except.ok.injEq] at hu; subst hu; exact h
  override := fun p o h => h
  timing := fun p _ _ _ _ _ h => h
  chan := by
    intro s p q a ch hd hp hq _
    exact ⟨hq.1, .inr (determineMidiChannel_range hp hd)⟩
  struct := fun p _ _ _ h => h
  new := fun p _ _ _ _ _ _ hm he _ _ _ _ _ => ⟨he, .inl hm⟩

theorem notNine_cell' : CellInv NoChannelLeaf NotNine :=
  ⟨fun u g p q h => notNine_cell.upd u g p q (h.imp (fun h => ⟨h.1, trivial⟩) (fun h => ⟨h.1, trivial⟩)), notNine_cell.override, notNine_cell.timing,
   notNine_cell.chan, notNine_cell.struct, notNine_cell.new⟩

/-- Instances stay in the score. -/
theorem Step.instances_keep {L D} {s t : Score} (h : Step L D s t) (w : WF s) {o : Nat} (ho : o ∈ instances s) : o ∈ instances t := by
  have view : SameView s t → o ∈ instances t := by
    intro v
    have e : ∀ u : Score, instances u = (partView u).map (·.1) := fun u => by simp [instances, partView, List.map_map, Function.comp_def]
    rw [e, v.1, ← e]; exact ho
  have st := (h.stable w).2
  cases h with
  | newPart hD name h => exact view (newPart_view w h)
  | declare hD parts alias hp hn hne hg =>
    obtain ⟨i, hi, e⟩ := List.mem_map.1 ho
    refine List.mem_map.2 ⟨i, ?_, by rw [(st i (w.parts_lt i hi)).1, e]⟩
    rw [declareParts_parts]
    obtain ⟨ex, hex, _⟩ := dedup_append parts s.parts
    rw [hex]; exact List.mem_append_left _ hi
  | attr hid hL hu => exact view (Step.view (L := L) (.attr hid hL hu) w)
  | globals hid => exact view (Step.view (L := L) (.globals hid) w)
  | record o u hL => exact view (Step.view (L := L) (.record o u hL) w)
  | emit d a hid ha hn hd hc => exact view (Step.view (L := L) (.emit d a hid ha hn hd hc) w)
  | timing o l t d r hid => exact view (Step.view (L := L) (.timing o l t d r hid) w)
  | chordMode b => exact view (Step.view (L := L) (.chordMode b) w)
  | marker n o => exact view (Step.view (L := L) (.marker n o) w)
  | setVar n es hes hpl => exact view (Step.view (L := L) (.setVar n es hes hpl) w)
  | template hid hv ht => exact view (Step.view (L := L) (.template hid hv ht) w)
  | newVoice n hid ht hn => exact view (Step.view (L := L) (.newVoice n hid ht hn) w)
  | enterVoice hid hv => exact view (Step.view (L := L) (.enterVoice hid hv) w)
  | endVoices i => exact view (Step.view (L := L) (.endVoices i) w)

theorem instances_lt {s : Score} (w : WF s) {o : Nat} (h : o ∈ instances s) : o < s.next := by
  obtain ⟨i, hi, e⟩ := List.mem_map.1 h
  rw [← e]; exact w.org_lt i (w.parts_lt i hi)

theorem Step.isMelodic {L D} {s t : Score} (h : Step L D s t) (w : WF s) {o : Nat} (ho : IsMelodic s o) : IsMelodic t o :=
  ⟨h.instances_keep w ho.1, by rw [((h.stable w).2 o (instances_lt w ho.1)).2.1]; exact ho.2⟩

theorem current_melodic {s : Score} (w : WF s) {id : Nat} (hid : id ∈ s.current) (hp : (s.heap id).instr.percussion = false) : IsMelodic s (s.heap id).origin := by
  obtain ⟨q, hq, e⟩ := w.cur_parts id hid
  exact ⟨List.mem_map.2 ⟨q, hq, e⟩, by rw [w.org_instr id (w.cur_lt id hid)]; exact hp⟩

theorem recordUsage_usage (s : Score) (ch o c : Nat) : (recordUsage s ch o).usage c = if c = ch ∧ o ∉ s.usage ch then s.usage ch ++ [o] else s.usage c := by
  unfold recordUsage
  by_cases h : (s.usage ch).contains o
  · rw [if_pos h, if_neg (fun hh => hh.2 (by simpa using h))]
  · rw [if_neg h]
    simp only
    have : o ∉ s.usage ch := by simpa using h
    by_cases e : c = ch
    · rw [if_pos e, if_pos ⟨e, this⟩]
    · rw [if_neg e, if_neg (fun hh => e hh.1)]

theorem emitted_usage_eq (s : Score) (id : Nat) (ch note : Int) (d a : Rat) (c : Nat) :
    (emitted s id ch note d a).usage c = if c = ch.toNat ∧ (s.heap id).origin ∉ s.usage ch.toNat then s.usage ch.toNat ++ [(s.heap id).origin] else s.usage c := by
  rw [← recordUsage_usage]
  simp only [emitted, Score.modPart, Score.setPart]

/-- The invariant. -/
structure EnoughInv (M : List Nat → Prop) (s : Score) : Prop where
  good : Good NoChannelLeaf True s
  globals : GlobalsOk NoChannelLeaf s
  any : ∀ i < s.next, AnyChannel (s.heap i)
  nine : ∀ i < s.next, NotNine (s.heap i)
  usage : (∃ m, M m ∧ ∀ o, IsMelodic s o → o ∈ m) → UsageInv s

theorem UsageInv.keep {s t : Score} (u : UsageInv s) (he : t.usage = s.usage) (hm : ∀ o, IsMelodic s o → IsMelodic t o) : UsageInv t := by
  refine ⟨fun ch h16 h9 => ?_, by rw [he]; exact u.distinct, by rw [he]; exact u.first⟩
  rw [he]
  exact (u.single ch h16 h9).imp id (fun ⟨o, e, h⟩ => ⟨o, e, hm o h⟩)

theorem UsageInv.emit {s t : Score} (u : UsageInv s) (hm : ∀ o, IsMelodic s o → IsMelodic t o) {ch o : Nat} (ho : IsMelodic s o)
    (hc : s.usage ch = [] ∨ s.usage ch = [o]) (hnew : s.usage ch = [] → (∀ c < 16, c ≠ 9 → s.usage c ≠ [o]) ∧ ∀ c < ch, c ≠ 9 → s.usage c ≠ [])
    (he : ∀ c, t.usage c = if c = ch then [o] else s.usage c) : UsageInv t := by
  rcases hc with hc | hc
  · obtain ⟨n1, n2⟩ := hnew hc
    refine ⟨fun c h16 hc9 => ?_, fun c h16 c' h16' hc9 hc9' x hx hx' => ?_, fun c h16 hc9 hne c' hlt hc9' => ?_⟩
    · rw [he]
      split
      · exact .inr ⟨o, rfl, hm o ho⟩
      · exact (u.single c h16 hc9).imp id (fun ⟨o, e, h⟩ => ⟨o, e, hm o h⟩)
    · rw [he] at hx hx'
      by_cases e1 : c = ch <;> by_cases e2 : c' = ch
      · rw [e1, e2]
      · rw [if_pos e1] at hx; rw [if_neg e2, ← hx] at hx'; exact absurd hx' (n1 c' h16' hc9')
      · rw [if_pos e2] at hx'; rw [if_neg e1, ← hx'] at hx; exact absurd hx (n1 c h16 hc9)
      · rw [if_neg e1] at hx; rw [if_neg e2] at hx'; exact u.distinct c h16 c' h16' hc9 hc9' x hx hx'
    · rw [he]
      by_cases e2 : c' = ch
      · rw [if_pos e2]; simp
      · rw [if_neg e2]
        rw [he] at hne
        by_cases e1 : c = ch
        · exact n2 c' (by omega) hc9'
        · rw [if_neg e1] at hne; exact u.first c h16 hc9 hne c' hlt hc9'
  · have : t.usage = s.usage := by
      funext c; rw [he]; split
      · rename_i e; rw [e, hc]
      · rfl
    exact u.keep this hm

theorem Step.enough {s t : Score} (h : Step NoChannelLeaf True s t) (i : EnoughInv (fun m => m.length ≤ 15) s) : EnoughInv (fun m => m.length ≤ 15) t := by
  have w := i.good.wf
  refine ⟨h.good i.good, h.globalsOk i.globals, anyChannel_cell.step h w i.globals i.any, notNine_cell'.step h w i.globals i.nine, ?_⟩
  rintro ⟨m, hm, hM⟩
  have keep : ∀ o, IsMelodic s o → IsMelodic t o := fun o ho => h.isMelodic w ho
  have hMs : ∀ o, IsMelodic s o → o ∈ m := fun o ho => hM o (keep o ho)
  have u := i.usage ⟨m, hm, hMs⟩
  rcases h.notes with ⟨_, hu⟩ | ⟨id, ch, note, d, a, hid, ha, hn, hd, hc, ht⟩
  · exact u.keep hu keep
  · have hlt := w.cur_lt id hid
    cases hperc : (s.heap id).instr.percussion with
    | true =>
      have e9 : ch = 9 := by
        simp only [determineMidiChannel, hperc, if_true, Except.ok.injEq] at hd; exact hd.symm
      have hu : ∀ c, c ≠ 9 → t.usage c = s.usage c := by
        intro c h9
        rw [ht, emitted_usage_eq, if_neg (fun hh => h9 (by rw [hh.1, e9]; rfl))]
      refine ⟨fun c h16 h9 => ?_, fun c h16 c' h16' h9 h9' => ?_, fun c h16 h9 hne c' hlt h9' => ?_⟩
      · rw [hu c h9]; exact (u.single c h16 h9).imp (fun h => h) (fun ⟨o, e, h⟩ => ⟨o, e, keep o h⟩)
      · rw [hu c h9, hu c' h9']; exact u.distinct c h16 c' h16' h9 h9'
      · rw [hu c' h9']; rw [hu c h9] at hne; exact u.first c h16 h9 hne c' hlt h9'
    | false =>
      have hmel := current_melodic w hid hperc
      obtain ⟨k, hk, h16, h9, h1, h2⟩ := channel_ok u hMs hm hmel hperc (i.any id hlt) (i.nine id hlt) a
      rw [hd] at hk
      have hk : ch = (k : Int) := by simpa using hk
      refine u.emit keep hmel h1 h2 (fun c => ?_)
      rw [ht, emitted_usage_eq, hk, Int.toNat_natCast]
      by_cases e : c = k
      · rw [if_pos e]
        rcases h1 with h1 | h1
        · rw [if_pos ⟨e, by rw [h1]; simp⟩, h1]; rfl
        · rw [if_neg (by rw [h1]; simp), e, h1]
      · rw [if_neg e, if_neg (fun hh => e hh.1)]

theorem newScore_enough : EnoughInv (fun m => m.length ≤ 15) newScore :=
  ⟨newScore_good _ _, fun o us h => by simp [newScore] at h, by simp [newScore], by simp [newScore],
   fun _ => ⟨fun _ _ _ => .inl rfl, fun _ _ _ _ _ _ o h => by simp [newScore] at h, fun _ _ _ h => by simp [newScore] at h⟩⟩

theorem enough_update (program : List Upd) (hL : AllLeavesL NoChannelLeaf program) : EnoughInv (fun m => m.length ≤ 15) (update program newScore).s :=
  (update_steps program newScore hL (.inl trivial) (newScore_good _ _)).invariant (fun _ _ h => h.enough) newScore_enough

theorem EnoughInv.extend {s : Score} (i : EnoughInv (fun m => m.length ≤ 15) s) (es : List Upd) (hL : AllLeavesL NoChannelLeaf es) :
    EnoughInv (fun m => m.length ≤ 15) (update es s).s :=
  (update_steps es s hL (.inl trivial) i.good).invariant (fun _ _ h => h.enough) i

end Alda
