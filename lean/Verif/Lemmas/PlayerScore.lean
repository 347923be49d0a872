import Verif.Lemmas.PlayerBundle
import Verif.Props.Transmit
import Verif.Props.Channels
import Verif.Props.Range
/-!
The bundle of a score is one that makes sense to a player.
-/
namespace Alda
namespace Player
open Spec

/-! ### The patch of an instrument -/

theorem lookup_mem {α β : Type} [BEq α] [LawfulBEq α] {l : List (α × β)} {a : α} {b : β} (h : l.lookup a = some b) : (a, b) ∈ l := by
  induction l with
  | nil => simp at h
  | cons x l ih =>
    obtain ⟨k, v⟩ := x
    rw [List.lookup_cons] at h
    split at h
    · rename_i hk
      have hk : a = k := by simpa using hk
      simp only [Option.some.injEq] at h
      rw [hk, h]; exact List.mem_cons_self ..
    · exact List.mem_cons_of_mem _ (ih h)

theorem stock_patch {n : String} {i : Instrument} (h : stockInstrument n = some i) : i.patch ≤ 127 := by
  have := lookup_mem h
  have key : ∀ x ∈ stockAssignments.reverse, x.2.patch ≤ 127 := by decide +kernel
  exact key _ this

theorem patch_cell : CellInv (fun _ => True) (fun p => p.instr.patch ≤ 127) where
  upd := by
    intro u g p q _ h hu
    cases u with
    | midiChannel n =>
      simp only [updatePart] at hu
      split at hu
      · simp at hu
      · simp only [Except.ok.injEq] at hu; subst hu; exact h
    | tempo t => cases g <;> simp [updatePart, Part.recordTempoValue] at hu <;> subst hu <;> exact h
    | metricModulation t => cases g <;> simp [updatePart, Part.recordTempoValue] at hu <;> subst hu <;> exact h
    | _ => simp only [updatePart, Except.ok.injEq] at hu; subst hu; exact h
  override := fun p o h => h
  timing := fun p _ _ _ _ _ h => h
  chan := fun s p q a ch _ _ h _ => h
  struct := fun p _ _ _ h => h
  new := by
    intro p h _ _ _ _ _ _ _ _ _ _ _ _
    obtain ⟨n, h⟩ := h
    exact stock_patch h

theorem reachable_patch (program : List Upd) : ∀ i < (update program newScore).s.next, ((update program newScore).s.heap i).instr.patch ≤ 127 := by
  have h := update_all_steps program newScore (newScore_good _ _)
  have := h.invariant (I := fun s => Good (fun _ => True) True s ∧ GlobalsOk (fun _ => True) s ∧ ∀ i < s.next, (s.heap i).instr.patch ≤ 127)
    (fun s t h hi => ⟨h.good hi.1, h.globalsOk hi.2.1, patch_cell.step h hi.1.wf hi.2.1 hi.2.2⟩)
    ⟨newScore_good _ _, fun o us h => by simp [newScore] at h, by simp [newScore]⟩
  exact this.2.2

/-! ### The messages of a score -/

/-- What is needed of a note for the player to accept it. -/
structure Playable (s : Score) (start : Rat) (e : NoteEvent) : Prop where
  offset : start ≤ e.offset
  audible : 0 ≤ e.audible
  channel : 0 ≤ e.channel ∧ e.channel ≤ 15
  note : 0 ≤ e.note ∧ e.note ≤ 127
  volume : Fraction e.volume
  trackVolume : Fraction e.trackVolume
  panning : Fraction e.panning
  patch : (s.heap e.part).instr.patch ≤ 127

theorem goRound_nonneg {r : Rat} (h : 0 ≤ r) : 0 ≤ goRound r := nearest_add_int (k := 0) (goRound_nearest r) h

theorem goRound_le {r : Rat} {k : Int} (h : r ≤ k) : goRound r ≤ k := by
  have := goRound_mono h
  have e : goRound (k : Rat) = k := by
    refine Int.le_antisymm ?_ (nearest_add_int (goRound_nearest _) Rat.le_refl)
    have n := goRound_nearest (k : Rat)
    have : ((goRound (k : Rat) : Int) : Rat) < ((k + 1 : Int) : Rat) := by
      rw [Rat.intCast_add]
      by_cases h0 : 0 ≤ (k : Rat)
      · have := n.1 h0; grind
      · have := n.2 (by grind); grind
    have := Rat.intCast_lt_intCast.1 this
    omega
  omega

theorem goRound_fraction {r : Rat} (h : Fraction r) : 0 ≤ goRound (r * 127) ∧ goRound (r * 127) ≤ 127 := by
  obtain ⟨h1, h2⟩ := h
  exact ⟨goRound_nonneg (by grind), goRound_le (k := 127) (by have : ((127 : Int) : Rat) = 127 := rfl; rw [this]; grind)⟩

/-- The messages for a note: the controls and the note, for the same track, channel and time. -/
def ForNote (s : Score) (start : Rat) (e : NoteEvent) (m : Msg) : Prop :=
  ∃ ev : Event, trackEvent m = some ((s.track e.part).getD 0, ev) ∧ ev.channel = e.channel ∧ ev.start = goRound (e.offset - start) ∧ (Playable s start e → ev.Fits) ∧
    ∀ c o n d a v, ev = .note c o n d a v → a = goRound e.audible

theorem sendAll_for (s : Score) (x : Transmission) (hx : ∀ p, x.syncOffset p = 0) (start : Rat) (es : List NoteEvent) : ∀ ch len,
    ∀ m ∈ (sendAll s x start es ch len).1, ∃ e ∈ es, ForNote s start e m := by
  induction es with
  | nil => intro ch len m hm; cases hm
  | cons e es ih =>
    intro ch len m hm
    have h0 : e.offset - start - x.syncOffset e.part = e.offset - start := by rw [hx]; grind
    simp only [sendAll, h0] at hm
    generalize hoff : goRound (e.offset - start) = off at hm
    generalize htr : (s.track e.part).getD 0 = tr at hm
    generalize h1 : patchMsgs tr off (s.heap e.part).instr.patch e ch = r1 at hm
    generalize h2 : volumeMsgs tr off e r1.2 = r2 at hm
    generalize h3 : panningMsgs tr off e r2.2 = r3 at hm
    have ho : Playable s start e → 0 ≤ off := by intro h; rw [← hoff]; exact goRound_nonneg (by have := h.offset; grind)
    simp only [List.mem_append, List.mem_singleton] at hm
    rcases hm with (((hm | hm) | hm) | hm) | hm
    · rw [← h1] at hm; unfold patchMsgs at hm; split at hm
      · split at hm
        · simp only [List.mem_singleton] at hm
          subst hm
          refine ⟨e, List.mem_cons_self .., .patch e.channel off (s.heap e.part).instr.patch, by rw [htr]; rfl, rfl, hoff.symm, ?_, by intro _ _ _ _ _ _ h; cases h⟩
          intro h
          exact ⟨ho h, h.channel.1, h.channel.2, by omega, by have := h.patch; omega⟩
        · cases hm
      · cases hm
    · rw [← h2] at hm; unfold volumeMsgs at hm; split at hm
      · simp only [List.mem_singleton] at hm
        subst hm
        refine ⟨e, List.mem_cons_self .., .volume e.channel off (goRound (e.trackVolume * 127)), by rw [htr]; rfl, rfl, hoff.symm, ?_, by intro _ _ _ _ _ _ h; cases h⟩
        intro h
        exact ⟨ho h, h.channel.1, h.channel.2, (goRound_fraction h.trackVolume).1, (goRound_fraction h.trackVolume).2⟩
      · cases hm
    · rw [← h3] at hm; unfold panningMsgs at hm; split at hm
      · simp only [List.mem_singleton] at hm
        subst hm
        refine ⟨e, List.mem_cons_self .., .panning e.channel off (goRound (e.panning * 127)), by rw [htr]; rfl, rfl, hoff.symm, ?_, by intro _ _ _ _ _ _ h; cases h⟩
        intro h
        exact ⟨ho h, h.channel.1, h.channel.2, (goRound_fraction h.panning).1, (goRound_fraction h.panning).2⟩
      · cases hm
    · subst hm
      refine ⟨e, List.mem_cons_self .., .note e.channel off e.note (goRound e.duration) (goRound e.audible) (goRound (e.volume * 127)), by rw [htr]; rfl, rfl, hoff.symm, ?_,
        by intro _ _ _ _ _ _ h; cases h; rfl⟩
      intro h
      exact ⟨ho h, goRound_nonneg h.audible, h.channel.1, h.channel.2, h.note.1, h.note.2, (goRound_fraction h.volume).1, (goRound_fraction h.volume).2⟩
    · obtain ⟨e', he', h'⟩ := ih _ _ m hm
      exact ⟨e', List.mem_cons_of_mem _ he', h'⟩

theorem trackEvent_time {m : Msg} {x : Int × Event} (h : trackEvent m = some x) : m.channelTime = some x.2.start := by
  cases m <;> simp only [trackEvent, Option.some.injEq, reduceCtorEq] at h <;> (subst h; rfl)

theorem sendAll_order (s : Score) (x : Transmission) (hx : ∀ p, x.syncOffset p = 0) (start : Rat) (es : List NoteEvent) (ch : Channels) (len : Rat)
    (hp : es.Pairwise (fun a b => a.offset ≤ b.offset)) :
    ((sendAll s x start es ch len).1.filterMap trackEvent).Pairwise (fun a b => a.2.start ≤ b.2.start) := by
  have := (sendAll_times s x start es ch len).2 (hp.imp (by intro a b h; rw [hx, hx]; grind))
  rw [List.pairwise_filterMap]
  refine this.imp ?_
  intro a b hab x hx y hy
  rw [trackEvent_time hx, trackEvent_time hy] at hab
  exact hab

theorem goRound_gap {x y z : Rat} (h : x + y + 1 / 2 ≤ z) (hz : 0 ≤ z) (hx : 0 ≤ x) (hy : 0 ≤ y) : goRound x + goRound y ≤ goRound z := by
  have n1 := (goRound_nearest x).1 hx
  have n2 := (goRound_nearest y).1 hy
  have n3 := (goRound_nearest z).1 hz
  have : ((goRound x + goRound y : Int) : Rat) < ((goRound z + 1 : Int) : Rat) := by
    rw [Rat.intCast_add, Rat.intCast_add]
    grind
  have := Rat.intCast_lt_intCast.1 this
  omega

theorem sendAll_before (s : Score) (x : Transmission) (hx : ∀ p, x.syncOffset p = 0) (start : Rat) (es : List NoteEvent) (ch : Channels) (len : Rat)
    (hs : ∀ e ∈ es, start ≤ e.offset ∧ 0 ≤ e.audible) (hp : es.Pairwise (fun a b => a.channel = b.channel → a.note = b.note → a.offset + a.audible + 1 / 2 ≤ b.offset)) :
    ((sendAll s x start es ch len).1.filterMap trackEvent).Pairwise (fun a b => a.2.Before b.2) := by
  have hn := sendAll_notes s x start es ch len
  have hq : (noteMsgs (sendAll s x start es ch len).1).Pairwise (fun a b => ∀ x, trackEvent a = some x → ∀ y, trackEvent b = some y → x.2.Before y.2) := by
    rw [hn, List.pairwise_map]
    refine List.Pairwise.imp_of_mem ?_ hp
    intro a b ha hb hab x' hx' y' hy'
    simp only [noteMsg, trackEvent, Option.some.injEq] at hx' hy'
    subst hx'; subst hy'
    intro h1 h2
    have := hab h1 h2
    have ⟨a1, a2⟩ := hs a ha
    have ⟨b1, b2⟩ := hs b hb
    rw [hx, hx]
    refine goRound_gap (by grind) (by grind) (by grind) a2
  unfold noteMsgs at hq
  rw [List.pairwise_filter] at hq
  rw [List.pairwise_filterMap]
  refine hq.imp ?_
  intro a b hab x hx y hy
  cases a with
  | note t c o n d a v =>
    cases b with
    | note t' c' o' n' d' a' v' => exact hab rfl rfl x hx y hy
    | _ => simp only [trackEvent, Option.some.injEq, reduceCtorEq] at hx hy <;> (subst hx; subst hy; trivial)
  | _ => simp only [trackEvent, Option.some.injEq, reduceCtorEq] at hx <;> (subst hx; trivial)

/-! ### The tempo messages -/

theorem tempoLoop_rising (it : List (Rat × Rat)) (start stop first : Rat) (ks : List Rat) : ∀ lo : Int, ks.Pairwise (· < ·) →
    (∀ k ∈ ks, lo ≤ goRound (if k - start < 0 then 0 else k - start)) → (∀ o v, Msg.tempo o v ∈ tempoLoop it start stop first ks → 0 < v) →
    Rising lo ((tempoLoop it start stop first ks).filterMap tempoOf) := by
  induction ks with
  | nil => intro lo _ _ _; trivial
  | cons k ks ih =>
    intro lo hp hlo hv
    rw [List.pairwise_cons] at hp
    simp only [tempoLoop] at hv ⊢
    split
    · rename_i h
      rw [if_pos h] at hv
      exact ih lo hp.2 (fun k' hk' => hlo k' (List.mem_cons_of_mem _ hk')) hv
    · rename_i h
      rw [if_neg h] at hv
      split
      · trivial
      · rename_i h'
        rw [if_neg h'] at hv
        rw [List.filterMap_cons]
        simp only [tempoOf]
        refine ⟨hlo k (List.mem_cons_self ..), hv _ _ (List.mem_cons_self ..), ih _ hp.2 ?_ (fun o v ho => hv o v (List.mem_cons_of_mem _ ho))⟩
        intro k' hk'
        have := hp.1 k' hk'
        refine goRound_mono ?_
        split <;> split <;> grind

/-- The bundle of a score, in parts. -/
structure Parts (s : Score) (x : Transmission) (start : Rat) (es : List NoteEvent) (ms tempos body rest : List Msg) : Prop where
  all : ms = tempos ++ body ++ rest
  only : ∀ m ∈ tempos, ∃ o v, m = .tempo o v
  rising : (∀ o v, Msg.tempo o v ∈ ms → 0 < v) → Rising 0 (tempos.filterMap tempoOf)
  sent : body = (sendAll s x start es ⟨fun _ => none, fun _ => none, fun _ => none⟩ 0).1
  listened : listen ms {} = listen body {}
  last : ∀ m ∈ rest, m = .play ∨ ∃ o, 0 < o ∧ m = .shutdown o
  goes : Msg.play ∈ rest ↔ x.loadOnly = false

theorem listen_tempos (ms : List Msg) (h : ∀ m ∈ ms, ∃ o v, m = Msg.tempo o v) (ms' : List Msg) (k : Controls) : listen (ms ++ ms') k = listen ms' k := by
  induction ms with
  | nil => rfl
  | cons m ms ih =>
    obtain ⟨o, v, rfl⟩ := h _ (List.mem_cons_self ..)
    exact ih (fun m hm => h m (List.mem_cons_of_mem _ hm))

theorem listen_rest (ms : List Msg) : ∀ (k : Controls) (rest : List Msg), (∀ m ∈ rest, m = .play ∨ ∃ o, 0 < o ∧ m = Msg.shutdown o) → listen (ms ++ rest) k = listen ms k := by
  induction ms with
  | nil =>
    intro k rest h
    induction rest with
    | nil => rfl
    | cons m rest ih =>
      have ih := ih (fun m hm => h m (List.mem_cons_of_mem _ hm))
      rcases h m (List.mem_cons_self ..) with rfl | ⟨o, _, rfl⟩ <;> exact ih
  | cons m ms ih =>
    intro k rest h
    cases m with
    | note t c o n d a v => simp only [List.cons_append, listen, ih _ rest h]
    | _ => exact ih _ rest h

theorem bundle_parts {sort : List NoteEvent → List NoteEvent} (hs : SortsByOffset sort) {s : Score} {x : Transmission} (hx : x.hasSync = false) {ms : List Msg}
    (h : scoreToBundle sort s x = .ok ms) {start stop : Rat} (h1 : Stands s x.from_ 0 start) (h2 : Stands s x.to_ maxFloat stop) :
    ∃ es tempos body rest, Parts s x start es ms tempos body rest ∧ es.Perm (((s.events.take (x.toIndex.getD s.events.length)).drop x.fromIndex).filter
        (fun e => decide (start ≤ e.offset) && decide (e.offset < stop))) ∧ es.Pairwise (fun a b => a.offset ≤ b.offset) := by
  obtain ⟨events, hv, hm⟩ := bundle_eq hs h h1 h2
  have hevs : events = (s.events.take (x.toIndex.getD s.events.length)).drop x.fromIndex := by
    unfold eventSlice at hv
    simp only at hv
    split at hv
    · simp only [Except.ok.injEq] at hv; exact hv.symm
    · simp at hv
  simp only [hx, Bool.false_eq_true, if_false] at hm
  have hlen := sendAll_length s x start ((sort events).filter (wanted start stop)) ⟨fun _ => none, fun _ => none, fun _ => none⟩ 0
  have hfold := foldl_max_spec (fun e => e.offset - start - x.syncOffset e.part + e.audible) ((sort events).filter (wanted start stop)) 0
  rw [← hlen] at hfold
  have hrest : ∀ m ∈ (if x.loadOnly then [] else [Msg.play]) ++ (if x.oneOff then [Msg.shutdown (goRound ((sendAll s x start ((sort events).filter (wanted start stop)) ⟨fun _ => none, fun _ => none, fun _ => none⟩ 0).2 + 10000))] else []),
      m = .play ∨ ∃ o, 0 < o ∧ m = .shutdown o := by
    intro m hm
    rcases List.mem_append.1 hm with hm | hm
    · split at hm
      · cases hm
      · exact Or.inl (List.mem_singleton.1 hm)
    · split at hm
      · refine Or.inr ⟨_, ?_, List.mem_singleton.1 hm⟩
        have := nearest_add_int (k := 1) (goRound_nearest ((sendAll s x start ((sort events).filter (wanted start stop)) ⟨fun _ => none, fun _ => none, fun _ => none⟩ 0).2 + 10000))
          (by have : ((1 : Int) : Rat) = 1 := rfl; rw [this]; have := hfold.1; grind)
        omega
      · cases hm
  have htempos : ∀ m ∈ tempoMessages (tempoItinerary s) start stop, ∃ o v, m = Msg.tempo o v := fun m hm => tempoLoop_only _ _ _ _ _ m hm
  refine ⟨(sort events).filter (wanted start stop), tempoMessages (tempoItinerary s) start stop, _, _, ⟨by rw [hm, List.append_assoc], htempos, ?_, rfl, ?_, hrest, by cases x.loadOnly <;> cases x.oneOff <;> simp⟩, ?_, (hs events).2.filter _⟩
  · intro hpos
    refine tempoLoop_rising _ _ _ _ _ 0 (sortedKeys_sorted _) ?_ ?_
    · intro k _
      exact goRound_nonneg (by split <;> grind)
    · intro o v ho
      refine hpos o v ?_
      rw [hm]
      simp only [List.mem_append]
      exact Or.inl (Or.inl (Or.inl ho))
  · rw [hm, List.append_assoc, listen_rest _ _ _ hrest, listen_tempos _ htempos]
  · rw [← hevs]; exact (hs events).1.filter _

theorem Parts.tempo {s x start es ms tempos body rest} (h : Parts s x start es ms tempos body rest) (hx : ∀ p, x.syncOffset p = 0) : ms.filterMap tempoOf = tempos.filterMap tempoOf := by
  rw [h.all, List.filterMap_append, List.filterMap_append]
  have e1 : body.filterMap tempoOf = [] := by
    rw [List.filterMap_eq_nil_iff]
    intro m hm
    rw [h.sent] at hm
    obtain ⟨e, _, ev, he, _⟩ := sendAll_for s x hx start es _ _ m hm
    cases m <;> first | rfl | (cases he)
  have e2 : rest.filterMap tempoOf = [] := by
    rw [List.filterMap_eq_nil_iff]
    intro m hm
    rcases h.last m hm with rfl | ⟨o, _, rfl⟩ <;> rfl
  rw [e1, e2]; simp

theorem Parts.events {s x start es ms tempos body rest} (h : Parts s x start es ms tempos body rest) : ms.filterMap trackEvent = body.filterMap trackEvent := by
  rw [h.all, List.filterMap_append, List.filterMap_append]
  have e1 : tempos.filterMap trackEvent = [] := by
    rw [List.filterMap_eq_nil_iff]
    intro m hm
    obtain ⟨o, v, rfl⟩ := h.only m hm
    rfl
  have e2 : rest.filterMap trackEvent = [] := by
    rw [List.filterMap_eq_nil_iff]
    intro m hm
    rcases h.last m hm with rfl | ⟨o, _, rfl⟩ <;> rfl
  rw [e1, e2]; simp

theorem mem_tempos {ms : List Msg} {t : Int × Rat} : t ∈ ms.filterMap tempoOf ↔ Msg.tempo t.1 t.2 ∈ ms := by
  rw [List.mem_filterMap]
  constructor
  · rintro ⟨m, hm, he⟩
    cases m with
    | tempo o v =>
      simp only [tempoOf, Option.some.injEq] at he
      subst he; exact hm
    | _ => cases he
  · intro h
    exact ⟨_, h, rfl⟩

theorem Parts.shutdown {s x start es ms tempos body rest} (h : Parts s x start es ms tempos body rest) (hx : ∀ p, x.syncOffset p = 0) {o : Int} (ho : Msg.shutdown o ∈ ms) : 0 < o := by
  rw [h.all] at ho
  rcases List.mem_append.1 ho with ho | ho
  · rcases List.mem_append.1 ho with ho | ho
    · obtain ⟨_, _, he⟩ := h.only _ ho; cases he
    · rw [h.sent] at ho
      obtain ⟨e, _, ev, he, _⟩ := sendAll_for s x hx start es _ _ _ ho
      cases he
  · rcases h.last _ ho with he | ⟨o', h', he⟩
    · cases he
    · cases he; exact h'

theorem Parts.play {s x start es ms tempos body rest} (h : Parts s x start es ms tempos body rest) (hx : ∀ p, x.syncOffset p = 0) : decide (Msg.play ∈ ms) = !x.loadOnly := by
  have : Msg.play ∈ ms ↔ x.loadOnly = false := by
    rw [← h.goes, h.all, List.mem_append, List.mem_append]
    constructor
    · rintro ((h1 | h1) | h1)
      · obtain ⟨_, _, he⟩ := h.only _ h1; cases he
      · rw [h.sent] at h1
        obtain ⟨e, _, ev, he, _⟩ := sendAll_for s x hx start es _ _ _ h1
        cases he
      · exact h1
    · exact Or.inr
  cases hl : x.loadOnly with
  | true => rw [hl] at this; simpa using this
  | false => rw [hl] at this; simpa using this

theorem Parts.proper {s x start es ms tempos body rest} (h : Parts s x start es ms tempos body rest) (hx : ∀ p, x.syncOffset p = 0) {m : Rat} (hm : 0 < m) (hm' : m ≤ 120)
    (ht : ∀ o v, Msg.tempo o v ∈ ms → m ≤ v ∧ (0 < o → 30000 ≤ o * (m * 128))) (hp : ∀ e ∈ es, Playable s start e) : Proper m ms where
  low := hm
  high := hm'
  rising := by
    rw [h.tempo hx]
    exact h.rising (fun o v ho => by have := (ht o v ho).1; grind)
  tempos := by intro t h; exact ht t.1 t.2 (mem_tempos.1 h)
  fits := by
    intro e he
    rw [h.events] at he
    obtain ⟨msg, hmsg, he⟩ := List.mem_filterMap.1 he
    rw [h.sent] at hmsg
    obtain ⟨n, hn, ev, h1, _, _, hf, _⟩ := sendAll_for s x hx start es _ _ msg hmsg
    rw [h1] at he
    simp only [Option.some.injEq] at he
    subst he
    exact hf (hp n hn)
  shutdowns := fun o ho => h.shutdown hx ho

end Player
end Alda
