import Verif.Spec.Playback
import Verif.Lemmas.Parts
/-!
Lemmas about rounding, tracks and the loop over the events.
-/
namespace Alda

/-! ### Rounding -/

theorem goRound_nearest (r : Rat) : Nearest r (goRound r) := by
  unfold Nearest goRound
  constructor
  · intro h
    rw [if_pos h]
    have h1 := Rat.floor_le (r + 1 / 2)
    have h2 := Rat.lt_floor_add_one (r + 1 / 2)
    rw [Rat.intCast_add] at h2
    generalize ((r + 1 / 2).floor : Rat) = x at *
    constructor <;> grind
  · intro h
    rw [if_neg (by grind)]
    have h1 := Rat.floor_le (-r + 1 / 2)
    have h2 := Rat.lt_floor_add_one (-r + 1 / 2)
    rw [Rat.intCast_add] at h2
    rw [Rat.intCast_neg]
    generalize ((-r + 1 / 2).floor : Rat) = x at *
    constructor <;> grind

theorem nearest_mono {r r' : Rat} {n n' : Int} (h : Nearest r n) (h' : Nearest r' n') (hr : r ≤ r') : n ≤ n' := by
  apply Classical.byContradiction
  intro hn
  have hn : n' + 1 ≤ n := by omega
  have hc : ((n' + 1 : Int) : Rat) ≤ (n : Rat) := by exact_mod_cast hn
  rw [Rat.intCast_add] at hc
  obtain ⟨a, b⟩ := h
  obtain ⟨a', b'⟩ := h'
  by_cases h0 : 0 ≤ r
  · have := a h0; have := a' (by grind); grind
  · have := b (by grind)
    by_cases h1 : 0 ≤ r'
    · have := a' h1; grind
    · have := b' (by grind); grind

theorem goRound_mono {a b : Rat} (h : a ≤ b) : goRound a ≤ goRound b :=
  nearest_mono (goRound_nearest a) (goRound_nearest b) h

theorem nearest_add_int {r : Rat} {n k : Int} (h : Nearest r n) (hk : (k : Rat) ≤ r) : k ≤ n := by
  apply Classical.byContradiction
  intro hn
  have hn : n + 1 ≤ k := by omega
  have hc : ((n + 1 : Int) : Rat) ≤ (k : Rat) := by exact_mod_cast hn
  rw [Rat.intCast_add] at hc
  obtain ⟨a, b⟩ := h
  by_cases h0 : 0 ≤ r
  · have := a h0; grind
  · have := b (by grind); grind

/-! ### Tracks -/

theorem tracksFrom_none (s : Score) (o : Nat) (ps : List Nat) : ∀ (i : Int) (acc : Option Int), o ∉ origins s ps →
    tracksFrom s o i ps acc = acc := by
  induction ps with
  | nil => intro i acc _; rfl
  | cons p ps ih =>
    intro i acc h
    simp only [origins, List.map_cons, List.mem_cons, not_or] at h
    simp only [tracksFrom]
    rw [if_neg (fun e => h.1 e.symm), ih _ _ h.2]

theorem tracksFrom_get (s : Score) (o : Nat) (ps : List Nat) : ∀ (i : Int) (acc : Option Int) (k : Nat),
    (origins s ps).Nodup → (origins s ps)[k]? = some o → tracksFrom s o i ps acc = some (i + k) := by
  induction ps with
  | nil => intro i acc k _ h; simp [origins] at h
  | cons p ps ih =>
    intro i acc k hn h
    simp only [origins, List.map_cons, List.nodup_cons] at hn
    simp only [tracksFrom]
    cases k with
    | zero =>
      simp only [origins, List.map_cons, List.getElem?_cons_zero, Option.some.injEq] at h
      rw [if_pos h, tracksFrom_none]
      · simp
      · rw [← h]; exact hn.1
    | succ k =>
      simp only [origins, List.map_cons, List.getElem?_cons_succ] at h
      rw [ih _ _ k hn.2 h]
      congr 1
      push_cast
      omega

/-! ### Every note belongs to an instrument in the score -/

def EventsIn (s : Score) : Prop := ∀ e ∈ s.events, e.part ∈ instances s

theorem instances_view (s : Score) : instances s = (partView s).map (·.1) := by
  unfold instances partView; rw [List.map_map]; rfl

theorem Step.instances_grow {L D} {s t : Score} (h : Step L D s t) (w : WF s) : ∀ o ∈ instances s, o ∈ instances t := by
  have view : SameView s t → ∀ o ∈ instances s, o ∈ instances t := by
    intro h o ho
    rw [instances_view, h.1, ← instances_view]; exact ho
  cases h with
  | attr hid hL hu => exact view (Step.view (L := L) (.attr hid hL hu) w)
  | globals hid => exact view (Step.view (L := L) (.globals hid) w)
  | record o u hL => exact view (Step.view (L := L) (.record o u hL) w)
  | emit d a hid ha hn hd hc => exact view (Step.view (L := L) (.emit d a hid ha hn hd hc) w)
  | timing o l t d r hid => exact view (Step.view (L := L) (.timing o l t d r hid) w)
  | chordMode b => exact view (Step.view (L := L) (.chordMode b) w)
  | marker n o => exact view (Step.view (L := L) (.marker n o) w)
  | setVar n es hes hpl => exact view (Step.view (L := L) (.setVar n es hes hpl) w)
  | template hid hv ht => exact view (Step.view (L := L) (.template hid hv ht) w)
  | newVoice n hid ht hn => exact view (Step.view (L := L) (.newVoice n hid ht hn) w)
  | enterVoice hid hv => exact view (Step.view (L := L) (.enterVoice hid hv) w)
  | endVoices i => exact view (Step.view (L := L) (.endVoices i) w)
  | newPart hD name h => exact view (newPart_view w h)
  | declare hD parts alias hp hn hne hg =>
    intro o ho
    obtain ⟨i, hi, rfl⟩ := List.mem_map.1 ho
    refine List.mem_map.2 ⟨i, ?_, ?_⟩
    · rw [declareParts_parts, dedup_mem]; exact Or.inl hi
    · rw [declareParts_heap]
      rcases markMaster_heap parts s i with h | ⟨_, _, h⟩ <;> rw [h]

theorem Step.eventsIn {L D} {s t : Score} (h : Step L D s t) (w : WF s) (hi : EventsIn s) : EventsIn t := by
  have g := h.instances_grow w
  rcases h.notes with ⟨he, _⟩ | ⟨id, ch, n, d, a, hid, _, _, _, _, rfl⟩
  · intro e hm; rw [he] at hm; exact g _ (hi e hm)
  · intro e hm
    rw [emitted_events] at hm
    rcases List.mem_append.1 hm with hm | hm
    · exact g _ (hi e hm)
    · simp only [List.mem_singleton] at hm
      subst hm
      refine g _ ?_
      obtain ⟨q, hq, ho⟩ := w.cur_parts id hid
      exact List.mem_map.2 ⟨q, hq, ho⟩

theorem reachable_eventsIn {s : Score} (h : Reachable s) : EventsIn s := by
  obtain ⟨p, rfl⟩ := h
  have st := update_all_steps p newScore (newScore_good _ _)
  have := st.invariant (I := fun s => WF s ∧ EventsIn s) (fun s t h hi => ⟨h.wf hi.1, h.eventsIn hi.1 hi.2⟩)
    ⟨(newScore_good (fun _ => True) True).wf, by intro e he; cases he⟩
  exact this.2

theorem track_eq {s : Score} (w : WF s) {o : Nat} (h : o ∈ instances s) :
    ∃ k : Nat, s.track o = some ((k : Int) + 1) ∧ (instances s)[k]? = some o := by
  obtain ⟨k, hk, he⟩ := List.mem_iff_getElem.1 h
  have hg : (instances s)[k]? = some o := by rw [List.getElem?_eq_getElem hk, he]
  refine ⟨k, ?_, hg⟩
  unfold Score.track
  rw [tracksFrom_get s o s.parts 1 none k w.parts_nodup hg]
  congr 1
  omega

/-! ### The loop over the events -/

/-- The loop without the range checks. -/
def sendAll (s : Score) (x : Transmission) (start : Rat) : List NoteEvent → Channels → Rat → List Msg × Rat
  | [], _, len => ([], len)
  | e :: es, ch, len =>
    let track := (s.track e.part).getD 0
    let offset := e.offset - start - x.syncOffset e.part
    let off := goRound offset
    let r1 := patchMsgs track off (s.heap e.part).instr.patch e ch
    let r2 := volumeMsgs track off e r1.2
    let r3 := panningMsgs track off e r2.2
    let r := sendAll s x start es r3.2 (max len (offset + e.audible))
    (r1.1 ++ r2.1 ++ r3.1 ++ [noteMsg track off e] ++ r.1, r.2)

/-- Whether an event is to be played. -/
def wanted (start stop : Rat) (e : NoteEvent) : Bool := decide (start ≤ e.offset) && decide (e.offset < stop)

theorem eventLoop_eq (s : Score) (x : Transmission) (start stop : Rat) (es : List NoteEvent) :
    ∀ ch len, es.Pairwise (fun a b => a.offset ≤ b.offset) →
    eventLoop s x start stop es ch len = sendAll s x start (es.filter (wanted start stop)) ch len := by
  induction es with
  | nil => intro ch len _; rfl
  | cons e es ih =>
    intro ch len hp
    obtain ⟨h1, h2⟩ := List.pairwise_cons.1 hp
    simp only [eventLoop]
    split
    · rename_i h
      rw [List.filter_cons_of_neg (by simp only [wanted, Bool.and_eq_true, decide_eq_true_eq]; grind), ih _ _ h2]
    · split
      · rename_i h h'
        have : (e :: es).filter (wanted start stop) = [] := by
          rw [List.filter_eq_nil_iff]
          intro a ha
          simp only [wanted, Bool.and_eq_true, decide_eq_true_eq]
          rcases List.mem_cons.1 ha with rfl | ha
          · grind
          · have := h1 a ha; grind
        rw [this]; rfl
      · rw [List.filter_cons_of_pos (by simp only [wanted, Bool.and_eq_true, decide_eq_true_eq]; grind), sendAll, ih _ _ h2]

theorem noteMsgs_append (a b : List Msg) : noteMsgs (a ++ b) = noteMsgs a ++ noteMsgs b := List.filter_append ..

theorem patchMsgs_notes (t o p : Int) (e : NoteEvent) (ch : Channels) : noteMsgs (patchMsgs t o p e ch).1 = [] := by
  unfold patchMsgs; split
  · split <;> rfl
  · rfl
theorem volumeMsgs_notes (t o : Int) (e : NoteEvent) (ch : Channels) : noteMsgs (volumeMsgs t o e ch).1 = [] := by
  unfold volumeMsgs; split <;> rfl
theorem panningMsgs_notes (t o : Int) (e : NoteEvent) (ch : Channels) : noteMsgs (panningMsgs t o e ch).1 = [] := by
  unfold panningMsgs; split <;> rfl

theorem sendAll_notes (s : Score) (x : Transmission) (start : Rat) (es : List NoteEvent) : ∀ ch len,
    noteMsgs (sendAll s x start es ch len).1 =
      es.map (fun e => noteMsg ((s.track e.part).getD 0) (goRound (e.offset - start - x.syncOffset e.part)) e) := by
  induction es with
  | nil => intro ch len; rfl
  | cons e es ih =>
    intro ch len
    simp only [sendAll, noteMsgs_append, patchMsgs_notes, volumeMsgs_notes, panningMsgs_notes, ih, List.map_cons]
    rfl

/-- The longest end of a note. -/
theorem sendAll_length (s : Score) (x : Transmission) (start : Rat) (es : List NoteEvent) : ∀ ch len,
    (sendAll s x start es ch len).2 = es.foldl (fun l e => max l (e.offset - start - x.syncOffset e.part + e.audible)) len := by
  induction es with
  | nil => intro ch len; rfl
  | cons e es ih => intro ch len; simp only [sendAll, ih, List.foldl_cons]

/-- What the player knows agrees with the maps of the transmitter. -/
structure Agrees (ch : Channels) (k : Controls) : Prop where
  patch : ∀ c, k.patch c = ch.patch c
  volume : ∀ c, k.volume c = (ch.volume c).map (fun v => goRound (v * 127))
  panning : ∀ c, k.panning c = (ch.panning c).map (fun v => goRound (v * 127))

theorem listen_patch (t o p : Int) (e : NoteEvent) (ch : Channels) (k : Controls) (h : Agrees ch k) (ms : List Msg) :
    ∃ k', Agrees (patchMsgs t o p e ch).2 k' ∧ listen ((patchMsgs t o p e ch).1 ++ ms) k = listen ms k' ∧
      (e.channel ≠ 9 → k'.patch e.channel = some p) := by
  unfold patchMsgs
  split
  · split
    · refine ⟨{ k with patch := fun x => if x = e.channel then some p else k.patch x }, ⟨?_, h.volume, h.panning⟩, rfl, ?_⟩
      · intro c
        simp only [putChannel]
        split
        · rfl
        · exact h.patch c
      · intro _; simp
    · rename_i hp
      exact ⟨k, h, rfl, fun _ => by rw [h.patch]; exact Classical.not_not.1 hp⟩
  · rename_i h9
    exact ⟨k, h, rfl, fun h => absurd h h9⟩

theorem listen_volume (t o : Int) (e : NoteEvent) (ch : Channels) (k : Controls) (h : Agrees ch k) (ms : List Msg) :
    ∃ k', Agrees (volumeMsgs t o e ch).2 k' ∧ listen ((volumeMsgs t o e ch).1 ++ ms) k = listen ms k' ∧
      k'.patch = k.patch ∧ k'.volume e.channel = some (goRound (e.trackVolume * 127)) := by
  unfold volumeMsgs
  split
  · refine ⟨{ k with volume := fun x => if x = e.channel then some (goRound (e.trackVolume * 127)) else k.volume x }, ⟨h.patch, ?_, h.panning⟩, rfl, rfl, ?_⟩
    · intro c
      simp only [putChannel]
      split
      · rfl
      · exact h.volume c
    · simp
  · rename_i hp
    refine ⟨k, h, rfl, rfl, ?_⟩
    rw [h.volume, Classical.not_not.1 hp]; rfl

theorem listen_panning (t o : Int) (e : NoteEvent) (ch : Channels) (k : Controls) (h : Agrees ch k) (ms : List Msg) :
    ∃ k', Agrees (panningMsgs t o e ch).2 k' ∧ listen ((panningMsgs t o e ch).1 ++ ms) k = listen ms k' ∧
      k'.patch = k.patch ∧ k'.volume = k.volume ∧ k'.panning e.channel = some (goRound (e.panning * 127)) := by
  unfold panningMsgs
  split
  · refine ⟨{ k with panning := fun x => if x = e.channel then some (goRound (e.panning * 127)) else k.panning x }, ⟨h.patch, h.volume, ?_⟩, rfl, rfl, rfl, ?_⟩
    · intro c
      simp only [putChannel]
      split
      · rfl
      · exact h.panning c
    · simp
  · rename_i hp
    refine ⟨k, h, rfl, rfl, rfl, ?_⟩
    rw [h.panning, Classical.not_not.1 hp]; rfl

theorem listen_sendAll (s : Score) (x : Transmission) (start : Rat) (es : List NoteEvent) : ∀ ch len k, Agrees ch k →
    Matches (fun e h => h.1 = noteMsg ((s.track e.part).getD 0) (goRound (e.offset - start - x.syncOffset e.part)) e ∧
        (e.channel ≠ 9 → h.2.1 = some ((s.heap e.part).instr.patch : Int)) ∧
        h.2.2 = (some (goRound (e.trackVolume * 127)), some (goRound (e.panning * 127))))
      es (listen (sendAll s x start es ch len).1 k) := by
  induction es with
  | nil => intro ch len k _; exact .nil
  | cons e es ih =>
    intro ch len k h
    simp only [sendAll, List.append_assoc]
    obtain ⟨k1, a1, e1, p1⟩ := listen_patch ((s.track e.part).getD 0) (goRound (e.offset - start - x.syncOffset e.part))
      (s.heap e.part).instr.patch e ch k h _
    rw [e1]
    obtain ⟨k2, a2, e2, p2, v2⟩ := listen_volume ((s.track e.part).getD 0) (goRound (e.offset - start - x.syncOffset e.part)) e _ k1 a1 _
    rw [e2]
    obtain ⟨k3, a3, e3, p3, v3, n3⟩ := listen_panning ((s.track e.part).getD 0) (goRound (e.offset - start - x.syncOffset e.part)) e _ k2 a2 _
    rw [e3]
    refine .cons ⟨rfl, ?_, ?_⟩ (ih _ _ _ a3)
    · intro h9
      show k3.patch e.channel = _
      rw [p3, p2]; exact p1 h9
    · show (k3.volume e.channel, k3.panning e.channel) = _
      rw [v3, v2, n3]

/-- All messages of one event are due at the same time. -/
theorem sendAll_times (s : Score) (x : Transmission) (start : Rat) (es : List NoteEvent) : ∀ ch len,
    (∀ m ∈ (sendAll s x start es ch len).1, ∃ e ∈ es, m.channelTime = some (goRound (e.offset - start - x.syncOffset e.part))) ∧
    (es.Pairwise (fun a b => a.offset - x.syncOffset a.part ≤ b.offset - x.syncOffset b.part) →
      (sendAll s x start es ch len).1.Pairwise (fun a b => a.channelTime.getD 0 ≤ b.channelTime.getD 0)) := by
  induction es with
  | nil => intro ch len; exact ⟨(by intro m hm; cases hm), fun _ => .nil⟩
  | cons e es ih =>
    intro ch len
    simp only [sendAll]
    generalize hoff : goRound (e.offset - start - x.syncOffset e.part) = off
    generalize (s.track e.part).getD 0 = tr
    generalize h1 : patchMsgs tr off (s.heap e.part).instr.patch e ch = r1
    generalize h2 : volumeMsgs tr off e r1.2 = r2
    generalize h3 : panningMsgs tr off e r2.2 = r3
    obtain ⟨i1, i2⟩ := ih r3.2 (max len (e.offset - start - x.syncOffset e.part + e.audible))
    generalize (sendAll s x start es r3.2 (max len (e.offset - start - x.syncOffset e.part + e.audible))).1 = rest at *
    have t1 : ∀ m ∈ r1.1 ++ r2.1 ++ r3.1 ++ [noteMsg tr off e], m.channelTime = some off := by
      intro m hm
      simp only [List.mem_append, List.mem_singleton] at hm
      rcases hm with ((hm | hm) | hm) | hm
      · rw [← h1] at hm; unfold patchMsgs at hm; split at hm
        · split at hm
          · simp only [List.mem_singleton] at hm; rw [hm]; rfl
          · cases hm
        · cases hm
      · rw [← h2] at hm; unfold volumeMsgs at hm; split at hm
        · simp only [List.mem_singleton] at hm; rw [hm]; rfl
        · cases hm
      · rw [← h3] at hm; unfold panningMsgs at hm; split at hm
        · simp only [List.mem_singleton] at hm; rw [hm]; rfl
        · cases hm
      · rw [hm]; rfl
    constructor
    · intro m hm
      rcases List.mem_append.1 hm with hm | hm
      · exact ⟨e, List.mem_cons_self .., by rw [hoff]; exact t1 m hm⟩
      · obtain ⟨e', he', h'⟩ := i1 m hm
        exact ⟨e', List.mem_cons_of_mem _ he', h'⟩
    · intro hp
      obtain ⟨p1, p2⟩ := List.pairwise_cons.1 hp
      rw [List.pairwise_append]
      refine ⟨?_, i2 p2, ?_⟩
      · refine List.Pairwise.imp_of_mem (R := fun _ _ => True) ?_ (List.pairwise_of_forall (fun _ _ => trivial))
        intro a b ha hb _
        rw [t1 a ha, t1 b hb]; exact Int.le_refl _
      · intro a ha b hb
        obtain ⟨e', he', h'⟩ := i1 b hb
        rw [t1 a ha, h']
        simp only [Option.getD_some]
        rw [← hoff]
        refine goRound_mono ?_
        have := p1 e' he'
        grind

end Alda
