import Verif.Lemmas.XmlNotes
/-!
The importer follows the reading of a part: the invariant and the steps on a part.
-/
namespace Alda
namespace Importer
open Spec

/-- A note as a line plays it, in beats. -/
def toneOf (D : Nat) (n : XmlNote) : Rat × Rat × Int := ((n.start : Rat) / D, (n.length : Rat) / D, n.pitch.number 0)

/-- The beginning of a line. -/
def startPen : Pen := ⟨0, 4, []⟩

/-- A voice that has been written up to `e` and plays these notes; its beats may be out of date. -/
structure VoiceLike (D : Nat) (K : KeySig) (v : Voice) (e : Nat) (notes : List XmlNote) : Prop where
  flat : FlatL v.events
  sum : beatsSum v.events = (e : Rat) / D
  octave : (startPen.run K v.events).octave = v.octave
  tones : (startPen.run K v.events).tones = notes.map (toneOf D)

/-- The same, and its beats are right. -/
structure VoiceOk (D : Nat) (K : KeySig) (v : Voice) (e : Nat) (notes : List XmlNote) : Prop extends VoiceLike D K v e notes where
  beats : v.beats = (e : Rat) / D

/-- How the points that the voices have come to (`E`) are related to the reading. -/
structure TimeOk (D : Nat) (V : List Nat) (r : XmlReading) (E : Nat → Nat) : Prop where
  low : r.bar ≤ r.cursor
  high : r.cursor ≤ r.bar + 20000 * D
  furthest : r.furthest ≤ r.bar + 20000 * D
  le : ∀ n, r.reached n ≤ r.furthest
  from_ : ∀ n ∈ V, r.reached n ≤ E n
  to : ∀ n ∈ V, E n ≤ max (r.reached n) r.bar
  lag : ∀ n ∈ V, r.bar ≤ E n + 20000 * D
  top : r.furthest ≤ r.bar ∨ ∃ n ∈ V, r.furthest = r.reached n
  even : r.even = true → ∀ n ∈ V, r.bar ≤ E n
  fresh : r.now = none → r.furthest ≤ r.bar

/-- The notes of a voice. -/
def inVoice (n : Nat) (l : List XmlNote) : List XmlNote := l.filter (fun x => x.voice = n)

/-- The importer's part corresponds to the reading. -/
structure PartOk (D : Nat) (K : KeySig) (V : List Nat) (r : XmlReading) (E : Nat → Nat) (p : XPart) : Prop where
  time : TimeOk D V r E
  divisions : p.divisions = D
  keys : p.voices.map (·.1) = V.map (fun n : Nat => (n : Int))
  beats : p.beats = (r.cursor : Rat) / D
  voices : ∀ n ∈ V, ∃ v, p.voices.lookup (n : Int) = some v ∧ VoiceOk D K v (E n) (inVoice n r.notes)
  cur : ∃ n ∈ V, p.cur = .at (n : Int) ∧ ∀ w, r.now = some w → n = w
  last : ∀ m, r.last = some m → m.start + m.length = r.cursor ∧ (r.bar ≤ m.start ∧ 0 < m.length) ∧ m.voice ∈ V ∧ E m.voice = r.cursor ∧
    ∃ v pre u, p.voices.lookup (m.voice : Int) = some v ∧ v.events = pre ++ [u] ∧ Joinable ((m.length : Rat) / D) u

/-- What the steps leave alone. -/
structure Same (p q : XPart) : Prop where
  instruments : q.instruments = p.instruments
  updates : q.updates = p.updates
  alias : q.alias = p.alias
  opt : q.opt = p.opt
  unpitched : q.unpitched = p.unpitched

theorem Same.refl (p : XPart) : Same p p := ⟨rfl, rfl, rfl, rfl, rfl⟩
theorem Same.trans {p q r : XPart} (h : Same p q) (h' : Same q r) : Same p r :=
  ⟨h'.1.trans h.1, h'.2.trans h.2, h'.3.trans h.3, h'.4.trans h.4, h'.5.trans h.5⟩

section
variable {D : Nat} {K : KeySig} {V : List Nat} {r : XmlReading} {E : Nat → Nat} {p : XPart}

theorem key_mem (h : p.voices.map (·.1) = V.map (fun n : Nat => (n : Int))) {n : Nat} (hn : n ∈ V) : (n : Int) ∈ p.voices.map (·.1) := by
  rw [h]; exact List.mem_map_of_mem hn

theorem point_at {n : Int} {v : Voice} (h : p.voices.lookup n = some v) : p.point n = { p with cur := .at n } := by
  unfold XPart.point; rw [h]; rfl

theorem cast_div_lt {a b : Nat} (h1 : 1 ≤ D) : (b : Rat) / D - (a : Rat) / D > 0 ↔ a < b := by
  have hD : (0 : Rat) < D := by exact_mod_cast h1
  constructor
  · intro h
    have h2 := Rat.mul_pos h hD
    have h3 : ((b : Rat) / D - (a : Rat) / D) * D = (b : Rat) - a := by grind
    rw [h3] at h2
    have : (a : Rat) < b := by grind
    exact_mod_cast this
  · intro h
    have h2 : (a : Rat) < b := by exact_mod_cast h
    have h3 : (b : Rat) / D - (a : Rat) / D = ((b : Rat) - a) / D := by grind
    rw [h3]
    exact (Rat.lt_div_iff hD).2 (by grind)

theorem VoiceLike.rest {v : Voice} {a b : Nat} {notes : List XmlNote} (h : VoiceLike D K v a notes) {d : Dur} (hd : Lasts d ((b : Rat) / D - (a : Rat) / D)) (hl : OnlyLengths d) (x : Rat) :
    VoiceLike D K { v with events := v.events ++ [.leaf (.rest d)], beats := x } b notes := by
  refine ⟨h.flat.append (FlatL.one (.rest d _ hd) (.rest d hl.neat)), ?_, ?_, ?_⟩
  · show beatsSum (v.events ++ _) = _
    rw [beatsSum_append, h.sum]
    simp only [beatsSum, beatsUpd, hd.beats, Rat.add_zero]; grind
  · show ((startPen.run K (v.events ++ _))).octave = _
    rw [Pen.run_append]; exact h.octave
  · show ((startPen.run K (v.events ++ _))).tones = _
    rw [Pen.run_append]; exact h.tones

theorem assign_same {α β : Type} [DecidableEq α] {k : α} {b : β} : ∀ {l : List (α × β)}, l.lookup k = some b → assign k b l = l := by
  intro l
  induction l with
  | nil => intro h; simp at h
  | cons x l ih =>
    intro h
    obtain ⟨a, y⟩ := x
    rw [List.lookup_cons] at h
    simp only [assign]
    by_cases hx : a = k
    · subst hx; simp only [beq_self_eq_true, Option.some.injEq] at h; subst h; simp
    · rw [if_neg hx]
      have : (k == a) = false := by simpa [beq_eq_false_iff_ne] using fun e => hx e.symm
      rw [this] at h
      rw [ih h]

/-- Going to a voice that lags behind fills it with a rest; its beats are then out of date. -/
theorem pad_at (h1 : 1 ≤ D) (h2 : D ≤ 24) {n : Int} {v : Voice} {a b : Nat} {notes : List XmlNote} (hv : p.voices.lookup n = some v) (hpb : p.beats = (b : Rat) / D)
    (like : VoiceLike D K v a notes) (hvb : v.beats = (a : Rat) / D) (he : a ≤ b) (hg : b ≤ a + 40000 * D) :
    ∃ v', padVoice (p.point n) = .ok ({ p with cur := .at n }.put n v' ((b : Rat) / D)) ∧ VoiceLike D K v' b notes := by
  rw [point_at hv]
  generalize hq : ({ p with cur := .at n } : XPart) = q
  have hc : q.cur = .at n := by rw [← hq]
  have hv' : q.voices.lookup n = some v := by rw [← hq]; exact hv
  have hb : q.beats = (b : Rat) / D := by rw [← hq]; exact hpb
  unfold padVoice
  rw [voice_at hc hv']
  simp only [bind, Except.bind, pure, Except.pure]
  rw [hb, hvb]
  by_cases hlt : a < b
  · rw [if_pos ((cast_div_lt h1).2 hlt)]
    obtain ⟨d, hd1, hd2, hd3⟩ := gap_exact h1 h2 hlt hg
    have hsum : roundIfCloseEnough (beatsSum (v.events ++ [.leaf (.rest d)])) = (b : Rat) / D := by
      have := (like.rest hd2 hd3 0).sum
      rw [show beatsSum (v.events ++ [.leaf (.rest d)]) = (b : Rat) / D from this, round_grid h1 h2]
    rw [hd1]
    simp only
    rw [append_flat hc hv' like.flat]
    simp only
    unfold XPart.withEvents
    rw [put_voice hc]
    simp only
    rw [setVoice_at (p := q.put _ _ _) hc, put_put, hsum]
    rw [show (q.put _ _ _).beats = _ from rfl]
    exact ⟨_, rfl, like.rest hd2 hd3 _⟩
  · have e : a = b := by omega
    rw [if_neg (fun h => hlt ((cast_div_lt h1).1 h))]
    refine ⟨v, ?_, by rw [← e]; exact like⟩
    unfold XPart.put
    rw [assign_same hv', ← hb]

/-- Going to a voice that does not lag behind changes nothing else. -/
theorem pad_none (h1 : 1 ≤ D) {n : Int} {v : Voice} {a b : Nat} (hv : p.voices.lookup n = some v) (hpb : p.beats = (b : Rat) / D)
    (hvb : v.beats = (a : Rat) / D) (he : b ≤ a) : padVoice (p.point n) = .ok { p with cur := .at n } := by
  rw [point_at hv]
  generalize hq : ({ p with cur := .at n } : XPart) = q
  have hc : q.cur = .at n := by rw [← hq]
  have hv' : q.voices.lookup n = some v := by rw [← hq]; exact hv
  have hb : q.beats = (b : Rat) / D := by rw [← hq]; exact hpb
  unfold padVoice
  rw [voice_at hc hv']
  simp only [bind, Except.bind, pure, Except.pure]
  rw [hb, hvb]
  rw [if_neg (fun h => by have := (cast_div_lt h1).1 h; omega)]

theorem pad_ok (h1 : 1 ≤ D) (h2 : D ≤ 24) (h : PartOk D K V r E p) {n : Nat} (hn : n ∈ V) (he : E n ≤ r.cursor) (hg : r.cursor ≤ E n + 40000 * D) :
    ∃ v', padVoice (p.point n) = .ok ({ p with cur := .at n }.put n v' ((r.cursor : Rat) / D)) ∧ VoiceLike D K v' r.cursor (inVoice n r.notes) := by
  obtain ⟨v, hv, ok⟩ := h.voices n hn
  exact pad_at h1 h2 hv h.beats ok.toVoiceLike ok.beats he hg

theorem pad_nothing (h1 : 1 ≤ D) (h : PartOk D K V r E p) {n : Nat} (hn : n ∈ V) (he : r.cursor ≤ E n) : padVoice (p.point n) = .ok { p with cur := .at n } := by
  obtain ⟨v, hv, ok⟩ := h.voices n hn
  exact pad_none h1 hv h.beats ok.beats he

/-- Only the current voice, the beats, and the pointer change. -/
theorem put_voices {n : Nat} (v' : Voice) (b : Rat) (hn : n ∈ V) (h : p.voices.map (·.1) = V.map (fun n : Nat => (n : Int))) :
    (p.put n v' b).voices.map (·.1) = V.map (fun n : Nat => (n : Int)) := by
  show (assign (n : Int) v' p.voices).map (·.1) = _
  rw [keys_assign _ _ (key_mem h hn), h]

theorem put_lookup {n m : Nat} (v' : Voice) (b : Rat) (h : m ≠ n) : (p.put n v' b).voices.lookup (m : Int) = p.voices.lookup (m : Int) :=
  lookup_assign_ne (by omega) _ _

theorem put_lookup_self {n : Int} (v' : Voice) (b : Rat) : (p.put n v' b).voices.lookup n = some v' := lookup_assign_self ..

/-- The invariant after a change of one voice. -/
theorem PartOk.change (h : PartOk D K V r E p) {r' : XmlReading} {E' : Nat → Nat} (time : TimeOk D V r' E') {n : Nat} (hn : n ∈ V) (hE : ∀ m ∈ V, m ≠ n → E' m = E m)
    (hnotes : ∀ m, m ≠ n → inVoice m r'.notes = inVoice m r.notes) {v' : Voice} (hv : VoiceOk D K v' (E' n) (inVoice n r'.notes)) (hcur : ∀ w, r'.now = some w → n = w)
    (hlast : ∀ m, r'.last = some m → m.voice = n ∧ m.start + m.length = r'.cursor ∧ (r'.bar ≤ m.start ∧ 0 < m.length) ∧ E' n = r'.cursor ∧ ∃ pre u, v'.events = pre ++ [u] ∧ Joinable ((m.length : Rat) / D) u) :
    PartOk D K V r' E' (({ p with cur := .at n } : XPart).put n v' ((r'.cursor : Rat) / D)) := by
  refine ⟨time, h.divisions, ?_, rfl, ?_, ⟨n, hn, rfl, hcur⟩, ?_⟩
  · exact put_voices (p := { p with cur := .at n }) _ _ hn h.keys
  · intro m hm
    by_cases e : m = n
    · subst e; exact ⟨v', put_lookup_self .., hv⟩
    · obtain ⟨w, hw, ok⟩ := h.voices m hm
      refine ⟨w, ?_, ?_⟩
      · rw [put_lookup (p := { p with cur := .at n }) _ _ e]; exact hw
      · rw [hE m hm e, hnotes m e]; exact ok
  · intro m hm
    obtain ⟨e1, e2, e0, e3, pre, u, e4, e5⟩ := hlast m hm
    rw [e1]
    exact ⟨e2, e0, hn, e3, v', pre, u, put_lookup_self .., e4, e5⟩

/-- The invariant after a change of the pointer. -/
theorem PartOk.turn (h : PartOk D K V r E p) {n : Nat} (hn : n ∈ V) {r' : XmlReading} (hr : r' = { r with now := r'.now }) (hcur : ∀ w, r'.now = some w → n = w)
    (time : TimeOk D V r' E) : PartOk D K V r' E { p with cur := .at n } := by
  obtain ⟨a1, a2, a3, a4, a5, a6, a7, a8⟩ := r
  rw [hr]
  rw [hr] at time
  exact ⟨time, h.divisions, h.keys, h.beats, h.voices, ⟨n, hn, rfl, hcur⟩, h.last⟩

theorem inVoice_append (n : Nat) (a b : List XmlNote) : inVoice n (a ++ b) = inVoice n a ++ inVoice n b := List.filter_append ..

/-! ### Notes -/

theorem noteElem_append {e : Elem} {n : Int} {w : Voice} {b : Rat} {ups : List Upd} {last : Upd} {o c : Int} (hc : p.cur = .at n) (ht : translateNote e (p.put n w b) = .ok ⟨ups, o, c⟩)
    (hl : ups.getLast? = some last) (hu : e.findAll "tie" = []) (hch : (e.find "chord").isSome = false) (hf : FlatL w.events) :
    noteElem e (p.put n w b) = .ok (p.put n { w with events := w.events ++ ups, octave := o, slurs := w.slurs + c, beats := roundIfCloseEnough (beatsSum (w.events ++ ups)) }
      (roundIfCloseEnough (beatsSum (w.events ++ ups)))) := by
  unfold noteElem
  rw [ht]
  simp only [bind, Except.bind, hl, untied_ok hu, Bool.false_eq_true, if_false, hch]
  rw [put_voice hc]
  simp only
  rw [setVoice_at (p := p.put n w b) hc, put_put]
  rw [append_flat (p := p.put n { w with octave := o, slurs := w.slurs + c } _) (v := { w with octave := o, slurs := w.slurs + c }) hc (put_lookup_self ..) hf]
  unfold XPart.withEvents
  rw [put_put]

theorem switchVoice_numeral {e : Elem} {n : Nat} (h : Says e "voice" n) (hn : n ≤ 127) : switchVoice e p = padVoice (p.point n) := by
  obtain ⟨cv, hcv, hcn⟩ := h
  unfold switchVoice
  rw [hcv]
  simp only
  rw [parseInt_numeral (bits := 8) hcn (by simpa using by omega)]

theorem note_time (T : TimeOk D V r E) {n t : Nat} {x : Option XmlPitch} (hn : n ∈ V) (hs : r.Sensible D (.note n t false x)) :
    TimeOk D V (r.item (.note n t false x)) (fun m => if m = n then r.cursor + t else E m) := by
  obtain ⟨hs1, hs2, hs3⟩ := hs
  have b2 := T.low
  refine ⟨?_, ?_, ?_, ?_, ?_, ?_, ?_, ?_, ?_, ?_⟩
  · show r.bar ≤ r.cursor + t; omega
  · exact hs3
  · show max r.furthest (r.cursor + t) ≤ r.bar + 20000 * D
    have := T.furthest; omega
  · intro m
    show (if m = n then r.cursor + t else r.reached m) ≤ max r.furthest (r.cursor + t)
    have := T.le m
    split <;> omega
  · intro m hm
    show (if m = n then r.cursor + t else r.reached m) ≤ if m = n then r.cursor + t else E m
    have := T.from_ m hm
    split <;> omega
  · intro m hm
    show (if m = n then r.cursor + t else E m) ≤ max (if m = n then r.cursor + t else r.reached m) r.bar
    have := T.to m hm
    split <;> omega
  · intro m hm
    show r.bar ≤ (if m = n then r.cursor + t else E m) + 20000 * D
    have := T.lag m hm
    split <;> omega
  · show max r.furthest (r.cursor + t) ≤ r.bar ∨ ∃ m ∈ V, max r.furthest (r.cursor + t) = if m = n then r.cursor + t else r.reached m
    by_cases hh : r.furthest ≤ r.cursor + t
    · exact .inr ⟨n, hn, by rw [if_pos rfl]; omega⟩
    · rcases T.top with h | ⟨m, hm, h⟩
      · omega
      · refine .inr ⟨m, hm, ?_⟩
        rw [if_neg (fun e => by subst e; omega)]; omega
  · intro he m hm
    show r.bar ≤ if m = n then r.cursor + t else E m
    have := T.even he m hm
    split <;> omega
  · intro h; simp [XmlReading.item] at h

/-- A note on its own. -/
theorem note_ok (h1 : 1 ≤ D) (h2 : D ≤ 24) {f : Int} (hf1 : -7 ≤ f) (hf2 : f ≤ 7) (hK : K = keySigFromFifths f) (h : PartOk D K V r E p) {e : Elem} {n t : Nat} {x : Option XmlPitch}
    (hn : n ∈ V) (he : NoteOf f e n t false x) (hs : r.Sensible D (.note n t false x)) :
    ∃ q p', switchVoice e p = .ok q ∧ noteElem e q = .ok p' ∧ PartOk D K V (r.item (.note n t false x)) (fun m => if m = n then r.cursor + t else E m) p' ∧ Same p p' := by
  have time := note_time h.time hn hs
  obtain ⟨hs1, hs2, hs3⟩ := hs
  have T := h.time
  have b1 := T.to n hn
  have b2 := T.low
  have b3 := T.high
  have b4 := T.lag n hn
  obtain ⟨w, hw, like⟩ := pad_ok h1 h2 h hn (by omega) (by omega)
  have hD : (0 : Rat) < D := by exact_mod_cast h1
  have hsum : (r.cursor : Rat) / D + (t : Rat) / D = ((r.cursor + t : Nat) : Rat) / D := by push_cast; grind
  have hpos : (startPen.run K w.events).pos = (r.cursor : Rat) / D := by
    rw [Pen.run_pos, like.sum]; exact Rat.zero_add _
  refine ⟨({ p with cur := .at n } : XPart).put n w ((r.cursor : Rat) / D), ?_⟩
  rw [switchVoice_numeral he.voice.1 he.voice.2.2, hw]
  have hc : ({ p with cur := .at n } : XPart).cur = .at n := rfl
  have hdiv : (({ p with cur := .at n } : XPart).put n w ((r.cursor : Rat) / D)).divisions = D := h.divisions
  have hvo := put_voice (n := n) hc w ((r.cursor : Rat) / D)
  cases x with
  | none =>
    obtain ⟨d, ⟨hd, hol⟩, htr⟩ := translate_rest he hdiv h1 h2 hs1 (by omega) hvo
    refine ⟨_, rfl, noteElem_append hc htr rfl he.untied he.chord like.flat, ?_, ⟨rfl, rfl, rfl, rfl, rfl⟩⟩
    have hb : beatsSum (w.events ++ [.leaf (.rest d)]) = ((r.cursor + t : Nat) : Rat) / D := by
      rw [beatsSum_append, like.sum]; simp only [beatsSum, beatsUpd, hd.beats, Rat.add_zero, hsum]
    rw [hb, round_grid h1 h2]
    refine h.change time hn ?_ ?_ ?_ ?_ ?_
    · intro m _ hm; exact if_neg hm
    · intro m _; simp [XmlReading.item]
    · rw [if_pos rfl]
      refine ⟨⟨like.flat.append (FlatL.one (.rest d _ hd) (.rest d hol.neat)), hb, ?_, ?_⟩, rfl⟩
      · simp only; rw [Pen.run_append]; exact like.octave
      · simp only; rw [Pen.run_append]
        simp only [XmlReading.item, Option.map_none, Option.toList_none, List.append_nil]
        exact like.tones
    · intro w hw; simpa [XmlReading.item] using hw
    · intro m hm; simp [XmlReading.item] at hm
  | some x =>
    obtain ⟨d, a, sl, c, ⟨hd, hol, ha, hoc⟩, hpi, htr⟩ := translate_note hf1 hf2 he hdiv h1 h2 hs1 (by omega) hvo
    refine ⟨_, rfl, noteElem_append (last := .leaf (.note (.letter x.letter a) d sl)) hc htr (by simp) he.untied he.chord like.flat, ?_, ⟨rfl, rfl, rfl, rfl, rfl⟩⟩
    have hb : beatsSum (w.events ++ (octaveChanges w x.octave ++ [.leaf (.note (.letter x.letter a) d sl)])) = ((r.cursor + t : Nat) : Rat) / D := by
      rw [beatsSum_append, beatsSum_append, octaveChanges_beats, like.sum]; simp only [beatsSum, beatsUpd, hd.beats, Rat.add_zero, Rat.zero_add, hsum]
    have hrun : startPen.run K (w.events ++ (octaveChanges w x.octave ++ [.leaf (.note (.letter x.letter a) d sl)])) =
        ⟨((r.cursor + t : Nat) : Rat) / D, x.octave, (startPen.run K w.events).tones ++ [((r.cursor : Rat) / D, (t : Rat) / D, x.number 0)]⟩ := by
      rw [Pen.run_append, Pen.run_append, octaveChanges_run _ _ _ _ like.octave]
      simp only [Pen.run, List.foldl_cons, List.foldl_nil, Pen.step, Pen.member, beatsUpd, hd.beats]
      rw [show ((List.foldl (Pen.step K) startPen w.events)).pos = _ from hpos, hsum, hK, hpi]
      simp only [XmlPitch.number, Int.add_zero]
    rw [hb, round_grid h1 h2]
    refine h.change time hn ?_ ?_ ?_ ?_ ?_
    · intro m _ hm; exact if_neg hm
    · intro m hm
      simp only [XmlReading.item, Option.map_some, Option.toList_some, inVoice_append]
      simp [inVoice, show ¬ n = m from fun e => hm e.symm]
    · rw [if_pos rfl]
      refine ⟨⟨like.flat.append ((octaveChanges_flat _ hoc).append (FlatL.one (.note _ _ d _ _ hd) (.note _ _ d _ (hol.note ha _)))), hb, ?_, ?_⟩, rfl⟩
      · simp only; rw [hrun]
      · simp only; rw [hrun]
        simp only [XmlReading.item, Option.map_some, Option.toList_some, inVoice_append, List.map_append, like.tones]
        simp [inVoice, toneOf]
    · intro w hw; simpa [XmlReading.item] using hw
    · intro m hm
      simp only [XmlReading.item, Option.map_some, Option.some.injEq] at hm
      subst hm
      refine ⟨rfl, rfl, ⟨b2, hs1⟩, if_pos rfl, w.events ++ octaveChanges w x.octave, .leaf (.note (.letter x.letter a) d sl), by simp only [List.append_assoc], .note _ _ d _ hd (.note _ _ _ _ (hol.note ha _) hol.noBar)⟩

/-! ### Chords -/

/-- An event with further members. -/
def joined (u : Upd) (new : List Upd) : Upd :=
  match u with
  | .chord es => .chord (es ++ new)
  | u => .chord (u :: new)

/-- A chord note joins the event before it. -/
theorem join_events {q : Rat} {u : Upd} (hj : Joinable q u) {l : Letter} {a : Option (List Accidental)} {d : Dur} {sl : Bool} (hd : Lasts d q)
    (hi : Inner (.leaf (.note (.letter l a) d sl))) {v : Voice} {o : Int} (hoc : Counting o) (pen : Pen)
    (ho : (pen.step K u).octave = v.octave) (new : List Upd) (hnew : new = octaveChanges v o ++ [.leaf (.note (.letter l a) d sl)]) :
    Joinable q (joined u new) ∧ beatsUpd (joined u new) = q ∧ beatsUpd u = q ∧
      pen.step K (joined u new) = ⟨(pen.step K u).pos, o, (pen.step K u).tones ++ [(pen.pos, q, pitchOf l (a.getD (onLetter K l)) o 0)]⟩ := by
  have hin : ∀ e ∈ new, Inner e := by
    intro e he
    rw [hnew] at he
    rcases List.mem_append.1 he with h | h
    · exact octaveChanges_inner v hoc e h
    · rw [List.mem_singleton] at h; subst h; exact hi
  have htail : ∀ es : List Upd, (∀ e ∈ es, Inner e) → NeatTail false (es ++ new) := by
    have one : NeatTail false [.leaf (.note (.letter l a) d sl)] := by cases hi with | note _ _ _ _ hn _ => exact .last l a d sl hn
    have pre : ∀ es : List Upd, (∀ e ∈ es, Inner e) → NeatTail false (es ++ [.leaf (.note (.letter l a) d sl)]) := by
      intro es
      induction es with
      | nil => intro _; exact one
      | cons e es ih => intro h; exact .cons e _ (h e (List.mem_cons_self ..)) (ih (fun x hx => h x (List.mem_cons_of_mem _ hx)))
    intro es hes
    rw [hnew, ← List.append_assoc]
    refine pre _ (fun e he => ?_)
    rcases List.mem_append.1 he with h | h
    · exact hes e h
    · exact octaveChanges_inner v hoc e h
  have hm : ∀ e ∈ new, FlatMember q e := by
    intro e he
    rw [hnew] at he
    rcases List.mem_append.1 he with h | h
    · exact octaveChanges_member v o q e h
    · rw [List.mem_singleton] at h; subst h; exact .note l a d sl hd
  cases hj with
  | note l' a' d' sl' hd' hi' =>
    have e1 : beatsUpd (.chord (.leaf (.note (.letter l' a') d' sl') :: new)) = q := chord_beats hd' hm
    have e2 : beatsUpd (.leaf (.note (.letter l' a') d' sl')) = q := by simp only [beatsUpd]; exact hd'.beats
    refine ⟨.chord l' a' d' sl' _ hd' hm hi' hin (htail [] (by simp)), e1, e2, ?_⟩
    have ho' : (pen.member K (.leaf (.note (.letter l' a') d' sl'))).octave = v.octave := ho
    simp only [joined, Pen.step, e1, e2]
    rw [hnew, List.foldl_cons, List.foldl_append, octaveChanges_members K v o _ ho']
    simp only [List.foldl_cons, List.foldl_nil, Pen.member, hd.beats]
  | chord l' a' d' sl' es hd' hes hi' hes' ht' =>
    have hm' : ∀ e ∈ es ++ new, FlatMember q e := by
      intro e he
      rcases List.mem_append.1 he with h | h
      · exact hes e h
      · exact hm e h
    have e1 : beatsUpd (.chord (.leaf (.note (.letter l' a') d' sl') :: (es ++ new))) = q := chord_beats hd' hm'
    have e2 := chord_beats (l := l') (a := a') (sl := sl') hd' hes
    have hin' : ∀ e ∈ es ++ new, Inner e := by
      intro e he
      rcases List.mem_append.1 he with h | h
      · exact hes' e h
      · exact hin e h
    refine ⟨.chord l' a' d' sl' _ hd' hm' hi' hin' (htail es hes'), e1, e2, ?_⟩
    have ho' : (es.foldl (Pen.member K) (pen.member K (.leaf (.note (.letter l' a') d' sl')))).octave = v.octave := ho
    have e3 := Pen.members_pos K es (pen.member K (.leaf (.note (.letter l' a') d' sl')))
    rw [Pen.member_pos] at e3
    simp only [joined, List.cons_append, Pen.step, e1, e2]
    rw [hnew, List.foldl_cons, List.foldl_append, List.foldl_append, octaveChanges_members K v o _ ho', List.foldl_cons (l := es)]
    generalize List.foldl (Pen.member K) (pen.member K (.leaf (.note (.letter l' a') d' sl'))) es = pen' at e3
    simp only [List.foldl_cons, List.foldl_nil, Pen.member, hd.beats, e3]

theorem modifyPath_last (f : Upd → Upd) (u : Upd) (pre : List Upd) : modifyPath f [0, pre.length] [.seq (pre ++ [u])] = [.seq (pre ++ [f u])] := by
  have : ∀ pre : List Upd, (pre ++ [u]).modify pre.length f = pre ++ [f u] := by
    intro pre
    induction pre with
    | nil => rfl
    | cons x pre ih => simp only [List.cons_append, List.length_cons, List.modify_succ_cons, ih]
  simp only [modifyPath, List.modify_zero_cons, modifyNested, this]

theorem getPath_last (u : Upd) (pre : List Upd) : (getPath [0, pre.length] [.seq (pre ++ [u])]).isSome = true := by
  simp [getPath, nestedUpdates]

/-- What the importer does with a chord note. -/
theorem chordNote_flat {n : Int} {v : Voice} {pre : List Upd} {u : Upd} {q : Rat} {t : Translated} (hc : p.cur = .at n) (hv : p.voices.lookup n = some v) (hf : FlatL v.events)
    (he : v.events = pre ++ [u]) (hj : Joinable q u) (b : Rat) (hb : b = roundIfCloseEnough (beatsSum (pre ++ [joined u t.updates]))) :
    chordNote p t = .ok (p.put n { v with events := pre ++ [joined u t.updates], octave := t.octave, slurs := v.slurs + t.slurChange, beats := b } b) := by
  unfold chordNote XPart.findLast
  rw [voice_at hc hv]
  simp only [bind, Except.bind, pure, Except.pure]
  rw [he, joinable_found hj pre]
  simp only
  unfold XPart.valid
  rw [voice_at hc hv]
  simp only [bind, Except.bind, pure, Except.pure]
  rw [recount_at hc hv]
  simp only
  rw [he, getPath_last, if_pos rfl, put_voice hc]
  simp only
  rw [setVoice_at (p := p.put n _ _) hc, put_put]
  generalize hw : ({ events := pre ++ [u], beats := roundIfCloseEnough (beatsSum (pre ++ [u])), octave := t.octave, slurs := v.slurs + t.slurChange, sectionOctave := v.sectionOctave, endingOctave := v.endingOctave } : Voice) = w
  have hwe : w.events = pre ++ [u] := by rw [← hw]
  have hwf : FlatL w.events := by rw [hwe, ← he]; exact hf
  cases hj with
  | note l' a' d' sl' hd' =>
    simp only [List.getLast?_cons_cons, List.getLast?_singleton, Option.getD_some]
    rw [openUpdates_flat (p := p.put n w _) hc (put_lookup_self ..) hwf, hwe]
    simp only
    rw [if_neg (by simp), setAll_flat (p := p.put n w _) hc (put_lookup_self ..) hwf, List.take_left, List.drop_left]
    unfold XPart.withEvents
    rw [put_put, hb, ← hw]; rfl
  | chord l' a' d' sl' es hd' hes =>
    simp only
    unfold XPart.setAt
    rw [modifyAt_root (p := p.put n w _) hc (put_lookup_self ..) _ _ (pre ++ [joined (.chord (.leaf (.note (.letter l' a') d' sl') :: es)) t.updates]) (by rw [hwe, modifyPath_last]; rfl)]
    unfold XPart.withEvents
    rw [put_put, hb, ← hw]

theorem chord_time (T : TimeOk D V r E) {n t : Nat} {x : Option XmlPitch} : TimeOk D V (r.item (.note n t true x)) E :=
  ⟨T.low, T.high, T.furthest, T.le, T.from_, T.to, T.lag, T.top, T.even, fun h => by simp [XmlReading.item] at h⟩

/-- A chord note. -/
theorem chord_ok' (h1 : 1 ≤ D) (h2 : D ≤ 24) {f : Int} (hf1 : -7 ≤ f) (hf2 : f ≤ 7) (hK : K = keySigFromFifths f) (h : PartOk D K V r E p) {e : Elem} {n t : Nat} {x : Option XmlPitch}
    (he : NoteOf f e n t true x) (hs : r.Sensible D (.note n t true x)) :
    ∃ q p', switchVoice e p = .ok q ∧ noteElem e q = .ok p' ∧ PartOk D K V (r.item (.note n t true x)) E p' ∧ Same p p' := by
  obtain ⟨hs1, m, hs2, hs3, hs4⟩ := hs
  subst hs3 hs4
  obtain ⟨x, rfl⟩ := Option.isSome_iff_exists.1 hs1
  obtain ⟨a1, ⟨a0, ht⟩, a2, a3, v, pre, u, a4, a5, hj⟩ := h.last m hs2
  have ht' : m.length ≤ 40000 * D := by have := h.time.high; omega
  obtain ⟨v', hv', ok⟩ := h.voices _ a2
  rw [a4, Option.some.injEq] at hv'
  subst hv'
  have hsw := pad_nothing h1 h a2 (by omega)
  refine ⟨{ p with cur := .at m.voice }, ?_⟩
  rw [switchVoice_numeral he.voice.1 he.voice.2.2, hsw]
  generalize hq : ({ p with cur := .at m.voice } : XPart) = q
  have hc : q.cur = .at m.voice := by rw [← hq]
  have hv : q.voices.lookup (m.voice : Int) = some v := by rw [← hq]; exact a4
  have hdiv : q.divisions = D := by rw [← hq]; exact h.divisions
  obtain ⟨d, a, sl, c, ⟨hd, hol, ha, hoc⟩, hpi, htr⟩ := translate_note hf1 hf2 he hdiv h1 h2 ht ht' (voice_at hc hv)
  have hoct : ((startPen.run K pre).step K u).octave = v.octave := by
    have := ok.octave
    rw [a5, Pen.run_append] at this
    exact this
  have htones : ((startPen.run K pre).step K u).tones = (inVoice m.voice r.notes).map (toneOf D) := by
    have := ok.tones
    rw [a5, Pen.run_append] at this
    exact this
  obtain ⟨j1, j2, j3, j4⟩ := join_events (K := K) hj hd (.note _ _ _ sl (hol.note ha sl) hol.noBar) (v := v) hoc (startPen.run K pre) hoct _ rfl (l := x.letter) (a := a) (sl := sl)
  generalize hnew : octaveChanges v x.octave ++ [.leaf (.note (.letter x.letter a) d sl)] = new at j1 j2 j4 htr
  have hpre : beatsSum pre = (m.start : Rat) / D := by
    have := ok.sum
    rw [a5, beatsSum_append, a3, ← a1] at this
    simp only [beatsSum, j3, Rat.add_zero] at this
    push_cast at this
    grind
  have hpos : (startPen.run K pre).pos = (m.start : Rat) / D := by rw [Pen.run_pos, hpre]; exact Rat.zero_add _
  have hpit : pitchOf x.letter (a.getD (onLetter K x.letter)) x.octave 0 = x.number 0 := by rw [hK, hpi]; simp only [XmlPitch.number, Int.add_zero]
  have hb : beatsSum (pre ++ [joined u new]) = (r.cursor : Rat) / D := by
    rw [beatsSum_append, hpre, ← a1]
    simp only [beatsSum, j2, Rat.add_zero]
    push_cast
    grind
  refine ⟨q.put m.voice { v with events := pre ++ [joined u new], octave := x.octave, slurs := v.slurs + c, beats := (r.cursor : Rat) / D } ((r.cursor : Rat) / D), rfl, ?_, ?_, ?_⟩
  · unfold noteElem
    rw [htr]
    have hl : new.getLast? = some (.leaf (.note (.letter x.letter a) d sl)) := by rw [← hnew]; simp
    simp only [bind, Except.bind, hl, untied_ok he.untied, Bool.false_eq_true, if_false, he.chord, if_true]
    exact chordNote_flat hc hv ok.flat a5 hj _ (by rw [hb, round_grid h1 h2])
  · rw [← hq]
    refine h.change (chord_time h.time) a2 (fun _ _ _ => rfl) ?_ ?_ ?_ ?_
    · intro k hk
      simp only [XmlReading.item, Option.map_some, Option.toList_some, inVoice_append]
      simp [inVoice, show ¬ m.voice = k from fun e => hk e.symm]
    · refine ⟨⟨?_, by simp only; rw [a3]; exact hb, ?_, ?_⟩, by simp only; rw [a3]⟩
      · have := ok.flat
        rw [a5] at this
        exact this.left.append (FlatL.one j1.flat j1.neat)
      · simp only; rw [Pen.run_append]; show ((startPen.run K pre).step K (joined u new)).octave = _; rw [j4]
      · simp only; rw [Pen.run_append]; show ((startPen.run K pre).step K (joined u new)).tones = _; rw [j4]
        rw [hpos, hpit, htones]
        simp [XmlReading.item, inVoice, toneOf, hs2]
    · intro w hw; simpa [XmlReading.item] using hw
    · intro k hk
      have : r.last = some k := hk
      rw [hs2, Option.some.injEq] at this
      subst this
      exact ⟨rfl, a1, ⟨a0, ht⟩, a3, _, _, rfl, j1⟩
  · rw [← hq]; exact ⟨rfl, rfl, rfl, rfl, rfl⟩

end
end Importer
end Alda
