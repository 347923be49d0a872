import Verif.Lemmas.TrackLine
import Verif.Lemmas.Demo
/-!
C09 and C10: notes follow each other without gaps; durations are sticky.
-/
namespace Alda
open Spec

/-- Neither repetition ranges nor variables. -/
def plainMode : Mode := ⟨false, false, false⟩

theorem Reachable.ready {s : Score} (h : Reachable s) : Ready plainMode s :=
  ⟨h.good.weaken _, by simp [plainMode], by simp [plainMode]⟩

theorem melodic_tame : ∀ (es : List Upd), (∀ e ∈ es, Melodic e) → TameL plainMode false es := by
  intro es
  induction es with
  | nil => intro _; simp only [TameL]
  | cons e es ih =>
    intro h
    simp only [TameL]
    refine ⟨?_, ih (fun e he => h e (List.mem_cons_of_mem _ he))⟩
    have := h e (List.mem_cons_self ..)
    match e, this with
    | .leaf (.note _ _ _), _ | .leaf (.rest _), _ | .leaf (.attr _), _ | .barline, _ => simp [Tame]

theorem lastWritten_cons (d0 d : Dur) (ds : List Dur) : lastWritten d0 (d :: ds) = lastWritten (lastWritten d0 [d]) ds := by
  unfold lastWritten
  cases d with
  | nil => rfl
  | cons c cs =>
    have : ([c :: cs].filter (fun d => !d.isEmpty)) = [c :: cs] := rfl
    rw [this, List.filter_cons]
    simp only [List.isEmpty_cons, Bool.not_false, if_true, List.getLast?_cons, Option.getD_some]
    rfl

/-- What is known about the plays of a line. -/
structure LineOk (es : List Upd) (t t' : Track) (ps : List Play) : Prop where
  length : ps.length = es.length
  chain : Chain t.cell.offset ps t'.cell.offset
  sounds : t'.sounds = t.sounds ++ ps.flatMap (·.sounds)
  as : ∀ (k : Nat) e p, es[k]? = some e → ps[k]? = some p → PlayedAs e p
  dur : NoGlobal t.globals [.duration] → (∀ e ∈ es, ∀ d, e ≠ .leaf (.attr (.duration d))) →
    ∀ (k : Nat) p, ps[k]? = some p → p.attrs.dur = lastWritten t.cell.dur ((es.take k).map written)
  scale : ∀ p ∈ ps, p.attrs.timeScale = t.cell.timeScale
  tempo : NoGlobal t.globals [.tempo, .metricModulation] →
    (∀ e ∈ es, ∀ x, e ≠ .leaf (.attr (.tempo x)) ∧ e ≠ .leaf (.attr (.metricModulation x))) → ∀ p ∈ ps, p.attrs.tempo = t.cell.tempo
  attrs : NoGlobals t.globals → ∀ (k : Nat) p, ps[k]? = some p → ∃ u, Track.list (es.take k) t = some u ∧ p.attrs = attributes u.cell

theorem line_ok : ∀ (es : List Upd) (t t' : Track), (∀ e ∈ es, Melodic e) → t.chordMode = false → Track.list es t = some t' →
    ∃ ps, LineOk es t t' ps := by
  intro es
  induction es with
  | nil =>
    intro t t' _ _ h
    simp only [Track.list, Track.listWith, Option.some.injEq] at h; subst h
    exact ⟨[], rfl, .nil _, by simp, by simp, by simp, by simp, by simp, by simp⟩
  | cons e es ih =>
    intro t t' hm hc h
    simp only [Track.list, Track.listWith] at h
    cases he : Track.updWith (Track.listWith (fun _ _ => none)) e t with
    | none => rw [he] at h; simp at h
    | some u =>
      rw [he, Option.bind_some] at h
      obtain ⟨p, pp⟩ := melodic_played (hm e (List.mem_cons_self ..)) hc he
      obtain ⟨ps, r⟩ := ih u t' (fun e he => hm e (List.mem_cons_of_mem _ he)) (pp.mode.trans hc) h
      refine ⟨p :: ps, by simp [r.length], .cons pp.start (by rw [← pp.stop]; exact r.chain), ?_, ?_, ?_, ?_, ?_, ?_⟩
      · rw [r.sounds, pp.sounds, List.flatMap_cons, List.append_assoc]
      · intro k e' p' h1 h2
        cases k with
        | zero =>
          simp only [List.getElem?_cons_zero, Option.some.injEq] at h1 h2
          subst h1; subst h2; exact pp.as
        | succ k => simp only [List.getElem?_cons_succ] at h1 h2; exact r.as k e' p' h1 h2
      · intro hn hd k p' hp'
        have hd' := pp.defaultDur hn (hd e (List.mem_cons_self ..))
        cases k with
        | zero =>
          simp only [List.getElem?_cons_zero, Option.some.injEq] at hp'; subst hp'
          rw [hd'.2]; rfl
        | succ k =>
          simp only [List.getElem?_cons_succ] at hp'
          rw [r.dur (by rw [pp.globals]; exact hn) (fun e he => hd e (List.mem_cons_of_mem _ he)) k p' hp', hd'.1]
          simp only [List.take_succ_cons, List.map_cons]
          exact (lastWritten_cons t.cell.dur _ _).symm
      · intro p' hp'
        rcases List.mem_cons.1 hp' with rfl | hp'
        · exact pp.scale.2
        · rw [r.scale p' hp', pp.scale.1]
      · intro hn hx p' hp'
        have h1 := pp.tempo hn
        rcases List.mem_cons.1 hp' with rfl | hp'
        · exact h1.1
        · rw [r.tempo (by rw [pp.globals]; exact hn) (fun e he => hx e (List.mem_cons_of_mem _ he)) p' hp', h1.2 (hx e (List.mem_cons_self ..))]
      · intro hn k p' hp'
        cases k with
        | zero =>
          simp only [List.getElem?_cons_zero, Option.some.injEq] at hp'; subst hp'
          exact ⟨t, rfl, pp.attrs hn⟩
        | succ k =>
          simp only [List.getElem?_cons_succ] at hp'
          obtain ⟨v, h1, h2⟩ := r.attrs (by rw [pp.globals]; exact hn) k p' hp'
          refine ⟨v, ?_, h2⟩
          simp only [List.take_succ_cons, Track.list, Track.listWith]
          rw [he, Option.bind_some]; exact h1

theorem update_append (es fs : List Upd) (s : Score) : update (es ++ fs) s = (update es s).andThen (update fs) := by
  unfold update
  induction es generalizing s with
  | nil => rfl
  | cons e es ih =>
    simp only [List.cons_append, updListWith]
    unfold Out.andThen
    cases h : (updWith derefUpd e s).err with
    | none => simp only; exact ih _
    | some x => rfl

theorem update_take {es : List Upd} {s : Score} (h : (update es s).err = none) (k : Nat) : (update (es.take k) s).err = none := by
  have e : update es s = update (es.take k ++ es.drop k) s := by rw [List.take_append_drop]
  rw [e, update_append] at h
  unfold Out.andThen at h
  split at h
  · assumption
  · simp at h

/-- The track of an active part after a line. -/
theorem track_of_line {s : Score} (hr : Reachable s) (es : List Upd) (hm : ∀ e ∈ es, Melodic e) (h : (update es s).err = none) {id : Nat}
    (hid : id ∈ s.current) : (update es s).s.current = s.current ∧ Track.list es (trackOf s id) = some (trackOf (update es s).s id) := by
  have r := update_ran false es s (melodic_tame es hm) hr.ready h
  have hcur := r.cur rfl
  obtain ⟨i, hi⟩ := List.getElem?_of_mem hid
  obtain ⟨id', hid', hg⟩ := r.track i id hi
  rw [hcur, hi, Option.some.injEq] at hid'
  subst hid'
  exact ⟨hcur, hg⟩

/-- The plays of a line of one active part. -/
theorem line_of_part {s : Score} (hr : Reachable s) (hc : s.chordMode = false) (es : List Upd) (hm : ∀ e ∈ es, Melodic e)
    (h : (update es s).err = none) {id : Nat} (hid : id ∈ s.current) :
    (update es s).s.current = s.current ∧ ((update es s).s.heap id).origin = (s.heap id).origin ∧
    ∃ ps, LineOk es (trackOf s id) (trackOf (update es s).s id) ps := by
  obtain ⟨hcur, hg⟩ := track_of_line hr es hm h hid
  exact ⟨hcur, update_origin hr es (hr.wf.cur_lt id hid), line_ok es _ _ hm hc hg⟩

/-- C09: while a part plays notes and rests (and changes attributes), each event starts exactly where the previous one ended, every sound starts
with its event and has its event's full length, and the position moves from the beginning of the first to the end of the last. The length of
each is its written (or default) duration at the tempo and time scale of the part, and its pitch, volume and panning are those of the part at that
moment (as far as no global change is involved). This is so for each of the active parts. -/
theorem c09_no_gaps {s : Score} (hr : Reachable s) (hc : s.chordMode = false) (es : List Upd) (hm : ∀ e ∈ es, Melodic e)
    (h : (update es s).err = none) {id : Nat} (hid : id ∈ s.current) :
    (update es s).s.current = s.current ∧ ∃ ps : List Play, ps.length = es.length ∧
      Chain (s.heap id).offset ps ((update es s).s.heap id).offset ∧
      sounds (update es s).s (s.heap id).origin = sounds s (s.heap id).origin ++ ps.flatMap (·.sounds) ∧
      (∀ (k : Nat) e p, es[k]? = some e → ps[k]? = some p → PlayedAs e p) ∧
      (∀ p ∈ ps, p.attrs.timeScale = (s.heap id).timeScale) ∧
      (NoGlobals s.globals → ∀ (k : Nat) p, ps[k]? = some p → p.attrs = attributesAt (update (es.take k) s).s id) := by
  obtain ⟨hcur, ho, ps, l⟩ := line_of_part hr hc es hm h hid
  have hs := l.sounds
  rw [sounds_trackOf, sounds_trackOf, ho] at hs
  refine ⟨hcur, ps, l.length, l.chain, hs, l.as, l.scale, ?_⟩
  intro hn k p hp
  obtain ⟨u, h1, h2⟩ := l.attrs hn k p hp
  have := (track_of_line hr (es.take k) (fun e he => hm e (List.mem_of_mem_take he)) (update_take h k) hid).2
  rw [this, Option.some.injEq] at h1
  subst h1; exact h2

/-- The sum of the lengths. -/
def totalLength (ps : List Play) : Rat := (ps.map (·.length)).sum

theorem chain_total {ps : List Play} {t u : Rat} (h : Chain t ps u) : u = t + totalLength ps := by
  induction h with
  | nil => simp only [totalLength, List.map_nil, List.sum_nil]; grind
  | cons _ _ ih => simp only [totalLength, List.map_cons, List.sum_cons] at *; grind

/-- C09: in particular the position has advanced by the sum of the lengths. -/
theorem c09_position {s : Score} (hr : Reachable s) (hc : s.chordMode = false) (es : List Upd) (hm : ∀ e ∈ es, Melodic e)
    (h : (update es s).err = none) {id : Nat} (hid : id ∈ s.current) :
    ∃ ps : List Play, ps.length = es.length ∧ (∀ (k : Nat) e p, es[k]? = some e → ps[k]? = some p → PlayedAs e p) ∧
      ((update es s).s.heap id).offset = (s.heap id).offset + (ps.map (·.length)).sum := by
  obtain ⟨_, ps, h1, h2, _, h4, _⟩ := c09_no_gaps hr hc es hm h hid
  exact ⟨ps, h1, h4, chain_total h2⟩

/-- C10: the k-th note or rest of a line lasts as long as the most recent written duration says: its own, otherwise that of the last event
before it with one, otherwise the part's from before the line. -/
theorem c10_sticky {s : Score} (hr : Reachable s) (hc : s.chordMode = false) (es : List Upd) (hm : ∀ e ∈ es, Melodic e)
    (h : (update es s).err = none) {id : Nat} (hid : id ∈ s.current) (hn : NoGlobal s.globals [.duration])
    (hd : ∀ e ∈ es, ∀ d, e ≠ .leaf (.attr (.duration d))) :
    ∃ ps : List Play, ps.length = es.length ∧ Chain (s.heap id).offset ps ((update es s).s.heap id).offset ∧
      sounds (update es s).s (s.heap id).origin = sounds s (s.heap id).origin ++ ps.flatMap (·.sounds) ∧
      ∀ (k : Nat) l p, es[k]? = some (.leaf l) → ((∃ pi d sl, l = .note pi d sl) ∨ (∃ d, l = .rest d)) → ps[k]? = some p →
        p.length = total p.attrs.tempo (atoms (lastWritten (s.heap id).dur ((es.take (k + 1)).map written))) * (s.heap id).timeScale ∧
        (NoGlobal s.globals [.tempo, .metricModulation] →
          (∀ e ∈ es, ∀ x, e ≠ .leaf (.attr (.tempo x)) ∧ e ≠ .leaf (.attr (.metricModulation x))) → p.attrs.tempo = (s.heap id).tempo) := by
  obtain ⟨hcur, ho, ps, l⟩ := line_of_part hr hc es hm h hid
  have hs := l.sounds
  rw [sounds_trackOf, sounds_trackOf, ho] at hs
  refine ⟨ps, l.length, l.chain, hs, ?_⟩
  intro k lf p he hl hp
  refine ⟨?_, fun h1 h2 => l.tempo h1 h2 p (List.mem_of_getElem? hp)⟩
  have has := l.as k _ p he hp
  have hdur := l.dur hn hd k p hp
  have hsc := l.scale p (List.mem_of_getElem? hp)
  have hlast : ∀ d, written (.leaf lf) = d → lastWritten (s.heap id).dur ((es.take (k + 1)).map written) = match d with | [] => p.attrs.dur | _ :: _ => d := by
    intro d hd
    have : es.take (k + 1) = es.take k ++ [.leaf lf] := by
      rw [List.take_add_one, he]; rfl
    rw [this, List.map_append, List.map_cons, List.map_nil, hd]
    have hdur' : p.attrs.dur = lastWritten (s.heap id).dur ((es.take k).map written) := hdur
    rw [hdur']
    unfold lastWritten
    rw [List.filter_append]
    cases d with
    | nil => simp
    | cons c cs => simp
  have hlen : p.length = lengthFor p.attrs (written (.leaf lf)) := by
    rcases hl with ⟨pi, d, sl, rfl⟩ | ⟨d, rfl⟩ <;> exact has.1
  rw [hlen, hlast _ rfl]
  unfold lengthFor
  rw [hsc]; rfl

/-- A line for the examples: `(octave 5) c4 d r8 e | f`. -/
def demoLine : List Upd :=
  [.leaf (.attr (.octave 5)), .leaf (.note (.letter .C none) [.length 4 0] false), .leaf (.note (.letter .D none) [] false), .leaf (.rest [.length 8 0]),
   .leaf (.note (.letter .E none) [] false), .barline, .leaf (.note (.letter .F none) [] false)]

/-- The hypotheses of C09 and C10 hold for the line played by a reachable score with two active parts; the sounds are as expected. -/
example : ∃ s, Reachable s ∧ s.chordMode = false ∧ (∀ e ∈ demoLine, Melodic e) ∧ (update demoLine s).err = none ∧ s.current = [0, 1] ∧
    (∀ e ∈ demoLine, ∀ d, e ≠ .leaf (.attr (.duration d))) ∧ NoGlobals s.globals ∧
    (sounds (update demoLine s).s 0).map (fun x => (x.note, x.start, x.duration)) =
      [(72, 0, 500), (74, 500, 500), (76, 1250, 250), (77, 1500, 250)] := by
  refine ⟨(update [.partDecl ["piano", "violin"] ""] newScore).s, ⟨_, rfl⟩, by decide +kernel, ?_, by decide +kernel, by decide +kernel, ?_, fun _ => rfl, by decide +kernel⟩
  · simp [demoLine, Melodic]
  · simp [demoLine]

end Alda
