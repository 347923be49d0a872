import Verif.Lemmas.XmlSim
import Verif.Props.Enough
import Verif.Props.Import
import Verif.Props.Pitch
/-!
Playing a line that the importer has collected: the interpreter follows the pen.
-/
namespace Alda
namespace Importer
open Spec

/-- What is looked at of a note: the instrument, the note number, the start and the length in ms. -/
def noteView (e : NoteEvent) : Nat × Int × Rat × Rat := (e.part, e.note, e.offset, e.duration)

/-- A tone of a line, as a note of an instrument that is transposed by `T`, at 120 beats per minute. -/
def toneView (o : Nat) (T : Int) (start : Rat) (t : Rat × Rat × Int) : Nat × Int × Rat × Rat := (o, t.2.2 + T, start + t.1 * 500, t.2.1 * 500)

/-- A part that plays at the usual tempo in key `K`, transposed by `T`. -/
structure Usual (K : KeySig) (T : Int) (p : Part) : Prop where
  key : p.keySig = K
  transposition : p.transposition = T
  tempo : p.tempo = 120
  scale : p.timeScale = 1
  quant : p.quant = 9 / 10
  pitched : p.instr.percussion = false

/-- The score after a line has been played up to the pen by the part `id`, starting from the score `b`. -/
structure Playing (K : KeySig) (T : Int) (b : Score) (id : Nat) (m : Bool) (pen : Pen) (s : Score) : Prop where
  few : FewInv b
  steps : Steps NoChannelLeaf False b s
  shape : SameShape b s
  current : s.current = [id]
  globals : s.globals = b.globals
  nothing : NothingGlobal b
  vars : s.vars = b.vars
  mode : s.chordMode = m
  others : ∀ j, j ≠ id → ∃ c, s.heap j = { b.heap j with midiChannel := c }
  usual : Usual K T (s.heap id)
  offset : (s.heap id).offset = (b.heap id).offset + pen.pos * 500
  octave : ∃ k : Int, (s.heap id).octave = pen.octave + k * 4294967296
  events : s.events.map noteView = b.events.map noteView ++ pen.tones.map (toneView (b.heap id).origin T (b.heap id).offset)

section
variable {K : KeySig} {T : Int} {b : Score} {id : Nat} {m : Bool} {pen : Pen} {s : Score}

theorem forIds_one (f : Nat → Score → Out) (i : Nat) (s : Score) : forIds f [i] s = f i s := by
  simp only [forIds]
  rcases f i s with ⟨x, t⟩
  cases x <;> rfl

theorem Playing.fewNow (h : Playing K T b id m pen s) : FewInv s := h.few.steps h.steps

theorem Playing.mem (h : Playing K T b id m pen s) : id ∈ s.current := by rw [h.current]; exact List.mem_cons_self ..

theorem Playing.quietGlobals (h : Playing K T b id m pen s) : NothingGlobal s := by have := h.nothing; unfold NothingGlobal at *; rw [h.globals]; exact this

theorem Playing.origin (h : Playing K T b id m pen s) : (s.heap id).origin = (b.heap id).origin := (h.shape.cells id).origin

/-- Changing the part that plays. -/
theorem Playing.set (h : Playing K T b id m pen s) {p : Part} {pen' : Pen} (hst : Steps NoChannelLeaf False s (s.setPart id p)) (hi : SameIdentity (s.heap id) p)
    (hu : Usual K T p) (ho : p.offset = (b.heap id).offset + pen'.pos * 500) (hoct : ∃ k : Int, p.octave = pen'.octave + k * 4294967296) (ht : pen'.tones = pen.tones) :
    Playing K T b id m pen' (s.setPart id p) where
  few := h.few
  steps := h.steps.trans hst
  shape := h.shape.trans (.setPart hi)
  current := h.current
  globals := h.globals
  nothing := h.nothing
  vars := h.vars
  mode := h.mode
  others := by
    intro j hj
    obtain ⟨c, hc⟩ := h.others j hj
    exact ⟨c, by simp only [Score.setPart]; rw [if_neg hj]; exact hc⟩
  usual := by simp only [Score.setPart, if_true]; exact hu
  offset := by simp only [Score.setPart, if_true]; exact ho
  octave := by simp only [Score.setPart, if_true]; exact hoct
  events := by rw [ht]; exact h.events

theorem applyUpdates_nil (p : Part) : applyUpdates [] p = (none, p) := rfl

theorem Playing.applyGlobals (h : Playing K T b id m pen s) : (Alda.applyGlobals s).err = none ∧ Playing K T b id m pen (Alda.applyGlobals s).s ∧
    ((Alda.applyGlobals s).s.heap id).dur = (s.heap id).dur := by
  have e : Alda.applyGlobals s = .ok (s.setPart id { s.heap id with override := none }) := by
    unfold Alda.applyGlobals
    rw [h.current, forIds_one]
    unfold applyGlobalsPart
    simp only [inWindow_none h.quietGlobals]
    rfl
  have hst := applyGlobals_steps (L := NoChannelLeaf) (D := False) s
  rw [e] at hst
  rw [e]
  refine ⟨rfl, h.set hst ⟨rfl, rfl, rfl, rfl, rfl, rfl⟩ ?_ h.offset h.octave rfl, ?_⟩
  · have u := h.usual; exact ⟨u.1, u.2, u.3, u.4, u.5, u.6⟩
  · simp [Out.ok, Score.setPart]

/-- An octave, or a dynamic marking. -/
theorem Playing.attr (h : Playing K T b id m pen s) {u : PartUpd} {oct : Int}
    (hu : (u = .octave oct) ∨ (u = .octaveUp ∧ oct = pen.octave + 1) ∨ (u = .octaveDown ∧ oct = pen.octave - 1) ∨ (∃ x, u = .dynamic x) ∧ oct = pen.octave) :
    (attrUpd u s).err = none ∧ Playing K T b id m { pen with octave := oct } (attrUpd u s).s ∧ ((attrUpd u s).s.heap id).dur = (s.heap id).dur := by
  obtain ⟨k, hk⟩ := h.octave
  have w : ∀ n : Int, ∃ j : Int, wrap32 n = n + j * 4294967296 := by
    intro n
    refine ⟨-((n + 2147483648) / 4294967296), ?_⟩
    unfold wrap32
    omega
  have hL : NoChannelLeaf (.attr u) := by
    rcases hu with rfl | ⟨rfl, _⟩ | ⟨rfl, _⟩ | ⟨⟨x, rfl⟩, _⟩ <;> trivial
  have hst := attrUpd_steps (D := False) u hL s
  have e0 : attrUpd u s = attrPart u id s := by unfold attrUpd; rw [h.current, forIds_one]
  have key : ∃ p, updatePart u false (s.heap id) = .ok p ∧ SameIdentity (s.heap id) p ∧ Usual K T p ∧ p.offset = (s.heap id).offset ∧ p.dur = (s.heap id).dur ∧
      ∃ k : Int, p.octave = oct + k * 4294967296 := by
    have hus := h.usual
    rcases hu with rfl | ⟨rfl, rfl⟩ | ⟨rfl, rfl⟩ | ⟨⟨x, rfl⟩, rfl⟩
    · exact ⟨_, rfl, ⟨rfl, rfl, rfl, rfl, rfl, rfl⟩, ⟨hus.1, hus.2, hus.3, hus.4, hus.5, hus.6⟩, rfl, rfl, 0, by simp⟩
    · obtain ⟨j, hj⟩ := w ((s.heap id).octave + 1)
      exact ⟨_, rfl, ⟨rfl, rfl, rfl, rfl, rfl, rfl⟩, ⟨hus.1, hus.2, hus.3, hus.4, hus.5, hus.6⟩, rfl, rfl, k + j, by simp only; rw [hj, hk]; omega⟩
    · obtain ⟨j, hj⟩ := w ((s.heap id).octave - 1)
      exact ⟨_, rfl, ⟨rfl, rfl, rfl, rfl, rfl, rfl⟩, ⟨hus.1, hus.2, hus.3, hus.4, hus.5, hus.6⟩, rfl, rfl, k + j, by simp only; rw [hj, hk]; omega⟩
    · exact ⟨_, rfl, ⟨rfl, rfl, rfl, rfl, rfl, rfl⟩, ⟨hus.1, hus.2, hus.3, hus.4, hus.5, hus.6⟩, rfl, rfl, k, hk⟩
  obtain ⟨p, hp, hi, hus, hof, hdu, hoc⟩ := key
  have e : attrUpd u s = .ok (s.setPart id { p with override := some u }) := by rw [e0]; unfold attrPart; rw [hp]
  rw [e] at hst
  rw [e]
  refine ⟨rfl, h.set hst (hi.override _) ⟨hus.1, hus.2, hus.3, hus.4, hus.5, hus.6⟩ (by simp only; rw [hof]; exact h.offset) hoc rfl, ?_⟩
  simp only [Out.ok, Score.setPart, if_true]; exact hdu

/-- A sounding note. -/
theorem Playing.emitNote (h : Playing K T b id m pen s) {l : Letter} {a : Option (List Accidental)} {q aud : Rat} (ha : 0 < aud)
    (hr : 0 ≤ pitchOf l (a.getD (onLetter K l)) pen.octave 0 + T ∧ pitchOf l (a.getD (onLetter K l)) pen.octave 0 + T ≤ 127) :
    (Alda.emitNote (.letter l a) (q * 500) aud id s).err = none ∧
      Playing K T b id m { pen with tones := pen.tones ++ [(pen.pos, q, pitchOf l (a.getD (onLetter K l)) pen.octave 0)] } (Alda.emitNote (.letter l a) (q * 500) aud id s).s ∧
      ((Alda.emitNote (.letter l a) (q * 500) aud id s).s.heap id).dur = (s.heap id).dur := by
  obtain ⟨k, hk⟩ := h.octave
  have hn : calculateMidiNote (.letter l a) (s.heap id).octave (s.heap id).keySig (s.heap id).transposition = pitchOf l (a.getD (onLetter K l)) pen.octave 0 + T := by
    rw [calculateMidiNote_letter, h.usual.key, h.usual.transposition]
    unfold pitchOf at hr ⊢
    unfold wrap32
    cases a with
    | none =>
      simp only [Option.getD_none] at hr ⊢
      generalize alteration (onLetter K l) = al at hr ⊢
      omega
    | some a =>
      simp only [Option.getD_some] at hr ⊢
      generalize alteration a = al at hr ⊢
      omega
  obtain ⟨ch, hc, h0, h16⟩ := h.fewNow.assign h.mem aud
  have hst := emitNote_step (L := NoChannelLeaf) (D := False) (.letter l a) (q * 500) aud ha id s h.mem
  have e : Alda.emitNote (.letter l a) (q * 500) aud id s = .ok (emitted s id ch (pitchOf l (a.getD (onLetter K l)) pen.octave 0 + T) (q * 500) aud) := by
    unfold Alda.emitNote
    simp only [hn]
    rw [if_neg (by omega)]
    simp only [assignMidiChannel, hc, h0, h16, and_self, if_true]
    rfl
  rw [e] at hst
  rw [e]
  have hheap := emitted_heap s id ch (pitchOf l (a.getD (onLetter K l)) pen.octave 0 + T) (q * 500) aud
  have hsh := emitted_shape s id ch (pitchOf l (a.getD (onLetter K l)) pen.octave 0 + T) (q * 500) aud
  have hev := emitted_events s id ch (pitchOf l (a.getD (onLetter K l)) pen.octave 0 + T) (q * 500) aud
  obtain ⟨_, _, _, hre⟩ := emitted_rest s id ch (pitchOf l (a.getD (onLetter K l)) pen.octave 0 + T) (q * 500) aud
  have hme : ∃ c, (emitted s id ch (pitchOf l (a.getD (onLetter K l)) pen.octave 0 + T) (q * 500) aud).heap id = { s.heap id with midiChannel := c } := by
    rw [hheap]; split
    · exact ⟨ch, rfl⟩
    · exact ⟨(s.heap id).midiChannel, rfl⟩
  have hus := h.usual
  have hex : ∀ j, ∃ c, (emitted s id ch (pitchOf l (a.getD (onLetter K l)) pen.octave 0 + T) (q * 500) aud).heap j = { s.heap j with midiChannel := c } := by
    intro j
    rw [hheap]; split
    · exact ⟨ch, rfl⟩
    · exact ⟨(s.heap j).midiChannel, rfl⟩
  simp only [Out.ok] at hst ⊢
  have hgl : (emitted s id ch (pitchOf l (a.getD (onLetter K l)) pen.octave 0 + T) (q * 500) aud).globals = s.globals ∧
      (emitted s id ch (pitchOf l (a.getD (onLetter K l)) pen.octave 0 + T) (q * 500) aud).vars = s.vars ∧
      (emitted s id ch (pitchOf l (a.getD (onLetter K l)) pen.octave 0 + T) (q * 500) aud).chordMode = s.chordMode := by
    rw [hre]; exact ⟨rfl, rfl, rfl⟩
  have hview : noteView (emittedNote s id ch (pitchOf l (a.getD (onLetter K l)) pen.octave 0 + T) (q * 500) aud) =
      toneView (b.heap id).origin T (b.heap id).offset (pen.pos, q, pitchOf l (a.getD (onLetter K l)) pen.octave 0) := by
    simp only [noteView, emittedNote, toneView, h.origin, h.offset]
  generalize emittedNote s id ch (pitchOf l (a.getD (onLetter K l)) pen.octave 0 + T) (q * 500) aud = ev at hev hview
  generalize emitted s id ch (pitchOf l (a.getD (onLetter K l)) pen.octave 0 + T) (q * 500) aud = t at *
  obtain ⟨c, hme⟩ := hme
  refine ⟨trivial, ⟨h.few, h.steps.trans hst.1, h.shape.trans hsh, by rw [hst.2]; exact h.current, hgl.1.trans h.globals, h.nothing, hgl.2.1.trans h.vars, hgl.2.2.trans h.mode, ?_, ?_, ?_, ?_, ?_⟩, ?_⟩
  · intro j hj
    obtain ⟨c1, h1⟩ := h.others j hj
    obtain ⟨c2, h2⟩ := hex j
    exact ⟨c2, by rw [h2, h1]⟩
  · rw [hme]; exact ⟨hus.1, hus.2, hus.3, hus.4, hus.5, hus.6⟩
  · rw [hme]; exact h.offset
  · rw [hme]; exact ⟨k, hk⟩
  · rw [hev, List.map_append, h.events]
    simp only [List.map_append, List.append_assoc, List.map_cons, List.map_nil, hview]
  · rw [hme]

/-- After the note or rest. -/
theorem Playing.advance (h : Playing K T b id m pen s) (q : Rat) (d : Dur) :
    Playing K T b id m { pen with pos := if m then pen.pos else pen.pos + q } (advancePart s id (q * 500) d) ∧
      (d ≠ [] → ((advancePart s id (q * 500) d).heap id).dur = d) := by
  have hst := Steps.one (advancePart_step (L := NoChannelLeaf) (D := False) s id h.mem (q * 500) d)
  have hus := h.usual
  unfold advancePart Score.modPart at hst ⊢
  rw [h.mode] at hst ⊢
  refine ⟨h.set hst ?_ ?_ ?_ ?_ rfl, ?_⟩
  · cases m <;> cases d <;> exact ⟨rfl, rfl, rfl, rfl, rfl, rfl⟩
  · cases m <;> cases d <;> exact ⟨hus.1, hus.2, hus.3, hus.4, hus.5, hus.6⟩
  · have := h.offset
    cases m <;> cases d <;> simp only [updateDefaultDuration, if_true, if_false, Bool.false_eq_true] <;> grind
  · cases m <;> cases d <;> exact h.octave
  · intro hd
    cases d with
    | nil => exact absurd rfl hd
    | cons c d => cases m <;> simp [Score.setPart, updateDefaultDuration]

theorem Lasts.ne {d : Dur} {q : Rat} (h : Lasts d q) : d ≠ [] := by
  rintro rfl
  have := h.1
  simp only [Dur.toBeats, Dur.toBeatsFrom, BeatsResult.ok.injEq] at this
  have := h.2
  grind

theorem Lasts.ms {d : Dur} {q : Rat} (h : Lasts d q) : d.toMs 120 = some (q * 500) := by
  rw [beats_ms (by decide +kernel) h.1]
  congr 2
  decide +kernel

theorem Playing.before (h : Playing K T b id m pen s) {d : Dur} {q : Rat} (hd : Lasts d q) :
    (beforeNote d s).err = none ∧ Playing K T b id m pen (beforeNote d s).s ∧ ((beforeNote d s).s.heap id).dur = (s.heap id).dur := by
  unfold beforeNote
  rw [h.mode]
  cases m with
  | true =>
    simp only [if_true, Out.andThen, Out.ok, hd.valid]
    exact ⟨trivial, h, trivial⟩
  | false =>
    obtain ⟨e, h1, h2⟩ := h.applyGlobals
    rcases hh : Alda.applyGlobals s with ⟨x, t⟩
    rw [hh] at e h1 h2
    simp only at e
    subst e
    simp only [Bool.false_eq_true, if_false, Out.andThen, hd.valid, if_true, Out.ok]
    exact ⟨trivial, h1, h2⟩

/-- A note. -/
theorem Playing.note (h : Playing K T b id m pen s) {l : Letter} {a : Option (List Accidental)} {d : Dur} {sl : Bool} {q : Rat} (hd : Lasts d q)
    (hr : 0 ≤ pitchOf l (a.getD (onLetter K l)) pen.octave 0 + T ∧ pitchOf l (a.getD (onLetter K l)) pen.octave 0 + T ≤ 127) :
    (noteUpd (.letter l a) d sl s).err = none ∧
      Playing K T b id m { pen.member K (.leaf (.note (.letter l a) d sl)) with pos := if m then pen.pos else pen.pos + q } (noteUpd (.letter l a) d sl s).s ∧
      ((noteUpd (.letter l a) d sl s).s.heap id).dur = d := by
  obtain ⟨e1, h1, _⟩ := h.before hd
  have eb : ∃ t, beforeNote d s = .ok t := by
    rcases hh : beforeNote d s with ⟨x, t⟩
    rw [hh] at e1
    simp only at e1
    subst e1
    exact ⟨t, rfl⟩
  obtain ⟨t, eb⟩ := eb
  rw [eb] at h1
  simp only [Out.ok] at h1
  have en : noteUpd (.letter l a) d sl s = notePart (.letter l a) d sl id t := by
    unfold noteUpd
    rw [eb]
    simp only [Out.andThen, Out.ok, h1.current, forIds_one]
  rw [en]
  have hms : (effectiveDuration d (t.heap id)).toMs (t.heap id).tempo = some (q * 500) := by
    rw [eff_cons hd.ne, h1.usual.tempo, hd.ms]
  have haud : (0 : Rat) < (if sl = true then q * 500 * (t.heap id).timeScale else q * 500 * (t.heap id).timeScale * (t.heap id).quant) := by
    have := hd.2
    rw [h1.usual.scale, h1.usual.quant]
    split <;> grind
  have hsc : q * 500 * (t.heap id).timeScale = q * 500 := by rw [h1.usual.scale, Rat.mul_one]
  unfold notePart
  simp only [hms]
  rw [if_pos haud]
  rw [hsc] at haud ⊢
  generalize (if sl = true then q * 500 else q * 500 * (t.heap id).quant) = aud at haud ⊢
  obtain ⟨e2, h2, _⟩ := h1.emitNote (q := q) haud hr
  rcases hem : Alda.emitNote (.letter l a) (q * 500) aud id t with ⟨x, u⟩
  rw [hem] at e2 h2
  simp only at e2
  subst e2
  simp only [Out.andThen, Out.ok, eff_cons hd.ne]
  obtain ⟨h3, h4⟩ := h2.advance q d
  refine ⟨trivial, ?_, h4 hd.ne⟩
  have : ({ pen.member K (.leaf (.note (.letter l a) d sl)) with pos := if m then pen.pos else pen.pos + q } : Pen) =
      { pos := if m = true then pen.pos else pen.pos + q, octave := pen.octave, tones := pen.tones ++ [(pen.pos, q, pitchOf l (a.getD (onLetter K l)) pen.octave 0)] } := by
    simp only [Pen.member, hd.beats]
  rw [this]
  exact h3

/-- A rest. -/
theorem Playing.rest (h : Playing K T b id m pen s) {d : Dur} {q : Rat} (hd : Lasts d q) :
    (restUpd d s).err = none ∧ Playing K T b id m { pen with pos := if m then pen.pos else pen.pos + q } (restUpd d s).s := by
  obtain ⟨e1, h1, _⟩ := h.before hd
  rcases hh : beforeNote d s with ⟨x, t⟩
  rw [hh] at e1 h1
  simp only at e1 h1
  subst e1
  have en : restUpd d s = restPart d id t := by
    unfold restUpd
    rw [hh]
    simp only [Out.andThen, h1.current, forIds_one]
  rw [en]
  unfold restPart
  simp only [eff_cons hd.ne, h1.usual.tempo, hd.ms, h1.usual.scale, Rat.mul_one]
  exact ⟨rfl, (h1.advance q d).1⟩

/-- All tones of a line are notes that MIDI knows, after transposition. -/
def Sounds (T : Int) (p : Pen) : Prop := ∀ t ∈ p.tones, 0 ≤ t.2.2 + T ∧ t.2.2 + T ≤ 127

theorem member_tones (K : KeySig) (p : Pen) (e : Upd) : ∃ ts, (p.member K e).tones = p.tones ++ ts := by
  unfold Pen.member
  split
  · exact ⟨_, rfl⟩
  all_goals exact ⟨[], (List.append_nil _).symm⟩

theorem members_tones (K : KeySig) (es : List Upd) : ∀ p : Pen, ∃ ts, (es.foldl (Pen.member K) p).tones = p.tones ++ ts := by
  induction es with
  | nil => intro p; exact ⟨[], (List.append_nil _).symm⟩
  | cons e es ih =>
    intro p
    obtain ⟨ts, h1⟩ := member_tones K p e
    obtain ⟨us, h2⟩ := ih (p.member K e)
    exact ⟨ts ++ us, by rw [List.foldl_cons, h2, h1, List.append_assoc]⟩

theorem step_tones (K : KeySig) (p : Pen) (e : Upd) : ∃ ts, (p.step K e).tones = p.tones ++ ts := by
  unfold Pen.step
  split
  · exact members_tones K _ p
  · exact member_tones K p _

theorem run_tones (K : KeySig) (es : List Upd) : ∀ p : Pen, ∃ ts, (p.run K es).tones = p.tones ++ ts := by
  induction es with
  | nil => intro p; exact ⟨[], (List.append_nil _).symm⟩
  | cons e es ih =>
    intro p
    obtain ⟨ts, h1⟩ := step_tones K p e
    obtain ⟨us, h2⟩ := ih (p.step K e)
    refine ⟨ts ++ us, ?_⟩
    unfold Pen.run at h2 ⊢
    rw [List.foldl_cons, h2, h1, List.append_assoc]

theorem Sounds.before {T : Int} {p q : Pen} (h : Sounds T q) (hx : ∃ ts, q.tones = p.tones ++ ts) : Sounds T p := by
  obtain ⟨ts, hx⟩ := hx
  intro t ht
  exact h t (by rw [hx]; exact List.mem_append_left _ ht)

theorem Playing.setMode (h : Playing K T b id m pen s) (m' : Bool) : Playing K T b id m' pen { s with chordMode := m' } where
  few := h.few
  steps := h.steps.trans (.one (.chordMode m'))
  shape := by have := h.shape; exact ⟨this.1, this.2, this.3, this.4, this.5, this.6, this.7⟩
  current := h.current
  globals := h.globals
  nothing := h.nothing
  vars := h.vars
  mode := rfl
  others := h.others
  usual := h.usual
  offset := h.offset
  octave := h.octave
  events := h.events

/-- One member of a chord. -/
theorem Playing.member (h : Playing K T b id true pen s) {e : Upd} {q : Rat} (he : FlatMember q e) (hs : Sounds T (pen.member K e)) (hd : Lasts (s.heap id).dur q)
    (deref : List Upd → Score → Out) :
    (updWith deref e s).err = none ∧ Playing K T b id true (pen.member K e) (updWith deref e s).s ∧ Lasts ((updWith deref e s).s.heap id).dur q := by
  cases he with
  | note l a d sl hq =>
    obtain ⟨e1, h1, h2⟩ := h.note (l := l) (a := a) (sl := sl) hq (hs (pen.pos, beatsOf d, pitchOf l (a.getD (onLetter K l)) pen.octave 0) (by simp [Pen.member]))
    simp only [updWith, leafUpd]
    exact ⟨e1, h1, by rw [h2]; exact hq⟩
  | octave n =>
    obtain ⟨e1, h1, h2⟩ := h.attr (u := .octave n) (oct := n) (.inl rfl)
    simp only [updWith, leafUpd]
    exact ⟨e1, h1, by rw [h2]; exact hd⟩
  | up =>
    obtain ⟨e1, h1, h2⟩ := h.attr (u := .octaveUp) (.inr (.inl ⟨rfl, rfl⟩))
    simp only [updWith, leafUpd]
    exact ⟨e1, h1, by rw [h2]; exact hd⟩
  | down =>
    obtain ⟨e1, h1, h2⟩ := h.attr (u := .octaveDown) (.inr (.inr (.inl ⟨rfl, rfl⟩)))
    simp only [updWith, leafUpd]
    exact ⟨e1, h1, by rw [h2]; exact hd⟩

theorem shortest_one (h : Playing K T b id m pen s) {d : Dur} {q : Rat} {f : Shortest} (hf : f id = some (q * 500) ∨ f id = none)
    (hd : Lasts (effectiveDuration d (s.heap id)) q) : ∃ g, shortestLoop s d s.current f = some g ∧ g id = some (q * 500) := by
  rw [h.current]
  simp only [shortestLoop, h.usual.tempo, hd.ms, h.usual.scale, Rat.mul_one]
  refine ⟨_, rfl, ?_⟩
  simp only [if_true]
  rcases hf with hf | hf <;> rw [hf] <;> simp [minOpt]

theorem member_effective {e : Upd} {q : Rat} (he : FlatMember q e) {p : Part} (hd : Lasts p.dur q) : Lasts (effectiveDuration (specifiedDuration e) p) q := by
  cases he with
  | note l a d sl hq => simp only [specifiedDuration]; rw [eff_cons hq.ne]; exact hq
  | octave n => exact hd
  | up => exact hd
  | down => exact hd

theorem Playing.members {q : Rat} (deref : List Upd → Score → Out) : ∀ (es : List Upd) (pen : Pen) (s : Score) (f : Shortest), Playing K T b id true pen s →
    (∀ e ∈ es, FlatMember q e) → Sounds T (es.foldl (Pen.member K) pen) → Lasts (s.heap id).dur q → f id = some (q * 500) →
    (chordEvents deref es f s).out.err = none ∧ Playing K T b id true (es.foldl (Pen.member K) pen) (chordEvents deref es f s).out.s ∧
      (chordEvents deref es f s).shortest id = some (q * 500) := by
  intro es
  induction es with
  | nil => intro pen s f h _ _ _ hf; simp only [chordEvents]; exact ⟨rfl, h, hf⟩
  | cons e es ih =>
    intro pen s f h he hs hd hf
    obtain ⟨g, hg, hg2⟩ := shortest_one h (.inl hf) (member_effective (he e (List.mem_cons_self ..)) hd)
    obtain ⟨e1, h1, h2⟩ := h.member (he e (List.mem_cons_self ..)) (hs.before (members_tones K es _)) hd deref
    rcases hu : updWith deref e s with ⟨x, t⟩
    rw [hu] at e1 h1 h2
    simp only at e1 h1 h2
    subst e1
    simp only [chordEvents, hg, hu]
    exact ih (pen.member K e) t g h1 (fun e' h' => he e' (List.mem_cons_of_mem _ h')) hs h2 hg2

/-- A chord. -/
theorem Playing.chord (h : Playing K T b id false pen s) {q : Rat} {l : Letter} {a : Option (List Accidental)} {d : Dur} {sl : Bool} {es : List Upd} (hd : Lasts d q)
    (he : ∀ e ∈ es, FlatMember q e) (hs : Sounds T (pen.step K (.chord (.leaf (.note (.letter l a) d sl) :: es)))) (deref : List Upd → Score → Out) :
    (updWith deref (.chord (.leaf (.note (.letter l a) d sl) :: es)) s).err = none ∧
      Playing K T b id false (pen.step K (.chord (.leaf (.note (.letter l a) d sl) :: es))) (updWith deref (.chord (.leaf (.note (.letter l a) d sl) :: es)) s).s := by
  have hb := chord_beats (l := l) (a := a) (sl := sl) hd he
  obtain ⟨e0, h0, _⟩ := h.applyGlobals
  rcases hg : Alda.applyGlobals s with ⟨x, t⟩
  rw [hg] at e0 h0
  simp only at e0 h0
  subst e0
  have hm0 : (fun i => if t.current.contains i then none else some 0 : Shortest) id = none := by
    simp only [h0.current]
    rw [if_pos (by simp)]
  generalize hm : (fun i => if t.current.contains i then none else some 0 : Shortest) = m0 at hm0
  have h1 := h0.setMode true
  obtain ⟨g, hg1, hg2⟩ := shortest_one (d := d) (f := m0) h1 (.inr hm0) (by rw [eff_cons hd.ne]; exact hd)
  have hs0 : Sounds T (es.foldl (Pen.member K) (pen.member K (.leaf (.note (.letter l a) d sl)))) := hs
  obtain ⟨e2, h2, h3⟩ := h1.note (l := l) (a := a) (sl := sl) hd ((hs0.before (members_tones K es _)) (pen.pos, beatsOf d, pitchOf l (a.getD (onLetter K l)) pen.octave 0) (by simp [Pen.member]))
  have hn : updWith deref (.leaf (.note (.letter l a) d sl)) { t with chordMode := true } = noteUpd (.letter l a) d sl { t with chordMode := true } := by simp only [updWith, leafUpd]
  rcases hu : noteUpd (.letter l a) d sl { t with chordMode := true } with ⟨x, u⟩
  rw [hu] at e2 h2 h3 hn
  simp only at e2 h2 h3
  subst e2
  obtain ⟨e4, h4, h5⟩ := Playing.members (T := T) deref es _ u g h2 he hs0 (by rw [h3]; exact hd) hg2
  have hsteps := h4.setMode false
  have hce : chordEvents deref (.leaf (.note (.letter l a) d sl) :: es) m0 { t with chordMode := true } = chordEvents deref es g u := by
    simp only [chordEvents, specifiedDuration]
    rw [hg1]
    simp only [hn]
  simp only [updWith, hg, Out.andThen, hm, hce]
  rcases hc : chordEvents deref es g u with ⟨⟨x, v⟩, sh⟩
  rw [hc] at e4 h4 h5 hsteps
  simp only at e4 h4 h5 hsteps
  subst e4
  have hst := chordAdvance_steps (L := NoChannelLeaf) (D := False) sh { v with chordMode := false }
  have hcu : v.current = [id] := h4.current
  have hcu' : ({ v with chordMode := false } : Score).current = [id] := h4.current
  show (forIds (chordAdvance sh) v.current { v with chordMode := false }).err = none ∧ Playing K T b id false _ (forIds (chordAdvance sh) v.current { v with chordMode := false }).s
  generalize hw : ({ v with chordMode := false } : Score) = w at *
  rw [hcu', forIds_one] at hst
  rw [hcu, forIds_one]
  refine ⟨rfl, ?_⟩
  unfold chordAdvance Score.modPart at hst ⊢
  simp only [Out.ok] at hst ⊢
  have hus := hsteps.usual
  refine hsteps.set hst ⟨rfl, rfl, rfl, rfl, rfl, rfl⟩ ⟨hus.1, hus.2, hus.3, hus.4, hus.5, hus.6⟩ ?_ ?_ rfl
  · simp only [h5, Option.getD_some, Pen.step, hb]
    rw [hsteps.offset]
    rw [Pen.members_pos]
    simp only
    grind
  · exact hsteps.octave

/-- An event of a line. -/
theorem Playing.step (h : Playing K T b id false pen s) {e : Upd} (he : Flat e) (hs : Sounds T (pen.step K e)) (deref : List Upd → Score → Out) :
    (updWith deref e s).err = none ∧ Playing K T b id false (pen.step K e) (updWith deref e s).s := by
  cases he with
  | note l a d sl q hq =>
    obtain ⟨e1, h1, h2⟩ := h.note (l := l) (a := a) (sl := sl) hq (hs (pen.pos, beatsOf d, pitchOf l (a.getD (onLetter K l)) pen.octave 0) (by simp [Pen.step, Pen.member]))
    simp only [updWith, leafUpd]
    refine ⟨e1, ?_⟩
    simp only [Pen.step, beatsUpd, hq.beats] at h1 ⊢
    exact h1
  | rest d q hq =>
    obtain ⟨e1, h1⟩ := h.rest hq
    simp only [updWith, leafUpd]
    refine ⟨e1, ?_⟩
    simp only [Pen.step, Pen.member, beatsUpd, hq.beats] at h1 ⊢
    exact h1
  | octave n =>
    obtain ⟨e1, h1, h2⟩ := h.attr (u := .octave n) (oct := n) (.inl rfl)
    simp only [updWith, leafUpd]
    refine ⟨e1, ?_⟩
    simp only [Pen.step, Pen.member, beatsUpd, Rat.add_zero]
    exact h1
  | up =>
    obtain ⟨e1, h1, h2⟩ := h.attr (u := .octaveUp) (.inr (.inl ⟨rfl, rfl⟩))
    simp only [updWith, leafUpd]
    refine ⟨e1, ?_⟩
    simp only [Pen.step, Pen.member, beatsUpd, Rat.add_zero]
    exact h1
  | down =>
    obtain ⟨e1, h1, h2⟩ := h.attr (u := .octaveDown) (.inr (.inr (.inl ⟨rfl, rfl⟩)))
    simp only [updWith, leafUpd]
    refine ⟨e1, ?_⟩
    simp only [Pen.step, Pen.member, beatsUpd, Rat.add_zero]
    exact h1
  | dynamic x =>
    obtain ⟨e1, h1, h2⟩ := h.attr (u := .dynamic x) (.inr (.inr (.inr ⟨⟨x, rfl⟩, rfl⟩)))
    simp only [updWith, leafUpd]
    refine ⟨e1, ?_⟩
    simp only [Pen.step, Pen.member, beatsUpd, Rat.add_zero]
    exact h1
  | bar =>
    simp only [updWith, Pen.step, Pen.member, beatsUpd, Rat.add_zero]
    exact ⟨rfl, h⟩
  | chord q l a d sl es hq he => exact h.chord hq he hs deref

/-- A line. -/
theorem Playing.run : ∀ (es : List Upd) (pen : Pen) (s : Score), Playing K T b id false pen s → FlatL es → Sounds T (pen.run K es) →
    (update es s).err = none ∧ Playing K T b id false (pen.run K es) (update es s).s := by
  intro es
  induction es with
  | nil => intro pen s h _ _; exact ⟨rfl, h⟩
  | cons e es ih =>
    intro pen s h he hs
    obtain ⟨e1, h1⟩ := h.step (he e (List.mem_cons_self ..)).1 (hs.before (run_tones K es (pen.step K e))) derefUpd
    rcases hu : updWith derefUpd e s with ⟨x, t⟩
    rw [hu] at e1 h1
    simp only at e1 h1
    subst e1
    have := ih (pen.step K e) t h1 (fun e' h' => he e' (List.mem_cons_of_mem _ h')) hs
    have hh : update (e :: es) s = update es t := by
      show updListWith derefUpd (e :: es) s = updListWith derefUpd es t
      simp only [updListWith, hu]
      rfl
    rw [hh]
    exact this

end

end Importer
end Alda
