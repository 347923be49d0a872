import Verif.Lemmas.XmlPlay
import Verif.Lemmas.XmlMeasures
import Verif.Lemmas.XmlNeat
import Verif.Props.Line
/-!
Playing the voices of an imported part.
-/
namespace Alda
namespace Importer
open Spec

/-! ### The optimizer -/

mutual
theorem midiUpd_key : ∀ (e : Upd) (o : Opt), (midiUpd o e).2.key = o.key
  | .chord es, o | .seq es, o => by simp only [midiUpd, Opt.resetOctave]; exact midiList_key es _
  | .rep (.seq es) n, o => by simp only [midiUpd, Opt.resetOctave]; exact midiList_key es _
  | .onReps rs (.seq es), o => by simp only [midiUpd, Opt.resetOctave]; exact midiList_key es _
  | e, o => by
    unfold midiUpd
    split
    all_goals try (simp only [Opt.resetOctave]; exact midiList_key _ _)
    have : (modifyMidi o e).2.key = o.key := by
      unfold modifyMidi
      split
      · simp only; split <;> rfl
      · rfl
    simp only
    split
    · exact this
    · exact this
theorem midiList_key : ∀ (es : List Upd) (o : Opt), (midiList o es).2.key = o.key
  | [], _ => rfl
  | e :: es, o => by simp only [midiList]; exact (midiList_key es _).trans (midiUpd_key e o)
end

mutual
theorem durUpd_key : ∀ (e : Upd) (o : Opt), (durUpd o e).2.key = o.key
  | e, o => by
    unfold durUpd
    split
    all_goals try (simp only [Opt.resetDuration]; exact durList_key _ _)
    unfold modifyDuration
    split
    · rfl
    · simp only; split <;> rfl
theorem durList_key : ∀ (es : List Upd) (o : Opt), (durList o es).2.key = o.key
  | [], _ => rfl
  | e :: es, o => by simp only [durList]; exact (durList_key es _).trans (durUpd_key e o)
end

theorem optimize_key (o : Opt) (es : List Upd) (h : ImportedL es) : (optimize o es).2.key = o.key := by
  have h1 := (acc_list (K := o.key) (c := []) (deref := derefUpd) (standardizeBarlines es) o rfl (std_importedL es h)).2
  unfold optimize
  simp only [Opt.softReset, Opt.resetOctave, Opt.resetDuration, Opt.resetNoteState]
  rw [durList_key, midiList_key, h1]

/-- The passes change nothing but default durations. -/
theorem optimize_plays (o : Opt) (es : List Upd) (s : Score) (hes : ImportedL es) (hk : LetteredL es) (hs : NothingGlobal s) (hkey : ∀ i ∈ s.current, (s.heap i).keySig = o.key)
    (hd : o.dur = []) : ∃ f, update (optimize o es).1 s = ⟨(update es s).err, withDurs (update es s).s f⟩ := by
  have hin : InKey o.key s.current s := ⟨hs, rfl, hkey⟩
  have h1 := std_list (c := s.current) (deref := derefUpd) es hes s s (DurRel.refl hs) rfl
  have i1 := std_importedL es hes
  have h2 := (acc_list (K := o.key) (c := s.current) (deref := derefUpd) (standardizeBarlines es) o rfl i1).1 s hin
  obtain ⟨i2, l2, p2, d2, o2⟩ := accList_keeps (standardizeBarlines es) o i1
  obtain ⟨e, e'⟩ := midi_letteredL _ (accList o (standardizeBarlines es)).2 i2 (l2 (std_letteredL es hes hk))
  have d3 : (midiList (accList o (standardizeBarlines es)).2 (accList o (standardizeBarlines es)).1).2.dur = [] := e'.trans (d2.trans hd)
  have h4 := (dur_list (c := s.current) (deref := derefUpd) _ (midiList (accList o (standardizeBarlines es)).2 (accList o (standardizeBarlines es)).1).2 i2 s s (DurRel.refl hs) rfl (.inl d3)).1
  unfold optimize
  simp only
  rw [e]
  rw [close_list _ _ i2]
  obtain ⟨_, f, hf, _⟩ := h1.rel
  obtain ⟨_, g, hg, _⟩ := h4.rel
  refine ⟨g, ?_⟩
  have e1 := h1.err
  have e4 := h4.err
  rw [h2] at hg e4
  show updListWith derefUpd _ s = _
  rcases hu : updListWith derefUpd (durList (midiList (accList o (standardizeBarlines es)).2 (accList o (standardizeBarlines es)).1).2 (accList o (standardizeBarlines es)).1).1 s with ⟨x, t⟩
  rw [hu] at e4 hg
  simp only at e4 hg
  rw [e4, e1, hg, hf]
  rfl

/-- With or without its barlines moved. -/
def tidy (b : Bool) (us : List Upd) : List Upd := if b then Syn.settle us else us

theorem tidy_plays (b : Bool) (o : Opt) (es : List Upd) (s : Score) (hes : FlatL es) (hs : NothingGlobal s) (hkey : ∀ i ∈ s.current, (s.heap i).keySig = o.key)
    (hd : o.dur = []) : ∃ f, update (tidy b (optimize o es).1) s = ⟨(update es s).err, withDurs (update es s).s f⟩ := by
  obtain ⟨i1, i2⟩ := hes.imported
  obtain ⟨f, hf⟩ := optimize_plays o es s i1 i2 hs hkey hd
  cases b with
  | false => exact ⟨f, hf⟩
  | true =>
    have hp := settle_plays (c := s.current) (deref := derefUpd) (optimize o es).1 (fun u hu => neat_steady (optimize_neat o hes u hu)) s s (DurRel.refl hs) rfl
    have e1 := hp.err
    obtain ⟨_, g, hg, _⟩ := hp.rel
    change (update (optimize o es).1 s).err = (update (Syn.settle (optimize o es).1) s).err at e1
    change (update (optimize o es).1 s).s = withDurs (update (Syn.settle (optimize o es).1) s).s g at hg
    rw [hf] at e1 hg
    show ∃ f, update (Syn.settle (optimize o es).1) s = _
    rcases hu : update (Syn.settle (optimize o es).1) s with ⟨x, t⟩
    rw [hu] at e1 hg
    simp only at e1 hg
    refine ⟨fun i => (t.heap i).dur, ?_⟩
    rw [e1]
    congr 1
    have := congrArg (fun u : Score => withDurs u (fun i => (t.heap i).dur)) hg
    exact this.symm

/-! ### A line -/

theorem sameShape_withDurs (s : Score) (f : Nat → Dur) : SameShape s (withDurs s f) := ⟨fun _ => ⟨rfl, rfl, rfl, rfl, rfl, rfl⟩, rfl, rfl, rfl, rfl, rfl, rfl⟩

theorem SameShape.melodic {s t : Score} (h : SameShape s t) : Spec.melodic t = Spec.melodic s := by
  have hi : instances t = instances s := by
    unfold instances; rw [h.parts]
    exact List.map_congr_left (fun i _ => (h.cells i).origin)
  unfold Spec.melodic
  rw [hi]
  exact List.filter_congr (fun o _ => by rw [(h.cells o).instr])

theorem fewInv_withDurs {s : Score} (h : FewInv s) (f : Nat → Dur) : FewInv (withDurs s f) := by
  have sh := sameShape_withDurs s f
  have g := h.inv.good
  have m := SameShape.melodic sh
  refine ⟨⟨⟨sh.wf g.wf, g.vars, sh.voicesOk g.voices, fun _ => sh.idleOk (g.idle trivial)⟩, h.inv.globals, h.inv.any, h.inv.nine, fun _ => ?_⟩, by rw [m]; exact h.few⟩
  have u := h.usage
  refine u.keep rfl (fun o ho => ?_)
  rw [isMelodic_mem] at ho ⊢
  rw [m]; exact ho

/-- A score in which the part `id` can start playing. -/
structure Startable (K : KeySig) (T : Int) (id : Nat) (s : Score) : Prop where
  few : FewInv s
  current : s.current = [id]
  nothing : NothingGlobal s
  mode : s.chordMode = false
  usual : Usual K T (s.heap id)
  octave : ∃ k : Int, (s.heap id).octave = 4 + k * 4294967296

theorem Startable.playing {K : KeySig} {T : Int} {id : Nat} {s : Score} (h : Startable K T id s) : Playing K T s id false startPen s where
  few := h.few
  steps := .refl s
  shape := .refl s
  current := h.current
  globals := rfl
  nothing := h.nothing
  vars := rfl
  mode := h.mode
  others := fun j _ => ⟨(s.heap j).midiChannel, rfl⟩
  usual := h.usual
  offset := by simp [startPen, Rat.add_zero]
  octave := h.octave
  events := by simp [startPen]

/-- The score `t` continues the score `s` with these notes and without new instruments. -/
structure Sung (s t : Score) (new : List (Nat × Int × Rat × Rat)) : Prop where
  few : FewInv t
  nothing : NothingGlobal t
  mode : t.chordMode = false
  view : SameView s t
  next : s.next ≤ t.next
  stable : ∀ i < s.next, (t.heap i).origin = (s.heap i).origin ∧ (t.heap i).instr = (s.heap i).instr
  events : t.events.map noteView = s.events.map noteView ++ new

theorem Sung.trans {s t u : Score} {a b : List (Nat × Int × Rat × Rat)} (h : Sung s t a) (h' : Sung t u b) : Sung s u (a ++ b) where
  few := h'.few
  nothing := h'.nothing
  mode := h'.mode
  view := h.view.trans h'.view
  next := Nat.le_trans h.next h'.next
  stable := fun i hi => ⟨(h'.stable i (Nat.lt_of_lt_of_le hi h.next)).1.trans (h.stable i hi).1, (h'.stable i (Nat.lt_of_lt_of_le hi h.next)).2.trans (h.stable i hi).2⟩
  events := by rw [h'.events, h.events, List.append_assoc]

theorem SameShape.view {s t : Score} (h : SameShape s t) : SameView s t := by
  constructor
  · unfold partView; rw [h.parts]
    exact List.map_congr_left (fun i _ => by rw [(h.cells i).origin, (h.cells i).instr])
  · unfold aliasView origins; rw [h.aliases]
    exact List.map_congr_left (fun a _ => by
      congr 1
      exact List.map_congr_left (fun i _ => (h.cells i).origin))

/-- How a line is left. -/
structure LineDone (id : Nat) (s t : Score) : Prop where
  shape : SameShape s t
  others : ∀ j, j ≠ id → ∃ c d, t.heap j = { s.heap j with midiChannel := c, dur := d }

/-- A line that the optimizer has cleaned up. -/
theorem line_plays {K : KeySig} {T : Int} {id : Nat} {s : Score} (h : Startable K T id s) {es : List Upd} (hes : FlatL es) (hs : Sounds T (startPen.run K es)) (o : Opt)
    (hk : o.key = K) (hd : o.dur = []) (b : Bool) :
    ∃ t, update (tidy b (optimize o es).1) s = .ok t ∧ Sung s t ((startPen.run K es).tones.map (toneView (s.heap id).origin T (s.heap id).offset)) ∧ LineDone id s t := by
  obtain ⟨f, hf⟩ := tidy_plays b o es s hes h.nothing (by rw [h.current, hk]; intro i hi; simp only [List.mem_singleton] at hi; subst hi; exact h.usual.key) hd
  obtain ⟨e1, p⟩ := Playing.run es startPen s h.playing hes hs
  rw [e1] at hf
  refine ⟨_, hf, ?_, ?_⟩
  · refine ⟨fewInv_withDurs p.fewNow f, p.quietGlobals, p.mode, SameShape.view (p.shape.trans (sameShape_withDurs _ f)), ?_, ?_, ?_⟩
    · show s.next ≤ (update es s).s.next
      rw [p.shape.next]; exact Nat.le_refl _
    · intro i _
      exact ⟨(p.shape.cells i).origin, (p.shape.cells i).instr⟩
    · exact p.events
  · refine ⟨p.shape.trans (sameShape_withDurs _ f), ?_⟩
    intro j hj
    obtain ⟨c, hc⟩ := p.others j hj
    exact ⟨c, f j, by show ({ (update es s).s.heap j with dur := f j } : Part) = _; rw [hc]⟩

/-! ### Voices -/

/-- What a voice starts from. -/
structure Blank (K : KeySig) (T : Int) (o : Nat) (start : Rat) (p : Part) : Prop where
  usual : Usual K T p
  octave : ∃ k : Int, p.octave = 4 + k * 4294967296
  origin : p.origin = o
  offset : p.offset = start

/-- A part that has played the voices `ks`. -/
structure Ensemble (K : KeySig) (T : Int) (o : Nat) (start : Rat) (ks : List Int) (s : Score) : Prop where
  few : FewInv s
  nothing : NothingGlobal s
  mode : s.chordMode = false
  cell : ∃ c, s.current = [c] ∧ (s.heap c).origin = o ∧ (s.vheap (s.heap c).voices).map (·.1) = ks ∧
    ((ks = [] ∧ (s.heap c).template = none ∧ Blank K T o start (s.heap c)) ∨
      ∃ t, (s.heap c).template = some t ∧ Blank K T o start (s.heap t) ∧ ks ≠ [])

section
variable {K : KeySig} {T : Int} {o : Nat} {start : Rat} {ks : List Int} {s : Score}

theorem lookup_absent {α : Type} {n : Int} : ∀ {l : List (Int × α)}, n ∉ l.map (·.1) → l.lookup n = none
  | [], _ => rfl
  | (m, a) :: l, h => by
    simp only [List.map_cons, List.mem_cons, not_or] at h
    have e : (n == m) = false := beq_eq_false_iff_ne.2 h.1
    rw [List.lookup_cons, e]
    exact lookup_absent h.2

/-- Entering a new voice of a part that has a template. -/
theorem addVoice_ok {c t : Nat} (n : Int) (hc : c < s.next) (ht : t < s.next) (h2 : (s.heap c).template = some t) (h3 : (s.heap t).template = some t)
    (h4 : (s.heap t).voices = (s.heap c).voices) (h5 : (s.heap c).origin = o) (hb : Blank K T o start (s.heap t)) :
    ∃ u, addVoice c n s = (.ok u, s.next) ∧ u.current = s.current ∧ u.globals = s.globals ∧ u.chordMode = s.chordMode ∧ u.events = s.events ∧ Blank K T o start (u.heap s.next) ∧
      (u.heap s.next).template = some t ∧ t ≠ s.next ∧ Blank K T o start (u.heap t) ∧ (u.vheap (u.heap s.next).voices).map (·.1) = (s.vheap (s.heap c).voices).map (·.1) ++ [n] ∧
      (u.heap c).origin = o := by
  have e1 : t ≠ s.next := by omega
  have e2 : c ≠ s.next := by omega
  unfold addVoice
  simp only [h2]
  refine ⟨_, rfl, rfl, rfl, rfl, rfl, ?_, ?_, e1, ?_, ?_, ?_⟩
  · simp only [Score.alloc, Score.setPart, if_true]
    exact ⟨⟨hb.1.1, hb.1.2, hb.1.3, hb.1.4, hb.1.5, hb.1.6⟩, hb.2, hb.3, hb.4⟩
  · simp only [Score.alloc, Score.setPart, if_true]
    exact h3
  · simp only [Score.alloc, Score.setPart, if_neg e1]
    exact hb
  · simp only [Score.alloc, Score.setPart, if_true, Part.clone, h4, List.map_append, List.map_cons, List.map_nil]
  · simp only [Score.alloc, Score.setPart, if_neg e2]
    exact h5

/-- The next voice. -/
theorem Ensemble.voice (h : Ensemble K T o start ks s) {n : Int} (hn : n ∉ ks) :
    ∃ t v, voiceUpd n s = .ok t ∧ Startable K T v t ∧ Blank K T o start (t.heap v) ∧ (∃ x, (t.heap v).template = some x ∧ x ≠ v ∧ Blank K T o start (t.heap x)) ∧
      (t.vheap (t.heap v).voices).map (·.1) = ks ++ [n] ∧ Sung s t [] := by
  obtain ⟨c, h1, h2, h3, h4⟩ := h.cell
  have w := h.few.inv.good.wf
  have hc : c < s.next := w.cur_lt c (by rw [h1]; exact List.mem_cons_self ..)
  have hlook : (s.vheap (s.heap c).voices).lookup n = none := lookup_absent (by rw [h3]; exact hn)
  have hsteps : Steps NoChannelLeaf False s (voiceUpd n s).s := by
    have := update_steps (L := NoChannelLeaf) (D := False) [.voice n] s (by simp [AllLeavesL, AllLeaves]) (.inr (by simp [NoDeclL, NoDecl])) ⟨w, h.few.inv.good.vars, h.few.inv.good.voices, fun h => h.elim⟩
    have e : (update [.voice n] s).s = (voiceUpd n s).s := by
      show (updListWith derefUpd [.voice n] s).s = _
      simp only [updListWith, updWith, Out.andThen]
      rcases voiceUpd n s with ⟨x, t⟩
      cases x <;> rfl
    rwa [e] at this
  have key : ∃ t v, voiceUpd n s = .ok t ∧ t.current = [v] ∧ t.globals = s.globals ∧ t.chordMode = s.chordMode ∧ t.events = s.events ∧ Blank K T o start (t.heap v) ∧
      (∃ x, (t.heap v).template = some x ∧ x ≠ v ∧ Blank K T o start (t.heap x)) ∧ (t.vheap (t.heap v).voices).map (·.1) = ks ++ [n] := by
    have e0 : voiceUpd n s = voiceMarkerAt n 0 s := by
      unfold voiceUpd
      rw [h1]
      exact forIds_one _ 0 s
    rw [e0]
    unfold voiceMarkerAt getVoice
    rw [h1]
    simp only [List.getElem?_cons_zero, hlook]
    have fin : ∀ (a : Score) (t : Nat), ensureTemplate c s = .ok a → a.current = [c] → c < a.next → t < a.next → (a.heap c).template = some t → (a.heap t).template = some t →
        (a.heap t).voices = (a.heap c).voices → (a.heap c).origin = o → Blank K T o start (a.heap t) → a.globals = s.globals → a.chordMode = s.chordMode → a.events = s.events →
        (a.vheap (a.heap c).voices).map (·.1) = ks →
        ∃ t v, (match (match ensureTemplate c s with | ⟨some e, s⟩ => ((Out.fail e s, 0) : Out × Nat) | ⟨none, s⟩ => addVoice c n s) with
          | (⟨some e, s⟩, _) => Out.fail e s
          | (⟨none, s⟩, v) => .ok { s with current := replaceByOrigin s (s.heap c).origin v s.current }) = .ok t ∧
          t.current = [v] ∧ t.globals = s.globals ∧ t.chordMode = s.chordMode ∧ t.events = s.events ∧ Blank K T o start (t.heap v) ∧
          (∃ x, (t.heap v).template = some x ∧ x ≠ v ∧ Blank K T o start (t.heap x)) ∧ (t.vheap (t.heap v).voices).map (·.1) = ks ++ [n] := by
      intro a t a0 a1 a2 a3 a4 a5 a6 a7 a8 a9 a10 a11 a12
      obtain ⟨u, b0, b1, b2, b3, b4, b5, b6, b7, b8, b9, b10⟩ := addVoice_ok n a2 a3 a4 a5 a6 a7 a8
      rw [a0]
      simp only [Out.ok]
      rw [b0]
      simp only [Out.ok]
      refine ⟨_, a.next, rfl, ?_, b2.trans a9, b3.trans a10, b4.trans a11, b5, ⟨t, b6, b7, b8⟩, by rw [← a12]; exact b9⟩
      simp only [replaceByOrigin, b1, a1, List.map_cons, List.map_nil, if_true]
    rcases h4 with ⟨rfl, h5, h6⟩ | ⟨t, h5, h6, h7⟩
    · have hv : s.vheap (s.heap c).voices = [] := List.map_eq_nil_iff.1 h3
      have hne : c ≠ s.next := by omega
      have hne' : s.next ≠ c := by omega
      have en : ensureTemplate c s = .ok ((s.alloc { (s.heap c).clone with template := some s.next }).2.modPart c (fun p => { p with template := some s.next })) := by
        unfold ensureTemplate
        simp only [hv, h5]
        rfl
      refine fin _ s.next en h1 ?_ ?_ ?_ ?_ ?_ ?_ ?_ rfl rfl rfl ?_
      all_goals simp only [Score.alloc, Score.setPart, Score.modPart, if_true, if_neg hne, if_neg hne', Part.clone]
      · omega
      · omega
      · exact h2
      · have hb := h6
        exact ⟨⟨hb.1.1, hb.1.2, hb.1.3, hb.1.4, hb.1.5, hb.1.6⟩, hb.2, hb.3, hb.4⟩
      · exact h3
    · have en : ensureTemplate c s = .ok s := by
        unfold ensureTemplate
        cases hv : s.vheap (s.heap c).voices with
        | nil => rw [hv] at h3; exact absurd h3.symm h7
        | cons x xs => simp only [hv]
      obtain ⟨g1, g2, g3, g4⟩ := h.few.inv.good.voices.tmpl c (by rw [h1]; exact List.mem_cons_self ..) t h5
      exact fin s t en h1 hc (w.tmpl c hc t h5).1 h5 g2 g1 h2 h6 rfl rfl rfl h3
  obtain ⟨t, v, k1, k2, k3, k4, k5, k6, k7, k8⟩ := key
  rw [k1] at hsteps
  simp only [Out.ok] at hsteps
  have few := h.few.steps hsteps
  have hng : NothingGlobal t := by have := h.nothing; unfold NothingGlobal at *; rw [k3]; exact this
  refine ⟨t, v, k1, ⟨few, k2, hng, k4.trans h.mode, k6.usual, k6.octave⟩, k6, k7, k8, ⟨few, hng, k4.trans h.mode, (hsteps.view w).1, (hsteps.stable w).2.1, (hsteps.stable w).2.2, ?_⟩⟩
  rw [k5]; simp

theorem update_ok_append {es fs : List Upd} {s t : Score} (h : update es s = .ok t) : update (es ++ fs) s = update fs t := by
  rw [update_append, h]; rfl

theorem update_ok_cons {e : Upd} {fs : List Upd} {s t : Score} (h : updWith derefUpd e s = .ok t) : update (e :: fs) s = update fs t := by
  show updListWith derefUpd (e :: fs) s = _
  simp only [updListWith, h]
  rfl

/-- The next voice with its line. -/
theorem Ensemble.line (h : Ensemble K T o start ks s) {n : Int} (hn : n ∉ ks) {es : List Upd} (hes : FlatL es) (hs : Sounds T (startPen.run K es)) (op : Opt) (hk : op.key = K)
    (hd : op.dur = []) (b : Bool) :
    ∃ t, update (.voice n :: tidy b (optimize op es).1) s = .ok t ∧ Sung s t ((startPen.run K es).tones.map (toneView o T start)) ∧ Ensemble K T o start (ks ++ [n]) t := by
  obtain ⟨u, v, a1, a2, a3, ⟨x, a4, a5, a6⟩, a7, a8⟩ := h.voice hn
  obtain ⟨t, b1, b2, b3⟩ := line_plays a2 hes hs op hk hd b
  rw [a3.origin, a3.offset] at b2
  refine ⟨t, ?_, a8.trans b2, b2.few, b2.nothing, b2.mode, v, ?_, ?_, ?_, .inr ⟨x, ?_, ?_, by simp⟩⟩
  · rw [update_ok_cons (t := u) (by simp only [updWith]; exact a1)]; exact b1
  · rw [b3.shape.current]; exact a2.current
  · rw [(b3.shape.cells v).origin]; exact a3.origin
  · rw [b3.shape.vheap, (b3.shape.cells v).voices]; exact a7
  · rw [(b3.shape.cells v).template]; exact a4
  · obtain ⟨c, d, e⟩ := b3.others x a5
    rw [e]
    exact ⟨⟨a6.1.1, a6.1.2, a6.1.3, a6.1.4, a6.1.5, a6.1.6⟩, a6.2, a6.3, a6.4⟩

/-- The updates that are generated for several voices. -/
inductive Written (K : KeySig) : List (Int × List Upd) → List Upd → Prop where
  | nil : Written K [] []
  | cons (n : Int) (es : List Upd) (op : Opt) (rest : List (Int × List Upd)) (us : List Upd) : op.key = K → op.dur = [] → Written K rest us →
      Written K ((n, es) :: rest) ((.voice n :: (optimize op es).1) ++ us)

theorem Written.opening {lines : List (Int × List Upd)} {us : List Upd} (h : Written K lines us) : us = [] ∨ ∃ n vs, us = .voice n :: vs := by
  cases h with
  | nil => exact .inl rfl
  | cons n es op rest us _ _ _ => exact .inr ⟨n, _, rfl⟩

theorem tidy_start (b : Bool) (us : List Upd) {vs : List Upd} (h : vs = [] ∨ ∃ n ws, vs = .voice n :: ws) : tidy b (us ++ vs) = tidy b us ++ tidy b vs := by
  unfold tidy
  cases b with
  | false => rfl
  | true =>
    simp only [if_true]
    rcases h with rfl | ⟨n, ws, rfl⟩
    · simp [Syn.settle]
    · exact Syn.settle_append (by simp) us ws

theorem tidy_voice (b : Bool) (n : Int) (us : List Upd) : tidy b (.voice n :: us) = .voice n :: tidy b us := by
  unfold tidy
  cases b with
  | false => rfl
  | true => exact Syn.settle_neutral (fun _ => rfl) us

theorem Written.tidy (b : Bool) {n : Int} {es : List Upd} {op : Opt} {rest : List (Int × List Upd)} {us : List Upd} (h : Written K rest us) :
    Importer.tidy b ((.voice n :: (optimize op es).1) ++ us) = (.voice n :: Importer.tidy b (optimize op es).1) ++ Importer.tidy b us := by
  rw [List.cons_append, tidy_voice, tidy_start b _ h.opening]; rfl

theorem Ensemble.lines (b : Bool) {lines : List (Int × List Upd)} {us : List Upd} (hw : Written K lines us) : ∀ {ks : List Int} {s : Score}, Ensemble K T o start ks s →
    (ks ++ lines.map (·.1)).Nodup → (∀ l ∈ lines, FlatL l.2 ∧ Sounds T (startPen.run K l.2)) →
    ∃ t, update (tidy b us) s = .ok t ∧ Sung s t (lines.flatMap (fun l => (startPen.run K l.2).tones.map (toneView o T start))) := by
  induction hw with
  | nil =>
    intro ks s h _ _
    refine ⟨s, by cases b <;> rfl, h.few, h.nothing, h.mode, .refl s, Nat.le_refl _, fun _ _ => ⟨rfl, rfl⟩, by simp⟩
  | cons n es op rest us hk hd hw ih =>
    intro ks s h hnd hl
    have hn : n ∉ ks := by
      intro hmem
      rw [List.nodup_append] at hnd
      exact hnd.2.2 n hmem n (by simp) rfl
    obtain ⟨t, a1, a2, a3⟩ := h.line hn (hl (n, es) (List.mem_cons_self ..)).1 (hl (n, es) (List.mem_cons_self ..)).2 op hk hd b
    obtain ⟨u, b1, b2⟩ := ih a3 (by rw [List.append_assoc]; exact hnd) (fun l h' => hl l (List.mem_cons_of_mem _ h'))
    exact ⟨u, by rw [hw.tidy, update_ok_append a1]; exact b1, by rw [List.flatMap_cons]; exact a2.trans b2⟩

end

/-! ### What is generated for a part -/

theorem isEmpty_flat {v : Voice} (h : FlatL v.events) : v.isEmpty = v.events.isEmpty := by
  unfold Voice.isEmpty
  cases hv : v.events with
  | nil => rfl
  | cons e es =>
    rw [hv] at h
    have he := (h e (List.mem_cons_self ..)).1
    split
    · rename_i hh; cases hh
    · rename_i hh
      simp only [List.cons.injEq] at hh
      rw [hh.1] at he
      cases he
    · rfl

theorem collapseLoop_written {K : KeySig} {ev : Nat → List Upd} : ∀ (ns : List Nat) (p : XPart) (any : Bool), ns.Nodup → (∀ n ∈ ns, FlatL (ev n)) →
    (∀ n ∈ ns, ∃ v, p.voices.lookup (n : Int) = some v ∧ v.events = ev n) → p.opt.key = K → p.opt.dur = [] →
    ∃ us, (collapseLoop (ns.map (fun n : Nat => (n : Int))) p any).1.updates = p.updates ++ us ∧
      (collapseLoop (ns.map (fun n : Nat => (n : Int))) p any).1.instruments = p.instruments ∧ (collapseLoop (ns.map (fun n : Nat => (n : Int))) p any).1.alias = p.alias ∧
      Written K ((ns.filter (fun n => !(ev n).isEmpty)).map (fun n : Nat => ((n : Int), ev n))) us := by
  intro ns
  induction ns with
  | nil => intro p any _ _ _ _ _; exact ⟨[], by simp [collapseLoop], rfl, rfl, by simpa using Written.nil⟩
  | cons n ns ih =>
    intro p any hnd hf hl hk hd
    rw [List.nodup_cons] at hnd
    obtain ⟨v, v1, v2⟩ := hl n (List.mem_cons_self ..)
    have hfn := hf n (List.mem_cons_self ..)
    have hem := isEmpty_flat (v := v) (by rw [v2]; exact hfn)
    simp only [List.map_cons, collapseLoop, v1, hem, v2]
    by_cases he : (ev n).isEmpty = true
    · simp only [he, if_true, List.filter_cons, Bool.not_true, Bool.false_eq_true, if_false]
      exact ih p any hnd.2 (fun m hm => hf m (List.mem_cons_of_mem _ hm)) (fun m hm => hl m (List.mem_cons_of_mem _ hm)) hk hd
    · have he' : (ev n).isEmpty = false := by simpa using he
      simp only [he', List.filter_cons, Bool.not_false, if_true, Bool.false_eq_true, if_false, List.map_cons]
      obtain ⟨us, a1, a2, a3, a4⟩ := ih { p with updates := p.updates ++ .voice n :: (optimize p.opt (ev n)).1, opt := (optimize p.opt (ev n)).2, voices := assign (n : Int) { newVoice with octave := -1 } p.voices } true
        hnd.2 (fun m hm => hf m (List.mem_cons_of_mem _ hm)) (by
          intro m hm
          obtain ⟨w, w1, w2⟩ := hl m (List.mem_cons_of_mem _ hm)
          refine ⟨w, ?_, w2⟩
          simp only
          rw [lookup_assign_ne]
          · exact w1
          · intro e
            have : m = n := by omega
            exact hnd.1 (this ▸ hm)) (by rw [optimize_key _ _ hfn.imported.1]; exact hk) (c41_next _ _).1
      refine ⟨(.voice n :: (optimize p.opt (ev n)).1) ++ us, ?_, a2, a3, .cons _ _ _ _ _ hk hd a4⟩
      rw [a1]
      simp

theorem insertNumber_perm (n : Int) : ∀ ms : List Int, (insertNumber n ms).Perm (n :: ms)
  | [] => .refl _
  | m :: ms => by
    simp only [insertNumber]
    split
    · exact .refl _
    · exact ((insertNumber_perm n ms).cons m).trans (.swap n m ms)

theorem voiceOrder_perm (ns : List Int) : (voiceOrder ns).Perm ns := by
  unfold voiceOrder
  induction ns with
  | nil => exact .refl _
  | cons n ns ih => exact (insertNumber_perm n _).trans (ih.cons n)

/-- The lines of a part and what they stand for. -/
structure Scored (head : XmlHead) (notes : List XmlNote) (lines : List (List Upd)) : Prop where
  flat : ∀ l ∈ lines, FlatL l
  tones : (lines.flatMap (fun l => (startPen.run (keySigFromFifths head.fifths) l).tones)).Perm (notes.map (toneOf head.divisions))

theorem flatMap_same {α β : Type} {f g : α → List β} {l : List α} (h : ∀ x ∈ l, f x = g x) : l.flatMap f = l.flatMap g := by
  induction l with
  | nil => rfl
  | cons x l ih => rw [List.flatMap_cons, List.flatMap_cons, h x (List.mem_cons_self ..), ih (fun y hy => h y (List.mem_cons_of_mem _ hy))]

theorem inVoice_perm : ∀ (V : List Nat) (notes : List XmlNote), V.Nodup → (∀ x ∈ notes, x.voice ∈ V) → (V.flatMap (fun n => inVoice n notes)).Perm notes
  | [], notes, _, h => by
    cases notes with
    | nil => exact .refl _
    | cons x xs => exact absurd (h x (List.mem_cons_self ..)) (by simp)
  | n :: V, notes, hnd, h => by
    rw [List.nodup_cons] at hnd
    have ih := inVoice_perm V (notes.filter (fun x => !decide (x.voice = n))) hnd.2 (by
      intro x hx
      rw [List.mem_filter] at hx
      have := h x hx.1
      simp only [List.mem_cons] at this
      rcases this with e | e
      · simp [e] at hx
      · exact e)
    rw [List.flatMap_cons]
    have e : V.flatMap (fun m => inVoice m notes) = V.flatMap (fun m => inVoice m (notes.filter (fun x => !decide (x.voice = n)))) := by
      refine flatMap_same (fun m hm => ?_)
      unfold inVoice
      rw [List.filter_filter]
      refine List.filter_congr (fun x _ => ?_)
      have hne : m ≠ n := fun e => hnd.1 (e ▸ hm)
      by_cases hx : x.voice = m
      · simp [hx, hne]
      · simp [hx]
    rw [e]
    exact (List.Perm.append_left _ ih).trans (List.filter_append_perm (fun x : XmlNote => decide (x.voice = n)) notes)

/-- What is generated for a part. -/
theorem Finished.generated {V : List Nat} {head : XmlHead} {notes : List XmlNote} {p : XPart} (h : Finished V head notes p) :
    (∃ es op, p.generate = .ok (.partDecl p.instruments p.alias :: (p.updates ++ (optimize op es).1)) ∧ op.key = keySigFromFifths head.fifths ∧ op.dur = [] ∧ Scored head notes [es]) ∨
    (∃ lines us, p.generate = .ok (.partDecl p.instruments p.alias :: (p.updates ++ us)) ∧ Written (keySigFromFifths head.fifths) lines us ∧ (lines.map (·.1)).Nodup ∧
      Scored head notes (lines.map (·.2)) ∧ ∀ l ∈ lines, 1 ≤ l.1 ∧ l.1 ≤ 127) := by
  have hd := h.done
  have hv := h.known
  have hvo : ∀ n : Nat, ∃ es, n ∈ V → ∃ v, p.voices.lookup (n : Int) = some v ∧ v.events = es ∧ FlatL es ∧
      (startPen.run (keySigFromFifths head.fifths) es).tones = (inVoice n notes).map (toneOf head.divisions) := by
    intro n
    by_cases hn : n ∈ V
    · obtain ⟨v, a, v1, v2⟩ := hd.voices n hn
      exact ⟨v.events, fun _ => ⟨v, v1, rfl, v2.flat, v2.tones⟩⟩
    · exact ⟨[], fun h => absurd h hn⟩
  obtain ⟨ev, hev⟩ := Classical.axiomOfChoice hvo
  by_cases hlen : p.voices.length = 1
  · have hV : V = [1] := by
      have hl : V.length = 1 := by
        have := congrArg List.length hd.keys
        simp only [List.length_map] at this
        omega
      have h1 := h.first
      match V, hl, h1 with
      | [n], _, h1 => simp only [List.mem_singleton] at h1; rw [h1]
    obtain ⟨n, hn, hc⟩ := hd.cur
    rw [hV, List.mem_singleton] at hn
    subst hn
    obtain ⟨v, v1, v2, v3, v4⟩ := hev 1 h.first
    left
    have hnotes : inVoice 1 notes = notes := by
      unfold inVoice
      rw [List.filter_eq_self]
      intro x hx
      have := hv x hx
      rw [hV, List.mem_singleton] at this
      simpa using this
    have sc : Scored head notes [ev 1] := ⟨by intro l hl; simp only [List.mem_singleton] at hl; subst hl; exact v3, by simp [v4, hnotes]⟩
    unfold XPart.generate XPart.collapse
    rw [if_pos hlen, voice_at hc v1]
    simp only [bind, Except.bind]
    rw [isEmpty_flat (by rw [v2]; exact v3), v2]
    by_cases he : (ev 1).isEmpty = true
    · have he2 : ev 1 = [] := by simpa using he
      refine ⟨ev 1, p.opt, ?_, h.key, h.dur, sc⟩
      rw [he2]
      simp [pure, Except.pure, optimize, standardizeBarlines, accList, midiList, durList, closeList]
    · refine ⟨ev 1, p.opt, ?_, h.key, h.dur, sc⟩
      rw [if_neg he]
      rfl
  · right
    obtain ⟨ns, e1, e2⟩ := perm_cast (V := V) (l := voiceOrder (p.voices.map (·.1))) (by rw [hd.keys]; exact voiceOrder_perm _)
    obtain ⟨us, a1, a2, a3, a4⟩ := collapseLoop_written (K := keySigFromFifths head.fifths) (ev := ev) ns p false (e2.nodup_iff.2 h.nodup) (fun n hn => by
        obtain ⟨v, _, _, v3, _⟩ := hev n (e2.mem_iff.1 hn); exact v3) (fun n hn => by
        obtain ⟨v, v1, v2, _, _⟩ := hev n (e2.mem_iff.1 hn); exact ⟨v, v1, v2⟩) h.key h.dur
    refine ⟨_, us, ?_, a4, ?_, ⟨?_, ?_⟩, ?_⟩
    · unfold XPart.generate XPart.collapse
      rw [if_neg hlen, e1]
      generalize collapseLoop (ns.map (fun n : Nat => (n : Int))) p false = r at a1 a2 a3
      simp only [bind, Except.bind, pure, Except.pure]
      by_cases hr : r.2 = true
      · rw [if_pos hr]
        simp only [XPart.point, Bool.false_eq_true, if_false, List.append_nil, a1, a2, a3]
      · rw [if_neg hr]
        simp only [a1, a2, a3]
    · rw [List.map_map]
      have : ((fun x : Int × List Upd => x.1) ∘ fun n : Nat => ((n : Int), ev n)) = fun n : Nat => (n : Int) := rfl
      rw [this]
      refine List.Pairwise.map _ (fun a b hab => ?_) ((e2.nodup_iff.2 h.nodup).filter _)
      omega
    · intro l hl
      rw [List.map_map] at hl
      obtain ⟨n, hn, rfl⟩ := List.mem_map.1 hl
      obtain ⟨v, _, _, v3, _⟩ := hev n (e2.mem_iff.1 (List.mem_filter.1 hn).1)
      exact v3
    · rw [List.map_map, List.flatMap_map]
      have f1 : ∀ l : List Nat, ((l.filter (fun n => !(ev n).isEmpty)).flatMap (fun n => (startPen.run (keySigFromFifths head.fifths) (ev n)).tones)) =
          l.flatMap (fun n => (startPen.run (keySigFromFifths head.fifths) (ev n)).tones) := by
        intro l
        induction l with
        | nil => rfl
        | cons n l ih =>
          rw [List.filter_cons]
          split
          · rw [List.flatMap_cons, List.flatMap_cons, ih]
          · rename_i hh
            have : ev n = [] := by simpa using hh
            rw [List.flatMap_cons, ih, this]
            rfl
      show (List.flatMap (fun n => (startPen.run (keySigFromFifths head.fifths) (ev n)).tones) _).Perm _
      rw [f1]
      have f2 : ns.flatMap (fun n => (startPen.run (keySigFromFifths head.fifths) (ev n)).tones) = (ns.flatMap (fun n => inVoice n notes)).map (toneOf head.divisions) := by
        rw [List.map_flatMap]
        refine flatMap_same (fun n hn => ?_)
        obtain ⟨v, _, _, _, v4⟩ := hev n (e2.mem_iff.1 hn)
        exact v4
      rw [f2]
      exact (inVoice_perm ns notes (e2.nodup_iff.2 h.nodup) (fun x hx => e2.mem_iff.2 (hv x hx))).map _
    · intro l hl
      obtain ⟨n, hn, rfl⟩ := List.mem_map.1 hl
      have := h.positive n (e2.mem_iff.1 (List.mem_filter.1 hn).1)
      simp only
      omega

end Importer
end Alda
