import Verif.Lemmas.ImportDrums
import Verif.Lemmas.Demo
import Verif.Props.Repeat
/-!
C41: cleaning up imported music does not change how it sounds.
-/
namespace Alda
open Spec Importer

theorem DurOut.heard {c : List Nat} {o o' : Out} (h : DurOut c o o') : heard o' = heard o := by
  obtain ⟨_, f, e, _⟩ := h.rel
  unfold Spec.heard
  rw [h.err, e]; rfl

theorem OctOut.heard {K : KeySig} {c : List Nat} {o o' : Out} (h : OctOut K c o o') : heard o' = heard o := by
  obtain ⟨_, f, g, e⟩ := h.rel
  unfold Spec.heard
  rw [h.err, e]; rfl

/-- C41: the passes that clean up the music imported for a voice change neither which notes sound, with which pitch, start, length, volume and channel, nor their order, nor
whether there is an error; for a part with lettered notes in any key, and for a percussion part in a key without accidentals and without chords. `o` is the
state of the optimizer: it knows the key signature of the parts, and nothing else. Missing: percussion with a key signature, and percussion chords, where the claim is false
(`c41_key_witness`, `c41_chord_witness`), and global attributes, which the importer does not use. -/
theorem c41_partial (o : Opt) (es : List Upd) (s : Score) (hes : ImportedL es) (hk : LetteredL es ∨ (PercussiveL es ∧ ∀ l, o.key.read l = [])) (hs : NothingGlobal s)
    (hkey : ∀ i ∈ s.current, (s.heap i).keySig = o.key) (hd : o.dur = []) (ho : o.octave = -1) :
    heard (update (optimize o es).1 s) = heard (update es s) := by
  have hin : InKey o.key s.current s := ⟨hs, rfl, hkey⟩
  have h1 := (std_list (c := s.current) (deref := derefUpd) es hes s s (DurRel.refl hs) rfl).heard
  have i1 := std_importedL es hes
  have h2 := (acc_list (K := o.key) (c := s.current) (deref := derefUpd) (standardizeBarlines es) o rfl i1).1 s hin
  obtain ⟨i2, l2, p2, d2, o2⟩ := accList_keeps (standardizeBarlines es) o i1
  have h3 : heard (update (midiList (accList o (standardizeBarlines es)).2 (accList o (standardizeBarlines es)).1).1 s) = heard (update es s) ∧
      ImportedL (midiList (accList o (standardizeBarlines es)).2 (accList o (standardizeBarlines es)).1).1 ∧
      (midiList (accList o (standardizeBarlines es)).2 (accList o (standardizeBarlines es)).1).2.dur = [] := by
    rcases hk with hk | ⟨hk, hK⟩
    · obtain ⟨e, e'⟩ := midi_letteredL _ (accList o (standardizeBarlines es)).2 i2 (l2 (std_letteredL es hes hk))
      rw [e]
      refine ⟨?_, i2, e'.trans (d2.trans hd)⟩
      show heard (updListWith derefUpd _ s) = _
      rw [h2]; exact h1
    · have hp := p2 (std_percussiveL es hes hk)
      obtain ⟨i3, d3⟩ := midiList_imported _ (accList o (standardizeBarlines es)).2 i2 hp
      refine ⟨?_, i3, d3.trans (d2.trans hd)⟩
      have := (midi_list (K := o.key) (c := s.current) (deref := derefUpd) hK _ (accList o (standardizeBarlines es)).2 i2 hp s s (OctRel.refl hin)
        (.inl (o2.trans ho))).1.heard
      refine this.trans ?_
      rw [h2]; exact h1
  obtain ⟨h3, i3, d3⟩ := h3
  unfold optimize
  simp only
  rw [close_list _ _ i3]
  refine Eq.trans ?_ h3
  exact (dur_list (c := s.current) (deref := derefUpd) _ _ i3 s s (DurRel.refl hs) rfl (.inl d3)).1.heard

/-- The state of the optimizer after a voice: the next voice meets the hypotheses of `c41_partial` again. -/
theorem c41_next (o : Opt) (es : List Upd) : (optimize o es).2.dur = [] ∧ (optimize o es).2.octave = -1 ∧ ∀ l, (optimize o es).2.noteState l = false :=
  ⟨rfl, rfl, fun _ => rfl⟩

/-- A key signature is passed on, and the optimizer knows it afterwards. -/
theorem c41_key (o : Opt) (k : KeySig) (es : List Upd) (h : es = [.leaf (.attr (.keySignature k))]) : (optimize o es).1 = es ∧ (optimize o es).2.key = k := by
  subst h
  have hk : (modifyAccidentals o (.leaf (.attr (.keySignature k)))).2.key = k := by
    simp only [modifyAccidentals]
    split
    · rename_i h
      funext l
      unfold sameKey at h
      rw [List.all_eq_true] at h
      have := h l (by cases l <;> decide)
      simpa using this
    · rfl
  exact ⟨rfl, hk⟩

mutual
theorem closeUpd_noEndings : ∀ e : Upd, NoEndings e → NoEndings (closeUpd e)
  | e, h => by
    unfold closeUpd
    split
    · simp only [NoEndings] at h ⊢; exact closeList_noEndings _ h
    · simp only [NoEndings] at h ⊢; exact closeList_noEndings _ h
    · simp only [NoEndings] at h ⊢; exact closeList_noEndings _ h
    · simp only [NoEndings] at h
    · exact h
theorem closeList_noEndings : ∀ es : List Upd, NoEndingsL es → NoEndingsL (closeList es)
  | [], _ => by simp only [closeList, NoEndingsL]
  | e :: es, h => by
    simp only [NoEndingsL, closeList] at h ⊢
    exact ⟨closeUpd_noEndings e h.1, closeList_noEndings es h.2⟩
end
/-- C41: a repeat that has no end is played once by the cleaned-up score. -/
theorem c41_unfinished (s : Score) (hs : VarsNoEndings s) (es : List Upd) (he : NoEndingsL es) :
    heard (update (closeList [.rep (.seq es) 0]) s) = heard (update (closeList es) s) := by
  have hc : NoEndings (.seq (closeList es)) := by simp only [NoEndings]; exact closeList_noEndings es he
  obtain ⟨h1, f, h2⟩ := c13_repeat s hs (.seq (closeList es)) hc 1 [] (by simp only [NoEndingsL])
  have h3 : update (List.replicate (1 : Int).toNat (.seq (closeList es)) ++ []) s = update (closeList es) s := by
    show update [.seq (closeList es)] s = _
    simp only [update, updListWith, updWith]
    generalize updListWith derefUpd (closeList es) s = o
    obtain ⟨e, o⟩ := o
    cases e <;> rfl
  rw [h3] at h1 h2
  show heard (update [.rep (.seq (closeList es)) 1] s) = _
  simp only [heard, h1, h2]
  rfl

/-- A repeat of two notes that is never closed. -/
example : (update (closeList [.rep (.seq [.leaf (.note (.letter .C none) [] false), .leaf (.note (.letter .D none) [] false)]) 0])
    (update [.partDecl ["piano"] ""] newScore).s).s.events.length = 2 := by decide +kernel

/-! ### Witnesses -/

/-- G major: an F is read as F sharp. -/
def gMajor : KeySig := keySigFromFifths 1

/-- A voice with a barline inside a duration, a repeated duration, a sharp that the key signature contains, a chord, a repeat with two endings. -/
def demoVoice : List Upd :=
  [.leaf (.note (.letter .F (some [.sharp])) [.length 4 0] false), .leaf (.note (.letter .G none) [.length 4 0, .barline] false),
   .chord [.leaf (.note (.letter .C none) [.length 2 0] false), .leaf (.attr .octaveUp), .leaf (.note (.letter .E none) [.length 2 0] false)],
   .rep (.seq [.leaf (.rest [.length 8 0]), .onReps [(1, 1)] (.seq [.leaf (.note (.letter .A none) [.length 8 0] false)]), .onReps [(2, 2)] (.seq [.leaf (.note (.letter .B none) [.length 8 0] false)])]) 2]

/-- A piano in G major. -/
def inG : Score := (update [.partDecl ["piano"] "", .leaf (.attr (.keySignature gMajor))] newScore).s

/-- The hypotheses of `c41_partial` are met by `demoVoice` in G major, and the passes do change the updates: a sharp and five durations are removed, and the barline is moved. -/
example : ImportedL demoVoice ∧ LetteredL demoVoice ∧ NothingGlobal inG ∧ (∀ i ∈ inG.current, (inG.heap i).keySig = ({ newOptimizer with key := gMajor } : Opt).key) ∧
    (update demoVoice inG).s.events.length = 6 ∧ ((optimize { newOptimizer with key := gMajor } demoVoice).1.length = 5) := by
  refine ⟨?_, ?_, rfl, ?_, by decide +kernel, by decide +kernel⟩
  · simp [demoVoice, ImportedL, Imported, Member, NotOnlyBars, PartUpd.kind]
  · simp [demoVoice, LetteredL, Lettered]
  · intro i hi
    have : inG.current = [0] := by decide +kernel
    rw [this] at hi
    simp only [List.mem_singleton] at hi
    subst hi
    rfl

/-- A drum voice. -/
def demoDrums : List Upd :=
  [.leaf (.note (.midi 35) [.length 4 0] false), .leaf (.note (.midi 42) [.length 4 0, .barline] false), .rep (.seq [.leaf (.note (.midi 38) [.length 8 0] false)]) 3]

/-- A drum set. -/
def drumSet : Score := (update [.partDecl ["midi-percussion"] ""] newScore).s

/-- The hypotheses of `c41_partial` are met by `demoDrums`. -/
example : ImportedL demoDrums ∧ (PercussiveL demoDrums ∧ ∀ l, newOptimizer.key.read l = []) ∧ NothingGlobal drumSet ∧
    (update demoDrums drumSet).s.events.map (·.note) = [35, 42, 38, 38, 38] ∧ (update (optimize newOptimizer demoDrums).1 drumSet).s.events.map (·.note) = [35, 42, 38, 38, 38] := by
  refine ⟨?_, ⟨?_, ?_⟩, rfl, by decide +kernel, by decide +kernel⟩
  · simp [demoDrums, ImportedL, Imported, NotOnlyBars]
  · simp [demoDrums, PercussiveL, Percussive]
  · intro l; cases l <;> decide +kernel

/-- C41 is false for percussion with a key signature: in G major, number 41 becomes an F, which then is read as F sharp, number 42. -/
theorem c41_key_witness : let o : Opt := { newOptimizer with key := gMajor }
    let s := (update [.partDecl ["midi-percussion"] "", .leaf (.attr (.keySignature gMajor))] newScore).s
    let es : List Upd := [.leaf (.note (.midi 41) [.length 4 0] false)]
    (update es s).s.events.map (·.note) = [41] ∧ (update (optimize o es).1 s).s.events.map (·.note) = [42] := by decide +kernel

/-- C41 is false for percussion chords: after an eighth note, a chord of quarter notes lasts only an eighth, because the octave change inserted into the chord counts as
a member with the previous duration. The next note starts too early. -/
theorem c41_chord_witness :
    let es : List Upd := [.leaf (.note (.midi 35) [.length 8 0] false), .chord [.leaf (.note (.midi 35) [.length 4 0] false), .leaf (.note (.midi 49) [.length 4 0] false)],
      .leaf (.note (.midi 38) [.length 8 0] false)]
    (update es drumSet).s.events.map (·.offset) = [0, 250, 250, 750] ∧ (update (optimize newOptimizer es).1 drumSet).s.events.map (·.offset) = [0, 250, 250, 500] := by decide +kernel

end Alda
