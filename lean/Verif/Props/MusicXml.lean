import Verif.Lemmas.XmlFile
/-!
C50: a MusicXML file is imported without loss of music.
-/
namespace Alda
namespace Importer
open Spec

/-- C50: a partwise score with at most fifteen parts for different instruments is imported, the result plays without an error, and what is heard is exactly the notes of the file: for each one the
instrument of the part, the note number, the start, and the length at 120 beats per minute.

Proved for files in which divisions, key and transposition are given at the beginning of a part and every part has one instrument (or none, then it is the piano). Missing: changes of
key or divisions later on, repeats and endings, ties, grace and cue notes, percussion, several parts with the same instrument. There the claim is wrong: see below. -/
theorem c50_import_partial (o : Orders) (fair : o.Fair) (roots : List Elem) (root : Elem) (hroot : roots.find? (fun e => e.tag = "score-partwise") = some root) (players : List XmlPlayer)
    (h : ScoreOf root players) (few : players.length ≤ 15) (hp : ∀ p ∈ players, p.Playable) : Renders o roots (players.flatMap XmlPlayer.music) := by
  obtain ⟨us, vs, t, h1, h2, h3, h4⟩ := import_plays false o fair hroot h few hp
  rw [h2.1 rfl] at h3
  exact ⟨us, t, h1, h3, h4⟩

/-! ### Files -/

/-- What is heard, if all goes well. -/
def rendered (o : Orders) (roots : List Elem) : Option (List (Nat × Int × Rat × Rat)) :=
  match importMusicXML o roots with
  | .error _ => none
  | .ok us => let r := update us newScore; if r.err = none then some (r.s.events.map (heardAs r.s)) else none

theorem renders_iff {o : Orders} {roots : List Elem} {music : List (Nat × Int × Rat × Rat)} : Renders o roots music ↔ ∃ l, rendered o roots = some l ∧ l.Perm music := by
  unfold Renders rendered
  constructor
  · rintro ⟨us, t, h1, h2, h3⟩
    refine ⟨_, ?_, h3⟩
    rw [h1]
    simp only [h2, Out.ok, if_true]
  · rintro ⟨l, h1, h2⟩
    cases hi : importMusicXML o roots with
    | error e => rw [hi] at h1; simp at h1
    | ok us =>
      rw [hi] at h1
      simp only at h1
      split at h1
      · rename_i he
        simp only [Option.some.injEq] at h1
        exact ⟨us, (update us newScore).s, rfl, by rcases hx : update us newScore with ⟨e, t⟩; rw [hx] at he; simp only at he; rw [he]; rfl, by rw [h1]; exact h2⟩
      · simp at h1

instance (o : Orders) (roots : List Elem) (music : List (Nat × Int × Rat × Rat)) : Decidable (Renders o roots music) :=
  match h : rendered o roots with
  | none => .isFalse (fun hr => by obtain ⟨l, h1, _⟩ := renders_iff.1 hr; rw [h] at h1; simp at h1)
  | some l => decidable_of_iff (l.Perm music) ⟨fun hp => renders_iff.2 ⟨l, h, hp⟩, fun hr => by obtain ⟨l', h1, h2⟩ := renders_iff.1 hr; rw [h] at h1; simp only [Option.some.injEq] at h1; rw [h1]; exact h2⟩

/-- An element with children. -/
def el (tag : String) (kids : List Elem) : Elem := .mk tag [] "" kids
/-- An element with a text. -/
def tx (tag text : String) : Elem := .mk tag [] text []
/-- An element with an attribute. -/
def att (tag k v : String) (kids : List Elem := []) : Elem := .mk tag [(k, v)] "" kids
/-- A pitch. -/
def pitchEl (step octave : String) (alter : List Elem := []) : Elem := el "pitch" (tx "step" step :: alter ++ [tx "octave" octave])
/-- A note. -/
def noteEl (voice dur step octave : String) (more : List Elem := []) : Elem :=
  el "note" ([pitchEl step octave, tx "duration" dur, tx "voice" voice] ++ more)
/-- A rest. -/
def restEl (voice dur : String) : Elem := el "note" [el "rest" [], tx "duration" dur, tx "voice" voice]
/-- A key. -/
def keyEl (f : String) : Elem := el "key" [tx "fifths" f]
/-- A measure. -/
def measureEl (kids : List Elem) : Elem := el "measure" kids
/-- Attributes. -/
def attrsEl (kids : List Elem) : Elem := el "attributes" kids
/-- Divisions. -/
def divEl (d : String) : Elem := tx "divisions" d
/-- The description of a part. -/
def scorePartEl (id : String) (kids : List Elem := []) : Elem := att "score-part" "id" id kids
/-- A MIDI program. -/
def programEl (n : String) : Elem := el "midi-instrument" [tx "midi-program" n]
/-- A part. -/
def partEl (id : String) (ms : List Elem) : Elem := att "part" "id" id ms
/-- A file. -/
def fileEl (parts : List (Elem × Elem)) : Elem := el "score-partwise" (el "part-list" (parts.map (·.1)) :: parts.map (·.2))
/-- A file with one part. -/
def onePart (ms : List Elem) : Elem := fileEl [(scorePartEl "P1", partEl "P1" ms)]
/-- A dynamic marking. -/
def dynEl (m : String) : Elem := el "direction" [el "direction-type" [el "dynamics" [el m []]]]
/-- A repeat sign. -/
def repeatEl (d : String) : Elem := el "barline" [att "repeat" "direction" d]
/-- One of the orders that Go's maps may have. -/
def ord : Orders := ⟨fun _ l => l, fun _ l => l⟩
/-- Another one. -/
def rev : Orders := ⟨fun _ l => l, fun _ l => l.reverse⟩

theorem ord_fair : ord.Fair := ⟨fun _ _ => .refl _, fun _ _ => .refl _⟩
theorem rev_fair : rev.Fair := ⟨fun _ _ => .refl _, fun _ l => List.reverse_perm l⟩

/-- A duet. -/
def duet : Elem := fileEl
  [(scorePartEl "P2" [programEl "74"], partEl "P2"
      [measureEl [attrsEl [divEl "2", keyEl "1"], noteEl "1" "4" "F" "5" [tx "accidental" "natural"], noteEl "1" "2" "G" "5", el "forward" [tx "duration" "2"]],
       measureEl [el "note" [pitchEl "F" "5" [tx "alter" "1"], tx "duration" "8", tx "voice" "1"]]]),
   (scorePartEl "P1", partEl "P1"
      [measureEl [attrsEl [divEl "1", el "transpose" [tx "chromatic" "-2"]], dynEl "p", noteEl "1" "4" "C" "5", el "note" [el "chord" [], pitchEl "E" "5", tx "duration" "4", tx "voice" "1"],
         el "backup" [tx "duration" "4"], restEl "2" "2", noteEl "2" "2" "B" "3"],
       measureEl [noteEl "2" "4" "C" "4"]])]


theorem duet_heard : Renders ord [duet]
    [(73, 77, 0, 1000), (73, 79, 1000, 500), (73, 78, 2000, 2000), (0, 70, 0, 2000), (0, 74, 0, 2000), (0, 57, 1000, 1000), (0, 58, 2000, 2000)] := by decide +kernel

instance (n : Nat) (s : String) : Decidable (NumeralOf n s) := by unfold NumeralOf AllDigits; infer_instance

/-- The flute of the duet. -/
def duetFlute : XmlPlayer := ⟨"P2", 74, ⟨2, 1, 0⟩, [[.note 1 4 false (some ⟨.F, 0, 5⟩), .note 1 2 false (some ⟨.G, 0, 5⟩), .forward 2], [.note 1 8 false (some ⟨.F, 1, 5⟩)]]⟩

/-- The piano of the duet. -/
def duetPiano : XmlPlayer := ⟨"P1", 1, ⟨1, 0, -2⟩,
  [[.dynamics, .note 1 4 false (some ⟨.C, 0, 5⟩), .note 1 4 true (some ⟨.E, 0, 5⟩), .backup 4, .note 2 2 false none, .note 2 2 false (some ⟨.B, 0, 3⟩)], [.note 2 4 false (some ⟨.C, 0, 4⟩)]]⟩

theorem says_of {e c : Elem} {tag : String} {n : Nat} (h : e.find tag = some c) (hn : NumeralOf n c.text) : Says e tag n := ⟨c, h, hn⟩

theorem isNote {f : Int} {e : Elem} {v t : Nat} {chord : Bool} {p : Option XmlPitch} (h0 : e.tag = "note") (h1 : Says e "voice" v) (h2 : 1 ≤ v ∧ v ≤ 127) (h3 : Says e "duration" t)
    (h4 : (e.findAll "dot").length ≤ 5) (h5 : (e.find "chord").isSome = chord) (h6 : PitchOf f e p) (h7 : e.find "cue" = none) (h8 : e.find "grace" = none) (h9 : e.find "type" = none)
    (h10 : e.findAll "tie" = []) : NoteOf f e v t chord p :=
  ⟨h0, ⟨h1, h2⟩, h3, h4, h5, h6, ⟨h7, h8, fun c hc => by rw [h9] at hc; simp at hc⟩, h10⟩

theorem plainPitch {f : Int} {e c st : Elem} {p : XmlPitch} (h1 : e.find "pitch" = some c) (h2 : c.find "step" = some st) (h3 : st.text = stepText p.letter) (h4 : AlterOf c p.alter)
    (h5 : Says c "octave" p.octave) (h6 : p.octave ≤ 127) (h7 : e.find "accidental" = none) (h8 : p.alter ≠ 0 ∨ ¬ InSignature f p.letter) : PitchOf f e (some p) :=
  ⟨c, st, h1, h2, h3, h4, h5, h6, fun ⟨x, hx, _⟩ => by rw [h7] at hx; simp at hx, fun ha hb => h8.elim (fun h => absurd ha h) (fun h => absurd hb h)⟩

theorem duet_is_score : ScoreOf duet [duetFlute, duetPiano] where
  tag := rfl
  content := by
    refine ⟨[], _, _, _, rfl, trivial, rfl, .part "P2" 74 ⟨rfl, rfl, .inr ⟨_, rfl, rfl, says_of rfl (by decide), by decide, by decide⟩⟩ (.part "P1" 1 ⟨rfl, rfl, .inl ⟨rfl, rfl⟩⟩ .nil), .refl _,
      .part rfl ?_ (.part rfl ?_ .nil)⟩
    · constructor
      · rfl
      · refine ⟨_, [_], _, _, _, _, rfl, rfl, rfl, .attributes rfl rfl (.divisions 2 rfl rfl (by decide) (by decide) (.key (c := tx "fifths" "1") 1 rfl rfl rfl rfl rfl rfl (.inl ⟨1, by decide, rfl⟩) (by decide) (by decide) (.nil _))) (.nil _),
          .cons (.note _ 1 4 false (some ⟨.F, 0, 5⟩) ?_) (.cons (.note _ 1 2 false (some ⟨.G, 0, 5⟩) ?_) (.cons (.forward _ 2 [] ?_ (.inl ⟨rfl, rfl⟩)) .nil)), .cons rfl (.cons (.note _ 1 8 false (some ⟨.F, 1, 5⟩) ?_) .nil) .nil, rfl⟩
        · exact isNote rfl (says_of rfl (by decide)) (by decide) (says_of rfl (by decide)) (by decide) rfl
            ⟨_, _, rfl, rfl, rfl, .inl ⟨rfl, rfl⟩, says_of rfl (by decide), by decide, fun _ => rfl, fun _ _ => ⟨_, rfl, rfl⟩⟩ rfl rfl rfl rfl
        · exact isNote rfl (says_of rfl (by decide)) (by decide) (says_of rfl (by decide)) (by decide) rfl
            (plainPitch rfl rfl rfl (.inl ⟨rfl, rfl⟩) (says_of rfl (by decide)) (by decide) rfl (.inr (by unfold InSignature; decide))) rfl rfl rfl rfl
        · exact ⟨rfl, says_of rfl (by decide), rfl⟩
        · exact isNote rfl (says_of rfl (by decide)) (by decide) (says_of rfl (by decide)) (by decide) rfl
            (plainPitch rfl rfl rfl (.inr ⟨_, rfl, .inl ⟨1, by decide, rfl⟩, by decide, by decide⟩) (says_of rfl (by decide)) (by decide) rfl (.inl (by decide))) rfl rfl rfl rfl
      · decide
      · intro s hs
        have : s ∈ ["1", "1", "1"] := hs
        simp only [List.mem_cons, List.not_mem_nil, or_false, or_self] at this
        exact ⟨1, by rw [this]; decide, by decide, by decide⟩
      · exact ⟨"1", List.mem_cons_self .., by decide⟩
      · simp [duetFlute, XmlReading.SensibleMeasures, XmlReading.SensibleItems, XmlReading.Sensible, XmlReading.items, XmlReading.item, XmlReading.nextBar, XmlReading.start]
    · constructor
      · rfl
      · refine ⟨_, [_], _, _, _, _, rfl, rfl, rfl, .attributes rfl rfl (.divisions 1 rfl rfl (by decide) (by decide) (.transpose (c := tx "chromatic" "-2") (-2) rfl rfl rfl rfl (.inr ⟨['2'], 2, rfl, by decide, rfl⟩) (by decide) (by decide) (.nil _))) (.nil _),
          .cons (.loud _ [] ?_ (.inl ⟨rfl, rfl⟩)) (.cons (.note _ 1 4 false (some ⟨.C, 0, 5⟩) ?_) (.cons (.note _ 1 4 true (some ⟨.E, 0, 5⟩) ?_) (.cons (.backup _ 4 ?_ rfl)
            (.cons (.note _ 2 2 false none ?_) (.cons (.note _ 2 2 false (some ⟨.B, 0, 3⟩) ?_) .nil))))), .cons rfl (.cons (.note _ 2 4 false (some ⟨.C, 0, 4⟩) ?_) .nil) .nil, rfl⟩
        · simp [Quiet, QuietL, dynEl, el, actedUpon]
        · exact isNote rfl (says_of rfl (by decide)) (by decide) (says_of rfl (by decide)) (by decide) rfl
            (plainPitch rfl rfl rfl (.inl ⟨rfl, rfl⟩) (says_of rfl (by decide)) (by decide) rfl (.inr (by unfold InSignature; decide))) rfl rfl rfl rfl
        · exact isNote rfl (says_of rfl (by decide)) (by decide) (says_of rfl (by decide)) (by decide) rfl
            (plainPitch rfl rfl rfl (.inl ⟨rfl, rfl⟩) (says_of rfl (by decide)) (by decide) rfl (.inr (by unfold InSignature; decide))) rfl rfl rfl rfl
        · exact ⟨rfl, says_of rfl (by decide), rfl⟩
        · exact isNote rfl (says_of rfl (by decide)) (by decide) (says_of rfl (by decide)) (by decide) rfl ⟨rfl, rfl⟩ rfl rfl rfl rfl
        · exact isNote rfl (says_of rfl (by decide)) (by decide) (says_of rfl (by decide)) (by decide) rfl
            (plainPitch rfl rfl rfl (.inl ⟨rfl, rfl⟩) (says_of rfl (by decide)) (by decide) rfl (.inr (by unfold InSignature; decide))) rfl rfl rfl rfl
        · exact isNote rfl (says_of rfl (by decide)) (by decide) (says_of rfl (by decide)) (by decide) rfl
            (plainPitch rfl rfl rfl (.inl ⟨rfl, rfl⟩) (says_of rfl (by decide)) (by decide) rfl (.inr (by unfold InSignature; decide))) rfl rfl rfl rfl
      · decide
      · intro s hs
        have : s ∈ ["1", "1", "2", "2", "2"] := hs
        simp only [List.mem_cons, List.not_mem_nil, or_false, or_self] at this
        rcases this with this | this | this
        · exact ⟨1, by rw [this]; decide, by decide, by decide⟩
        · exact ⟨1, by rw [this]; decide, by decide, by decide⟩
        · exact ⟨2, by rw [this]; decide, by decide, by decide⟩
      · exact ⟨"1", List.mem_cons_self .., by decide⟩
      · simp [duetPiano, XmlReading.SensibleMeasures, XmlReading.SensibleItems, XmlReading.Sensible, XmlReading.items, XmlReading.item, XmlReading.nextBar, XmlReading.start, XmlReading.position]
  ids := by decide
  programs := by decide

theorem duet_playable : ∀ p ∈ [duetFlute, duetPiano], p.Playable := by unfold XmlPlayer.Playable; decide

/-- The duet meets the hypotheses of the theorem. -/
example : Renders rev [duet] ([duetFlute, duetPiano].flatMap XmlPlayer.music) := c50_import_partial rev rev_fair [duet] duet rfl _ duet_is_score (by decide) duet_playable

/-! ### Where the claim fails

Each file is followed by the music in it. -/

/-- A rest that follows a change of key: six `octave-up` are imported, and a note is out of range. -/
def restAfterKey : Elem := onePart [measureEl [attrsEl [divEl "1", keyEl "0"], noteEl "1" "4" "C" "5"], measureEl [attrsEl [keyEl "1"], restEl "1" "2", noteEl "1" "2" "D" "5"]]

theorem c50_rest_after_key_witness : ¬ Renders ord [restAfterKey] [(0, 72, 0, 2000), (0, 74, 3000, 1000)] := by decide +kernel

/-- A dynamic marking that follows a change of key: another rest and another octave. -/
def markAfterKey : Elem := onePart [measureEl [attrsEl [divEl "1", keyEl "0"], noteEl "1" "4" "C" "4"], measureEl [attrsEl [keyEl "1"], dynEl "f", noteEl "1" "4" "D" "4"]]

theorem c50_mark_after_key_witness : ¬ Renders ord [markAfterKey] [(0, 60, 0, 2000), (0, 62, 2000, 2000)] := by decide +kernel

/-- Key and transposition change together: the music so far is played twice. -/
def keyAndTranspose : Elem :=
  onePart [measureEl [attrsEl [divEl "1", keyEl "0"], noteEl "1" "4" "C" "4"], measureEl [attrsEl [keyEl "1", el "transpose" [tx "chromatic" "-2"]], noteEl "1" "4" "D" "4"]]

theorem c50_key_and_transpose_witness : ¬ Renders ord [keyAndTranspose] [(0, 60, 0, 2000), (0, 60, 2000, 2000)] := by decide +kernel

/-- A dynamic marking before a second voice: that voice starts late. -/
def markBeforeVoice : Elem :=
  onePart [measureEl [attrsEl [divEl "1", keyEl "0"], noteEl "1" "4" "C" "5", el "backup" [tx "duration" "4"], dynEl "p", noteEl "2" "4" "C" "4"]]

theorem c50_mark_before_voice_witness : ¬ Renders ord [markBeforeVoice] [(0, 72, 0, 2000), (0, 60, 0, 2000)] := by decide +kernel

/-- F natural twice in G major, the second time without a sign, as in the same measure it is not written again: the second one is played as F sharp. -/
def naturalTwice : Elem :=
  onePart [measureEl [attrsEl [divEl "1", keyEl "1"], noteEl "1" "2" "F" "4" [tx "accidental" "natural"], noteEl "1" "2" "F" "4"]]

theorem c50_natural_twice_witness : ¬ Renders ord [naturalTwice] [(0, 65, 0, 1000), (0, 65, 1000, 1000)] := by decide +kernel

/-- An instrument that sounds an octave lower than written: it sounds as written. -/
def octaveLower : Elem :=
  onePart [measureEl [attrsEl [divEl "1", keyEl "0", el "transpose" [tx "chromatic" "0", tx "octave-change" "-1"]], noteEl "1" "4" "C" "4"]]

theorem c50_octave_lower_witness : ¬ Renders ord [octaveLower] [(0, 48, 0, 2000)] := by decide +kernel

/-- A cue note, which is not played: its time is lost. -/
def cueNote : Elem :=
  onePart [measureEl [attrsEl [divEl "1", keyEl "0"], el "note" [el "cue" [], pitchEl "C" "4", tx "duration" "2", tx "voice" "1"], noteEl "1" "2" "D" "4"]]

theorem c50_cue_note_witness : ¬ Renders ord [cueNote] [(0, 62, 1000, 1000)] := by decide +kernel

/-- A repeat with two voices: only the second one is repeated. -/
def repeatTwoVoices : Elem :=
  onePart [measureEl [attrsEl [divEl "1", keyEl "0"], noteEl "1" "4" "E" "4", el "backup" [tx "duration" "4"], noteEl "2" "4" "C" "4", repeatEl "backward"],
    measureEl [noteEl "1" "4" "F" "4", el "backup" [tx "duration" "4"], noteEl "2" "4" "D" "4"]]

theorem c50_repeat_two_voices_witness :
    ¬ Renders ord [repeatTwoVoices] [(0, 64, 0, 2000), (0, 64, 2000, 2000), (0, 65, 4000, 2000), (0, 60, 0, 2000), (0, 60, 2000, 2000), (0, 62, 4000, 2000)] := by decide +kernel

/-- `<forward>` in a voice that lags behind: the time is counted twice, and the next note comes too early. -/
def forwardInVoice : Elem :=
  onePart [measureEl [attrsEl [divEl "1", keyEl "0"], noteEl "1" "4" "E" "4", el "backup" [tx "duration" "2"], el "forward" [tx "duration" "1", tx "voice" "2"], noteEl "2" "1" "C" "4"]]

theorem c50_forward_in_voice_witness : ¬ Renders ord [forwardInVoice] [(0, 64, 0, 2000), (0, 60, 1500, 500)] := by decide +kernel

/-- MIDI program 128: the instrument before it is taken. -/
def lastProgram : Elem := fileEl [(scorePartEl "P1" [programEl "128"], partEl "P1" [measureEl [attrsEl [divEl "1"], noteEl "1" "4" "C" "4"]])]

theorem c50_last_program_witness : ¬ Renders ord [lastProgram] [(127, 60, 0, 2000)] := by decide +kernel

/-- One part without an instrument and another one for the piano: the second one is played after the first one, not together with it. -/
def twoPianos : Elem :=
  fileEl [(scorePartEl "P1", partEl "P1" [measureEl [attrsEl [divEl "1"], noteEl "1" "4" "C" "4"]]),
    (scorePartEl "P2" [programEl "1"], partEl "P2" [measureEl [attrsEl [divEl "1"], noteEl "1" "4" "E" "4"]])]

theorem c50_two_pianos_witness : ¬ Renders ord [twoPianos] [(0, 60, 0, 2000), (0, 64, 0, 2000)] := by decide +kernel

/-- Three parts for the same instrument: the import cannot be played. -/
def threePianos : Elem :=
  fileEl (["P1", "P2", "P3"].map (fun id => (scorePartEl id, partEl id [measureEl [attrsEl [divEl "1"], noteEl "1" "4" "C" "4"]])))

theorem c50_three_pianos_witness : ¬ Renders ord [threePianos] [(0, 60, 0, 2000), (0, 60, 0, 2000), (0, 60, 0, 2000)] := by decide +kernel

/-- A note without a voice, which MusicXML allows. -/
def noVoice : Elem := onePart [measureEl [attrsEl [divEl "1"], el "note" [pitchEl "C" "4", tx "duration" "4"]]]

theorem c50_no_voice_witness : ¬ Renders ord [noVoice] [(0, 60, 0, 2000)] := by decide +kernel

/-! ### The order of the maps -/

theorem renders_perm {o : Orders} {roots : List Elem} {m m' : List (Nat × Int × Rat × Rat)} (h : Renders o roots m) : Renders o roots m' ↔ m.Perm m' := by
  rw [renders_iff] at h ⊢
  obtain ⟨l, h1, h2⟩ := h
  constructor
  · rintro ⟨l', h3, h4⟩
    rw [h1] at h3
    simp only [Option.some.injEq] at h3
    subst h3
    exact h2.symm.trans h4
  · intro hp
    exact ⟨l, h1, h2.trans hp⟩

/-- C51: what is heard after an import does not depend on the order in which Go's maps happen to be gone through.

Proved for the files of C50. Missing: the others. There the claim is wrong: see below. -/
theorem c51_order_partial (o o' : Orders) (fair : o.Fair) (fair' : o'.Fair) (roots : List Elem) (root : Elem) (hroot : roots.find? (fun e => e.tag = "score-partwise") = some root)
    (players : List XmlPlayer) (h : ScoreOf root players) (few : players.length ≤ 15) (hp : ∀ p ∈ players, p.Playable) (music : List (Nat × Int × Rat × Rat)) :
    Renders o roots music ↔ Renders o' roots music :=
  (renders_perm (c50_import_partial o fair roots root hroot players h few hp)).trans (renders_perm (c50_import_partial o' fair' roots root hroot players h few hp)).symm

/-- The duet meets the hypotheses of the theorem. -/
example (music : List (Nat × Int × Rat × Rat)) : Renders ord [duet] music ↔ Renders rev [duet] music :=
  c51_order_partial ord rev ord_fair rev_fair [duet] duet rfl _ duet_is_score (by decide) duet_playable music

/-- Two voices, and a second measure that is repeated. -/
def repeatLater : Elem :=
  onePart [measureEl [attrsEl [divEl "1", keyEl "0"], noteEl "1" "4" "E" "4", el "backup" [tx "duration" "4"], noteEl "2" "4" "C" "4"],
    measureEl [repeatEl "forward", noteEl "1" "4" "F" "4", el "backup" [tx "duration" "4"], noteEl "2" "4" "D" "4", repeatEl "backward"]]

/-- The same file is imported in two ways. -/
theorem c51_two_orders_witness : ∃ music, Renders ord [repeatLater] music ∧ ¬ Renders rev [repeatLater] music :=
  ⟨(rendered ord [repeatLater]).getD [], by decide +kernel⟩

end Importer
end Alda
