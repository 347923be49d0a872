import Verif.Lemmas.Own
import Verif.Lemmas.Json
import Verif.Lemmas.AstJson
import Verif.Lemmas.Written
import Verif.Cmd.Parse
import Verif.Spec.Commands
/-!
C65: what `alda parse` shows determines the program or the music.
-/
namespace Alda
namespace Cmd
open Spec

/-- The text parses, its updates are `us`. -/
def ProgramOf (text : String) (us : List Upd) : Prop := ∃ ast, Syn.parse text.toList = .ok ast ∧ Syn.updatesOf ast = .ok us

theorem shown_ast {m : Fmt} {text : String} {j : Json} (h : shown m "ast" text = .ok j) : ∃ ast, Syn.parse text.toList = .ok ast ∧ j = ast.json := by
  unfold shown at h
  split at h
  · cases h
  · rename_i ast ha
    rw [if_pos rfl] at h
    cases h
    exact ⟨ast, ha, rfl⟩

theorem shown_events {m : Fmt} {text : String} {j : Json} (h : shown m "events" text = .ok j) : ∃ us, ProgramOf text us ∧ j = eventsJson us := by
  unfold shown at h
  split at h
  · cases h
  · rename_i ast ha
    rw [if_neg (by decide)] at h
    split at h
    · cases h
    · rename_i us hus
      rw [if_pos rfl] at h
      cases h
      exact ⟨us, ⟨ast, ha, hus⟩, rfl⟩

theorem shown_data {m : Fmt} {text : String} {j : Json} (h : shown m "data" text = .ok j) : ∃ us, ProgramOf text us ∧ (update us newScore).err = none ∧
    j = (update us newScore).s.json m.addr m.fixed m.names := by
  unfold shown at h
  split at h
  · cases h
  · rename_i ast ha
    rw [if_neg (by decide)] at h
    split at h
    · cases h
    · rename_i us hus
      rw [if_neg (by decide)] at h
      refine ⟨us, ⟨ast, ha, hus⟩, ?_⟩
      split at h
      · cases h
      · rename_i s hs
        cases h
        rw [hs]
        exact ⟨rfl, rfl⟩

/-- C65, the AST: two texts for which the same AST is shown are the same program: the same AST, and hence the same outcome in any score. -/
theorem c65_ast {m m' : Fmt} {t t' : String} {j : Json} (h : shown m "ast" t = .ok j) (h' : shown m' "ast" t' = .ok j) :
    Syn.parse t.toList = Syn.parse t'.toList ∧ Repl.parseCode t = Repl.parseCode t' := by
  obtain ⟨a, ha, rfl⟩ := shown_ast h
  obtain ⟨b, hb, hj⟩ := shown_ast h'
  have := Syn.node_inj a b (Syn.parse_litOk ha) (Syn.parse_litOk hb) hj
  subst this
  refine ⟨by rw [ha, hb], ?_⟩
  unfold Repl.parseCode
  rw [ha, hb]

/-- C65, the events: two texts for which the same events are shown are the same program except for the names of the variables that they define, which
are not shown. Missing: these names (`c65_events_witness`). -/
theorem c65_events_partial {m m' : Fmt} {t t' : String} {j : Json} (h : shown m "events" t = .ok j) (h' : shown m' "events" t' = .ok j) :
    ∃ us us', ProgramOf t us ∧ ProgramOf t' us' ∧ namelesses us = namelesses us' ∧ (NoDefinitionsL us → us = us') := by
  obtain ⟨us, ⟨a, ha, hu⟩, rfl⟩ := shown_events h
  obtain ⟨us', ⟨b, hb, hu'⟩, hj⟩ := shown_events h'
  simp only [eventsJson, Json.arr.injEq] at hj
  have key := upds_inj us us' (Syn.updatesOf_written _ _ hu) (Syn.updatesOf_written _ _ hu') (Syn.updatesOf_spelled _ _ hu) (Syn.updatesOf_spelled _ _ hu') hj
  refine ⟨us, us', ⟨a, ha, hu⟩, ⟨b, hb, hu'⟩, key, fun hn => ?_⟩
  rw [namelesses_self us hn] at key
  have hn' : NoDefinitionsL us' := namelesses_noDefinitions us' (by rw [← key]; exact hn)
  rw [namelesses_self us' hn'] at key
  exact key

theorem partsJson_field (addr : Nat → String) (inj : ∀ i j, addr i = addr j → i = j) (fixed : Rat → String) (s : Score) (i : Nat) :
    field (addr i) (partsJson addr fixed s) = if i ∈ s.parts then some ((s.heap i).json fixed) else none := by
  have key : ∀ (ps : List Nat) (fs : List (String × Json)), ∃ gs,
      ps.foldl (fun j i => j.set (addr i) ((s.heap i).json fixed)) (Json.obj fs) = .obj gs ∧
      field (addr i) (.obj gs) = if i ∈ ps then some ((s.heap i).json fixed) else field (addr i) (.obj fs) := by
    intro ps
    induction ps with
    | nil => intro fs; exact ⟨fs, rfl, by simp⟩
    | cons p ps ih =>
      intro fs
      obtain ⟨gs, h1, h2⟩ := ih (Json.put (addr p) ((s.heap p).json fixed) fs)
      refine ⟨gs, h1, ?_⟩
      rw [h2, field_put]
      by_cases hp : i ∈ ps
      · simp [hp]
      · by_cases hi : i = p
        · subst hi; simp
        · have : addr i ≠ addr p := fun h => hi (inj _ _ h)
          simp [hp, hi, this]
  obtain ⟨gs, h1, h2⟩ := key s.parts []
  unfold partsJson
  rw [h1, h2, field_empty]

theorem part_instrument (fixed : Rat → String) (p : Part) : field "stock-instrument" (p.json fixed) = some (.str p.instr.name) := by
  simp only [Part.json, object_def, List.foldl, set_obj, field_put, field_empty]
  rfl

theorem score_parts (addr : Nat → String) (fixed : Rat → String) (names : List String) (s : Score) :
    field "parts" (s.json addr fixed names) = some (partsJson addr fixed s) ∧
    field "events" (s.json addr fixed names) = some (.arr (s.events.map (NoteEvent.json addr))) := by
  simp only [Score.json, object_def, List.foldl, set_obj, field_put, field_empty]
  exact ⟨rfl, rfl⟩

/-- What is heard of one event. -/
def soundingOf (s : Score) (e : NoteEvent) : HeardNote :=
  ⟨(s.heap e.part).instr.name, e.note, e.offset, e.duration, e.audible, e.volume, e.trackVolume, e.panning, e.channel⟩

theorem reading_event (addr : Nat → String) (inj : ∀ i j, addr i = addr j → i = j) (fixed : Rat → String) (s : Score) (e : NoteEvent) :
    reading (partsJson addr fixed s) (e.json addr) = if e.part ∈ s.parts then some (soundingOf s e) else none := by
  have hf : ∀ k, field k (e.json addr) = _ := fun k => rfl
  have h1 : field "part" (e.json addr) = some (.str (addr e.part)) := by
    simp only [NoteEvent.json, object_def, List.foldl, set_obj, field_put, field_empty]; rfl
  have h2 : field "midi-note" (e.json addr) = some (intJson e.note) := by
    simp only [NoteEvent.json, object_def, List.foldl, set_obj, field_put, field_empty]; rfl
  have h3 : field "offset" (e.json addr) = some (.num e.offset) := by
    simp only [NoteEvent.json, object_def, List.foldl, set_obj, field_put, field_empty]; rfl
  have h4 : field "duration" (e.json addr) = some (.num e.duration) := by
    simp only [NoteEvent.json, object_def, List.foldl, set_obj, field_put, field_empty]; rfl
  have h5 : field "audible-duration" (e.json addr) = some (.num e.audible) := by
    simp only [NoteEvent.json, object_def, List.foldl, set_obj, field_put, field_empty]; rfl
  have h6 : field "volume" (e.json addr) = some (.num e.volume) := by
    simp only [NoteEvent.json, object_def, List.foldl, set_obj, field_put, field_empty]; rfl
  have h7 : field "track-volume" (e.json addr) = some (.num e.trackVolume) := by
    simp only [NoteEvent.json, object_def, List.foldl, set_obj, field_put, field_empty]; rfl
  have h8 : field "panning" (e.json addr) = some (.num e.panning) := by
    simp only [NoteEvent.json, object_def, List.foldl, set_obj, field_put, field_empty]; rfl
  have h9 : field "midi-channel" (e.json addr) = some (intJson e.channel) := by
    simp only [NoteEvent.json, object_def, List.foldl, set_obj, field_put, field_empty]; rfl
  unfold reading
  rw [h1, h2, h3, h4, h5, h6, h7, h8, h9]
  have hp := partsJson_field addr inj fixed s e.part
  simp only [bind, Option.bind, string, hp]
  split <;> rename_i h
  · rw [if_neg (by intro hh; simp [hh] at h)]
  · split at h
    · rename_i hm
      cases h
      rw [if_pos hm]
      simp only [part_instrument]
      simp [number, intJson, soundingOf, pure]
    · cases h

theorem readings_events (addr : Nat → String) (inj : ∀ i j, addr i = addr j → i = j) (fixed : Rat → String) (s : Score) :
    ∀ es : List NoteEvent, readings (partsJson addr fixed s) (es.map (NoteEvent.json addr)) =
      if ∀ e ∈ es, e.part ∈ s.parts then some (es.map (soundingOf s)) else none := by
  intro es
  induction es with
  | nil => simp [readings]
  | cons e es ih =>
    rw [List.map_cons, readings, reading_event addr inj, ih]
    by_cases h1 : e.part ∈ s.parts
    · by_cases h2 : ∀ e ∈ es, e.part ∈ s.parts
      · rw [if_pos h1, if_pos h2, if_pos (by simpa [h1] using h2)]; rfl
      · rw [if_pos h1, if_neg h2, if_neg (by simpa [h1] using h2)]; rfl
    · rw [if_neg h1]
      exact (if_neg (fun h => h1 (h e (List.mem_cons_self ..)))).symm

theorem readSoundings_json (addr : Nat → String) (inj : ∀ i j, addr i = addr j → i = j) (fixed : Rat → String) (names : List String) (s : Score) :
    readSoundings (s.json addr fixed names) = if ∀ e ∈ s.events, e.part ∈ s.parts then some (soundings s) else none := by
  obtain ⟨h1, h2⟩ := score_parts addr fixed names s
  unfold readSoundings
  simp only [h1, h2, bind, Option.bind, elements]
  exact readings_events addr inj fixed s s.events

/-- C65, the score: what can be read of the music in the JSON of a score is right. -/
theorem c65_data_sound {m : Fmt} (inj : ∀ i j, m.addr i = m.addr j → i = j) {text : String} {j : Json} (h : shown m "data" text = .ok j)
    {l : List HeardNote} (hl : readSoundings j = some l) : ∃ us, ProgramOf text us ∧ l = soundings (update us newScore).s := by
  obtain ⟨us, hp, _, rfl⟩ := shown_data h
  refine ⟨us, hp, ?_⟩
  rw [readSoundings_json m.addr inj] at hl
  split at hl
  · exact (Option.some.inj hl).symm
  · cases hl

/-- C65, the score: the JSON of the score of a program without voices tells all that is heard: which instrument plays which note, when, for how long,
how loud, where, and in which channel. Missing: programs with voices (`c65_data_witness`). -/
theorem c65_data_partial {m : Fmt} (inj : ∀ i j, m.addr i = m.addr j → i = j) {text : String} {us : List Upd} (hp : ProgramOf text us) (hc : CalmL us)
    {j : Json} (h : shown m "data" text = .ok j) : readSoundings j = some (soundings (update us newScore).s) := by
  obtain ⟨vs, ⟨b, hb, hv⟩, _, rfl⟩ := shown_data h
  obtain ⟨a, ha, hu⟩ := hp
  rw [ha] at hb
  cases hb
  rw [hu] at hv
  cases hv
  rw [readSoundings_json m.addr inj, if_pos (update_own us hc).events]

/-- C65, the command: it shows the text that it was given, whether as a file, as an argument or on standard input. -/
theorem c65_command {w : World} {f : Flags} {m : Fmt} {outputType text : String} (ht : outputType ∈ ["ast", "events", "data"]) (h : Given w f text) :
    parse w f m outputType = shown m outputType text := by
  have hs : source w f = some (.ok text) := by
    unfold source
    cases h with
    | file h1 h2 => rw [if_pos h1, h2]
    | code h1 h2 => rw [if_neg (by simpa using h1), if_pos h2]
    | piped h1 h2 h3 => rw [if_neg (by simpa using h1), if_neg (by simpa using h2), h3]
  unfold parse
  rw [if_neg (fun h => h ht), hs]

/-- C65: the score is shown exactly if the text is a program that can be carried out. -/
theorem c65_shown (m : Fmt) (text : String) :
    (∃ j, shown m "data" text = .ok j) ↔ ∃ us, ProgramOf text us ∧ (update us newScore).err = none := by
  constructor
  · rintro ⟨j, h⟩
    obtain ⟨us, h1, h2, _⟩ := shown_data h
    exact ⟨us, h1, h2⟩
  · rintro ⟨us, ⟨a, ha, hu⟩, he⟩
    refine ⟨(update us newScore).s.json m.addr m.fixed m.names, ?_⟩
    unfold shown
    rw [ha]
    simp only
    rw [if_neg (by decide), hu]
    simp only
    rw [if_neg (by decide)]
    split
    · rename_i e s h; rw [h] at he; cases he
    · rename_i s h; rw [h]

/-- Addresses and offsets as texts, for examples. -/
def exFmt : Fmt := ⟨fun i => String.ofList (List.replicate i 'x'), fun _ => "", []⟩

theorem exFmt_inj (i j : Nat) (h : exFmt.addr i = exFmt.addr j) : i = j := by
  have := congrArg (fun s => s.toList.length) h
  simpa [exFmt] using this

/-- What is heard when a text is played. -/
def heard (text : String) : Option (List HeardNote) :=
  match Repl.parseCode text with
  | .error _ => none
  | .ok us => if (update us newScore).err.isNone then some (soundings (update us newScore).s) else none

/-- Whether two outputs are there and the same. -/
def sameShown (a b : Except Err Json) : Bool :=
  match a, b with
  | .ok a, .ok b => a.same b
  | _, _ => false

theorem eq_of_sameShown {a b : Except Err Json} (h : sameShown a b = true) : ∃ j, a = .ok j ∧ b = .ok j := by
  cases a <;> cases b <;> simp only [sameShown] at h <;> try cases h
  rename_i a b
  exact ⟨a, rfl, by rw [Json.eq_of_same _ _ h]⟩

/-- C65 is false of the events: for these two programs the same events are shown, but the first plays a C and the second a D. -/
theorem c65_events_witness : ∃ j, shown exFmt "events" "aa = c\nbb = d\npiano: aa" = .ok j ∧ shown exFmt "events" "bb = c\naa = d\npiano: aa" = .ok j ∧
    heard "aa = c\nbb = d\npiano: aa" ≠ heard "bb = c\naa = d\npiano: aa" := by
  obtain ⟨j, h1, h2⟩ := eq_of_sameShown (a := shown exFmt "events" "aa = c\nbb = d\npiano: aa") (b := shown exFmt "events" "bb = c\naa = d\npiano: aa") (by decide +kernel)
  exact ⟨j, h1, h2, by decide +kernel⟩

/-- Reading what is shown. -/
def readShown : Except Err Json → Option (Option (List HeardNote))
  | .ok j => some (readSoundings j)
  | .error _ => none

/-- C65 is false of the score: after a voice group the events belong to parts that are not among the parts of the score. -/
theorem c65_data_witness : ∃ j, shown exFmt "data" "piano: V1: c V2: e V0: g" = .ok j ∧ readSoundings j = none ∧
    (heard "piano: V1: c V2: e V0: g").map List.length = some 3 := by
  have h : readShown (shown exFmt "data" "piano: V1: c V2: e V0: g") = some none := by decide +kernel
  cases hs : shown exFmt "data" "piano: V1: c V2: e V0: g" with
  | error e => rw [hs] at h; simp [readShown] at h
  | ok j =>
    rw [hs] at h
    exact ⟨j, rfl, by simpa [readShown] using h, by decide +kernel⟩

/-- The hypotheses are met: two spellings of one program. -/
example : ∃ j, shown exFmt "ast" "piano: c4 e [c d]*2" = .ok j ∧ shown exFmt "ast" "piano:  c4   e [c d] *2 # again" = .ok j :=
  eq_of_sameShown (by decide +kernel)

example : ∃ j, shown exFmt "events" "piano: c4 e {c d}2" = .ok j ∧ shown exFmt "events" "piano:  c4   e { c d }2" = .ok j :=
  eq_of_sameShown (by decide +kernel)

example : readShown (shown exFmt "data" "piano \"a\": c/e4 violin: [d e]*2") = some (heard "piano \"a\": c/e4 violin: [d e]*2") ∧
    (heard "piano \"a\": c/e4 violin: [d e]*2").map List.length = some 6 := by decide +kernel

end Cmd
end Alda
