/-!
Model of `client/model/instruments.go`. The two tables are transcribed mechanically from the Go source.
-/
namespace Alda

/-- `MidiInstrument`, client/model/instruments.go:16-20. -/
structure Instrument where
  name : String
  patch : Nat
  percussion : Bool
deriving DecidableEq, Repr, Inhabited

/-- `midiNonPercussionInstruments`, client/model/instruments.go:36-212: name and aliases of each entry. -/
def nonPercussionNames : List (String × List String) :=
  [("midi-acoustic-grand-piano", ["midi-piano", "piano"]),
   ("midi-bright-acoustic-piano", []),
   ("midi-electric-grand-piano", []),
   ("midi-honky-tonk-piano", []),
   ("midi-electric-piano-1", []),
   ("midi-electric-piano-2", []),
   ("midi-harpsichord", ["harpsichord"]),
   ("midi-clavi", ["midi-clavinet", "clavinet"]),
   ("midi-celesta", ["celesta", "celeste", "midi-celeste"]),
   ("midi-glockenspiel", ["glockenspiel"]),
   ("midi-music-box", ["music-box"]),
   ("midi-vibraphone", ["vibraphone", "vibes", "midi-vibes"]),
   ("midi-marimba", ["marimba"]),
   ("midi-xylophone", ["xylophone"]),
   ("midi-tubular-bells", ["tubular-bells"]),
   ("midi-dulcimer", ["dulcimer"]),
   ("midi-drawbar-organ", []),
   ("midi-percussive-organ", []),
   ("midi-rock-organ", []),
   ("midi-church-organ", ["organ"]),
   ("midi-reed-organ", []),
   ("midi-accordion", ["accordion"]),
   ("midi-harmonica", ["harmonica"]),
   ("midi-tango-accordion", []),
   ("midi-acoustic-guitar-nylon", ["midi-acoustic-guitar", "acoustic-guitar", "guitar"]),
   ("midi-acoustic-guitar-steel", []),
   ("midi-electric-guitar-jazz", []),
   ("midi-electric-guitar-clean", ["electric-guitar-clean"]),
   ("midi-electric-guitar-palm-muted", []),
   ("midi-electric-guitar-overdrive", ["electric-guitar-overdrive"]),
   ("midi-electric-guitar-distorted", ["electric-guitar-distorted"]),
   ("midi-electric-guitar-harmonics", ["electric-guitar-harmonics"]),
   ("midi-acoustic-bass", ["acoustic-bass", "upright-bass"]),
   ("midi-electric-bass-finger", ["electric-bass-finger", "electric-bass"]),
   ("midi-electric-bass-pick", ["electric-bass-pick"]),
   ("midi-fretless-bass", ["fretless-bass"]),
   ("midi-bass-slap", []),
   ("midi-bass-pop", []),
   ("midi-synth-bass-1", []),
   ("midi-synth-bass-2", []),
   ("midi-violin", ["violin"]),
   ("midi-viola", ["viola"]),
   ("midi-cello", ["cello"]),
   ("midi-contrabass", ["string-bass", "arco-bass", "double-bass", "contrabass", "midi-string-bass", "midi-arco-bass", "midi-double-bass"]),
   ("midi-tremolo-strings", []),
   ("midi-pizzicato-strings", []),
   ("midi-orchestral-harp", ["harp", "orchestral-harp", "midi-harp"]),
   ("midi-timpani", ["timpani"]),
   ("midi-string-ensemble-1", []),
   ("midi-string-ensemble-2", []),
   ("midi-synth-strings-1", []),
   ("midi-synth-strings-2", []),
   ("midi-choir-aahs", []),
   ("midi-voice-oohs", []),
   ("midi-synth-voice", []),
   ("midi-orchestra-hit", []),
   ("midi-trumpet", ["trumpet"]),
   ("midi-trombone", ["trombone"]),
   ("midi-tuba", ["tuba"]),
   ("midi-muted-trumpet", []),
   ("midi-french-horn", ["french-horn"]),
   ("midi-brass-section", []),
   ("midi-synth-brass-1", []),
   ("midi-synth-brass-2", []),
   ("midi-soprano-saxophone", ["midi-soprano-sax", "soprano-saxophone", "soprano-sax"]),
   ("midi-alto-saxophone", ["midi-alto-sax", "alto-saxophone", "alto-sax"]),
   ("midi-tenor-saxophone", ["midi-tenor-sax", "tenor-saxophone", "tenor-sax"]),
   ("midi-baritone-saxophone", ["midi-baritone-sax", "midi-bari-sax", "baritone-saxophone", "baritone-sax", "bari-sax"]),
   ("midi-oboe", ["oboe"]),
   ("midi-english-horn", ["english-horn"]),
   ("midi-bassoon", ["bassoon"]),
   ("midi-clarinet", ["clarinet"]),
   ("midi-piccolo", ["piccolo"]),
   ("midi-flute", ["flute"]),
   ("midi-recorder", ["recorder"]),
   ("midi-pan-flute", ["pan-flute"]),
   ("midi-bottle", ["bottle"]),
   ("midi-shakuhachi", ["shakuhachi"]),
   ("midi-whistle", ["whistle"]),
   ("midi-ocarina", ["ocarina"]),
   ("midi-square-lead", ["square", "square-wave", "square-lead", "midi-square", "midi-square-wave"]),
   ("midi-saw-wave", ["sawtooth", "saw-wave", "saw-lead", "midi-sawtooth", "midi-saw-lead"]),
   ("midi-calliope-lead", ["calliope-lead", "calliope", "midi-calliope"]),
   ("midi-chiffer-lead", ["chiffer-lead", "chiffer", "chiff", "midi-chiffer", "midi-chiff"]),
   ("midi-charang", ["charang"]),
   ("midi-solo-vox", []),
   ("midi-fifths", ["midi-sawtooth-fifths"]),
   ("midi-bass-and-lead", ["midi-bass+lead"]),
   ("midi-synth-pad-new-age", ["midi-pad-new-age", "midi-new-age-pad"]),
   ("midi-synth-pad-warm", ["midi-pad-warm", "midi-warm-pad"]),
   ("midi-synth-pad-polysynth", ["midi-pad-polysynth", "midi-polysynth-pad"]),
   ("midi-synth-pad-choir", ["midi-pad-choir", "midi-choir-pad"]),
   ("midi-synth-pad-bowed", ["midi-pad-bowed", "midi-bowed-pad", "midi-pad-bowed-glass", "midi-bowed-glass-pad"]),
   ("midi-synth-pad-metallic", ["midi-pad-metallic", "midi-metallic-pad", "midi-pad-metal", "midi-metal-pad"]),
   ("midi-synth-pad-halo", ["midi-pad-halo", "midi-halo-pad"]),
   ("midi-synth-pad-sweep", ["midi-pad-sweep", "midi-sweep-pad"]),
   ("midi-fx-rain", ["midi-fx-ice-rain", "midi-rain", "midi-ice-rain"]),
   ("midi-fx-soundtrack", ["midi-soundtrack"]),
   ("midi-fx-crystal", ["midi-crystal"]),
   ("midi-fx-atmosphere", ["midi-atmosphere"]),
   ("midi-fx-brightness", ["midi-brightness"]),
   ("midi-fx-goblins", ["midi-fx-goblin", "midi-goblins", "midi-goblin"]),
   ("midi-fx-echoes", ["midi-fx-echo-drops", "midi-echoes", "midi-echo-drops"]),
   ("midi-fx-sci-fi", ["midi-sci-fi"]),
   ("midi-sitar", ["sitar"]),
   ("midi-banjo", ["banjo"]),
   ("midi-shamisen", ["shamisen"]),
   ("midi-koto", ["koto"]),
   ("midi-kalimba", ["kalimba"]),
   ("midi-bagpipes", ["bagpipes"]),
   ("midi-fiddle", []),
   ("midi-shehnai", ["shehnai", "shahnai", "shenai", "shanai", "midi-shahnai", "midi-shenai", "midi-shanai"]),
   ("midi-tinkle-bell", ["midi-tinker-bell"]),
   ("midi-agogo", []),
   ("midi-steel-drums", ["midi-steel-drum", "steel-drums", "steel-drum"]),
   ("midi-woodblock", []),
   ("midi-taiko-drum", []),
   ("midi-melodic-tom", []),
   ("midi-synth-drum", []),
   ("midi-reverse-cymbal", []),
   ("midi-guitar-fret-noise", []),
   ("midi-breath-noise", []),
   ("midi-seashore", []),
   ("midi-bird-tweet", []),
   ("midi-telephone-ring", []),
   ("midi-helicopter", []),
   ("midi-applause", []),
   ("midi-gunshot", ["midi-gun-shot"])]

/-- `midiPercussionInstruments`, client/model/instruments.go:214-216. -/
def percussionNames : List (String × List String) :=
  [("midi-percussion", ["percussion"])]

/-- The assignments `stockInstruments[...] = instrument` for one table entry,
client/model/instruments.go:238-244 and 248-254: first the name, then the aliases. -/
def entryAssignments (i : Instrument) (e : String × List String) : List (String × Instrument) :=
  (e.1, i) :: e.2.map (fun a => (a, i))

/-- The loop over `midiNonPercussionInstruments`, client/model/instruments.go:237-245; `i` is the loop index. -/
def nonPercussionAssignments : Nat → List (String × List String) → List (String × Instrument)
  | _, [] => []
  | i, e :: es =>
    entryAssignments { name := e.1, patch := i, percussion := false } e ++ nonPercussionAssignments (i + 1) es

/-- The loop over `midiPercussionInstruments`, client/model/instruments.go:247-255 (`PatchNumber` is left 0). -/
def percussionAssignments : List (String × List String) → List (String × Instrument)
  | [] => []
  | e :: es => entryAssignments { name := e.1, patch := 0, percussion := true } e ++ percussionAssignments es

/-- All assignments made by `init`, client/model/instruments.go:236-256, in order. -/
def stockAssignments : List (String × Instrument) :=
  nonPercussionAssignments 0 nonPercussionNames ++ percussionAssignments percussionNames

/-- `stockInstrument`, client/model/instruments.go:263-271: lookup in the map, where a later assignment to the
same key replaces an earlier one. `none` = "unrecognized instrument". -/
def stockInstrument (identifier : String) : Option Instrument :=
  stockAssignments.reverse.lookup identifier

/-- `stockInstrumentName`, client/model/instruments.go:278-285. -/
def stockInstrumentName (identifier : String) : Option String :=
  (stockInstrument identifier).map (·.name)

/-- `InstrumentsList`, client/model/instruments.go:220-232. -/
def instrumentsList : List String :=
  nonPercussionNames.map (·.1) ++ percussionNames.map (·.1)

end Alda
