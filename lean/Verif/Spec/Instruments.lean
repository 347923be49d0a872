/-!
The General MIDI level 1 sound set in program order, with Alda's spelling of the names.
-/
namespace Alda.Spec

/-- The 16 families of 8 programs each. -/
def gmFamilies : List (List String) :=
  [ -- piano
    ["acoustic-grand-piano", "bright-acoustic-piano", "electric-grand-piano", "honky-tonk-piano",
     "electric-piano-1", "electric-piano-2", "harpsichord", "clavi"],
    -- chromatic percussion
    ["celesta", "glockenspiel", "music-box", "vibraphone", "marimba", "xylophone", "tubular-bells", "dulcimer"],
    -- organ
    ["drawbar-organ", "percussive-organ", "rock-organ", "church-organ", "reed-organ", "accordion", "harmonica",
     "tango-accordion"],
    -- guitar
    ["acoustic-guitar-nylon", "acoustic-guitar-steel", "electric-guitar-jazz", "electric-guitar-clean",
     "electric-guitar-palm-muted", "electric-guitar-overdrive", "electric-guitar-distorted",
     "electric-guitar-harmonics"],
    -- bass
    ["acoustic-bass", "electric-bass-finger", "electric-bass-pick", "fretless-bass", "bass-slap", "bass-pop",
     "synth-bass-1", "synth-bass-2"],
    -- strings
    ["violin", "viola", "cello", "contrabass", "tremolo-strings", "pizzicato-strings", "orchestral-harp", "timpani"],
    -- ensemble
    ["string-ensemble-1", "string-ensemble-2", "synth-strings-1", "synth-strings-2", "choir-aahs", "voice-oohs",
     "synth-voice", "orchestra-hit"],
    -- brass
    ["trumpet", "trombone", "tuba", "muted-trumpet", "french-horn", "brass-section", "synth-brass-1",
     "synth-brass-2"],
    -- reed
    ["soprano-saxophone", "alto-saxophone", "tenor-saxophone", "baritone-saxophone", "oboe", "english-horn",
     "bassoon", "clarinet"],
    -- pipe
    ["piccolo", "flute", "recorder", "pan-flute", "bottle", "shakuhachi", "whistle", "ocarina"],
    -- synth lead
    ["square-lead", "saw-wave", "calliope-lead", "chiffer-lead", "charang", "solo-vox", "fifths", "bass-and-lead"],
    -- synth pad
    ["synth-pad-new-age", "synth-pad-warm", "synth-pad-polysynth", "synth-pad-choir", "synth-pad-bowed",
     "synth-pad-metallic", "synth-pad-halo", "synth-pad-sweep"],
    -- synth effects
    ["fx-rain", "fx-soundtrack", "fx-crystal", "fx-atmosphere", "fx-brightness", "fx-goblins", "fx-echoes",
     "fx-sci-fi"],
    -- ethnic
    ["sitar", "banjo", "shamisen", "koto", "kalimba", "bagpipes", "fiddle", "shehnai"],
    -- percussive
    ["tinkle-bell", "agogo", "steel-drums", "woodblock", "taiko-drum", "melodic-tom", "synth-drum",
     "reverse-cymbal"],
    -- sound effects
    ["guitar-fret-noise", "breath-noise", "seashore", "bird-tweet", "telephone-ring", "helicopter", "applause",
     "gunshot"] ]

/-- Program number `i` of General MIDI. -/
def gmName (i : Nat) : Option String := (gmFamilies.flatten[i]?).map ("midi-" ++ ·)

end Alda.Spec
