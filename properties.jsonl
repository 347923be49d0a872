{"id": "C01", "title": "Every emitted note is a valid MIDI note", "statement": "Whatever Alda program is evaluated, and whether evaluation succeeds or stops with an error, every note in the resulting score has a MIDI note number between 0 and 127 inclusive.", "quantifier": "for every finite sequence of score updates applied to a new score, every note event in the score afterwards", "why_tests_cant": "Octave, transposition, key signature and accidentals are unbounded and combine; a test only samples a few combinations.", "anchors": ["client/model/note.go:addNoteOrRest", "client/model/pitch.go:CalculateMidiNote"]}
{"id": "C02", "title": "Instruments sharing a MIDI channel never sound over each other", "statement": "If two notes belong to two different non-percussion instruments and were given the same MIDI channel, then the time spans during which they are audible do not overlap.", "quantifier": "for every finite sequence of score updates applied to a new score, every pair of note events", "why_tests_cant": "Depends on the whole history of channel assignments, voices, markers jumping back in time and explicit channel choices.", "anchors": ["client/model/midi.go:determineMidiChannel", "client/model/midi.go:complexCheck", "client/model/midi.go:overlaps"]}
{"id": "C03", "title": "Channel 10 (index 9) is for percussion only", "statement": "Every note of a percussion instrument is on MIDI channel index 9, no note of any other instrument is, and every channel index is between 0 and 15.", "quantifier": "for every finite sequence of score updates applied to a new score, every note event", "why_tests_cant": "Channel choice depends on the whole history and on user supplied channel attributes.", "anchors": ["client/model/midi.go:determineMidiChannel", "client/model/attributes.go:MidiChannelSet"]}
{"id": "C04", "title": "An explicit MIDI channel is honoured or reported", "statement": "After a part has set its MIDI channel explicitly, each later note of that part is placed on exactly that channel, or evaluation stops with an error; the part is never silently moved to a different channel.", "quantifier": "for every score state and every note played by a part with an explicit channel", "why_tests_cant": "The failure would only show in scores where the channel is contended at one particular time.", "anchors": ["client/model/midi.go:determineMidiChannel", "client/model/attributes.go:MidiChannelSet.updatePart"]}
{"id": "C05", "title": "Pitch arithmetic", "statement": "The pitch of a letter note is 12*(octave+1) plus the letter's semitone, plus one per sharp and minus one per flat, plus the transposition; the accidentals counted are the ones written on the note if any are written, otherwise those of the key signature; in particular moving one octave changes the pitch by exactly 12 and transposing by n changes it by exactly n.", "quantifier": "for every letter, list of accidentals, octave, key signature and transposition (within 32 bit range)", "why_tests_cant": "Unbounded integers and accidental lists.", "anchors": ["client/model/pitch.go:CalculateMidiNote"]}
{"id": "C06", "title": "A scale name gives the scale", "statement": "For every tonic letter with any number of flats and sharps and for every one of the seven modes, the key signature computed for that scale makes the seven letters starting at the tonic produce exactly the interval pattern of the mode, starting from the tonic's own pitch.", "quantifier": "for every tonic letter, every list of flats and sharps on it, every mode", "why_tests_cant": "Any number of accidentals on the tonic; tests cover a handful of common keys.", "anchors": ["client/model/key.go:KeySignatureFromScale", "client/model/key.go:shiftKey"]}
{"id": "C07", "title": "Circle of fifths", "statement": "The key signature for n fifths has, for n between 0 and 7, sharps on exactly the first n letters of F C G D A E B, and for n between 0 and -7, flats on exactly the first |n| letters of B E A D G C F; for any n the total signed number of accidentals is n.", "quantifier": "for every integer n", "why_tests_cant": "Unbounded integer.", "anchors": ["client/model/key.go:KeySignatureFromCircleOfFifths"]}
{"id": "C08", "title": "Duration arithmetic", "statement": "A note length with denominator d and k dots lasts 4/d * (1 + 1/2 + ... + 1/2^k) beats; a beat lasts 60000/tempo ms; a tied duration lasts the sum of its parts and does not depend on their grouping; barlines inside a duration contribute nothing.", "quantifier": "for every duration value and tempo", "why_tests_cant": "Unbounded numbers of dots and ties.", "anchors": ["client/model/duration.go:NoteLength.Beats", "client/model/duration.go:Duration.Ms", "client/model/barline.go"]}
{"id": "C09", "title": "Notes follow each other without gaps", "statement": "When a part plays a sequence of notes and rests outside of a chord, each one starts exactly where the previous one's full duration ended, and afterwards the part's position has advanced by the sum of the durations.", "quantifier": "for every score state, every sequence of notes and rests", "why_tests_cant": "Sequences of any length with any durations.", "anchors": ["client/model/note.go:addNoteOrRest"]}
{"id": "C10", "title": "Durations are sticky", "statement": "A note or rest without a written duration lasts as long as the most recent written duration of the same part.", "quantifier": "for every sequence of notes and rests of a part", "why_tests_cant": "History dependent.", "anchors": ["client/model/note.go:effectiveDuration", "client/model/note.go:updateDefaultDuration"]}
{"id": "C11", "title": "Chords start together and last as long as their shortest member", "statement": "All notes of a chord start at the same offset, the position at which the chord was reached, and after the chord the part's position has advanced by the shortest duration among the chord's notes and rests.", "quantifier": "for every score state and every chord made of notes and rests", "why_tests_cant": "Any number of notes with any durations.", "anchors": ["client/model/chord.go:Chord.UpdateScore"]}
{"id": "C12", "title": "A cram exactly fills its outer duration", "statement": "A cram expression advances the part by exactly its outer duration, whatever is inside, and the relative lengths inside are preserved; afterwards the time scale is the one from before.", "quantifier": "for every score state and every cram expression", "why_tests_cant": "Nested crams, sticky durations and attribute changes inside interact.", "anchors": ["client/model/cram.go:Cram.UpdateScore", "client/model/cram.go:timeScale", "client/model/cram.go:innerDurationMs"]}
{"id": "C13", "title": "Repeating n times is the same as writing it n times", "statement": "Evaluating an event with a repeat count n gives the same score as evaluating the event n times in a row, apart from which endings are chosen inside; a count of 0 plays nothing.", "quantifier": "for every event without numbered endings, every n, every score state", "why_tests_cant": "Unbounded n, arbitrary nested event.", "anchors": ["client/model/repeat.go:Repeat.UpdateScore"]}
{"id": "C14", "title": "Numbered endings play on exactly the listed repetitions", "statement": "Inside a repeated sequence, an event annotated with repetition ranges is played, once per instrument, on exactly those repetitions that fall in one of the ranges.", "quantifier": "for every list of ranges, every repeat count, every number of current instruments", "why_tests_cant": "Number of instruments, ranges and repetitions are unbounded.", "anchors": ["client/model/repetitions.go:OnRepetitions.UpdateScore", "client/model/repetitions.go:OnRepetitions.AppliesTo"]}
{"id": "C15", "title": "Voices start together and the part resumes at the last one to finish", "statement": "Every voice of a voice group starts at the position and with the attributes the part had when the group began; after the group the part continues from the voice whose position is furthest; on equal positions the last voice of the group wins if it is one of them, otherwise the earliest declared of them, and no other voice's attributes leak.", "quantifier": "for every score state and voice group", "why_tests_cant": "Any number of voices, arbitrary content, resuming earlier voices.", "anchors": ["client/model/voice.go:VoiceMarker.UpdateScore", "client/model/voice.go:VoiceGroupEndMarker.UpdateScore", "client/model/voice.go:NewVoice"]}
{"id": "C16", "title": "Markers return to where they were placed", "statement": "Going to a marker moves every current part to exactly the position the part(s) had when the marker was last placed; going to a marker that was never placed is an error.", "quantifier": "for every score state and history between placing the marker and using it", "why_tests_cant": "Arbitrary events in between.", "anchors": ["client/model/marker.go:Marker.UpdateScore", "client/model/marker.go:AtMarker.UpdateScore"]}
{"id": "C17", "title": "Variables are bound when defined", "statement": "A variable's value is fixed when it is defined: redefining another variable mentioned in it later never changes what it plays; using a variable always terminates; an undefined variable is an error both when used and when mentioned in a definition.", "quantifier": "for every program, every pair of variables", "why_tests_cant": "Chains of definitions of any length.", "anchors": ["client/model/variable.go:VariableDefinition.UpdateScore", "client/model/variable.go:VariableReference.UpdateScore", "client/model/variable.go:VariableReference.VariableValue"]}
{"id": "C18", "title": "Each global attribute change reaches a part exactly once", "statement": "As a part moves forward through the score, each recorded global attribute change is applied to it exactly once, in order of offset and, at equal offsets, in the order in which they were written, at the first note or rest at or after its offset, unless overridden locally.", "quantifier": "for every recorded set of global changes and every forward moving sequence of positions of a part", "why_tests_cant": "Any number of changes at any offsets.", "anchors": ["client/model/attributes.go:ApplyGlobalAttributes", "client/model/attributes.go:InWindow", "client/model/attributes.go:Record"]}
{"id": "C19", "title": "A local attribute change wins over a global one at the same time", "statement": "If a part sets an attribute itself just before a note where a global change of the same attribute is due, the part's own value is in force for that note.", "quantifier": "for every score state, attribute and pair of values", "why_tests_cant": "Order and interplay with several changes.", "anchors": ["client/model/attributes.go:AttributeUpdate.UpdateScore", "client/model/attributes.go:ApplyGlobalAttributes"]}
{"id": "C20", "title": "Part declarations refer to the instruments they name", "statement": "Declaring an already used unnamed instrument again continues the same instance; declaring it with an alias always makes a new instance; an alias refers to the same instances until the end; a single alias cannot be redefined; a declaration never lists an instrument instance twice; naming and not naming the same instrument is an error.", "quantifier": "for every sequence of part declarations and other events", "why_tests_cant": "Arbitrary histories of declarations and groups.", "anchors": ["client/model/part.go:determineParts", "client/model/part.go:PartDeclaration.UpdateScore"]}
{"id": "C21", "title": "Exactly one tempo master", "statement": "Once a part exists, exactly one of the score's instruments is the tempo master, it is the first one declared, and it stays the same for ever.", "quantifier": "for every finite sequence of score updates applied to a new score", "why_tests_cant": "Voice groups replace instruments by copies; arbitrary histories.", "anchors": ["client/model/part.go:PartDeclaration.UpdateScore", "client/model/score.go:TempoItinerary", "client/model/voice.go"]}
{"id": "C22", "title": "What has been written stays", "statement": "Applying more updates to a score never removes, reorders or changes the notes already in it.", "quantifier": "for every score state and every sequence of updates", "why_tests_cant": "All histories.", "anchors": ["client/model/score.go:Update", "client/model/note.go:addNoteOrRest"]}
{"id": "C23", "title": "Evaluation stops at the first error", "statement": "Updating a score with a list of updates applies them in order and stops at the first one that fails, reporting that error; updating with two lists one after the other is the same as updating with their concatenation.", "quantifier": "for every list of updates and every score state", "why_tests_cant": "All lists.", "anchors": ["client/model/score.go:Update"]}
{"id": "C24", "title": "Instruments of a group play independently", "statement": "When several instruments are active, each of them ends up with the notes and attributes it would have had if it had been the only active instrument (MIDI channels aside).", "quantifier": "for every group, every event without numbered endings and without voice groups inside chords or crams (markers and global changes allowed), every score state, when both runs succeed", "why_tests_cant": "Any number of instruments with any differing states.", "anchors": ["client/model/note.go:addNoteOrRest", "client/model/chord.go", "client/model/cram.go", "client/model/attributes.go"]}
{"id": "C25", "title": "Inactive instruments are untouched", "statement": "Events change only the currently active instruments: no attribute or position of another instrument changes and no note is added for it.", "quantifier": "for every score state and every event other than a part declaration", "why_tests_cant": "All histories with any number of instruments.", "anchors": ["client/model/note.go", "client/model/attributes.go", "client/model/voice.go"]}
{"id": "C26", "title": "Attribute values stay in range", "statement": "Volumes, track volumes and pannings are always between 0 and 1, tempo is always positive and quantization never negative, for any program, including every note in the score.", "quantifier": "for every program (list of parsed events including inline lisp) applied to a new score", "why_tests_cant": "All numeric inputs.", "anchors": ["client/model/lisp.go:percentage", "client/model/lisp.go:positiveNumber", "client/model/lisp.go:nonNegativeNumber", "client/model/attributes.go:DynamicVolumes"]}
{"id": "C27", "title": "Lisp calls dispatch on exactly the declared signatures", "statement": "Calling a built-in with arguments succeeds in selecting an implementation exactly if the argument types match one of its signatures (with a trailing variadic type matching any number), and the first matching one is used.", "quantifier": "for every argument list and every list of signatures", "why_tests_cant": "Argument lists of any length.", "anchors": ["client/model/lisp.go:argumentsMatchSignature", "client/model/lisp.go:LispFunction.Operate"]}
{"id": "C28", "title": "Note length strings are read exactly", "statement": "A note length string is accepted exactly if it is digits, optionally a decimal part, then dots; the result has that denominator and number of dots; anything else is rejected.", "quantifier": "for every string", "why_tests_cant": "All strings.", "anchors": ["client/model/lisp.go:noteLength"]}
{"id": "C29", "title": "Scanning is total and faithful to the source", "statement": "Scanning any text ends; it returns either an error or a list of tokens, the last of which and only the last is end-of-file; the tokens appear in source order, never overlap, each carries the exact source text it stands for and the exact line and column where that text begins.", "quantifier": "for every string", "why_tests_cant": "All strings.", "anchors": ["client/parser/scanner.go:Scan", "client/parser/scanner.go:scanToken"]}
{"id": "C30", "title": "Parsing is total", "statement": "Parsing any token list ends with an AST or an error, never a crash, and a successful parse consumes every token.", "quantifier": "for every list of tokens produced by the scanner", "why_tests_cant": "All inputs.", "anchors": ["client/parser/parser.go:Parse", "client/parser/parser.go:topLevel"]}
{"id": "C31", "title": "Generated AST means the same", "statement": "Turning score updates into an AST and back into score updates gives the original updates.", "quantifier": "for every list of score updates the importer can produce", "why_tests_cant": "All update trees.", "anchors": ["client/parser/gen.go", "client/parser/ast.go:Updates"]}
{"id": "C32", "title": "Formatting preserves meaning", "statement": "Formatting an AST and parsing the formatted text gives an AST with the same meaning, for any line-wrapping width.", "quantifier": "for every AST produced by the parser, every width", "why_tests_cant": "All programs.", "anchors": ["client/parser/format.go", "client/parser/parser.go"]}
{"id": "C33", "title": "Playing a range sends exactly the notes in it", "statement": "With from and to offsets, exactly the notes whose offset is at or after from and before to are sent, each once, shifted so that from becomes 0; without them, all are sent unshifted.", "quantifier": "for every score, every from and to", "why_tests_cant": "All scores.", "anchors": ["client/transmitter/osc.go:ScoreToOSCBundle"]}
{"id": "C34", "title": "Each note sounds with its own instrument, volume and panning", "statement": "When a transmitted bundle is played in time order, at the moment each note starts its channel has the patch of the note's instrument and the track volume and panning recorded for the note.", "quantifier": "for every score and every note in it", "why_tests_cant": "State per channel over whole histories; many instruments share channels.", "anchors": ["client/transmitter/osc.go:ScoreToOSCBundle"]}
{"id": "C35", "title": "Transmitted times and values are the score's, rounded", "statement": "Each note message carries the track of its instrument, the channel, the note number, the offset and durations rounded to whole ms and the velocity as volume*127 rounded; tracks are distinct per instrument and start at 1.", "quantifier": "for every score", "why_tests_cant": "All scores.", "anchors": ["client/transmitter/osc.go", "client/model/score.go:Tracks"]}
{"id": "C36", "title": "Playback is shut down only after the music", "statement": "For a one-off playback the shutdown message is scheduled 10 s after the last note ends, never before any note ends.", "quantifier": "for every score and transmission options", "why_tests_cant": "All scores.", "anchors": ["client/transmitter/osc.go:ScoreToOSCBundle"]}
{"id": "C37", "title": "The master tempo is reproduced", "statement": "Reading the transmitted tempo messages, the tempo in force at any time at or after the start of the transmission is the master tempo of the score at that time.", "quantifier": "for every score, every from offset and every time", "why_tests_cant": "Any number of tempo changes.", "anchors": ["client/transmitter/osc.go:tempoMessages", "client/model/score.go:TempoItinerary"]}
{"id": "C38", "title": "The REPL plays every new note exactly once", "statement": "Over any sequence of successful evaluations in a REPL session, each note added to the score is sent to the player exactly once, by the request that added it.", "quantifier": "for every sequence of requests", "why_tests_cant": "All sessions.", "anchors": ["client/repl/server.go:updateScoreWithInput", "client/repl/server.go:evalAndPlay"]}
{"id": "C39", "title": "Failed REPL input leaves no trace", "statement": "An evaluation request that fails leaves the score, the text of the score and what later requests play unchanged.", "quantifier": "for every session and every failing request", "why_tests_cant": "All sessions; errors can occur in the middle of input.", "anchors": ["client/repl/server.go:updateScoreWithInput", "client/model/score.go:Update"]}
{"id": "C40", "title": "Every request gets exactly one answer", "statement": "For every request message the server sends exactly one response, whose status contains done, which echoes the request's id and session if present, and which reports an error if the operation is unknown or a required field is missing or of the wrong type.", "quantifier": "for every request message", "why_tests_cant": "All messages.", "anchors": ["client/repl/server.go:handleRequests", "client/repl/server.go:respond", "client/repl/validation.go:validateRequest"]}
{"id": "C41", "title": "Optimising imported music does not change how it sounds", "statement": "The clean-up passes applied to imported MusicXML (barline extraction, removal of redundant durations and accidentals, translation of percussion numbers, closing of repeats) leave every note's pitch, start, length and order unchanged.", "quantifier": "for every imported list of updates", "why_tests_cant": "All imported scores, nested to any depth.", "anchors": ["client/interop/musicxml/importer/optimizer.go", "client/interop/musicxml/importer/util.go:standardizeBarlines"]}
{"id": "C42", "title": "MIDI numbers become the same pitch", "statement": "Translating a MIDI note number to a letter, accidentals and octave gives a pitch with exactly that MIDI number.", "quantifier": "for every MIDI note number", "why_tests_cant": "All integers.", "anchors": ["client/interop/musicxml/importer/util.go:toLetterAndAccidentalsAndOctave"]}
{"id": "C43", "title": "Imported durations are exact", "statement": "Importing a MusicXML note with duration t at d divisions per quarter gives an Alda duration of exactly t/d beats.", "quantifier": "for every positive t and d and number of dots", "why_tests_cant": "All numbers.", "anchors": ["client/interop/musicxml/importer/handlers.go:translateDuration", "client/interop/musicxml/importer/util.go:idiomaticDuration", "client/interop/musicxml/importer/handlers.go:divisionsHandler"]}
{"id": "C44", "title": "Instrument names denote what they say", "statement": "Every instrument name and alias denotes exactly one instrument; the 128 General MIDI instruments have the patch numbers 0 to 127 in order; exactly the percussion kit is percussion.", "quantifier": "for every name in the table and every string", "why_tests_cant": "Whole table; any string.", "anchors": ["client/model/instruments.go"]}
{"id": "C45", "title": "Offset references", "statement": "A time marking m:s means m minutes and s seconds; anything else must be the name of a marker in the score and means its offset.", "quantifier": "for every string and score", "why_tests_cant": "All strings.", "anchors": ["client/model/score.go:InterpretOffsetReference"]}
{"id": "C46", "title": "The player pool is filled, not overfilled", "statement": "Filling the pool starts exactly as many players as are missing from three ready or starting ones, and none if there are already three or more; finding a player returns only one that is ready and answered a ping, and it ends.", "quantifier": "for every set of player state files and every pattern of responses", "why_tests_cant": "All combinations.", "anchors": ["client/system/process_management.go:FillPlayerPool", "client/system/process_management.go:FindAvailablePlayer"]}
{"id": "C47", "title": "Replaying plays the text of the score", "statement": "A successful replay request sends, each once, exactly the notes in the requested range of the score that the whole text of the session gives when it is evaluated at once; that score is the server's from then on, and its text is unchanged up to surrounding white space.", "quantifier": "for every state of the server, every range and every text", "why_tests_cant": "All texts and states.", "anchors": ["client/repl/server.go:replay", "client/repl/server.go:resetState"]}
{"id": "C48", "title": "What is imported can be written and read again", "statement": "The text that `alda import` writes for score updates parses, and the parsed program has the same effect as the updates, errors included, on every score; writing the parsed program again gives the same text.", "quantifier": "for every list of score updates that can be written down (names are names, numbers have finite decimals, notes and barlines follow each other as in the grammar), every width and every blank indentation", "why_tests_cant": "All scores, and the composition of generator, formatter, scanner and parser.", "anchors": ["client/cmd/import.go", "client/parser/gen.go:GenerateASTFromScoreUpdates", "client/parser/format.go:FormatASTToCode", "client/parser/parser.go:Parse"]}
{"id": "C49", "title": "Fifteen instruments have a channel each", "statement": "If a program sets no MIDI channel and has at most fifteen instruments besides percussion, then two notes of such instruments are on the same channel exactly if the same instrument plays them, and a note never fails for want of a channel.", "quantifier": "for every program without midi-channel attributes (voices, chords, variables, repeats, any number of declarations), every note played after it", "why_tests_cant": "All programs; channels are given out in the order in which the notes come, and are searched again for every voice.", "anchors": ["client/model/midi.go:determineMidiChannel", "client/model/midi.go:assignMidiChannel", "client/model/note.go:addNoteOrRest"]}
{"id": "C50", "title": "A MusicXML file is imported without loss of music", "statement": "A partwise MusicXML score is imported without an error, the resulting Alda score plays without an error, and what is heard is exactly the notes of the file: each with the instrument of its part, its sounding pitch, its start and its length.", "quantifier": "for every XML tree that is a partwise score of at most fifteen parts with MIDI instruments, every order of Go's maps", "why_tests_cant": "All files; the music goes through the handlers, the optimizer and the interpreter, and each of them keeps its own account of time, octaves and voices.", "anchors": ["client/interop/musicxml/importer/importer.go:ImportMusicXML", "client/interop/musicxml/importer/handlers.go", "client/interop/musicxml/importer/optimizer.go", "client/model/score.go:Update"]}
{"id": "C51", "title": "An import does not depend on the order of maps", "statement": "Importing the same MusicXML file twice gives the same music, in whatever order Go goes through its maps.", "quantifier": "for every file and every two orders", "why_tests_cant": "The order of Go's maps is random, a test sees one of them.", "anchors": ["client/interop/musicxml/importer/handlers.go", "client/interop/musicxml/importer/importer.go"]}
{"id": "C52", "title": "The player plays what is written, when it is written", "statement": "When a score is sent to a player that has just started, the MIDI sequence that the player builds sounds as the score: every selected note is heard once, with its pitch, velocity, the patch of its instrument, its track volume and panning, nothing else is heard, and each note starts and ends at its time, up to a few milliseconds.", "quantifier": "for every program, every selection, every interleaving of the player's threads", "why_tests_cant": "The client's tests look at messages, not at what a player makes of them; the player's threads interleave differently each time; rounding adds up differently for each list of tempo changes.", "anchors": ["client/transmitter/osc.go:ScoreToOSCBundle", "player/src/main/kotlin/io/alda/player/Player.kt:applyUpdates", "player/src/main/kotlin/io/alda/player/MidiEngine.kt:msToTicks", "player/src/main/kotlin/io/alda/player/MidiEngine.kt:setTempo"]}
{"id": "C53", "title": "The player shuts down after the last note", "statement": "A player that plays a score once shuts itself down ten seconds (up to a few milliseconds) after the last note has ended, and never before the end of a note; a player that is not asked to does not shut down.", "quantifier": "for every program, every selection, every interleaving of the player's threads", "why_tests_cant": "The end of the last note is known only after rounding and tempo changes, and the shutdown is itself an event of the sequence.", "anchors": ["client/transmitter/osc.go:ScoreToOSCBundle", "player/src/main/kotlin/io/alda/player/MidiEngine.kt:scheduleShutdown"]}
{"id": "C54", "title": "An exported MIDI file sounds as what is played", "statement": "The MIDI file that a player exports sounds exactly as what it would play, except that the time before the first event that can be heard is left out; exporting does not change what is played.", "quantifier": "for every sequence of messages that a player has received", "why_tests_cant": "All histories; events before the first note, tempo changes in particular, have to be moved without changing the time of what follows.", "anchors": ["player/src/main/kotlin/io/alda/player/MidiEngine.kt:export", "player/src/main/kotlin/io/alda/player/Player.kt:applyUpdates"]}
{"id": "C55", "title": "Playing live", "statement": "A player that is sent one bundle after the other, as from the REPL, plays everything it is sent: on each track the notes of a bundle start, in time with each other, when those of the bundles before are over, and never where the sequencer already has been; instruments that start together in the score start together.", "quantifier": "for every sequence of bundles, every interleaving of the player's threads, every position of the sequencer when a bundle comes", "why_tests_cant": "When a bundle comes and what the clock shows to each thread cannot be controlled in a test, and the state of the tracks depends on all the bundles before.", "anchors": ["player/src/main/kotlin/io/alda/player/Player.kt:adjustStartOffset", "player/src/main/kotlin/io/alda/player/Player.kt:scheduleEvents", "player/src/main/kotlin/io/alda/player/MidiEngine.kt:currentOffset", "client/repl/server.go:evalAndPlay"]}
{"id": "C56", "title": "The text of a session is its music", "statement": "At any time in a REPL session, the text that the server keeps says what was played: it is accepted, evaluating it as a whole gives the same notes at the same times by the same instruments as the inputs gave one after the other, and any further input does the same to both; so replaying, exporting or saving the session loses and changes nothing. More generally, one text with another on the lines after it means what the two mean in turn.", "quantifier": "for every sequence of inputs, loads and new scores, every content of these texts, every score they are applied to", "why_tests_cant": "Where a text is cut into inputs is up to the user; notes without lengths, ties, barlines, voices, variable definitions and lisp at the cut all have to survive, in all combinations.", "anchors": ["client/repl/server.go:updateScoreWithInput", "client/repl/server.go:replay", "client/parser/scanner.go:Scan", "client/parser/parser.go:Parse", "client/parser/ast.go:Updates", "client/model/score.go:Update"]}
{"id": "C57", "title": "A score saved from the REPL can be loaded again", "statement": "`:save f` writes the text of the session to f, changes no other file and leaves the session as it is; `:load f`, at that or any other prompt and whatever was there before, brings back the same text and the same music. No other line changes any file, except that `:export f` writes the exported data to f. A file that was loaded, extended by lines of code, and saved again contains what it did, followed by those lines; what could not be loaded or played is never lost by saving.", "quantifier": "for every session, every line that is typed, every content of the files, every behaviour of the server, the player and the network", "why_tests_cant": "What is in a file in the end depends on the whole session: on which file was named last, which lines were accepted and which failed, and where the text was cut into lines.", "anchors": ["client/repl/client.go:replCommands", "client/repl/client.go:sendRequest", "client/repl/client.go:RunClient", "client/repl/server.go:load", "client/repl/server.go:updateScoreWithInput"]}
{"id": "C58", "title": "The REPL shows the answer to what was asked", "statement": "What the REPL client shows after a line is the server's answer to that very line: nothing for code that was accepted, the problems that the server reports for code that was not, and an error if there is no answer. In particular no error is shown for code that is accepted and played. `:play` has exactly the range replayed that it names with `from` and `to`, and says so if it makes no sense of its arguments.", "quantifier": "for every session, every line, every behaviour of the server, the player and the network", "why_tests_cant": "An answer that comes too late stays on the connection and is met by some later request; whether the two ever fall into step again depends on the rest of the session.", "anchors": ["client/repl/client.go:sendRequest", "client/repl/client.go:ResponseErrors", "client/repl/client.go:printResponseErrors", "client/repl/client.go:RunClient"]}
{"id": "C59", "title": "A player exits for inactivity only when it has nothing left to play", "statement": "A player process that exits because of inactivity has nothing left to play. It does not exit within five minutes of anything being sent to it, in particular not while a REPL keeps pinging it, and it does exit if nothing has been sent to it for ten minutes and nothing that it was sent is still being played. Its state file says at any time which state it is in and when it will expire.", "quantifier": "for every history of a player process: every sequence of packets, messages, scheduled music, starts, stops, jumps and polls, at any times", "why_tests_cant": "The expiry is put off by each message according to what it schedules at that moment; whether it is late enough in the end depends on everything that happens in the minutes, or hours, in between.", "anchors": ["player/src/main/kotlin/io/alda/player/StateManager.kt", "player/src/main/kotlin/io/alda/player/Main.kt", "player/src/main/kotlin/io/alda/player/Player.kt", "player/src/main/kotlin/io/alda/player/Receiver.kt", "player/src/main/kotlin/io/alda/player/MidiEngine.kt"]}
{"id": "C60", "title": "A command does what it is asked, or says that it did not", "statement": "`alda play` with a text (a file, code on the command line, or piped in) either fails, and then nothing has been sent to any player, or one player - the one at the given port, the one with the given id, or one that was ready and answered - plays exactly the notes of that text between the given places, and shuts down some time after the last of them; no other player is affected. Without a text every player that has been paused goes on from where it was. `alda stop` stops, and `alda shutdown` ends, every player that there is. A command that could not do so says so.", "quantifier": "for every text and all options, all state files, every behaviour of the players and the network", "why_tests_cant": "Which players are affected depends on state files of processes that may have died, on which of them answer, and on when; and the music depends on the whole way from the text to the sequencer.", "anchors": ["client/cmd/play.go", "client/cmd/stop.go", "client/cmd/shutdown.go", "client/util/await.go:Await", "client/system/process_management.go:FindAvailablePlayer", "client/system/process_management.go:FindPlayerByID", "client/system/stdin.go:ReadStdin"]}
{"id": "C61", "title": "What is exported is in the file", "statement": "When `alda export` says that it has exported a score to a file then that file contains it; what it writes to stdout is the exported score. The file contains the notes of the text between the given places, without the silence before. If the command could not export the score it says so, and in any case no player is left behind with the score in it.", "quantifier": "for every text and all options, every state of the file system, every behaviour of the players and the network", "why_tests_cant": "The file is written by another process, in its own time and its own directory, while the command can only look whether it is there.", "anchors": ["client/cmd/export.go", "client/transmitter/osc.go:TransmitMidiExportMessage", "player/src/main/kotlin/io/alda/player/MidiEngine.kt:export"]}
{"id": "C62", "title": "An attribute expression changes exactly what it names", "statement": "Every attribute function of the language - `tempo`, `metric-modulation`, `volume`, `track-volume`, `panning`, `quantization`, `octave`, `key-signature`, `transposition`, `reference-pitch`, `set-duration`, `set-duration-ms`, `set-note-length`, the dynamic markings, and their abbreviations - sets, with every argument that is documented, exactly that attribute to what was asked for, in the instruments that are being written for, and changes nothing else; with an exclamation mark the same change is recorded for all instruments. Numbers that are out of range are refused, and then nothing has changed.", "quantifier": "for all arguments, every score", "why_tests_cant": "Infinitely many numbers, note lengths and key signatures; that nothing else changes is about the whole state.", "anchors": ["client/model/lisp.go:init", "client/model/lisp.go:defattribute", "client/model/lisp.go:keySignatureFromList", "client/model/lisp.go:positiveNumber", "client/model/attributes.go"]}
{"id": "C63", "title": "An update installs the new version or keeps the old one", "statement": "If `alda update` reports success, the executables of the new release are in place, complete and executable. If anything goes wrong on the way, the executables that were there before are still in place. In either case no other file in the directory is touched, neither by the update nor by the removal of old versions which every later command performs.", "quantifier": "for all directories, releases, contents, and failures of each step (no download, path not found, renaming, opening, creating, copying after any number of bytes, permissions), all times and random numbers", "why_tests_cant": "The failures happen at points that a test cannot arrange, and that other files are not touched is about all names.", "anchors": ["client/cmd/update.go:installAsset", "client/cmd/update.go:downloadAndInstallAssets", "client/cmd/root.go:cleanUpRenamedExecutables", "client/system/dirs.go:RenamedExecutable", "client/system/dirs.go:IsRenamedExecutable"]}
{"id": "C64", "title": "Formatting and importing write the same program and spoil no file", "statement": "`alda format` writes a program that means the same as the one it was given, to stdout or, if so asked, to the file itself; formatting it again changes nothing. `alda import` writes a program that plays the imported music, to stdout or to the given file. Neither changes any other file, and when one of them fails, all files are as they were before.", "quantifier": "for all texts, MusicXML files, flags, directories, and failures to read, open or write files", "why_tests_cant": "All programs and all files; the failures happen between the steps of a command.", "anchors": ["client/cmd/format.go", "client/cmd/import.go", "client/parser/format.go:FormatASTToCode", "client/code-generator/generate_ast.go"]}
{"id": "C65", "title": "What alda parse shows determines the program and the music", "statement": "Two texts for which `alda parse -o ast` shows the same JSON are the same program. Two texts for which `alda parse -o events` shows the same JSON are the same program. From the JSON that `alda parse -o data` shows one can tell everything that is heard: the instrument, pitch, time, length, loudness, panning and channel of every note; it is shown exactly if the program can be carried out.", "quantifier": "for all texts, all ways to give them to the command and all programs", "why_tests_cant": "A field that is left out or two constructs that look alike matter only for pairs of programs that differ in nothing else; there are infinitely many pairs.", "anchors": ["client/cmd/parse.go", "client/parser/ast.go:JSON", "client/model/score.go:JSON", "client/model/note.go:JSON", "client/model/variable.go:JSON", "client/model/part.go:JSON", "client/repl/server.go:478-513"]}
{"id": "C66", "title": "Notes written in lisp play what Alda's notation plays", "statement": "A note or rest that is written as a lisp expression, such as `(note (pitch '(c sharp)) (note-length 4))`, `(slur (note (midi-note 60)))` or `(pause (duration (note-length \"4.\") (ms 200)))`, does the same as the note or rest in Alda's own notation (`c+4`, `r4.~200ms`), in every score: the same notes with the same times, lengths and channels, the same errors, and the same state for what follows.", "quantifier": "for all pitches, all durations (nested to any depth) and all scores", "why_tests_cant": "Durations can be nested arbitrarily and their effect shows in the notes that follow without a duration; the scores in which a note can stand are unlimited.", "anchors": ["client/model/lisp.go:note", "client/model/lisp.go:pitch", "client/model/lisp.go:duration", "client/model/lisp.go:slur", "client/model/lisp.go:pause", "client/model/note.go", "client/model/duration.go"]}
{"id": "C67", "title": "A REPL server keeps its player alive and replaces it when it is gone", "statement": "While its background loop runs, a REPL server keeps the player it has: it pings it often enough that the player does not exit for inactivity. If the player is gone (no state file, or pings do not reach it) the server gives it up, and takes one of the players that are ready and answer. It never sends anything to a player that it does not know from a state file or has not found by a search, nor to one that it has shut down. It starts at most three players in ten seconds.", "quantifier": "for all contents of the state directory, all times at which the loop runs, all interleavings of the loop with the requests, and everything else that happens to the player process", "why_tests_cant": "The loop, the request handlers and the player process run concurrently for an unbounded time; the interleavings and timings cannot be enumerated.", "anchors": ["client/repl/player_management.go:managePlayers", "client/repl/player_management.go:shutdownPlayer", "client/repl/player_management.go:findAvailablePlayer", "client/system/processes.go:FindPlayerByID", "client/system/processes.go:FillPlayerPool", "player/src/main/kotlin/io/alda/player/StateManager.kt"]}
{"id": "C68", "title": "Telemetry is sent only as the user has been told and has chosen", "statement": "Once alda has said that telemetry is disabled, no command sends any until the user enables it again; a user who disables it first thing never sends any. With ALDA_DISABLE_TELEMETRY=yes nothing is sent. Nothing is sent before the notice about telemetry has been shown, unless the user asked for it. A command sends at most one request, which has the operating system, the architecture, the version and the name of the command, but none of its arguments. What `alda telemetry` says about the status is what the next command does.", "quantifier": "for all numbers of commands running at the same time, all interleavings of their file operations, and all failures of these", "why_tests_cant": "It is about what is not sent by any future sequence of commands, about concurrent processes sharing a file, and about failures that cannot be provoked at each point.", "anchors": ["client/cmd/telemetry.go:readTelemetryStatus", "client/cmd/telemetry.go:writeTelemetryStatus", "client/cmd/telemetry.go:informUserOfTelemetryIfNeeded", "client/cmd/telemetry.go:showTelemetryStatus", "client/cmd/telemetry.go:sendTelemetryRequest", "client/cmd/root.go:sendTelemetry", "client/cmd/root.go:rootCmd"]}
{"id": "C69", "title": "An instrument begins as documented and goes on where it left off", "statement": "An instrument that a part declaration adds to the score starts at the beginning of the score, with the documented initial value of every attribute (tempo 120, octave 4, mf, track volume 100/127, panning 50, quantization 90, quarter notes, no key signature, no transposition, A = 440 Hz), whatever other instruments have set. So its first note, unless something is set for it, starts at 0 ms, and without a written duration it lasts 500 ms and is heard for 450 ms. While other instruments play, nothing changes it: when it is declared again, it goes on at the position and with the attributes it had when it was left.", "quantifier": "for all programs before the declaration, all ways to name and group instruments, and all sequences of events and declarations in between, successful or not", "why_tests_cant": "It is about every program that may precede a declaration and everything that may happen between two declarations of an instrument.", "anchors": ["client/model/part.go:NewPart", "client/model/part.go:determineParts", "client/model/part.go:PartDeclaration.UpdateScore", "doc/attributes.md", "doc/notes.md"]}
{"id": "C70", "title": "The parser accepts every program of the grammar", "statement": "If the tokens of a text make up a program according to the grammar of the language, parsing the text succeeds: the parser never takes a wrong turn, such as reading on past the end of a note, chord, sequence, cram expression, voice or definition and then finding something unexpected. Together with C30 the parser accepts exactly the programs of the grammar.", "quantifier": "for all texts, of any length and with any nesting", "why_tests_cant": "The parser is greedy and looks ahead at several places (ties and barlines in durations, attribute changes between notes of a chord, names that begin a part's declaration); whether this ever rejects a valid program depends on every possible continuation.", "anchors": ["client/parser/parser.go:innerEvent", "client/parser/parser.go:noteRestOrChord", "client/parser/parser.go:duration", "client/parser/parser.go:variableDefinition", "client/parser/parser.go:eventSeq", "client/parser/parser.go:cram", "client/parser/parser.go:voiceGroup", "client/parser/parser.go:topLevel", "client/parser/parser.go:parseAST"]}
{"id": "C71", "title": "An error names the line and column of the event at fault", "statement": "When a program parses but fails while it is evaluated, the message names a place (line and column), and it is the place of the event at fault: an event of the program that was really run, at that point of the evaluation, and fails with this error, while none of the events in it does. Keeping track of the places changes neither whether a program fails nor with which error nor what the score is.", "quantifier": "for all programs, with any nesting of sequences, repeats, repetitions, chords, cram expressions and variables", "why_tests_cant": "The place is put together from the contexts that each level of the nesting adds on the way out, and the innermost one that is known is taken; tests look at errors in a few shapes of programs, but whether a level adds the wrong context, or none, shows only in some nestings and some rounds of a repeat.", "anchors": ["client/model/source_context.go:AldaSourceError", "client/model/source_context.go:Error", "client/model/score.go:Update", "client/model/event_sequence.go:UpdateScore", "client/model/repeat.go:UpdateScore", "client/model/chord.go:UpdateScore", "client/model/cram.go:UpdateScore", "client/model/variable.go:UpdateScore"]}
{"id": "C72", "title": "`alda ps` lists the processes that run, and no process that is long gone", "statement": "As long as it touches its state file within two minutes, no clean-up by any other process removes the state file of a player or REPL server that runs, and the file says nothing but its current state. A process that runs is therefore listed by `alda ps` with its current state, unless its file is read just while it is written. Whatever is listed was the state of a process with that id at most two minutes before the command was given, even if processes were killed; and no id is listed twice.", "quantifier": "for all numbers of processes that start, write, touch, end and are killed, and all interleavings of their steps with those of any number of clean-ups and listings", "why_tests_cant": "A file is judged to be old, and removed, and listed, and read in separate steps, between which all other processes may act; tests see a few of these schedules, and none that lasts for minutes.", "anchors": ["player/src/main/kotlin/io/alda/player/StateManager.kt:23-143", "client/system/process_management.go:28-80", "client/system/process_management.go:150-285", "client/repl/server.go:158-227", "client/cmd/ps.go:14-44"]}
{"id": "C73", "title": "Waiting for a player or server is neither given up early nor goes on for ever", "statement": "Waiting with a timeout is successful if and only if an attempt is successful that begins before the time is over or is the first one after it; an error is that of the last attempt, and it is only returned when the time is over and all attempts have failed. A player that answers from some moment on that leaves time for an attempt is found, within one attempt and a tenth of a second. Waiting ends within one attempt and a tenth of a second after the timeout, and there are at most ten attempts a second.", "quantifier": "for all results and durations of attempts, all delays of the process and all timeouts", "why_tests_cant": "It depends on the durations and results of all attempts; a test sees a few of them, and waits for real time.", "anchors": ["client/util/await.go:5-27", "client/system/process_management.go:351-366", "client/repl/client.go:564-577"]}
{"id": "C74", "title": "`alda repl` does what its options say", "statement": "With --message, `alda repl` sends exactly one message, to the host and port given, if the message is a JSON object with an operation and a port is given, and otherwise it sends nothing and fails; it starts no server and no client; it prints the answer, and is successful if and only if there is one that does not report an error. Otherwise it starts a server (on the port given, or one that is free) if --server is given or neither option is, and a client (that connects to the port of that server, or the one given) if --client is given or neither option is; the files of a server are removed in the end, and it says so if nothing can be started. While a server runs in a directory, the file .alda-nrepl-port there has the port of a server that runs.", "quantifier": "for all options, answers, errors and sequences of servers started, ended and killed in a directory", "why_tests_cant": "The options interact, and what may fail at each step multiplies the cases; the port file depends on all that has happened in a directory before.", "anchors": ["client/cmd/repl.go:17-206", "client/repl/client.go:698-735", "client/repl/server.go:144-154", "client/repl/server.go:213-259"]}
{"id": "C75", "title": "A web page gets the same music as a player", "statement": "The promise of toOSCBytes is resolved if and only if the text is a program that can be evaluated. The web page then gets exactly one message for each note, with the time, pitch and length of the note, and no order to play or to shut down; `alda play` sends for the same text the same messages, followed by these orders. If the promise is rejected, `alda play` fails for the same text with the same error.", "quantifier": "for all texts", "why_tests_cant": "The WebAssembly entry point is not covered by unit tests at all, and agreement with the command line is about all texts.", "anchors": ["client/wasm/main.go:95-127", "client/cmd/play.go:135-318", "client/transmitter/osc.go:201-431"]}
{"id": "C76", "title": "A player understands what the client tells it", "statement": "Every message that the client writes (ping, play, stop, shutdown, offset, tempo, export, and the patches, notes, volumes and pannings of the tracks) is read by the player as just this message, with the same track, channel, times, lengths, note, velocity and tempo (the tempo as a float32); a bundle is read as its messages in order. In particular the bundle of a score is read as the messages it consists of. Bundles within bundles make no difference, and messages that the player does not understand do not change what the others mean.", "quantifier": "for all messages, bundles and scores", "why_tests_cant": "Client and player are written in different languages and their tests never meet; addresses, order and kinds of arguments have to agree for all messages and all numbers.", "anchors": ["client/transmitter/osc.go:19-92", "client/transmitter/osc.go:201-431", "player/src/main/kotlin/io/alda/player/Parser.kt:59-347", "player/src/main/kotlin/io/alda/player/Receiver.kt:16-32"]}
{"id": "C77", "title": "Questions are answered as typed, and boxes are straight", "statement": "A question is answered by the first line typed that is an answer: y or yes, n or no, in any case and with any space around it, or an empty line, which stands for the answer offered; any other line is ignored and the question asked again. The program fails only if the input ends before such a line. A text shown in a box keeps its lines, each in a line of its own, all lines of the box have the same visible width, and the box is no wider than the longest line needs. Indenting a text puts the same space before each line and changes nothing else.", "quantifier": "for all inputs, texts and amounts", "why_tests_cant": "There are no unit tests of these functions, and the statements are about all inputs of any length.", "anchors": ["client/text/interaction.go:10-35", "client/text/formatting.go:15-67", "client/cmd/update.go:469", "client/cmd/doctor.go:231", "client/cmd/doctor.go:273"]}
{"id": "C78", "title": "What is sent to a track is scheduled once, and export waits for it", "statement": "However the threads of a track take turns: every bundle sent to a track is scheduled exactly once, in the order of sending; when the count of active tasks is 0, for which export and play wait, all bundles sent have been scheduled, and this is reached after finitely many steps. After a track is cleared, nothing that was sent before is scheduled.", "quantifier": "for all bundles and all interleavings of the threads", "why_tests_cant": "The player has no tests with threads, and interleavings are too many and too rare to be met by running.", "anchors": ["player/src/main/kotlin/io/alda/player/Player.kt:25-60", "player/src/main/kotlin/io/alda/player/Player.kt:258-318", "player/src/main/kotlin/io/alda/player/Player.kt:340-349", "player/src/main/kotlin/io/alda/player/Player.kt:402-428"]}
{"id": "C79", "title": "A pattern is played as often as asked, each time as it is then", "statement": "A pattern of a track is scheduled as often as asked, or, if it is a loop, until the loop is ended; each time with all the events that it has at that time and on the channel of the track, never in the past, and beginning when the last note of the time before ends. A player that is sent a pattern and told to play plays it.", "quantifier": "for all patterns, offsets and numbers of times, all readings of the clock, and all changes of the patterns while they are played", "why_tests_cant": "What is scheduled depends on the clock and on other threads at each iteration; the player has no tests that run patterns.", "anchors": ["player/src/main/kotlin/io/alda/player/Player.kt:79-195", "player/src/main/kotlin/io/alda/player/Events.kt:21-39", "player/src/main/kotlin/io/alda/player/Player.kt:343-349", "player/src/main/kotlin/io/alda/player/Player.kt:424-429"]}
{"id": "C80", "title": "`alda doctor` tells the truth and harms nothing", "statement": "`alda doctor` makes its checks in the order documented, up to the first that fails, and with `--no-audio` all but those that need audio. A check is marked OK exactly if what it is to show holds; for the export this is that the notes of the test score are in the file in order. The command succeeds exactly if all checks are OK. It deletes no state file of a player that answers, installs nothing that was not needed and agreed to, shuts down the players that it has spawned and no others, and closes the server that it has started.", "quantifier": "for all outcomes of the checks, states of players, contents of the file and answers of the user", "why_tests_cant": "The command needs players, a network and audio, and its branches are failures of these; there are no tests of it, and it is itself used as one.", "anchors": ["client/cmd/doctor.go:33-41", "client/cmd/doctor.go:73-764"]}
{"id": "C81", "title": "The help of the prompt covers exactly the commands that it carries out", "statement": "`:help` lists every command of the REPL exactly once, in alphabetical order, with the summaries in one column and a mark for those with details. `:help` with the name of a command shows its summary and its details; a name has documentation exactly if the prompt carries it out, and for any other `:help` says that there is none. Asking for help asks nothing of the server and changes no file.", "quantifier": "for all tables of commands (layout), all names, all lines that are `:help` commands, all sessions", "why_tests_cant": "The list is computed from a map when the program starts, with padding that depends on all names; there are no tests of it, and a test of the present commands would not cover one added later.", "anchors": ["client/repl/client.go:120-166", "client/repl/client.go:511-551"]}
{"id": "C82", "title": "Answers reach the questions that they were typed for", "statement": "However the input arrives - in pieces, line by line, or all at once -, a question is answered as if it were all there, and printed once for each line up to the answer. The next question gets the lines that follow the answer, so that the answers to several questions can be typed ahead or come from a pipe. Input that ends does not make the program panic.", "quantifier": "for all inputs, cut into reads in any way, and both defaults", "why_tests_cant": "The function reads the standard input of the process and loops until it gets an answer; how much one read returns depends on the system. There are no tests of it.", "anchors": ["client/text/interaction.go:10-35", "client/cmd/doctor.go:231", "client/cmd/update.go:469"]}
{"id": "C83", "title": "The printed syntax tree shows the whole tree", "statement": "`alda parse -o ast-human` and `:score ast` print every node on a line of its own, each before its children and two spaces further to the right for each level, with its type, its position and its literal. Nothing is lost: two trees that are printed alike are the same.", "quantifier": "for all trees whose types are names and whose literals are written on one line", "why_tests_cant": "That no two trees print alike is a statement about all pairs of trees of any depth; there are no tests of this output.", "anchors": ["client/parser/ast.go:183-274", "client/cmd/parse.go:150-170", "client/text/formatting.go:15-23"]}
