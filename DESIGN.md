# A machine-checked model of Alda

The code under study is the Go client of alda (`/repo/client`) and the core of its player, which is written in Kotlin (`/repo/player`). Nothing of it is built or run; it is read as text
and transcribed, function by function, to Lean 4 definitions (`lean/Verif/`). Every definition cites the file
and lines it models, and states where it simplifies.

## Layout

| Directory | Content |
|---|---|
| `lean/Verif/Model/` | transcription of `client/model` (pitch, key, duration, part, voice, midi, attributes, score, events, lisp) |
| `lean/Verif/Parse/` | transcription of `client/parser` (scanner, parser, AST, generator, formatter) |
| `lean/Verif/Transmit/` | transcription of `client/transmitter/osc.go` |
| `lean/Verif/Repl/` | transcription of `client/repl/server.go` and of the commands in `client/repl/client.go` |
| `lean/Verif/Cmd/` | transcription of the commands in `client/cmd/` that talk to players, and of installing an update |
| `lean/Verif/Importer/` | transcription of `client/interop/musicxml/importer` |
| `lean/Verif/System/` | transcription of the decision logic of `client/system/process_management.go` |
| `lean/Verif/Player/` | transcription of `Player.kt`, `Parser.kt`, `Events.kt` and `MidiEngine.kt` of the player |
| `lean/Verif/Spec/` | small specifications, independent of the model's helpers |
| `lean/Verif/Lemmas/` | helper lemmas |
| `lean/Verif/Props/` | the property theorems, each with a concrete case that meets its hypotheses |

## Trusted base

* Lean 4.33.0's kernel. The theorems depend on at most `propext`, `Classical.choice`, `Quot.sound`
  (checked with `#print axioms`, see the list at the end). No axiom of our own, no `sorry`, no `native_decide`.
* That the transcription is faithful to the Go and Kotlin text. It is made line by line, and checked only by reading and by mutation
  (see `seeded/LOG.jsonl`).
* That the specifications in `lean/Verif/Spec/` say what `properties.jsonl` says. They are kept small for that reason.
* Simplifications which hold throughout:
  * `float64` is modelled by exact rationals (`Rat`). Rounding error, NaN and infinities are outside the model.
    Where Go would divide by zero and get an infinity or NaN the model stops with the explicit outcome `nonFinite`
    instead of using Lean's `x / 0 = 0`.
  * `int32` is modelled by `Int` with an explicit `wrap32` where the code can overflow.
  * Go pointers to parts are addresses in a heap, so that sharing and identity (`==` on pointers) are as in Go.
  * A Go panic is an error outcome of its own.
  * An operation that fails keeps the state changes it has made up to that point, as in Go: there is no roll-back.
  * Recursive Go functions without an obvious measure (parser, scanner loops) have a fuel argument and a separate outcome `unreachable`
    when it runs out; it is proved that this outcome does not occur.
  * Ranging over a Go map, and sorting with an unstable sort, are parameters: any order, any sorting function.
  * Logging, error message texts and source contexts are left out.

## What is modelled and what is not

| Go file | Modelled | Left out |
|---|---|---|
| `model/note.go`, `pitch.go`, `key.go`, `duration.go`, `barline.go` | everything that computes | JSON output, String methods except `KeySignature.String` |
| `model/lisp.go` | all forms, signatures, every built-in function | JSON, error texts |
| `model/attributes.go`, `part.go`, `voice.go`, `chord.go`, `cram.go`, `repeat.go`, `repetitions.go`, `event_sequence.go`, `marker.go`, `variable.go`, `score.go`, `midi.go`, `instruments.go`, `offset.go` | everything that computes | JSON, logging, source contexts |
| `parser/scanner.go`, `parser.go`, `ast.go`, `gen.go`, `format.go` | all functions | error texts, human readable AST, source contexts in the AST |
| `transmitter/osc.go` | the bundle built for a score, tempo messages, shutdown | the UDP/TCP connection |
| `repl/server.go` | every request, response, session state | bencode, sockets |
| `repl/client.go` | reading a line, every command, requests, matching of responses, timeouts, errors shown, files written | bencode, the prompt and its history (`readline`), what is shown of data other than the text of the score and the help texts; `shlex.Split` is a parameter |
| `interop/musicxml/importer/optimizer.go`, `util.go` | all passes | |
| `interop/musicxml/importer/importer.go`, `handlers.go`, `nested_index.go` | all handlers, over XML trees; Go maps have an arbitrary order (`Orders`), panics are results; for all 31 example files of the importer's tests the model gave the expected score | reading the XML text (library etree), warnings, floats that are not finite or have exponents, steps other than A-G; the voice that `collapseVoices` drops is a fresh slice in the model |
| `system/process_management.go` | filling the pool, finding a player | process creation, files |
| player: `MidiEngine.kt` | conversion between milliseconds and ticks, tempo itinerary, scheduling of all messages, export; `Track.add` and the checks of `ShortMessage` of the Java library | the sequencer and the synthesizer themselves (see `Spec/Player` for how a sequence is read), continuation events, expiry of the process, `float` |
| player: `Player.kt`, `Parser.kt`, `Events.kt` | parsing a bundle, applying the updates, start offsets of tracks; the interleaving of the threads and the clock are parameters (`Timing`) | patterns and loops (the client never sends them), clearing tracks, the OSC library |
| `cmd/play.go`, `stop.go`, `shutdown.go`, `export.go`, `util/await.go`, `system/stdin.go` | what is read, which players are chosen, what is sent, shown, written to stdout, failures | parsing of the command line, logs, the texts of errors |
| `cmd/update.go` (installing), `cmd/root.go` (cleaning up), `system/dirs.go` (names of old versions) | which files are renamed, created, copied, made executable and removed, with a failure at each step | the Alda server, the choice of the version, the download, prompts, Windows |
| `cmd/format.go`, `cmd/import.go` | flags, which files are read, emptied and written, with a failure possible at each step | reading standard input byte by byte, logging; the XML reader is a function |
| `json/`, the `JSON` methods of `model/` and `parser/`, `cmd/parse.go` | which JSON value is made, field by field | how it is printed, source contexts, the human-readable form of the AST |
| `client/repl/player_management.go` | the loop as atomic steps between which the handlers may run; times in milliseconds | whether a ping gets through is given |
| `cmd/telemetry.go`, `cmd/root.go` (telemetry) | reading and writing the status file, the notice, what is sent and when | the HTTP request itself, that it is sent in the background, the texts |
| `client/model/source_context.go` | the contexts of errors and which one is printed (C71) | file names; contexts inside of lisp expressions; that the parser gives every event the place of one of its tokens |
| `StateManager.kt`, `client/system/process_management.go:28-80` and `:150-285`, `client/repl/server.go:158-227`, `client/cmd/ps.go` | what happens to the state files (C72) | the removal of empty directories, errors of the file system, clocks that are set back, the layout of the table |
| `client/util/await.go` | all (C73) | attempts that never return |
| `client/cmd/repl.go`, `client/repl/server.go:144-154` and `:213-227` | all (C74) | texts of errors; a signal while a client runs in the process of the server |
| `client/wasm/main.go` | `toOSCBytes` (C75) | `setLogLevel`, promises, recovery from panics, the conversion to bytes |
| `client/transmitter/osc.go:19-92`, `Parser.kt:59-347`, `Receiver.kt:16-32` | addresses and arguments (C76) | bytes (go-osc, JavaOSC), what the player does with patterns and loops |
| `client/text/interaction.go`, `client/text/formatting.go` | all (C77, C82) | errors of reading other than the end of the input; the library stripansi |
| `Player.kt`, class `Track` | queue, threads, lock, era, count of tasks (C78); what is scheduled (C52-C55); patterns and loops (C79) | the threads that wait for `finish-loop` |
| `cmd/doctor.go` | the steps, their order, conditions and effects (C80) | the texts of the questions, the log level, the signal handler |
| the rest of `cmd/`, `help/`, `color/`, `json/`, `generated/` | | all |
| `StateManager.kt`, `Main.kt` | states, expiry, the state file, the loop that exits | starting the threads, logging, cleaning up the files of other processes |

## Properties, what is modelled, and how it is proved

The full statements are in `properties.jsonl`; which theorems prove which property is in `MANIFEST.json`. In the theorem files the suffix `_partial` marks
theorems that prove only part of a property, and `_witness` marks theorems that show by a concrete case that a statement is false of the code.

| Id | Model | Proof |
|---|---|---|
| C01 | whole score interpreter | invariant: the interpreter only performs a small set of primitive state changes; each preserves the invariant |
| C02 | channel assignment + interpreter | same; invariant about events × channel usage table |
| C03 | same | same |
| C04 | `determineMidiChannel` | decision logic, plus consequence for a note |
| C05 | `CalculateMidiNote` | closed formula over Int; overflow guard; overflow witness |
| C06 | `KeySignatureFromScale`, `shiftKey`; scale names in lisp | invariant of repeated sharpening / flattening by induction over accidentals |
| C07 | `KeySignatureFromCircleOfFifths` | induction on n |
| C08 | `duration.go` | induction on dots / components |
| C09, C10, C11 | note, rest, chord | refinement to a per-part sequential specification, induction on the list |
| C12 | cram | partial: bodies whose length can be predicted; negation witnesses for nested crams with a written duration, tempo changes and voices |
| C13 | repeat | induction on n, simulation up to the internal repetition number |
| C14 | endings | partial: one active part, no inner repeat; negation witnesses for two parts and for inner repeats |
| C15 | voices | heap invariant |
| C16 | markers | direct + history lemma |
| C17 | variables | invariant: stored values contain no references |
| C18, C19 | global attributes | induction over the itinerary; telescoping windows. C19 partial: false if another attribute is set in between (witness) |
| C20, C21 | part declarations | invariants over the alias table and the part list. C20 partial: groups can redefine aliases and are not checked for ambiguity (witnesses) |
| C22, C23 | `Score.Update` | induction |
| C24, C25 | interpreter | non-interference by induction over events |
| C26 | lisp + interpreter | invariant |
| C27, C28 | lisp | induction over argument lists / characters. C28 partial: one trailing character is accepted (witness) |
| C29 | scanner | an independent description of the tokens of a text (`Spec/Scan`); each scanner function is shown to produce what it describes, by induction over the text |
| C30 | parser | an independent grammar (`Spec/Grammar`); each parser function is shown to read what the grammar says and to leave a proper suffix of the tokens; partial: `{}` makes the parser panic (witness) |
| C31 | generator | structural induction over updates; partial: dynamic markings and key signatures come back as lisp expressions of the same effect, a transposition makes `Updates` panic (witnesses) |
| C32 | formatter, scanner, parser | round trip through the text: well-formed trees of their own type; the formatter's output is a layout of their pieces (induction over the tree); the scanner reads a layout as the pieces' tokens; the parser reads the tokens as the tree; what the parser yields is a well-formed tree if it is clean (induction over the parser's fuel). Partial: false for slurred notes whose duration ends in a barline |
| C48 | generator, formatter, scanner, parser | a printable list of updates is mapped to a well-formed tree; its AST is the generated one up to the type of number literals, of which the formatter makes the same text; then the round trip of C32 and C31 |
| C49 | channels | invariant of all elementary steps: channels but the tenth are unused or have one instrument each, and are used from the first one on; then a pigeonhole argument |
| C50, C51 | MusicXML importer, optimizer and interpreter | an independent reading of a file as players with notes (`Spec/MusicXml`); invariant of the importer over the elements of a measure (where each voice is, what has been written); the updates are then read by the interpreter part by part and voice by voice; the optimizer by C41. For the text: a score is compared with the same score in which barlines after a note length have moved into the length; both have the same text (`Lemmas/Settle`) and play the same (`Lemmas/SettlePlay`), and the second one meets the hypothesis of C48 (`Lemmas/XmlNeat`). Partial: a class of files; false outside in many ways (witnesses) |
| C33-C37 | transmitter | list reasoning; simulation of the channel state. C34 partial: false for different sync offsets (witness) |
| C52, C53 | client (score, transmitter) and player (`Player/`); the interleaving of the player's threads is a parameter | refinement: the track of the sequencer is, for each channel and tick, in the order of the messages; what is heard is compared key by key and channel by channel; the clock by induction over the tempo entries with an error of half a tick for each. Partial: false for notes that follow each other on the same key without a gap, for tempos below 4, for instruments that share a channel (witnesses) |
| C54 | player | invariant over everything that a player can be sent: the events are in order; moving them commutes with hearing and with the clock |
| C55 | player; `Repl/Server` for the witnesses | invariant over the bundles: the itinerary is that of the first bundle, each track is busy until the last of its notes ends, the track is what was sent in the order of the threads; the time that the engine reports for a tick belongs to that tick (induction over the tempo entries). Partial: instruments do not stay together, and jumps back to a marker are scheduled in the past (witnesses) |
| C56 | scanner, parser, updates, evaluation, REPL server | refinement in four steps: the scanner reads a text with a line after it as the tokens of both (lexeme by lexeme; parentheses are balanced by the grammar); the parser derives the updates of both, up to barlines that become part of the last duration (relation `Line`, complete for the parser, induction over its derivations); durations that differ in barlines evaluate alike (simulation `Twin`); induction over the session. Partial: `V0:` for voices of an earlier input, a bare `o` at the end, and variable definitions with open voices (witnesses) |
| C57, C58 | REPL client (`Repl/Client.lean`) connected to the REPL server; files; an input per line for what the world outside does (unsent requests, late answers, read-ahead of the decoder, failed writes) | refinement to the server's requests (C38-C40, C47, C56), invariants over the lines typed: nothing is left on the connection unless an answer was late, and something always is afterwards. Partial: failed loads and replays followed by `:save`, and late answers (witnesses) |
| C59 | a player process and its state manager (`Player/Expiry.lean`): clock, expiry, state, state file, offsets at which something is scheduled | invariant: everything scheduled ends before the expiry, up to half a millisecond and the time for which it has been put off (`Spec/Expiry.lean`). Partial: music put off for longer than the timeout (witness) |
| C60, C61 | the commands (`Cmd/Commands.lean`) in a world of state files, players that may not answer, packets that may not arrive, and a disk that changes while the command looks at it; players as in C52-C54 | case analysis of the commands; composition with the pool (C46), the parser (`Lemmas/Written.lean`: every text gives updates as C26 and C52 assume), transmission (C33-C37) and the player (C52-C54). Partial: see the witnesses |
| C62 | lookup and evaluation of lisp expressions (`Model/Lisp.lean`), `AttributeUpdate` and `GlobalAttributeUpdate`; the documented meaning of every attribute function is the relation `Asks` (`Spec/Attributes.lean`) | case analysis over the documented forms; induction over ties, accidentals, letters and the instruments being written for. Partial: see the witnesses |
| C63 | `installAsset` with a failure possible at each step, on a directory of named files; the regular expression for old versions as a matcher (`Cmd/Update.lean`); names of old versions are specified as a set of texts (`Spec/Update.lean`) | induction over the assets; the matcher accepts exactly the texts that contain an old version's name (`c63_renamed`). Partial: see the witnesses |
| C64 | the commands `format` and `import` on a directory of named files, with failures (`Cmd/Files.lean`) | composition of C32, C48 and C50 with the steps of the commands. Partial: see the witnesses |
| C65 | the JSON of ASTs, events and scores (`Model/Json.lean`, `Parse/AstJson.lean`) and the command `parse` (`Cmd/Parse.lean`) | injectivity by induction over the values that the parser can make; the music is read back with a small reader (`Spec/Json.lean`), with the invariant that without voices every event belongs to a part of the score (`Lemmas/Own.lean`). Partial: see the witnesses |
| C66 | the lisp functions `note`, `slur`, `pause`, `pitch`, `midi-note`, `note-length`, `ms`, `duration` (`Model/Lisp.lean`) and `Note`/`Rest` updates | the grammar of lisp notes is given apart from the evaluator (`Spec/LispNotes.lean`); evaluation by induction over the grammar; a step-by-step simulation between scores whose default durations last equally long. Partial: see the witness |
| C67 | `managePlayers`, `shutdownPlayer`, `unsetPlayer`, `withTransmitter` (`Repl/Players.lean`: a state and the steps of the loop and of the handlers, interleaved in any way), with the player process of C59 and the pool of C46 | invariants over all step sequences; for the player process, the pings that the loop sends are a sublist of those that the process receives, and by induction over its actions the expiry stays ahead of the clock. Partial: see the witnesses |
| C68 | `cmd/telemetry.go` and `PersistentPreRunE`, help and usage functions of `cmd/root.go` (`Cmd/Telemetry.lean`): processes as trees of file operations and visible events, interleaved in any way, with a failure possible at each operation | predicates over the remaining program (what it may still write and send) that are invariants of all interleavings; a weakest precondition for one process alone. Partial: see the witnesses |
| C69 | `NewPart`, `determineParts`, `PartDeclaration.UpdateScore` (`Update.lean`) | every cell added by `determineParts` has the initial values and no other cell changes (induction over the names); the first note by C09; induction over the events and declarations while the instrument is away, by C25 |
| C70 | the whole of `client/parser/parser.go` (`Parse/Parser.lean`) against `Spec/Grammar.lean`; `Spec/Accept.lean` says which programs are tidy | tokens of events are described by a grammar in which a voice marker or the beginning of a definition is a prefix (`Accept.Flat`); what the parser leaves after an event is again such tokens, even if it has read barlines or voices that the derivation counts to the next event; induction over the fuel. Partial: see the witnesses |
| C71 | `source_context.go`, and where the `UpdateScore` of an event calls that of another one (`Model/Located.lean`); `Spec/Located.lean` says which events are run from which score, and which one is at fault | the evaluator with places refines the one without (`lupdate_refines`, mutual induction); every error is explained by an event at fault and one near it whose place is the innermost known context (`trace`, mutual induction, first without variables, then with them, since what is in a variable contains no references). Partial: see the witnesses |
| C72 | the state files: creating, touching, writing, removing, the clean-up and the listing, each step on its own (`System/StateFiles.lean`, a transition system with any number of processes) | invariants by induction over the steps: files match their processes (`Sound`), processes that run have files that nobody is about to remove (`Safe`), every file was written by a process (`history`), what a clean-up has left is recent (`Cleans.recent`). Partial: see the witnesses |
| C73 | `Await` (`System/Await.lean`), with arbitrary durations, delays and results of the attempts | functional induction: the attempts are those of an independent timeline (`beginning`, `ending`), and the last one is the first that succeeds or ends after the time is over; the rest follows by arithmetic |
| C74 | `cmd/repl.go` (`Cmd/ReplCommand.lean`) with arbitrary answers of the world outside, and the port file as a transition system | decision logic against a small specification (`Sendable`, `Fine`, `wantsServer`, `wantsClient`, `IsPort`); invariant over the events in a directory. Partial: see the witnesses |
| C75 | `toOSCBytes` of `wasm/main.go` (`Cmd/Browser.lean`) on top of the models of parser, interpreter and transmitter | the bundle for any text is one of music alone, followed by what the options ask for (`bundle_default`); the notes by C33, the comparison with `alda play` by the case analysis of C60 |
| C76 | the addresses and arguments of all messages as the client writes them (`write`) and the player reads them (`read`, `readPacket`; `Player/Wire.lean`), including the messages that only other programs send | round trip: decimal track numbers are read back, no address of the client matches an earlier pattern of the player, arguments come by position; the bundle of a score by the ranges of C01, C03, C26 and C44 |
| C77 | `text/interaction.go` on the characters of the input, `text/formatting.go` on those of the text (`Cmd/Terminal.lean`) | induction over the input, against lines and words with space around them; the lines of the result are computed by splitting it again |
| C78 | class `Track` of `Player.kt` as a transition system of queue, threads and lock (`Player/TrackThreads.lean`) | invariants over all interleavings: bundles are only moved, the count is that of the unfinished ones; a measure for the end. Partial: `eraBefore == eraAfter` compares an `AtomicInteger` with itself, so clearing does not stop a thread that waits |
| C79 | `schedulePattern`, `adjustStartOffset`, `isDone`, `endOffset`; what is read of the clock and the patterns is any sequence of moments (`Player/Patterns.lean`) | refinement to an inductive description of how patterns in patterns are played, by induction over the iterations for all sequences of moments. Partial: short patterns leave gaps, patterns without notes have no end, a pattern and `play` in one bundle block each other (witnesses) |
| C80 | `doctor.go`: all steps with their logic, what is found is given (`Cmd/Doctor.lean`) | each line of the report against a separate description of what the check means, by composition of steps; scanning the MIDI file refines to being a sublist. Partial: any ready player is taken for the one spawned (witness) |
| C81 | the texts of `replCommands`, `:help` and the list computed at the start (`Repl/Help.lean`) | induction over the table (insertion keeps order and members, the maximum bounds every name); that a name is carried out is stated through `handleCommand`, not through the table |
| C82 | `PromptForConfirmation` over the reads of the standard input (`Cmd/Confirm.lean`), with the buffer that C77 leaves out | refinement: reading is independent of how the text is cut (induction over the reads), so one question is answered as in the model of C77; line by line by induction over the lines. Partial: panics at the end of the input, and read-ahead is lost (witnesses) |
| C83 | `HumanReadableAST` (`Cmd/AstHuman.lean`) on the JSON of a tree; how `%#v` writes a literal is given | injectivity: a line determines depth, type, position and literal; the list of depths and labels determines the tree (mutual induction over trees and lists, with what follows being higher up) |
| C38-C40, C47 | REPL server (`Repl/Server.lean`): requests, responses, state, what is sent to the player. The parser and the sort function are parameters, the world outside (players, sockets) an input per request. | state machine, invariant over sessions. C39 is false for code that fails in the middle and for failed sends; C40 is false if evaluating panics (witnesses, `_partial`) |
| C41 | optimizer | refinement to a per-part reading of the updates (`Spec/Import`), induction over nested updates; partial: percussion with chords or a key signature (witnesses) |
| C42, C43 | importer | arithmetic; partial: numbers below 24 are translated wrongly, durations are rounded for many divisions (witnesses) |
| C44 | instrument table | whole-table kernel computation plus lookup lemma |
| C45 | offset references | decision logic |
| C46 | player pool (`System/Pool.lean`); the clock, processes and sockets are a parameter | decision logic, termination measure; `_partial` as to termination |

Not planned: the network, process spawning and file system races, and the MIDI
synthesiser itself; these are external to the Go text or need a semantics of the operating system.

## Behaviour found that contradicts a property or is surprising

Proved as witnesses (theorem in brackets):

* C05: octave numbers near 2^31/12 wrap around to valid MIDI notes. [`c05_overflow_witness`]
* C11: a chord without any member moves the part to the end of time. [`c11_empty_chord_witness`]
* C12: `{{c d}2 e}1` does not last a whole note: the inner cram's duration leaks into the prediction. [`c12_nested_cram_witness`]
* C12: a tempo change inside a cram is overlooked. [`c12_tempo_witness`]
* C12: after voices inside a cram all notes have length 0. [`c12_voices_witness`]
* C14: with two active parts an event with a numbered ending is played twice on each of them. [`c14_two_parts_witness`]
* C14: an inner repeat overwrites the repetition number of the outer one. [`c14_inner_repeat_witness`]
* C17: a lisp note in a chord counts for the chord's length only when it comes from a variable. [`c17_lisp_chord_witness`]
* C18: after going back to a marker global changes are applied again. [`c18_backward_witness`]
* C19: of two local changes before a note only the last one beats the global changes due there. [`c19_two_changes_witness`]
* C19: a global dynamic marking beats a local volume. [`c19_other_kind_witness`]
* C20: a group declaration can redefine an alias. [`c20_group_redefines_witness`]
* C20: an alias with a dot can be taken over by another alias. [`c20_dotted_witness`]
* C20: an instrument can be used with and without an alias if the alias is that of a group. [`c20_group_ambiguous_witness`]
* C28: `(set-note-length "4x")` is accepted. [`c28_trailing_character_witness`]
* C29: an alias may be closed by any character. [`Syn.c29_alias_witness`]
* C29: `o` at the end of the text is octave 0. [`Syn.c29_octave_witness`]
* C30: `{}` makes the parser index out of range. [`Syn.c30_crash_witness`]
* C32: `c4|~/e` is formatted as `c4~ | / e`, which does not parse. [`Syn.c32_slur_witness`]
* C32: `c4|~*2 d` is formatted as `c4~ | *2 d`, which does not parse. [`Syn.c32_repeat_witness`]
* C32: in `[c4|~ '1 d]*2` the note is for the first repetition only; in the formatted text just the barline is. [`Syn.c32_repetitions_witness`]
* C32: `c4*0 | d` is formatted as `c4 | d`: three events become two. [`Syn.c32_zero_witness`]
* C31: the AST generated for a transposition has an `int32` literal, which `Updates` asserts to be a `float64`. [`Syn.c31_transposition_witness`]
* C31: the end of a voice group without a voice makes the generator dereference nil. [`Syn.c31_voiceEnd_witness`]
* C31: a dynamic marking comes back as a lisp expression. [`Syn.c31_dynamic_witness`]
* C34: with the sync offsets of the REPL a note can sound with another instrument's patch. [`c34_sync_witness`]
* C39: code that fails in the middle leaves notes in the score, which the next evaluation plays. [`Repl.c39_witness`]
* C39: if sending fails, the notes are never played. [`Repl.c39_send_witness`]
* C40: evaluating `()` ends the server. [`Repl.c40_panic_witness`]
* C40: the response to `describe` can carry the id and session of another client's request. [`Repl.c40_stale_witness`]
* C41: percussion in a key with accidentals is shifted by a semitone. [`c41_key_witness`]
* C41: percussion chords get the wrong length. [`c41_chord_witness`]
* C42: MIDI number 13 is translated to number 24. [`c42_low_witness`]
* C43: with 26 divisions per quarter, a note of 105 divisions becomes a whole note. [`c43_tolerance_witness`]
* C43: 480 divisions per quarter are taken for 127. [`c43_divisions_witness`]
* C43: no divisions, or a very long note, make the importer loop. [`c43_hang_witness`]
* C46: a ready player whose state file is named otherwise and that does not answer makes the search loop. [`Pool.c46_hang_witness`]
* C46: the search loops if every started player claims to be ready and never answers. [`Pool.c46_dead_witness`]
* C47: a replay that finds no player loses the text. [`Repl.c47_lost_witness`]
* C50: a rest that follows a change of key: six `octave-up` are imported, and a note is out of range. [`Importer.c50_rest_after_key_witness`]
* C50: a dynamic mark that follows a change of key: another rest and another octave are imported. [`Importer.c50_mark_after_key_witness`]
* C50: key and transposition change together: the music so far is played twice. [`Importer.c50_key_and_transpose_witness`]
* C50: a dynamic mark before the second voice delays that voice. [`Importer.c50_mark_before_voice_witness`]
* C50: F natural twice in G major, the second time without a sign: it is played as F sharp. [`Importer.c50_natural_twice_witness`]
* C50: an instrument that sounds an octave lower than written (`octave-change`) sounds as written. [`Importer.c50_octave_lower_witness`]
* C50: a cue note takes no time. [`Importer.c50_cue_note_witness`]
* C50: a repeated measure with two voices: only one voice is repeated. [`Importer.c50_repeat_two_voices_witness`]
* C50: `<forward>` in a voice that lags behind is counted twice, the next note comes too early. [`Importer.c50_forward_in_voice_witness`]
* C50: MIDI program 128 is imported as another instrument. [`Importer.c50_last_program_witness`]
* C50: a part without an instrument and another one for the piano: the second is played after the first. [`Importer.c50_two_pianos_witness`]
* C50: three parts with the same instrument make a score that cannot be played. [`Importer.c50_three_pianos_witness`]
* C50: notes without `<voice>`, which MusicXML allows, make the importer panic. [`Importer.c50_no_voice_witness`]
* C51: two voices and a repeat in the second measure: which voice is repeated depends on the order of a Go map. [`Importer.c51_two_orders_witness`]
* C52: `(quant 100) c12 c c`: the third note is turned off after 4 ms. Start and length of the second note are rounded separately, so that it ends after the third one has begun, on the same key. [`c52_legato_witness`]
* C52, C53: at a tempo of 3 the tempo is not passed on to the sequencer; the notes come forty times too fast and the player shuts down right after the last one. [`c52_slow_witness`]
* C52: two percussion instruments with different panning play at the same time: whether a note is heard with its own panning depends on how the player's threads run. [`c52_channel_witness`]
* C55: `piano: c1 r1 violin: c1 c1` and then a note for each of them: the player knows nothing of the rest at the end of the line, so the piano plays its note 2 s too early. [`c55_rest_witness`]
* C55: each track's thread looks at the clock for itself, so instruments that start together in the score can start apart. [`c55_together_witness`]
* C55: after a jump back to a marker the REPL server sends a negative offset, and the note is scheduled where the sequencer already has been: it is not heard. [`c55_marker_witness`]
* C56: the inputs `piano: V1: c1`, `V2: d` and `V0: e`: `V0:` on its own is a voice with the number 0, so that `e` is played with the voices; in the text of the session it ends them, and `e` comes after them. [`Repl.c56_voice_witness`]
* C56: the input `o` (an octave change without a number) is accepted at the end of a text, but not before a line break: once it has been entered, the text of the session cannot be parsed, and no replay succeeds. [`Repl.c56_octave_witness`]
* C56: the input `foo = V1: c`: in the text of the session the voice goes on after the end of the line, so the next input `d` becomes part of the variable and is not played. [`Repl.c56_variable_witness`]
* C57: `:load a.alda` of a file with a syntax error, then `:save` (which remembers the name of the file): the server has reset its text before parsing, so the file, which was never changed, is emptied. [`Repl.c57_lost_witness`]
* C57: a score is loaded, extended and saved; `:play` fails because there is no player; the next `:save` empties the file. [`Repl.c57_play_witness`]
* C58: an export takes longer than 30 seconds; the next line of code is evaluated, but the client reads the answer to the export and shows an error. The two stay out of step. [`Repl.c58_late_witness`]
* C59: twenty minutes of music, stopped after one minute and resumed twelve minutes later (as by `alda stop` and `alda play`): the player exits with two minutes left to play. [`Player.c59_pause_witness`]
* C60: two players are paused, the first one in the list has died without removing its state file: `alda play` fails, and the second one is not resumed either. [`Cmd.c60_resume_witness`]
* C60: `alda stop -p` and `alda shutdown -p` with a port where there is no player succeed, saying that playback is stopped. [`Cmd.c60_stop_witness`]
* C61: the output file exists already: `alda export` says that it has exported the score at once, although the file is never changed. [`Cmd.c61_stale_witness`]
* C61: the player was started from another directory and `-o` is a relative path: the file is written there; the command succeeds after a minute without saying that anything is missing. [`Cmd.c61_elsewhere_witness`]
* C61: the temporary file is opened after the player has created it and before it has written it: a part of it is written to stdout, and the command succeeds. [`Cmd.c61_torn_witness`]
* C62: `(set-duration 0.5)`, `(set-note-length 0.5)` and `(set-duration-ms 0.5)` are refused with `expected positive number`: the check is `< 1`. [`c62_fraction_witness`]
* C62: `(key-signature '())`, the documented initial value, is refused. [`c62_empty_key_witness`]
* C63: if the new file cannot be created after the old one was renamed, there is no `alda` left. [`Update.c63_unusable_witness`]
* C63: if installing the player fails after `alda` was installed, the next command deletes the last copy of the player. [`Update.c63_lost_witness`]
* C63: the regular expression is not anchored, so `notes-alda.1.2.old.txt` in the same directory is deleted. [`Update.c63_bystander_witness`]
* C32: formatting an AST that no text has (a definition in an event sequence inside a definition, with something after it) makes the indentation negative and panics. [`Syn.c32_panic_witness`]
* C64: `alda format -o -w -1` empties the file and then refuses to work. [`Cmd.c64_truncated_witness`]
* C64: when the disk is full, `alda format -o` loses the program. [`Cmd.c64_full_witness`]
* C64: when the disk is full, `alda import` loses what the output file held before. [`Cmd.c64_import_full_witness`]
* C65: variable definitions are shown without the name of the variable, so that two programs with different music show the same events. [`Cmd.c65_events_witness`]
* C65: after a voice group, the note events name a part (the origin of the voices) that is not among the parts of the score that is shown. [`Cmd.c65_data_witness`]
* C66: `(note-length 0.5)` is refused (the number must be at least 1), although `c0.5` can be played. [`c66_fraction_witness`]
* C67: a player that is shut down after the loop has read its state file and before the loop notes what it has read is used again by the server; the next notes go to the player that shuts down. [`Keeper.c67_reset_witness`]
* C67: if the loop does not run for eleven minutes, the player exits before the next ping. [`Keeper.c67_sleep_witness`]
* C67: two REPL servers take the same player if both read its state file before its state has changed. [`Keeper.c67_shared_witness`]
* C68: if the status file, which says `disabled`, cannot be read for a moment, the next command enables telemetry. [`Telemetry.c68_read_witness`]
* C68: a command that runs while `alda telemetry --disable` writes the status file finds it empty and enables telemetry; the user has been told that it is disabled. [`Telemetry.c68_race_witness`]
* C68: if `alda telemetry --disable` is the first command of all, it enables telemetry and sends a request before it disables it. [`Telemetry.c68_first_witness`]
* C70: the parser rejects `[foo = c]`: a definition goes on to the end of the line, and it does not end before `]`. [`Syn.c70_witness`]
* C70: the parser rejects `foo = c  piano : c`; it reads `piano` as part of the definition and then finds the colon. [`Syn.c70_parts_witness`]
* C70: the parser rejects `[V1: c'1]`, repetitions after a voice in a sequence. [`Syn.c70_voices_witness`]
* C71: `piano: {r @nope}` fails at `@nope`, but the message has the place of the cram expression. [`Located.c71_cram_witness`]
* C71: `x = @nope`, `piano: x`: the message has the place of the use of the variable, not that of `@nope`. [`Located.c71_variable_witness`]
* C72: a process that has not touched its file for more than two minutes (a suspended computer) loses it although it runs. [`Ps.c72_sleep_witness`]
* C72: a clean-up that has found the file of a killed process to be old removes that of a new process with the same id. [`Ps.c72_reuse_witness`]
* C72: a process whose file is read while it is written is not listed. [`Ps.c72_writing_witness`]
* C74: of two servers in a directory, the first to end removes the port file that the other one has written. [`ReplCommand.c74_port_file_witness`]
* C74: `alda repl --host example.org` starts a server on this host, and connects to the other one. [`ReplCommand.c74_host_witness`]
* C76: notes and the end of a score after 2147483647 ms (24.8 days) wrap around to negative times, so the player gets them as before the beginning. [`c76_long_witness`]
* C78: a thread that waits schedules its bundle although the track has been cleared: the era is compared as an object (`AtomicInteger`), not as a number, and so never differs. [`TrackThreads.c78_clear_witness`]
* C78: after clearing, the thread of an old bundle counts down the task of a new one, so that an export does not wait for the new one. [`TrackThreads.c78_count_witness`]
* C78: of two bundles sent in quick succession the second one may be scheduled first, because their threads race for the lock. [`TrackThreads.c78_order_witness`]
* C79: a pattern that lasts less than half a second is followed by a gap of half a second each time: the next time is looked at when the one before begins, and whatever is due within half a second is put off by half a second. [`Patterns.c79_gap_witness`]
* C79: a pattern that only changes volume or panning has its end at offset 0 (`endOffset`), so the next time may begin before the changes of the time before. [`Patterns.c79_volume_witness`]
* C79: a pattern and `play` in one bundle block each other for ever: `play` waits for the tasks of the track, and the pattern waits for the sequencer to run. Later messages, also those to shut down, are not read any more. [`Patterns.c79_stuck_witness`]
* C80: `alda doctor` takes the first player that is ready for the one that it has spawned, so it may shut down one of the pool and leave its own running. [`Doctor.c80_other_witness`]
* C80: if a check fails after a player has been spawned, `alda doctor` returns at once and the player is left running (until it expires). [`Doctor.c80_left_witness`]
* C82: every question reads through a buffer of its own, so answers that arrive together are lost: of `y` and `n` from a pipe, the second question sees nothing and the program panics. [`Confirm.c82_piped_witness`]
* C82: an answer at the end of the input without a line break makes the program panic. [`Confirm.c82_unfinished_witness`]

Seen while reading, not formalised: a repeat count of 2^31-1 never ends (the `int32` counter wraps); `c*0` plays once but `[c]*0` not at all;
`chordMode` stays set after an error inside a chord; `PartOffsets` reads the offset of the origin part, which is stale inside a voice group; tempo values recorded in a voice that
is not the last to finish are lost; `FillPlayerPool` returns at the first error while the other goroutines stay blocked on the channel; a MusicXML note without
`alter` in a key that alters it is imported with the wrong pitch.

## Checking the theorems against wrong programs

`seeded/LOG.jsonl` records mutations: in a copy of the project one definition of the model is changed as a realistic bug would, and everything is rebuilt. Each line
says what was changed, which claim becomes false, which theorems no longer prove, and which were tightened because they still did.

## Axioms

`#print axioms` of every theorem in `MANIFEST.json`:

* propext, Classical.choice, Quot.sound: `Alda.c01_note_range`, `Alda.c02_no_overlap`, `Alda.c03_channel_nine`, `Alda.c04_explicit_channel`, `Alda.explicit_channel`, `Alda.c06_named`, `Alda.c08_note_length`, `Alda.c08_duration_is_sum`, `Alda.c08_grouping_and_barlines`, `Alda.c08_valid_iff_positive`, `Alda.c08_positive`, `Alda.c09_no_gaps`, `Alda.c09_position`, `Alda.c10_sticky`, `Alda.c11_chord`, `Alda.c11_start_together`, `Alda.c11_empty_chord_witness`, `Alda.c12_fills_partial`, `Alda.c12_relative_partial`, `Alda.c12_time_scale_restored`, `Alda.c12_nested_cram_witness`, `Alda.c12_tempo_witness`, `Alda.c12_voices_witness`, `Alda.c13_repeat`, `Alda.c13_same_music`, `Alda.c13_zero`, `Alda.c14_endings_partial`, `Alda.c14_not_listed`, `Alda.c14_two_parts_witness`, `Alda.c14_inner_repeat_witness`, `Alda.c15_voices`, `Alda.c15_start_together`, `Alda.c16_placing`, `Alda.c16_returns`, `Alda.c16_undefined`, `Alda.c17_bound`, `Alda.c17_independent`, `Alda.c17_terminates`, `Alda.c17_stored`, `Alda.c17_undefined_use`, `Alda.c17_undefined_mention`, `Alda.c17_lisp_chord_witness`, `Alda.c18_window`, `Alda.c18_once`, `Alda.c18_recorded`, `Alda.c18_line`, `Alda.c18_jump`, `Alda.c18_backward_witness`, `Alda.c19_local_wins_partial`, `Alda.c19_two_changes_witness`, `Alda.c19_other_kind_witness`, `Alda.c20_again`, `Alda.c20_alias_new`, `Alda.c20_group_new`, `Alda.c20_no_redefinition`, `Alda.c20_no_duplicates`, `Alda.c20_repeated_name`, `Alda.c20_mixed`, `Alda.c20_group_accepted`, `Alda.c20_group_of_aliases`, `Alda.c20_alias_refers_partial`, `Alda.c20_ambiguous_partial`, `Alda.c20_group_redefines_witness`, `Alda.c20_dotted_witness`, `Alda.c20_group_ambiguous_witness`, `Alda.c21_one_master`, `Alda.c21_same_forever`, `Alda.c22_notes_stay`, `Alda.c22_instrument_stays`, `Alda.c23_append`, `Alda.c23_first_error`, `Alda.c23_no_error`, `Alda.c24_independent`, `Alda.c25_inactive`, `Alda.c26_in_range`, `Alda.c26_lisp`, `Alda.c26_channel`, `Alda.c27_matching`, `Alda.c27_first_match`, `Alda.c27_no_match`, `Alda.c28_grammar_accepted`, `Alda.c28_accepted_partial`, `Alda.c28_trailing_character_witness`, `Alda.Syn.c29`, `Alda.Syn.c29_tokens`, `Alda.Syn.c29_alias_witness`, `Alda.Syn.c29_octave_witness`, `Alda.Syn.c30_partial`, `Alda.Syn.c30_consumes`, `Alda.Syn.c30_parse`, `Alda.Syn.c30_updates`, `Alda.Syn.c30_crash_witness`, `Alda.Syn.c31_partial`, `Alda.Syn.c31_key`, `Alda.Syn.c32_partial`, `Alda.Syn.c32_stable_partial`, `Alda.Syn.c32_succeeds`, `Alda.Syn.c32_panic_witness`, `Alda.Syn.c32_slur_witness`, `Alda.Syn.c32_repeat_witness`, `Alda.Syn.c32_repetitions_witness`, `Alda.Syn.c32_zero_witness`, `Alda.c33_range`, `Alda.c33_all`, `Alda.c34_partial`, `Alda.c34_sync_witness`, `Alda.c35_tracks`, `Alda.c36`, `Alda.c37_tempo`, `Alda.c37_some_tempo`, `Alda.c37_recorded`, `Alda.c37_only_global`, `Alda.c37_change`, `Alda.Repl.c38`, `Alda.Repl.c38_step`, `Alda.Repl.c38_pending`, `Alda.Repl.c39_partial`, `Alda.Repl.c39_text`, `Alda.Repl.c39_witness`, `Alda.Repl.c39_send_witness`, `Alda.Repl.c40_partial`, `Alda.Repl.c40_session_partial`, `Alda.Repl.c40_own_id`, `Alda.Repl.c40_panics`, `Alda.Repl.c40_panic_witness`, `Alda.Repl.c40_stale_witness`, `Alda.c41_partial`, `Alda.c41_unfinished`, `Alda.c41_key_witness`, `Alda.c41_chord_witness`, `Alda.c42_partial`, `Alda.c42_low`, `Alda.c43_partial`, `Alda.c43_close`, `Alda.c43_tolerance_witness`, `Alda.c43_divisions_witness`, `Alda.c43_hang_witness`, `Alda.c44_names_distinct`, `Alda.c44_denotes`, `Alda.c44_general_midi`, `Alda.c44_percussion`, `Alda.c44_patch_range`, `Alda.c44_listed`, `Alda.c45_time_marking`, `Alda.c45_marker`, `Alda.Pool.c46_fill`, `Alda.Pool.c46_disabled`, `Alda.Pool.c46_found`, `Alda.Pool.c46_none`, `Alda.Pool.c46_unavailable`, `Alda.Pool.c46_some`, `Alda.Pool.c46_ends_partial`, `Alda.Pool.c46_hang_witness`, `Alda.Pool.c46_dead_witness`, `Alda.Repl.c47`, `Alda.Repl.c47_lost_witness`, `Alda.Syn.c48`, `Alda.Syn.c48_stable`, `Alda.c49_own_channel`, `Alda.c49_no_shortage`, `Alda.c49_sixteen`, `Alda.Importer.c50_import_partial`, `Alda.Importer.c50_text_partial`, `Alda.Importer.c50_rest_after_key_witness`, `Alda.Importer.c50_mark_after_key_witness`, `Alda.Importer.c50_key_and_transpose_witness`, `Alda.Importer.c50_mark_before_voice_witness`, `Alda.Importer.c50_natural_twice_witness`, `Alda.Importer.c50_octave_lower_witness`, `Alda.Importer.c50_cue_note_witness`, `Alda.Importer.c50_repeat_two_voices_witness`, `Alda.Importer.c50_forward_in_voice_witness`, `Alda.Importer.c50_last_program_witness`, `Alda.Importer.c50_two_pianos_witness`, `Alda.Importer.c50_three_pianos_witness`, `Alda.Importer.c50_no_voice_witness`, `Alda.Importer.c51_order_partial`, `Alda.Importer.c51_two_orders_witness`, `Alda.c52_partial`, `Alda.c52_legato_witness`, `Alda.c52_slow_witness`, `Alda.c52_channel_witness`, `Alda.c53_partial`, `Alda.c54_export`, `Alda.c55_partial`, `Alda.c55_bundles`, `Alda.c55_rest_witness`, `Alda.c55_together_witness`, `Alda.c55_marker_witness`, `Alda.Repl.c56_partial`, `Alda.Repl.c56_join`, `Alda.Repl.c56_replay_partial`, `Alda.Repl.c56_replayable_partial`, `Alda.Repl.c56_voice_witness`, `Alda.Repl.c56_octave_witness`, `Alda.Repl.c56_variable_witness`, `Alda.Repl.c57_partial`, `Alda.Repl.c57_prompt_partial`, `Alda.Repl.c57_save`, `Alda.Repl.c57_load`, `Alda.Repl.c57_untouched`, `Alda.Repl.c57_edit_partial`, `Alda.Repl.c57_lost_witness`, `Alda.Repl.c57_play_witness`, `Alda.Repl.c58_partial`, `Alda.Repl.c58_play`, `Alda.Repl.c58_asks`, `Alda.Repl.c58_text`, `Alda.Repl.c58_new`, `Alda.Repl.c58_sync`, `Alda.Repl.c58_late`, `Alda.Repl.c58_late_code`, `Alda.Repl.c58_late_witness`, `Alda.Player.c59_partial`, `Alda.Player.c59_five_minutes_partial`, `Alda.Player.c59_heard`, `Alda.Player.c59_exits`, `Alda.Player.c59_file`, `Alda.Player.c59_pause_witness`, `Alda.Cmd.c60_one`, `Alda.Cmd.c60_heard_partial`, `Alda.Cmd.c60_ends_partial`, `Alda.Cmd.c60_resume`, `Alda.Cmd.c60_resume_partial`, `Alda.Cmd.c60_stop`, `Alda.Cmd.c60_shutdown`, `Alda.Cmd.c60_stop_one`, `Alda.Cmd.c60_shutdown_one`, `Alda.Cmd.c60_resume_one`, `Alda.Cmd.c60_pause`, `Alda.Cmd.c60_resume_witness`, `Alda.Cmd.c60_stop_witness`, `Alda.Cmd.c61_partial`, `Alda.Cmd.c61_stdout_partial`, `Alda.Cmd.c61_failed`, `Alda.Cmd.c61_file_partial`, `Alda.Cmd.c61_stale_witness`, `Alda.Cmd.c61_elsewhere_witness`, `Alda.Cmd.c61_torn_witness`, `Alda.c62_set_partial`, `Alda.c62_global_partial`, `Alda.c62_refused`, `Alda.c62_fraction_witness`, `Alda.c62_empty_key_witness`, `Alda.Update.c63_installed`, `Alda.Update.c63_others`, `Alda.Update.c63_kept_partial`, `Alda.Update.c63_renamed`, `Alda.Update.c63_cleanup_partial`, `Alda.Update.c63_cleanup_executables`, `Alda.Update.c63_unusable_witness`, `Alda.Update.c63_lost_witness`, `Alda.Update.c63_bystander_witness`, `Alda.Cmd.c64_format_partial`, `Alda.Cmd.c64_format_reads`, `Alda.Cmd.c64_format_again_partial`, `Alda.Cmd.c64_format_others`, `Alda.Cmd.c64_format_failed_partial`, `Alda.Cmd.c64_import_partial`, `Alda.Cmd.c64_import_music_partial`, `Alda.Cmd.c64_import_given_partial`, `Alda.Cmd.c64_format_defaults`, `Alda.Cmd.c64_format_layout`, `Alda.Cmd.c64_import_failed_partial`, `Alda.Cmd.c64_import_others`, `Alda.Cmd.c64_truncated_witness`, `Alda.Cmd.c64_full_witness`, `Alda.Cmd.c64_import_full_witness`, `Alda.Cmd.c65_ast`, `Alda.Cmd.c65_events_partial`, `Alda.Cmd.c65_data_sound`, `Alda.Cmd.c65_data_partial`, `Alda.Cmd.c65_command`, `Alda.Cmd.c65_shown`, `Alda.Cmd.c65_events_witness`, `Alda.Cmd.c65_data_witness`, `Alda.c66_same_partial`, `Alda.c66_untimed`, `Alda.c66_fraction_witness`, `Alda.Keeper.c67_kept`, `Alda.Keeper.c67_replaced`, `Alda.Keeper.c67_unreachable`, `Alda.Keeper.c67_alive_partial`, `Alda.Keeper.c67_listed`, `Alda.Keeper.c67_reset_partial`, `Alda.Keeper.c67_pool`, `Alda.Keeper.c67_reset_witness`, `Alda.Keeper.c67_sleep_witness`, `Alda.Keeper.c67_shared_witness`, `Alda.c69_begins`, `Alda.c69_first_note`, `Alda.c69_goes_on`, `Alda.c69_resumes`, `Alda.Syn.c70_partial`, `Alda.Syn.c70_iff`, `Alda.Syn.c70_plain`, `Alda.Syn.c70_witness`, `Alda.Syn.c70_parts_witness`, `Alda.Syn.c70_voices_witness`, `Alda.Located.c71_exact_partial`, `Alda.Located.c71_near`, `Alda.Located.c71_same`, `Alda.Located.c71_cram_witness`, `Alda.Located.c71_variable_witness`, `Alda.ReplCommand.c74_message`, `Alda.Browser.c75_accepts`, `Alda.Browser.c75_notes`, `Alda.Browser.c75_play`, `Alda.Browser.c75_rejected`, `Alda.Player.c76_understood`, `Alda.Player.c76_bundle`, `Alda.c76_score_partial`, `Alda.Player.c76_nested`, `Alda.Player.c76_ignored`, `Alda.c76_long_witness`, `Alda.Terminal.c77_answered`, `Alda.Terminal.c77_unanswered`, `Alda.Terminal.c77_box`, `Alda.TrackThreads.c78_complete_partial`, `Alda.Patterns.c79_sound`, `Alda.Patterns.c79_nested`, `Alda.Patterns.c79_times_partial`, `Alda.Patterns.c79_loop_partial`, `Alda.Doctor.c80_truthful`, `Alda.Repl.c81_listed`, `Alda.Repl.c81_same`, `Alda.Repl.c81_help`, `Alda.Confirm.c82_same`, `Alda.Confirm.c82_answer`, `Alda.Confirm.c82_ends`, `Alda.Confirm.c82_next_partial`, `Alda.Confirm.c82_piped_witness`, `Alda.Confirm.c82_unfinished_witness`, `Alda.AstHuman.c83_outline`, `Alda.AstHuman.c83_faithful`
* propext, Quot.sound: `Alda.c05_written_accidentals`, `Alda.c05_key_signature`, `Alda.c05_midi_number`, `Alda.c05_octave_is_twelve`, `Alda.c05_transposition`, `Alda.c06_scale`, `Alda.c06_scale_played`, `Alda.c07_sharps`, `Alda.c07_flats`, `Alda.c07_up_to_seven_sharps`, `Alda.c07_up_to_seven_flats`, `Alda.c07_total`, `Alda.Syn.c31_exact_partial`, `Alda.c41_key`, `Alda.c55_in_turn`, `Alda.Telemetry.c68_disabled_partial`, `Alda.Telemetry.c68_status`, `Alda.Telemetry.c68_payload`, `Alda.Telemetry.c68_informed`, `Alda.Telemetry.c68_read_witness`, `Alda.Telemetry.c68_race_witness`, `Alda.Ps.c72_kept_partial`, `Alda.Ps.c72_kept_iff`, `Alda.Ps.c72_listed_partial`, `Alda.Ps.c72_recent`, `Alda.Ps.c72_once`, `Alda.Ps.c72_sleep_witness`, `Alda.Waiting.c73_attempts`, `Alda.Waiting.c73_result`, `Alda.Waiting.c73_ends`, `Alda.Waiting.c73_found`, `Alda.ReplCommand.c74_port_file_partial`, `Alda.ReplCommand.c74_port_file_witness`, `Alda.Terminal.c77_indent`, `Alda.TrackThreads.c78_progress`, `Alda.TrackThreads.c78_ends`, `Alda.Patterns.c79_ends_partial`, `Alda.Patterns.c79_gap_witness`, `Alda.Patterns.c79_stuck_witness`, `Alda.Doctor.c80_harmless_partial`, `Alda.Doctor.c80_cleaned`
* propext: `Alda.Syn.c31_fifths`, `Alda.Syn.c31_transposition_witness`, `Alda.Syn.c31_voiceEnd_witness`, `Alda.Syn.c31_dynamic_witness`, `Alda.c41_next`, `Alda.Telemetry.c68_first_witness`, `Alda.Ps.c72_touch_lost`, `Alda.Ps.c72_reuse_witness`, `Alda.Ps.c72_writing_witness`, `Alda.ReplCommand.c74_server`, `Alda.ReplCommand.c74_client`, `Alda.ReplCommand.c74_unserved`, `Alda.ReplCommand.c74_host_witness`, `Alda.TrackThreads.c78_order_partial`, `Alda.TrackThreads.c78_cleared_partial`, `Alda.TrackThreads.c78_clear_witness`, `Alda.TrackThreads.c78_count_witness`, `Alda.TrackThreads.c78_order_witness`, `Alda.Patterns.c79_volume_witness`, `Alda.Doctor.c80_lines`, `Alda.Doctor.c80_closed`, `Alda.Doctor.c80_other_witness`, `Alda.Doctor.c80_left_witness`
* no axioms: `Alda.c05_overflow_witness`, `Alda.c42_low_witness`, `Alda.c44_sizes`, `Alda.Update.c63_no_download`
