{
 "claims": [
  {
   "property": "C01",
   "status": "proved",
   "theorems": [
    "Alda.c01_note_range"
   ],
   "note": ""
  },
  {
   "property": "C02",
   "status": "proved",
   "theorems": [
    "Alda.c02_no_overlap"
   ],
   "note": ""
  },
  {
   "property": "C03",
   "status": "proved",
   "theorems": [
    "Alda.c03_channel_nine"
   ],
   "note": ""
  },
  {
   "property": "C04",
   "status": "proved",
   "theorems": [
    "Alda.c04_explicit_channel",
    "Alda.explicit_channel"
   ],
   "note": ""
  },
  {
   "property": "C05",
   "status": "proved",
   "theorems": [
    "Alda.c05_written_accidentals",
    "Alda.c05_key_signature",
    "Alda.c05_midi_number",
    "Alda.c05_octave_is_twelve",
    "Alda.c05_transposition",
    "Alda.c05_overflow_witness"
   ],
   "note": "Within 32-bit range as quantified; outside of it the int32 arithmetic wraps around (witness)."
  },
  {
   "property": "C06",
   "status": "proved",
   "theorems": [
    "Alda.c06_scale",
    "Alda.c06_scale_played",
    "Alda.c06_named"
   ],
   "note": ""
  },
  {
   "property": "C07",
   "status": "proved",
   "theorems": [
    "Alda.c07_sharps",
    "Alda.c07_flats",
    "Alda.c07_up_to_seven_sharps",
    "Alda.c07_up_to_seven_flats",
    "Alda.c07_total"
   ],
   "note": ""
  },
  {
   "property": "C08",
   "status": "proved",
   "theorems": [
    "Alda.c08_note_length",
    "Alda.c08_duration_is_sum",
    "Alda.c08_grouping_and_barlines",
    "Alda.c08_valid_iff_positive",
    "Alda.c08_positive"
   ],
   "note": ""
  },
  {
   "property": "C09",
   "status": "proved",
   "theorems": [
    "Alda.c09_no_gaps",
    "Alda.c09_position"
   ],
   "note": "For sequences of notes, rests, attribute changes and barlines, for each active part of any reachable score outside of a chord."
  },
  {
   "property": "C10",
   "status": "proved",
   "theorems": [
    "Alda.c10_sticky"
   ],
   "note": "When no global change of the note length is pending and the line does not set the note length by an attribute."
  },
  {
   "property": "C11",
   "status": "proved",
   "theorems": [
    "Alda.c11_chord",
    "Alda.c11_start_together",
    "Alda.c11_empty_chord_witness"
   ],
   "note": "A chord needs a note or rest as its first member; the witness shows what the code does for an empty one."
  },
  {
   "property": "C12",
   "status": "partial",
   "theorems": [
    "Alda.c12_fills_partial",
    "Alda.c12_relative_partial",
    "Alda.c12_time_scale_restored",
    "Alda.c12_nested_cram_witness",
    "Alda.c12_tempo_witness",
    "Alda.c12_voices_witness"
   ],
   "note": "False of the code for nested crams with a written duration, tempo changes and voices inside a cram (witnesses). Proved when the events are predictable (Spec.settled): notes, rests, chords, nested crams, repeats, numbered endings, attribute changes other than of time."
  },
  {
   "property": "C13",
   "status": "proved",
   "theorems": [
    "Alda.c13_repeat",
    "Alda.c13_same_music",
    "Alda.c13_zero"
   ],
   "note": "for events and variables without numbered endings; scores are equal up to the internal repetition number; a count of 2^31-1 (where the Go loop does not end) is not modelled as such"
  },
  {
   "property": "C14",
   "status": "partial",
   "theorems": [
    "Alda.c14_endings_partial",
    "Alda.c14_not_listed",
    "Alda.c14_two_parts_witness",
    "Alda.c14_inner_repeat_witness"
   ],
   "note": "proved for one active part without repeats or voices inside the repeated event; the full claim is false for several active parts and for repeats inside, as the witnesses show"
  },
  {
   "property": "C15",
   "status": "proved",
   "theorems": [
    "Alda.c15_voices",
    "Alda.c15_start_together"
   ],
   "note": "For voices made of events without nested voice groups in chords or crams; ties as in the code."
  },
  {
   "property": "C16",
   "status": "proved",
   "theorems": [
    "Alda.c16_placing",
    "Alda.c16_returns",
    "Alda.c16_undefined"
   ],
   "note": "Going to a placed marker can only fail if a global change of the MIDI channel is due and is not allowed."
  },
  {
   "property": "C17",
   "status": "proved",
   "theorems": [
    "Alda.c17_bound",
    "Alda.c17_independent",
    "Alda.c17_terminates",
    "Alda.c17_stored",
    "Alda.c17_undefined_use",
    "Alda.c17_undefined_mention",
    "Alda.c17_lisp_chord_witness"
   ],
   "note": "Variables without lisp notes as chord members; the witness shows how those differ when stored."
  },
  {
   "property": "C18",
   "status": "proved",
   "theorems": [
    "Alda.c18_window",
    "Alda.c18_once",
    "Alda.c18_recorded",
    "Alda.c18_line",
    "Alda.c18_jump",
    "Alda.c18_backward_witness"
   ],
   "note": "for lines of notes and rests; a part that goes back to a marker meets the changes again (witness, outside the claim)"
  },
  {
   "property": "C19",
   "status": "partial",
   "theorems": [
    "Alda.c19_local_wins_partial",
    "Alda.c19_two_changes_witness",
    "Alda.c19_other_kind_witness"
   ],
   "note": "False of the code when the part sets another attribute in between, and for changes of the same attribute of another kind (witnesses)."
  },
  {
   "property": "C20",
   "status": "partial",
   "theorems": [
    "Alda.c20_again",
    "Alda.c20_alias_new",
    "Alda.c20_group_new",
    "Alda.c20_no_redefinition",
    "Alda.c20_no_duplicates",
    "Alda.c20_repeated_name",
    "Alda.c20_mixed",
    "Alda.c20_group_accepted",
    "Alda.c20_group_of_aliases",
    "Alda.c20_alias_refers_partial",
    "Alda.c20_ambiguous_partial",
    "Alda.c20_group_redefines_witness",
    "Alda.c20_dotted_witness",
    "Alda.c20_group_ambiguous_witness"
   ],
   "note": "An alias keeps its instances unless it is defined again, which a group declaration can do (witness), as can the members of a later alias if it contains a dot (witness). Groups are not checked for ambiguity (witness)."
  },
  {
   "property": "C21",
   "status": "proved",
   "theorems": [
    "Alda.c21_one_master",
    "Alda.c21_same_forever"
   ],
   "note": ""
  },
  {
   "property": "C22",
   "status": "proved",
   "theorems": [
    "Alda.c22_notes_stay",
    "Alda.c22_instrument_stays"
   ],
   "note": ""
  },
  {
   "property": "C23",
   "status": "proved",
   "theorems": [
    "Alda.c23_append",
    "Alda.c23_first_error",
    "Alda.c23_no_error"
   ],
   "note": ""
  },
  {
   "property": "C24",
   "status": "proved",
   "theorems": [
    "Alda.c24_independent"
   ],
   "note": ""
  },
  {
   "property": "C25",
   "status": "proved",
   "theorems": [
    "Alda.c25_inactive"
   ],
   "note": ""
  },
  {
   "property": "C26",
   "status": "proved",
   "theorems": [
    "Alda.c26_in_range",
    "Alda.c26_lisp",
    "Alda.c26_channel"
   ],
   "note": ""
  },
  {
   "property": "C27",
   "status": "proved",
   "theorems": [
    "Alda.c27_matching",
    "Alda.c27_first_match",
    "Alda.c27_no_match"
   ],
   "note": ""
  },
  {
   "property": "C28",
   "status": "partial",
   "theorems": [
    "Alda.c28_grammar_accepted",
    "Alda.c28_accepted_partial",
    "Alda.c28_trailing_character_witness"
   ],
   "note": "The 'only if' half is false of the code: one arbitrary trailing character is accepted (witness). Proved: every string of the grammar is read exactly, and whatever is accepted is a string of the grammar followed by at most one character."
  },
  {
   "property": "C29",
   "status": "proved",
   "theorems": [
    "Alda.Syn.c29",
    "Alda.Syn.c29_tokens",
    "Alda.Syn.c29_alias_witness",
    "Alda.Syn.c29_octave_witness"
   ],
   "note": "For every text. TokensOf is an independent description of the tokens of a text: gaps of white space and comments, the text and the value of each kind of token, and positions counted from the text before it. Errors lie at a position in the text. Numbers are exact rationals where Go rounds to float64. The witnesses show surprising readings: an alias may be closed by any character, a lone `o` at the end is octave 0."
  },
  {
   "property": "C30",
   "status": "partial",
   "theorems": [
    "Alda.Syn.c30_partial",
    "Alda.Syn.c30_consumes",
    "Alda.Syn.c30_parse",
    "Alda.Syn.c30_updates",
    "Alda.Syn.c30_crash_witness"
   ],
   "note": "For every text. Spec/Grammar is an independent grammar that says which tokens make up which AST; a successful parse uses every token up to the end of the file once, in order. Errors are at a token. Missing: programs with an empty cram `{}`, which make the parser crash (witness); c30_parse shows that nothing else does. c30_updates: the AST always converts to score updates."
  },
  {
   "property": "C31",
   "status": "partial",
   "theorems": [
    "Alda.Syn.c31_partial",
    "Alda.Syn.c31_exact_partial",
    "Alda.Syn.c31_key",
    "Alda.Syn.c31_fifths",
    "Alda.Syn.c31_transposition_witness",
    "Alda.Syn.c31_voiceEnd_witness",
    "Alda.Syn.c31_dynamic_witness"
   ],
   "note": "For every expressible score (Spec/Gen says what that is), the AST exists and the updates it stands for have the same effect on every score; without dynamic markings and key signatures they are literally the same. Literal equality is false for those two (witness), and a transposition makes the conversion back panic (witness)."
  },
  {
   "property": "C32",
   "status": "partial",
   "theorems": [
    "Alda.Syn.c32_partial",
    "Alda.Syn.c32_stable_partial",
    "Alda.Syn.c32_succeeds",
    "Alda.Syn.c32_panic_witness",
    "Alda.Syn.c32_slur_witness",
    "Alda.Syn.c32_repeat_witness",
    "Alda.Syn.c32_repetitions_witness",
    "Alda.Syn.c32_zero_witness"
   ],
   "note": "For every text that parses, every width and every indentation, formatting succeeds (c32_succeeds; it does not for every AST a caller could make, see the witness). For every text that parses to a clean AST, every width and every blank indentation, formatting succeeds and the formatted text parses to the very same AST. Not clean, and for these the statement is false: a slurred note whose duration ends in a barline (the slur is written before the barline; inside chords, repeats and repetitions the text then fails to parse or means something else). Also not clean: a length repeated *0 times before a barline, where the AST differs."
  },
  {
   "property": "C33",
   "status": "proved",
   "theorems": [
    "Alda.c33_range",
    "Alda.c33_all"
   ],
   "note": "Without --to the code stops at the largest floating point number, hence the bound in c33_all. Times are exact rationals; int32 conversion of ms not modelled."
  },
  {
   "property": "C34",
   "status": "partial",
   "theorems": [
    "Alda.c34_partial",
    "Alda.c34_sync_witness"
   ],
   "note": "Proved when all instruments are shifted by the same time (always so outside of the REPL). With the different sync offsets the REPL uses it is false (witness)."
  },
  {
   "property": "C35",
   "status": "proved",
   "theorems": [
    "Alda.c33_range",
    "Alda.c35_tracks"
   ],
   "note": "c33_range contains the content of each note message (SentAs)."
  },
  {
   "property": "C36",
   "status": "proved",
   "theorems": [
    "Alda.c36"
   ],
   "note": ""
  },
  {
   "property": "C37",
   "status": "proved",
   "theorems": [
    "Alda.c37_tempo",
    "Alda.c37_some_tempo",
    "Alda.c37_recorded",
    "Alda.c37_only_global",
    "Alda.c37_change"
   ],
   "note": "Except when a later change is rounded to the same millisecond; not in the REPL, which sends no tempo messages. The master tempo is as in the code: 120, then what the first part recorded, then global changes."
  },
  {
   "property": "C38",
   "status": "proved",
   "theorems": [
    "Alda.Repl.c38",
    "Alda.Repl.c38_step",
    "Alda.Repl.c38_pending"
   ],
   "note": "Notes with offsets from 0 up to the largest floating point number; parse is any function, sort any sorting function."
  },
  {
   "property": "C39",
   "status": "partial",
   "theorems": [
    "Alda.Repl.c39_partial",
    "Alda.Repl.c39_text",
    "Alda.Repl.c39_witness",
    "Alda.Repl.c39_send_witness"
   ],
   "note": "Proved for invalid requests, missing players and code that cannot be parsed; the text and what was sent are kept by any failing evaluation unless sending fails. False for code that fails in the middle, and for bundles that cannot be sent (witnesses)."
  },
  {
   "property": "C40",
   "status": "partial",
   "theorems": [
    "Alda.Repl.c40_partial",
    "Alda.Repl.c40_session_partial",
    "Alda.Repl.c40_own_id",
    "Alda.Repl.c40_panics",
    "Alda.Repl.c40_panic_witness",
    "Alda.Repl.c40_stale_witness"
   ],
   "note": "Proved unless the server panics, which happens only if evaluating code does (c40_panics; witness). The response to describe can carry the id of an earlier request (witness, outside of the claim)."
  },
  {
   "property": "C41",
   "status": "partial",
   "theorems": [
    "Alda.c41_partial",
    "Alda.c41_next",
    "Alda.c41_key",
    "Alda.c41_unfinished",
    "Alda.c41_key_witness",
    "Alda.c41_chord_witness"
   ],
   "note": "All imported lists of updates nested to any depth, for parts with lettered notes in any key, and for percussion without chords in a key without accidentals (numbers 24-127). False for percussion with a key signature and for percussion chords (witnesses). Repeats with zero times are left out: closing makes them play once."
  },
  {
   "property": "C42",
   "status": "partial",
   "theorems": [
    "Alda.c42_partial",
    "Alda.c42_low",
    "Alda.c42_low_witness"
   ],
   "note": "MIDI numbers from 24 to 127; below 24 the translation is wrong (witness)."
  },
  {
   "property": "C43",
   "status": "partial",
   "theorems": [
    "Alda.c43_partial",
    "Alda.c43_close",
    "Alda.c43_tolerance_witness",
    "Alda.c43_divisions_witness",
    "Alda.c43_hang_witness"
   ],
   "note": "Exact for at most 24 divisions per quarter; for at most 127 within a twentieth of a beat; beyond that false (witnesses)."
  },
  {
   "property": "C44",
   "status": "proved",
   "theorems": [
    "Alda.c44_names_distinct",
    "Alda.c44_denotes",
    "Alda.c44_sizes",
    "Alda.c44_general_midi",
    "Alda.c44_percussion",
    "Alda.c44_patch_range",
    "Alda.c44_listed"
   ],
   "note": ""
  },
  {
   "property": "C45",
   "status": "proved",
   "theorems": [
    "Alda.c45_time_marking",
    "Alda.c45_marker"
   ],
   "note": "Time markings up to the values that fit into 64-bit milliseconds."
  },
  {
   "property": "C46",
   "status": "partial",
   "theorems": [
    "Alda.Pool.c46_fill",
    "Alda.Pool.c46_disabled",
    "Alda.Pool.c46_found",
    "Alda.Pool.c46_none",
    "Alda.Pool.c46_unavailable",
    "Alda.Pool.c46_some",
    "Alda.Pool.c46_ends_partial",
    "Alda.Pool.c46_hang_witness",
    "Alda.Pool.c46_dead_witness"
   ],
   "note": "The search is proved to end if state files have the names that players give them and no further players that claim to be ready without answering appear; otherwise it need not (witnesses)."
  },
  {
   "property": "C47",
   "status": "proved",
   "theorems": [
    "Alda.Repl.c47",
    "Alda.Repl.c47_lost_witness"
   ],
   "note": "A replay that fails for want of a player loses the text (witness, outside of the claim)."
  },
  {
   "property": "C48",
   "status": "proved",
   "theorems": [
    "Alda.Syn.c48",
    "Alda.Syn.c48_stable"
   ],
   "note": "For every printable score (Spec/Print says what that is; it does not mention the generator or the formatter), every width and every blank indentation: generate, format and parse succeed, and the parsed program has the same effect as the original updates on every score. Includes transpositions, for which C31 fails. Variable definitions are not in the class (the importer makes none)."
  },
  {
   "property": "C49",
   "status": "proved",
   "theorems": [
    "Alda.c49_own_channel",
    "Alda.c49_no_shortage",
    "Alda.c49_sixteen"
   ],
   "note": "For every program without midi-channel attributes whose score has at most fifteen instruments that are not percussion. c49_sixteen shows that the bound is exact. c49_no_shortage is about a note played after any such program; the error of a note inside the program is not traced to the end of the program."
  },
  {
   "property": "C50",
   "status": "partial",
   "theorems": [
    "Alda.Importer.c50_import_partial",
    "Alda.Importer.c50_text_partial",
    "Alda.Importer.c50_rest_after_key_witness",
    "Alda.Importer.c50_mark_after_key_witness",
    "Alda.Importer.c50_key_and_transpose_witness",
    "Alda.Importer.c50_mark_before_voice_witness",
    "Alda.Importer.c50_natural_twice_witness",
    "Alda.Importer.c50_octave_lower_witness",
    "Alda.Importer.c50_cue_note_witness",
    "Alda.Importer.c50_repeat_two_voices_witness",
    "Alda.Importer.c50_forward_in_voice_witness",
    "Alda.Importer.c50_last_program_witness",
    "Alda.Importer.c50_two_pianos_witness",
    "Alda.Importer.c50_three_pianos_witness",
    "Alda.Importer.c50_no_voice_witness"
   ],
   "note": "For every partwise file of a class described in Spec/MusicXml (without mention of the importer): at most fifteen parts with different instruments; any number of measures, notes, rests, chords, voices, backup and forward; divisions, key and transposition at the beginning of each part. The theorem goes from the XML tree through the importer, the optimizer and the interpreter to the note events. c50_text_partial goes further: the imported score is written as text by the generator and the formatter, parsed again, and played; there the lengths have to be finite decimals, because the code prints float64s where the model has rationals. Missing: changes of key or divisions later, repeats, ties, grace and cue notes, percussion, dynamic marks, parts with the same instrument. For most of these the claim is false (thirteen witnesses)."
  },
  {
   "property": "C51",
   "status": "partial",
   "theorems": [
    "Alda.Importer.c51_order_partial",
    "Alda.Importer.c51_two_orders_witness"
   ],
   "note": "For the files of C50. False for a repeat in a part with two voices (witness)."
  },
  {
   "property": "C52",
   "status": "partial",
   "theorems": [
    "Alda.c52_partial",
    "Alda.c52_legato_witness",
    "Alda.c52_slow_witness",
    "Alda.c52_channel_witness"
   ],
   "note": "For every program that can be written, every selection (--from, --to), every interleaving of the player's threads, and a player that has just started. What a sequence of MIDI events sounds like is defined in Spec/Player. Conditions: tempos of 4 or more, no tempo change within half a tick after the start (other than at the start), half a millisecond between notes on the same key and channel, and a gap between instruments that share a channel; the witnesses show that the statement is false without the first and the last two. The error allowed is half a tick for each tempo change and 4 ns for each tick."
  },
  {
   "property": "C53",
   "status": "partial",
   "theorems": [
    "Alda.c53_partial",
    "Alda.c52_slow_witness"
   ],
   "note": "For scores as in C52, without the conditions on notes. For a tempo of 3 it is false: the player shuts down 0.25 s after the last note (witness)."
  },
  {
   "property": "C54",
   "status": "proved",
   "theorems": [
    "Alda.c54_export"
   ],
   "note": "For every sequence of bundles that a player may have been sent before, every timing of its threads. The events have to be below tick 2^63 and at least one note has to be there."
  },
  {
   "property": "C55",
   "status": "partial",
   "theorems": [
    "Alda.c55_partial",
    "Alda.c55_in_turn",
    "Alda.c55_bundles",
    "Alda.c55_rest_witness",
    "Alda.c55_together_witness",
    "Alda.c55_marker_witness"
   ],
   "note": "For every sequence of bundles of valid messages, tempo messages only in the first one (as the REPL server sends them), every interleaving and every position of the sequencer. The order of messages on a channel at the same tick is kept where they come from one track. Instruments do not stay together after a rest at the end of a line, nor in general, since each thread looks at the clock for itself; and after a jump back to a marker a note is scheduled in the past (witnesses)."
  },
  {
   "property": "C56",
   "status": "partial",
   "theorems": [
    "Alda.Repl.c56_partial",
    "Alda.Repl.c56_join",
    "Alda.Repl.c56_replay_partial",
    "Alda.Repl.c56_replayable_partial",
    "Alda.Repl.c56_voice_witness",
    "Alda.Repl.c56_octave_witness",
    "Alda.Repl.c56_variable_witness"
   ],
   "note": "For every session of successful evaluations, loads, new scores, replays and exports, and every two texts. Each code has to be trimmed (the REPL client trims), to be accepted with a line break after it if it ends in the letter o, to end no voices that it has not begun, and to define no variable that leaves a voice open. Otherwise it is false (witnesses). Inputs that fail are the subject of C39."
  },
  {
   "property": "C57",
   "status": "partial",
   "theorems": [
    "Alda.Repl.c57_partial",
    "Alda.Repl.c57_prompt_partial",
    "Alda.Repl.c57_save",
    "Alda.Repl.c57_load",
    "Alda.Repl.c57_untouched",
    "Alda.Repl.c57_edit_partial",
    "Alda.Repl.c57_lost_witness",
    "Alda.Repl.c57_play_witness"
   ],
   "note": "Saving and loading for every session whose codes stand alone (as in C56, `SelfContained`); which files change for every line and every state. Missing: the last sentence for loads and replays that fail, for which it is false: the server forgets its text, and the next `:save` empties the file (witnesses)."
  },
  {
   "property": "C58",
   "status": "partial",
   "theorems": [
    "Alda.Repl.c58_partial",
    "Alda.Repl.c58_play",
    "Alda.Repl.c58_asks",
    "Alda.Repl.c58_text",
    "Alda.Repl.c58_new",
    "Alda.Repl.c58_sync",
    "Alda.Repl.c58_late",
    "Alda.Repl.c58_late_code",
    "Alda.Repl.c58_late_witness"
   ],
   "note": "For every line of code as long as no answer has taken longer than the 30 seconds that the client waits. After one that has, it is false for the rest of the session (`c58_late`, if the decoder reads no further than the response that it returns): nothing but errors is shown, although the code is carried out (`c58_late_code`, `c58_late_witness`)."
  },
  {
   "property": "C59",
   "status": "partial",
   "theorems": [
    "Alda.Player.c59_partial",
    "Alda.Player.c59_five_minutes_partial",
    "Alda.Player.c59_heard",
    "Alda.Player.c59_exits",
    "Alda.Player.c59_file",
    "Alda.Player.c59_pause_witness"
   ],
   "note": "For every history of a process in which the music is not put off, by stopping and resuming it or by jumping back, for longer than the timeout of five to ten minutes. Missing: music that is put off for longer, for which the first sentence is false: expiry is extended when music is scheduled, not when it is resumed (`c59_pause_witness`)."
  },
  {
   "property": "C60",
   "status": "partial",
   "theorems": [
    "Alda.Cmd.c60_one",
    "Alda.Cmd.c60_heard_partial",
    "Alda.Cmd.c60_ends_partial",
    "Alda.Cmd.c60_resume",
    "Alda.Cmd.c60_resume_partial",
    "Alda.Cmd.c60_stop",
    "Alda.Cmd.c60_shutdown",
    "Alda.Cmd.c60_stop_one",
    "Alda.Cmd.c60_shutdown_one",
    "Alda.Cmd.c60_resume_one",
    "Alda.Cmd.c60_pause",
    "Alda.Cmd.c60_resume_witness",
    "Alda.Cmd.c60_stop_witness"
   ],
   "note": "From the text to the tones of the sequencer, for every text with what C52 and C53 assume of its music, on a player that has just started; which players are affected, for everything. Missing: a player that says that it is active but has died keeps `alda play` from resuming the ones after it; `alda stop` and `alda shutdown` never fail, whatever happens (witnesses)."
  },
  {
   "property": "C61",
   "status": "partial",
   "theorems": [
    "Alda.Cmd.c61_partial",
    "Alda.Cmd.c61_stdout_partial",
    "Alda.Cmd.c61_failed",
    "Alda.Cmd.c61_file_partial",
    "Alda.Cmd.c61_stale_witness",
    "Alda.Cmd.c61_elsewhere_witness",
    "Alda.Cmd.c61_torn_witness"
   ],
   "note": "For files that are not there before the player has written them, are written at once, and in the directory of the command; the contents as in C52 and C54. Missing: an old file is taken for the new one; a player writes relative to its own directory, and after a minute the command succeeds silently; a file that is only partly written is copied to stdout (witnesses)."
  },
  {
   "property": "C62",
   "status": "partial",
   "theorems": [
    "Alda.c62_set_partial",
    "Alda.c62_global_partial",
    "Alda.c62_refused",
    "Alda.c62_fraction_witness",
    "Alda.c62_empty_key_witness"
   ],
   "note": "For all documented arguments except numbers between 0 and 1 that are not percentages, which are refused although they are positive (`(set-duration 0.5)`), and except the empty list as key signature, which is refused although it is documented as its initial value (witnesses). `midi-channel` is C04. Refusal is proved for numbers, however many."
  },
  {
   "property": "C63",
   "status": "partial",
   "theorems": [
    "Alda.Update.c63_installed",
    "Alda.Update.c63_others",
    "Alda.Update.c63_kept_partial",
    "Alda.Update.c63_no_download",
    "Alda.Update.c63_renamed",
    "Alda.Update.c63_cleanup_partial",
    "Alda.Update.c63_cleanup_executables",
    "Alda.Update.c63_unusable_witness",
    "Alda.Update.c63_lost_witness",
    "Alda.Update.c63_bystander_witness"
   ],
   "note": "Success and the bystanders of the update itself are proved in full. After a failure the old executables are proved to exist still, but possibly under the name of an old version, where the next command deletes them; the removal also hits names that merely contain the name of an old version (witnesses)."
  },
  {
   "property": "C64",
   "status": "partial",
   "theorems": [
    "Alda.Cmd.c64_format_partial",
    "Alda.Cmd.c64_format_reads",
    "Alda.Cmd.c64_format_again_partial",
    "Alda.Cmd.c64_format_others",
    "Alda.Cmd.c64_format_failed_partial",
    "Alda.Cmd.c64_import_partial",
    "Alda.Cmd.c64_import_music_partial",
    "Alda.Cmd.c64_import_given_partial",
    "Alda.Cmd.c64_format_defaults",
    "Alda.Cmd.c64_format_layout",
    "Alda.Cmd.c64_import_failed_partial",
    "Alda.Cmd.c64_import_others",
    "Alda.Cmd.c64_truncated_witness",
    "Alda.Cmd.c64_full_witness",
    "Alda.Cmd.c64_import_full_witness"
   ],
   "note": "Formatting: for programs with a clean AST (C32). Importing: for imported updates that can be written down (C48), and for the music, files of the class of C50 whose lengths are finite decimals (no hypothesis about printing). That no other file changes is proved in full. A failure leaves all files as they were only if it is not a negative width and not a failed write: there the file has already been emptied (witnesses)."
  },
  {
   "property": "C65",
   "status": "partial",
   "theorems": [
    "Alda.Cmd.c65_ast",
    "Alda.Cmd.c65_events_partial",
    "Alda.Cmd.c65_data_sound",
    "Alda.Cmd.c65_data_partial",
    "Alda.Cmd.c65_command",
    "Alda.Cmd.c65_shown",
    "Alda.Cmd.c65_events_witness",
    "Alda.Cmd.c65_data_witness"
   ],
   "note": "The AST: in full (without its source contexts, which only give line and column). The events: except for the names of the variables that are defined, which are not shown (witness). The score: what can be read is right for every program, and everything can be read for programs without voices; after a voice group the events name parts that are not among the parts (witness)."
  },
  {
   "property": "C66",
   "status": "partial",
   "theorems": [
    "Alda.c66_same_partial",
    "Alda.c66_untimed",
    "Alda.c66_fraction_witness"
   ],
   "note": "For every score. The default duration that a timed note leaves behind may be written differently (nested) but lasts equally long at every tempo. Missing: numbers between 0 and 1, which the lisp functions refuse (witness)."
  },
  {
   "property": "C67",
   "status": "partial",
   "theorems": [
    "Alda.Keeper.c67_kept",
    "Alda.Keeper.c67_replaced",
    "Alda.Keeper.c67_unreachable",
    "Alda.Keeper.c67_alive_partial",
    "Alda.Keeper.c67_listed",
    "Alda.Keeper.c67_reset_partial",
    "Alda.Keeper.c67_pool",
    "Alda.Keeper.c67_reset_witness",
    "Alda.Keeper.c67_sleep_witness",
    "Alda.Keeper.c67_shared_witness"
   ],
   "note": "Kept, replaced, given up: for all rounds of the loop without requests in between; what is sent where, and how many players are started: for all interleavings. Missing: rounds more than two minutes apart (the player exits, witness), and a player that is shut down while the loop has just read its state file (it is used again, witness)."
  },
  {
   "property": "C68",
   "status": "partial",
   "theorems": [
    "Alda.Telemetry.c68_disabled_partial",
    "Alda.Telemetry.c68_status",
    "Alda.Telemetry.c68_payload",
    "Alda.Telemetry.c68_informed",
    "Alda.Telemetry.c68_read_witness",
    "Alda.Telemetry.c68_race_witness",
    "Alda.Telemetry.c68_first_witness"
   ],
   "note": "For all interleavings of any number of processes. Missing: a status file that cannot be read or is just being written, after which telemetry is enabled although the user has disabled it (witnesses); the first command of all sends even if it is `alda telemetry --disable` (witness)."
  },
  {
   "property": "C69",
   "status": "proved",
   "theorems": [
    "Alda.c69_begins",
    "Alda.c69_first_note",
    "Alda.c69_goes_on",
    "Alda.c69_resumes"
   ],
   "note": "mf is 0.5421 in the code, the documentation rounds it to 54. With global attributes due at the beginning, the first note follows C18 instead."
  },
  {
   "property": "C70",
   "status": "partial",
   "theorems": [
    "Alda.Syn.c70_partial",
    "Alda.Syn.c70_iff",
    "Alda.Syn.c70_plain",
    "Alda.Syn.c70_witness",
    "Alda.Syn.c70_parts_witness",
    "Alda.Syn.c70_voices_witness"
   ],
   "note": "For programs in which a variable's definition is at the end of its line and no repetitions come after voices in the same sequence; the parser rejects `[foo = c]`, `foo = c piano: c` and `[V1: c'1]`, which the grammar has (witnesses). That an accepted program has an AST by the grammar is C30."
  },
  {
   "property": "C71",
   "status": "partial",
   "theorems": [
    "Alda.Located.c71_exact_partial",
    "Alda.Located.c71_near",
    "Alda.Located.c71_same",
    "Alda.Located.c71_cram_witness",
    "Alda.Located.c71_variable_witness"
   ],
   "note": "Exact for programs without chords, cram expressions and uses of variables. In general (`c71_near`) the place is that of an event that was run and failed with this error, and it is the event at fault or one around it with nothing but members of chords, cram expressions and variables in between; `piano: {r @nope}` is reported at the brace and `x = @nope` / `piano: x` at the use of x (witnesses). File names, and places inside of lisp expressions, are not modelled."
  },
  {
   "property": "C72",
   "status": "partial",
   "theorems": [
    "Alda.Ps.c72_kept_partial",
    "Alda.Ps.c72_kept_iff",
    "Alda.Ps.c72_listed_partial",
    "Alda.Ps.c72_recent",
    "Alda.Ps.c72_once",
    "Alda.Ps.c72_touch_lost",
    "Alda.Ps.c72_sleep_witness",
    "Alda.Ps.c72_reuse_witness",
    "Alda.Ps.c72_writing_witness"
   ],
   "note": "Holds if every process touches its file within two minutes, and exactly then (`c72_kept_iff`): after the computer has slept, the file of a process that runs may be removed, and touching it does not bring it back. An id that is used again, and a file that is read while it is written, are the other exceptions (witnesses). Errors of the file system, the removal of empty directories, clocks that are set back and processes that run but do not answer are not modelled."
  },
  {
   "property": "C73",
   "status": "proved",
   "theorems": [
    "Alda.Waiting.c73_attempts",
    "Alda.Waiting.c73_result",
    "Alda.Waiting.c73_ends",
    "Alda.Waiting.c73_found"
   ],
   "note": "Attempts that never return are not modelled."
  },
  {
   "property": "C74",
   "status": "partial",
   "theorems": [
    "Alda.ReplCommand.c74_message",
    "Alda.ReplCommand.c74_server",
    "Alda.ReplCommand.c74_client",
    "Alda.ReplCommand.c74_unserved",
    "Alda.ReplCommand.c74_port_file_partial",
    "Alda.ReplCommand.c74_port_file_witness",
    "Alda.ReplCommand.c74_host_witness"
   ],
   "note": "The port file only for one server at a time in a directory: of two, the first to end removes the file of the other one (witness). With --host but without --client, the client connects to that host although the server runs on this one (witness). A signal while a client runs in the same process is not modelled."
  },
  {
   "property": "C75",
   "status": "proved",
   "theorems": [
    "Alda.Browser.c75_accepts",
    "Alda.Browser.c75_notes",
    "Alda.Browser.c75_play",
    "Alda.Browser.c75_rejected"
   ],
   "note": "How messages are written as bytes, JavaScript's promises, and what becomes of a panic in one are not modelled."
  },
  {
   "property": "C76",
   "status": "partial",
   "theorems": [
    "Alda.Player.c76_understood",
    "Alda.Player.c76_bundle",
    "Alda.c76_score_partial",
    "Alda.Player.c76_nested",
    "Alda.Player.c76_ignored",
    "Alda.c76_long_witness"
   ],
   "note": "The numbers have to fit into 32 bits: times and lengths up to 2147483647 ms. It is false of longer scores (c76_long_witness). How messages are written as bytes is not modelled."
  },
  {
   "property": "C77",
   "status": "proved",
   "theorems": [
    "Alda.Terminal.c77_answered",
    "Alda.Terminal.c77_unanswered",
    "Alda.Terminal.c77_box",
    "Alda.Terminal.c77_indent"
   ],
   "note": "Indenting by 0 a text that ends with a newline removes the newline; this case is excluded. Escape sequences are removed by a library, of which it is demanded only that spaces and lines around a text stay."
  },
  {
   "property": "C78",
   "status": "partial",
   "theorems": [
    "Alda.TrackThreads.c78_complete_partial",
    "Alda.TrackThreads.c78_progress",
    "Alda.TrackThreads.c78_ends",
    "Alda.TrackThreads.c78_order_partial",
    "Alda.TrackThreads.c78_cleared_partial",
    "Alda.TrackThreads.c78_clear_witness",
    "Alda.TrackThreads.c78_count_witness",
    "Alda.TrackThreads.c78_order_witness"
   ],
   "note": "Completeness and the count hold if the track is not cleared, the order if the threads reach the lock in the order in which they were started, and clearing works for what is still in the queue. The rest is false: see the witnesses."
  },
  {
   "property": "C79",
   "status": "partial",
   "theorems": [
    "Alda.Patterns.c79_sound",
    "Alda.Patterns.c79_nested",
    "Alda.Patterns.c79_times_partial",
    "Alda.Patterns.c79_ends_partial",
    "Alda.Patterns.c79_loop_partial",
    "Alda.Patterns.c79_gap_witness",
    "Alda.Patterns.c79_volume_witness",
    "Alda.Patterns.c79_stuck_witness"
   ],
   "note": "How often and what is played is proved at any depth of patterns in patterns; when, for patterns that have a note or are empty, if the clock is half a second away; that it comes to an end, for patterns without patterns. The rest is false: see the witnesses."
  },
  {
   "property": "C80",
   "status": "partial",
   "theorems": [
    "Alda.Doctor.c80_lines",
    "Alda.Doctor.c80_truthful",
    "Alda.Doctor.c80_harmless_partial",
    "Alda.Doctor.c80_closed",
    "Alda.Doctor.c80_cleaned",
    "Alda.Doctor.c80_other_witness",
    "Alda.Doctor.c80_left_witness"
   ],
   "note": "All proved, except that it may shut down a player that is ready and that it has not spawned, and leaves its own running if a check fails: see the witnesses. It is proved that no player that has been asked to play is shut down."
  },
  {
   "property": "C81",
   "status": "proved",
   "theorems": [
    "Alda.Repl.c81_listed",
    "Alda.Repl.c81_same",
    "Alda.Repl.c81_help"
   ],
   "note": "The layout for any table of commands; the rest for the table of the program and any name and line."
  },
  {
   "property": "C82",
   "status": "partial",
   "theorems": [
    "Alda.Confirm.c82_same",
    "Alda.Confirm.c82_answer",
    "Alda.Confirm.c82_ends",
    "Alda.Confirm.c82_next_partial",
    "Alda.Confirm.c82_piped_witness",
    "Alda.Confirm.c82_unfinished_witness"
   ],
   "note": "One question: proved for all inputs (refinement of the model of C77). If the input ends before an answer that a line break follows, then, and only then, the program panics (`c82_ends`). That the next question gets the following lines is proved for input that arrives line by line, and false for input from a pipe (witness), because each question has a buffer of its own."
  },
  {
   "property": "C83",
   "status": "proved",
   "theorems": [
    "Alda.AstHuman.c83_outline",
    "Alda.AstHuman.c83_faithful"
   ],
   "note": "Trees as their JSON has them, with literals as `%#v` writes them."
  }
 ]
}