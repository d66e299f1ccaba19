{
 "claims": [
  {
   "property": "C01",
   "status": "proved",
   "theorems": [
    "Quark.Tokenizer.C01_tokens_independent_of_reads",
    "Quark.Tokenizer.C01_tokens_independent_of_all_reads",
    "Quark.Tokenizer.C01_exact_length_depends_on_eof",
    "Quark.Tokenizer.C01_positions_depend_on_reads"
   ],
   "note": "Texts and error are read-independent for every reader reporting EOF separately, and for all readers unless a token has exactly the limit's length (witness given). Positions are not covered (witness)."
  },
  {
   "property": "C02",
   "status": "proved",
   "theorems": [
    "Quark.Tokenizer.C02_tokens_are_maximal_runs",
    "Quark.Tokenizer.C02_tokens_are_prefix_of_runs",
    "Quark.Tokenizer.C02_runs_unique",
    "Quark.Tokenizer.C02_token_runes",
    "Quark.Tokenizer.C02_decode_utf8",
    "Quark.Tokenizer.C02_four_mebibytes"
   ],
   "note": "Full characterization, including over-long tokens."
  },
  {
   "property": "C03",
   "status": "proved",
   "theorems": [
    "Quark.Validator.C03_score_range",
    "Quark.Validator.C03_literal_score"
   ],
   "note": "All validators, outputs and readers; ParseRational is a parameter."
  },
  {
   "property": "C04",
   "status": "proved",
   "theorems": [
    "Quark.Validator.C04_accept_iff_agree",
    "Quark.Validator.C04_accepted_agree",
    "Quark.Validator.C04_too_long"
   ],
   "note": "For outputs whose tokens fit the tokenizer buffer."
  },
  {
   "property": "C05",
   "status": "proved",
   "theorems": [
    "Quark.Validator.C05_layout_irrelevant",
    "Quark.Validator.C05_self_score",
    "Quark.Validator.C05_symmetric"
   ],
   "note": "Layout irrelevance covers score, error and mismatched texts; symmetry needs no assumption on the outputs."
  },
  {
   "property": "C06",
   "status": "proved",
   "theorems": [
    "Quark.Float.C06_symmetric",
    "Quark.Float.C06_same_decimal_value",
    "Quark.Float.C06_reflexive",
    "Quark.Float.C06_monotone"
   ],
   "note": "About binary64 round-to-nearest-even arithmetic modelled over the rationals."
  },
  {
   "property": "C07",
   "status": "proved",
   "theorems": [
    "Quark.Float.C07_unparseable",
    "Quark.Float.C07_characterization",
    "Quark.Float.C07_within_tolerance_accepted",
    "Quark.Float.C07_negative_tolerance_is_equality",
    "Quark.Float.C07_sound_up_to_rounding",
    "Quark.Float.C07_decimal",
    "Quark.Float.C07_round_to_nearest",
    "Quark.Float.C07_overflow"
   ],
   "note": "Acceptance characterized exactly, with explicit rounding slack; the rounding itself is proved to be round-to-nearest, ties to even."
  },
  {
   "property": "C08",
   "status": "partial",
   "theorems": [
    "Quark.Validator.C08_unknown_validator_partial",
    "Quark.Validator.C08_empty_outputs_accepted"
   ],
   "note": "Error reported whenever both outputs have a token; false for empty outputs (witness)."
  },
  {
   "property": "C09",
   "status": "proved",
   "theorems": [
    "Quark.MetaFile.C09_decision_table",
    "Quark.MetaFile.C09_known_verdict",
    "Quark.MetaFile.C09_ok_iff",
    "Quark.MetaFile.C09_garbage_status_is_success",
    "Quark.MetaFile.C09_signal_table",
    "Quark.MetaFile.C09_decimal"
   ],
   "note": "Every meta file, language and limit. Finding: a non-numeric status counts as 0, hence OK."
  },
  {
   "property": "C10",
   "status": "proved",
   "theorems": [
    "Quark.MetaFile.C10_memory"
   ],
   "note": "Every well-formed meta file under a positive limit."
  },
  {
   "property": "C100",
   "status": "partial",
   "theorems": [
    "Quark.Publish.C100_once_partial",
    "Quark.Publish.C100_whole_source_partial",
    "Quark.Publish.C100_twice",
    "Quark.Publish.C100_truncated"
   ],
   "note": "false: a /run/new/ racing with the loop queues the run twice, a kill during an upload leaves a truncated source that is graded; proved: the loop by itself queues each once, and answered submissions keep their whole source through every kill"
  },
  {
   "property": "C101",
   "status": "proved",
   "theorems": [
    "Quark.CIConfig.C101_tests",
    "Quark.CIConfig.C101_classified",
    "Quark.CIConfig.C104_each"
   ],
   "note": "Complete for the modelled tree; git lookups and JSON decoding are parameters."
  },
  {
   "property": "C102",
   "status": "partial",
   "theorems": [
    "Quark.CIConfig.C102_cases",
    "Quark.CIConfig.C102_groups_iff",
    "Quark.CIConfig.C102_limits_iff",
    "Quark.CIConfig.C102_validator",
    "Quark.CIConfig.C102_graded_partial",
    "Quark.CIConfig.C102_false"
   ],
   "note": "False of the code: limits are clamped, groups rebuilt from case names, weights normalised, validator limits dropped. Proved: exactly when groups, weights and limits are the problem's; what is kept of the validator. The interactive settings, made by libinteractive, are not compared."
  },
  {
   "property": "C103",
   "status": "partial",
   "theorems": [
    "Quark.CIConfig.C103_crash_iff_partial",
    "Quark.CIConfig.C103_false"
   ],
   "note": "False of the code; proved exactly when the grader crashes."
  },
  {
   "property": "C104",
   "status": "proved",
   "theorems": [
    "Quark.CIConfig.C104_each",
    "Quark.CIConfig.C104_same_input",
    "Quark.CIConfig.C104_same_cases"
   ],
   "note": "For all map orders, outcomes and failures."
  },
  {
   "property": "C105",
   "status": "partial",
   "theorems": [
    "Quark.CIConfig.C105_output",
    "Quark.CIConfig.C105_copies_iff",
    "Quark.CIConfig.C105_full_writes_partial",
    "Quark.CIConfig.C105_false"
   ],
   "note": "False of the program when a write is short; proved the exact output, exactly when it is the input, and that full writes suffice."
  },
  {
   "property": "C106",
   "status": "partial",
   "theorems": [
    "Quark.Archive.C106_exact",
    "Quark.Archive.C106_same_partial",
    "Quark.Archive.C106_accepts_iff",
    "Quark.Archive.C106_succeeds",
    "Quark.Archive.C106_loses_files"
   ],
   "note": "Proved: exactly what arrives (the tree up to the first unreadable subtree), equality with the tree when all subtrees can be read, exactly when the grader accepts, and that nothing else is in the way. Full claim false: C106_loses_files."
  },
  {
   "property": "C107",
   "status": "proved",
   "theorems": [
    "Quark.Archive.C107_sizes",
    "Quark.Archive.C107_verify"
   ],
   "note": "for trees with names that git allows; after a restart too"
  },
  {
   "property": "C108",
   "status": "partial",
   "theorems": [
    "Quark.Archive.C108_confined_partial",
    "Quark.Archive.C108_escapes"
   ],
   "note": "Proved for trees with names that git allows; C108_escapes proves that an entry named .. replaces another input's file."
  },
  {
   "property": "C109",
   "status": "proved",
   "theorems": [
    "Quark.Archive.C109_settings"
   ],
   "note": "given that json.Decoder reads what json.Unmarshal accepts in the same way, from zero settings"
  },
  {
   "property": "C11",
   "status": "proved",
   "theorems": [
    "Quark.MetaFile.C11_worse",
    "Quark.MetaFile.C11_semilattice",
    "Quark.MetaFile.C11_accumulate",
    "Quark.MetaFile.C11_order_irrelevant",
    "Quark.MetaFile.C11_panics_outside",
    "Quark.Grade.C11_run_verdict"
   ],
   "note": "worseVerdict modelled with its index panic; unknown strings do panic. C11_run_verdict is about whole graded runs."
  },
  {
   "property": "C110",
   "status": "proved",
   "theorems": [
    "Quark.Delivery.C110_progress",
    "Quark.Delivery.C110_ends",
    "Quark.Delivery.C110_once"
   ],
   "note": "network operations are assumed to end in one way or another"
  },
  {
   "property": "C111",
   "status": "proved",
   "theorems": [
    "Quark.Delivery.C111_body",
    "Quark.Delivery.C111_sending",
    "Quark.Delivery.C111_gap_afterwards"
   ],
   "note": "after an early answer the bytes still sent may have gaps (shown), hence the formulation"
  },
  {
   "property": "C112",
   "status": "proved",
   "theorems": [
    "Quark.Delivery.C112_parts",
    "Quark.Delivery.C112_unencodable",
    "Quark.Delivery.C112_recorded",
    "Quark.Delivery.C112_cut"
   ],
   "note": "the upload is for the attempt in flight and the grader's disk works"
  },
  {
   "property": "C113",
   "status": "partial",
   "theorems": [
    "Quark.Status.C113_gauge",
    "Quark.Status.C113_in_time_partial",
    "Quark.Status.C113_delivered",
    "Quark.Status.C113_negative"
   ],
   "note": "False for runs added before the listener is registered (C113_negative); proved: the exact value for every moment of registration, and the full claim when it is registered before the first run."
  },
  {
   "property": "C114",
   "status": "partial",
   "theorems": [
    "Quark.Status.C114_running_partial",
    "Quark.Status.C114_queued",
    "Quark.Status.C114_not_a_snapshot"
   ],
   "note": "Each of the two numbers is proved exact at the moment it is read; that both refer to one moment is false (witnesses)."
  },
  {
   "property": "C115",
   "status": "proved",
   "theorems": [
    "Quark.Preload.C115_kept",
    "Quark.Preload.C115_exact",
    "Quark.Preload.C115_verified",
    "Quark.Preload.C115_frame"
   ],
   "note": "Runner and grader, any contents, listing order and evictions; for the runner assumes that inputs that verify have names without a dot."
  },
  {
   "property": "C116",
   "status": "partial",
   "theorems": [
    "Quark.Preload.C116_runner_partial",
    "Quark.Preload.C116_stays",
    "Quark.Preload.C116_grader_false",
    "Quark.Preload.C116_runner_false"
   ],
   "note": "True of the runner's directories. False of the grader's temporary archives, hashes and lengths and of the runner's hash lists: proved that they stay."
  },
  {
   "property": "C117",
   "status": "partial",
   "theorems": [
    "Quark.Preload.Race.C117_runner_partial",
    "Quark.Preload.Race.C117_grader_partial",
    "Quark.Preload.Race.C117_grader_false",
    "Quark.Preload.Race.C117_sticks"
   ],
   "note": "Full for the runner; for the grader false (witness), true of executions in which no removal hits an input cached since."
  },
  {
   "property": "C118",
   "status": "proved",
   "theorems": [
    "Quark.Trigger.C118_exact",
    "Quark.Trigger.C118_top",
    "Quark.Trigger.C118_grader",
    "Quark.Trigger.C118_transport",
    "Quark.Trigger.C118_grader_arrives",
    "Quark.Trigger.C118_quiet",
    "Quark.Trigger.C118_nested",
    "Quark.Trigger.C118_odd_key",
    "Quark.Trigger.C118_other_printers"
   ],
   "note": "exact characterisation for all JSON values; the exceptions named in the statement are shown by witnesses"
  },
  {
   "property": "C119",
   "status": "proved",
   "theorems": [
    "Quark.Pipeline.C119_in_order",
    "Quark.Pipeline.C119_received",
    "Quark.Pipeline.C119_refreshed"
   ],
   "note": ""
  },
  {
   "property": "C12",
   "status": "proved",
   "theorems": [
    "Quark.Grade.C12_score_bounds"
   ],
   "note": "All runs, including compile failures."
  },
  {
   "property": "C120",
   "status": "partial",
   "theorems": [
    "Quark.Pipeline.C120_frontend_stops_grader",
    "Quark.Pipeline.C120_bound_partial",
    "Quark.Pipeline.C120_bound_attained",
    "Quark.Pipeline.C120_progress_partial",
    "Quark.Pipeline.C120_bounded_partial",
    "Quark.Pipeline.C120_drains_partial"
   ],
   "note": "false of the code: witness; exact bound on what can be closed during the hang, and progress if requests end"
  },
  {
   "property": "C121",
   "status": "proved",
   "theorems": [
    "Quark.Config.C121_options",
    "Quark.Config.C121_unmentioned",
    "Quark.Config.C121_last",
    "Quark.Config.C121_other",
    "Quark.Config.C121_rejects",
    "Quark.Config.C121_rejects_plain",
    "Quark.Config.C121_defaults",
    "Quark.Config.C121_first",
    "Quark.Config.C121_empty"
   ],
   "note": "JSON documents as trees; the decoders of go-base's Duration and Byte are a parameter"
  },
  {
   "property": "C122",
   "status": "partial",
   "theorems": [
    "Quark.Session.C122_transport_partial",
    "Quark.Session.C122_parameters",
    "Quark.Session.C122_answers",
    "Quark.Session.C122_silent"
   ],
   "note": "false of the code both ways; exact criterion for the transport and the complete table of answers proved"
  },
  {
   "property": "C123",
   "status": "proved",
   "theorems": [
    "Quark.Session.C123_judged",
    "Quark.Session.C123_messages",
    "Quark.Session.C123_not_asked"
   ],
   "note": "what net/http makes of the client's request is given"
  },
  {
   "property": "C124",
   "status": "partial",
   "theorems": [
    "Quark.Session.C124_deauth_partial",
    "Quark.Session.C124_slash",
    "Quark.Session.C124_never_bad"
   ],
   "note": "false for names with a slash; exact otherwise"
  },
  {
   "property": "C125",
   "status": "partial",
   "theorems": [
    "Quark.Requests.C125_answer_partial",
    "Quark.Requests.C125_single_partial",
    "Quark.Requests.C125_blame",
    "Quark.Requests.C125_false_ok",
    "Quark.Requests.C125_false_error",
    "Quark.Requests.C125_false"
   ],
   "note": "False of the code: all /run/grade/ requests keep the result of injectRuns in one variable, so overlapping ones can get each other's answer; witnesses in both directions. Proved: the answer is right unless another rejudge request is served between storing the result and looking at it, and a wrong answer is always the result of another rejudge request."
  },
  {
   "property": "C126",
   "status": "proved",
   "theorems": [
    "Quark.Grade.C126_memory",
    "Quark.Grade.C126_time",
    "Quark.Grade.C126_case_le_run",
    "Quark.Grade.C126_nothing_used"
   ],
   "note": "Relative error 2^-53 per addition; times non-negative and finite."
  },
  {
   "property": "C127",
   "status": "partial",
   "theorems": [
    "Quark.Grade.C127_case",
    "Quark.Grade.C127_time",
    "Quark.Grade.C127_individual",
    "Quark.Grade.C127_memory_partial",
    "Quark.Grade.C127_memory_doubles"
   ],
   "note": "Memory is not the sum: exact bounds and a witness for every number of processes; all else proved."
  },
  {
   "property": "C128",
   "status": "partial",
   "theorems": [
    "Quark.Grade.C128_failure_partial",
    "Quark.Grade.C128_not_the_verdicts"
   ],
   "note": "Exact for at most one failing process; with several it depends on the arrival order (witness)."
  },
  {
   "property": "C129",
   "status": "proved",
   "theorems": [
    "Quark.Literal.C129_accepted_iff",
    "Quark.Literal.C129_main_file",
    "Quark.Literal.C129_validator",
    "Quark.Literal.C129_validator_limits"
   ],
   "note": "encoding of the settings assumed to succeed"
  },
  {
   "property": "C13",
   "status": "proved",
   "theorems": [
    "Quark.Grade.C13_max_scores_partition",
    "Quark.Grade.C13_shape"
   ],
   "note": "All runs that reach execution."
  },
  {
   "property": "C130",
   "status": "proved",
   "theorems": [
    "Quark.MetaFile.C130_fields",
    "Quark.MetaFile.C130_whole_number",
    "Quark.MetaFile.C130_not_a_number",
    "Quark.MetaFile.C130_seconds"
   ],
   "note": ""
  },
  {
   "property": "C131",
   "status": "proved",
   "theorems": [
    "Quark.Settings.C131_settings_arrive",
    "Quark.Settings.C131_writable_iff"
   ],
   "note": "Duration, Byte and the interactive part are external codecs"
  },
  {
   "property": "C132",
   "status": "proved",
   "theorems": [
    "Quark.Settings.C132_shares",
    "Quark.Settings.C132_literal_shares",
    "Quark.Settings.C132_small_share_may_vanish"
   ],
   "note": "FloatToRational by its documented contract (within 1e-6)"
  },
  {
   "property": "C133",
   "status": "proved",
   "theorems": [
    "Quark.Settings.C133_no_weight_iff_null",
    "Quark.Settings.C133_default_in_settings",
    "Quark.Settings.C133_default_in_literal",
    "Quark.Settings.C133_grade_crashes_iff",
    "Quark.Settings.C133_written_settings_are_safe"
   ],
   "note": ""
  },
  {
   "property": "C134",
   "status": "proved",
   "theorems": [
    "Quark.Grade.C134_only_ratios_matter",
    "Quark.Grade.C134_max_score_is_a_unit"
   ],
   "note": ""
  },
  {
   "property": "C135",
   "status": "proved",
   "theorems": [
    "Quark.Grade.C135_score_formula",
    "Quark.Grade.C135_better_never_scores_less"
   ],
   "note": "output files openable, positive total weight"
  },
  {
   "property": "C136",
   "status": "partial",
   "theorems": [
    "Quark.CI.C136_progress",
    "Quark.CI.C136_reports",
    "Quark.CI.C136_settled_stay_partial",
    "Quark.CI.C136_last",
    "Quark.CI.C136_running_shown",
    "Quark.CI.C136_settled_may_change"
   ],
   "note": "false of the code when the request cannot be saved after the run: a test seen as passed turns into an error (witness); everything else proved"
  },
  {
   "property": "C137",
   "status": "proved",
   "theorems": [
    "Quark.Sandbox.C137_directories_first",
    "Quark.Sandbox.C137_every_program"
   ],
   "note": "names of interfaces and files are ordinary file names, main is called Main"
  },
  {
   "property": "C138",
   "status": "proved",
   "theorems": [
    "Quark.Wire.C138_run_accepted",
    "Quark.Wire.C138_run_extra",
    "Quark.Wire.C138_run_order",
    "Quark.Wire.C138_run_missing",
    "Quark.Wire.C138_result_extra",
    "Quark.Wire.C138_result_order",
    "Quark.Wire.C138_result_null",
    "Quark.Wire.C138_result_missing",
    "Quark.Wire.C138_parts_extra",
    "Quark.Wire.C138_text",
    "Quark.Wire.C138_half_pair"
   ],
   "note": "JSON texts are syntax trees; names folded as encoding/json does"
  },
  {
   "property": "C139",
   "status": "proved",
   "theorems": [
    "Quark.EndToEnd.C139_recorded",
    "Quark.EndToEnd.C139_full_marks",
    "Quark.EndToEnd.C139_fair"
   ],
   "note": "Composition of C131, C82, C12-C16/C135, C83, C95 and C96; hypothesis: base.FloatToRational within 1e-6 (its contract; for the exact part: exact on 1 and the points; for fairness: monotone with 0 at 0), weights and points at most 10^6, files openable (see C14/C15)."
  },
  {
   "property": "C14",
   "status": "partial",
   "theorems": [
    "Quark.Grade.C14_group_all_or_nothing",
    "Quark.Grade.C14_zero_case_partial",
    "Quark.Grade.C14_unopenable_counts"
   ],
   "note": "Exact group scores in terms of case verdicts for all runs; the claim about zero-score cases needs openable files and is false otherwise (witness)."
  },
  {
   "property": "C140",
   "status": "proved",
   "theorems": [
    "Quark.TraceFile.C140_trace_file",
    "Quark.TraceFile.C140_in_order",
    "Quark.TraceFile.C140_append_only",
    "Quark.TraceFile.C140_pieces",
    "Quark.TraceFile.C140_strings_have_no_newline",
    "Quark.TraceFile.C140_failure_tears",
    "Quark.TraceFile.C140_reopened_has_second_header"
   ],
   "note": "All schedules; what is in the file when writes fail is described exactly by C140_pieces. Rotation (base.NewRotatingFile) is not modelled."
  },
  {
   "property": "C141",
   "status": "proved",
   "theorems": [
    "Quark.Logs.C141_kept",
    "Quark.Logs.C141_told_apart",
    "Quark.Logs.C141_forged"
   ],
   "note": "The buffer is assumed to be used by one goroutine at a time (bytes.Buffer has no lock and the code does not provide one)."
  },
  {
   "property": "C142",
   "status": "proved",
   "theorems": [
    "Quark.IoLock.C142_serial",
    "Quark.IoLock.C142_no_overlap",
    "Quark.IoLock.C142_no_deadlock",
    "Quark.IoLock.C142_ends"
   ],
   "note": "every interleaving of the three goroutines simulates a serial order of whole jobs; no deadlock"
  },
  {
   "property": "C143",
   "status": "proved",
   "theorems": [
    "Quark.Queue.C143_bounded_wait",
    "Quark.Queue.C143_no_inversion"
   ],
   "note": "bound attained by an example; liveness (that a consumer comes) is assumed"
  },
  {
   "property": "C144",
   "status": "partial",
   "theorems": [
    "Quark.ErrorFile.C144_out_of_memory_partial",
    "Quark.ErrorFile.C144_only_if",
    "Quark.ErrorFile.C144_other_languages",
    "Quark.ErrorFile.C144_false_long_line",
    "Quark.ErrorFile.C144_forged"
   ],
   "note": "false of the code when the text lies across a 4096-byte boundary of a long line (witness); proved for the first 4096 bytes of every line; the converse direction in full"
  },
  {
   "property": "C145",
   "status": "proved",
   "theorems": [
    "Quark.ErrorFile.C145_shown_iff",
    "Quark.ErrorFile.C145_text",
    "Quark.ErrorFile.C145_pascal_csharp"
   ],
   "note": "text compared with a separate description"
  },
  {
   "property": "C146",
   "status": "partial",
   "theorems": [
    "Quark.Pins.C146_count",
    "Quark.Pins.C146_input_stays",
    "Quark.Pins.C146_released_once",
    "Quark.Pins.C146_given_back_partial",
    "Quark.Pins.C146_false_directory",
    "Quark.Pins.forgotten_stays"
   ],
   "note": "Staying in the cache and releasing once hold for every history. Giving back is false of the code: when SetEphemeral fails (no directory), ephemeral.go:142-147 and ci.go:637-641 return without releasing the input, which then stays for ever (C146_false_directory); a /input/ request that reads another request's error forgets its reference too (C70). Assumes that go-base's LRU cache counts Get/Put and drops only entries with no references."
  },
  {
   "property": "C147",
   "status": "proved",
   "theorems": [
    "Quark.Grade.C147_order"
   ],
   "note": "Every run that compiles (C19 covers the others); sandbox verdicts as of C09."
  },
  {
   "property": "C148",
   "status": "proved",
   "theorems": [
    "Quark.Broadcast.C148_bounded",
    "Quark.Broadcast.C148_goes_on",
    "Quark.Broadcast.C148_no_more_than",
    "Quark.Broadcast.C148_drains"
   ],
   "note": "Positive ChannelLength as in C42."
  },
  {
   "property": "C149",
   "status": "proved",
   "theorems": [
    "Quark.Tool.C149_prints",
    "Quark.Tool.C149_tokens",
    "Quark.Tool.C149_same_score",
    "Quark.Tool.C149_literal_rounds"
   ],
   "note": "Command-line parsing left out. ParseRational (go-base) is assumed to read numbers of the form d.dd. C149_literal_rounds shows why the last part is said of token validators only: 0.996 is printed as 1.00."
  },
  {
   "property": "C15",
   "status": "partial",
   "theorems": [
    "Quark.Grade.C15_ac_iff_all_ac_partial",
    "Quark.Grade.C15_unopenable_is_accepted"
   ],
   "note": "Proved when all output files can be opened; false otherwise (witness): run is AC with score 1."
  },
  {
   "property": "C150",
   "status": "partial",
   "theorems": [
    "Quark.Tokenizer.C150_one_read_partial",
    "Quark.Tokenizer.C150_lines_partial",
    "Quark.Tokenizer.C150_same_line_partial",
    "Quark.Tokenizer.C150_columns_depend_on_reads",
    "Quark.Tokenizer.C01_positions_depend_on_reads"
   ],
   "note": "False of the code: positions depend on how the reads cut the stream (both witnesses). Proved: exact for every stream of at most 4096 bytes that arrives in one read; for every stream and every reads, the line is at most the true one and at least that of the token before, hence right unless the token is the first of its line. Columns have no such bound."
  },
  {
   "property": "C151",
   "status": "proved",
   "theorems": [
    "Quark.Settings.C151_problem",
    "Quark.Settings.C151_group",
    "Quark.Settings.C151_case",
    "Quark.Settings.C151_limits",
    "Quark.Settings.C151_validator",
    "Quark.Settings.C151_literal",
    "Quark.Settings.C151_null",
    "Quark.Settings.C151_unknown"
   ],
   "note": "For objects without repeated names; base.Duration, base.Byte and the interactive part are external codecs. The null theorem excludes the limits, whose null depends on the external codecs."
  },
  {
   "property": "C152",
   "status": "partial",
   "theorems": [
    "Quark.Oneshot.C152_printed",
    "Quark.Oneshot.C152_results_partial",
    "Quark.Oneshot.C152_hangs",
    "Quark.Oneshot.C152_only_copies",
    "Quark.Oneshot.C152_clean",
    "Quark.Oneshot.C152_interactive_never_ends"
   ],
   "note": "All parts are proved but 'and the program ends': with -results on an interactive problem the walk opens the named pipes that Grade leaves in the run directory, and never returns (witness C152_interactive_never_ends, exact condition C152_hangs)."
  },
  {
   "property": "C153",
   "status": "proved",
   "theorems": [
    "Quark.Wire.C153_written",
    "Quark.Wire.C153_one_line"
   ],
   "note": "About strings, as encoding/json writes them with HTML escaping (the default, which /repo never turns off); the rest of a JSON text is punctuation, numbers and names of fields."
  },
  {
   "property": "C154",
   "status": "partial",
   "theorems": [
    "Quark.Status.C154_counted_partial",
    "Quark.Status.C154_never_counted",
    "Quark.Status.C154_false"
   ],
   "note": "False of the code for six metrics, which are 0 for ever: retried and abandoned runs are counters but updated with GaugeAdd, which ignores names that are not gauges; the four queue lengths are never updated. Proved for all the others."
  },
  {
   "property": "C155",
   "status": "proved",
   "theorems": [
    "Quark.Benchmark.C155_results",
    "Quark.Benchmark.C155_stops",
    "Quark.Benchmark.C155_released",
    "Quark.Benchmark.C155_shown",
    "Quark.Benchmark.C155_verdict_ignored"
   ],
   "note": ""
  },
  {
   "property": "C156",
   "status": "proved",
   "theorems": [
    "Quark.Conversation.parts_in_order",
    "Quark.Conversation.said_only_when_so",
    "Quark.Conversation.files_as_they_were",
    "Quark.Conversation.verdict_is_the_runs",
    "Quark.Conversation.ends_soon",
    "Quark.Conversation.lost_results_never_end",
    "Quark.Conversation.hanging_up_changes_nothing",
    "Quark.Conversation.whole_verdict_sent"
   ],
   "note": "The handler of POST /ephemeral/run/new/ step by step, beside the runner's uploads, the closing of the run, disk failures and disconnection."
  },
  {
   "property": "C157",
   "status": "partial",
   "theorems": [
    "Quark.Conversation.token_works_partial",
    "Quark.Conversation.tokens_may_not_work",
    "Quark.Conversation.graded_unsaved",
    "Quark.Conversation.graded_uncommitted",
    "Quark.Conversation.late_upload_loses_results"
   ],
   "note": "False of the code: saving the request or adding the run to the cache may fail after everything was sent; proved for executions in which nothing fails on the disk and no upload begins after the run was closed."
  },
  {
   "property": "C158",
   "status": "partial",
   "theorems": [
    "Quark.Conversation.what_is_answered",
    "Quark.Conversation.refused_leaves_nothing",
    "Quark.Conversation.answered_partial",
    "Quark.Conversation.not_always_answered"
   ],
   "note": "False of the code: a request without input, or with a null case, makes the handler panic; everything else is proved."
  },
  {
   "property": "C159",
   "status": "partial",
   "theorems": [
    "Quark.Stop.signal_stops_false",
    "Quark.Stop.signal_stops_false_broadcaster",
    "Quark.Stop.waits_forever",
    "Quark.Stop.ready_signal",
    "Quark.Stop.early_signal",
    "Quark.Stop.exits_after_deadline_partial",
    "Quark.Stop.main_not_hindered"
   ],
   "note": "False of the code while the daemon starts (witness); a signal that comes when the daemon is ready leads to the end once the deadline passed, by main's own steps, which nothing hinders."
  },
  {
   "property": "C16",
   "status": "proved",
   "theorems": [
    "Quark.Grade.C16_score_is_sum_of_groups"
   ],
   "note": ""
  },
  {
   "property": "C160",
   "status": "partial",
   "theorems": [
    "Quark.Stop.all_answered_false",
    "Quark.Stop.all_answered_false_broadcaster",
    "Quark.Stop.no_request_dropped_partial",
    "Quark.Stop.accepts_iff",
    "Quark.Stop.answered_once"
   ],
   "note": "False of the code when the shared deadline is reached (witnesses for both daemons); holds otherwise."
  },
  {
   "property": "C161",
   "status": "proved",
   "theorems": [
    "Quark.Stop.ci_in_order",
    "Quark.Stop.ci_answered",
    "Quark.Stop.ci_kept_waiting",
    "Quark.Stop.ci_progress"
   ],
   "note": ""
  },
  {
   "property": "C162",
   "status": "partial",
   "theorems": [
    "Quark.Stop.accepted_is_run_false",
    "Quark.Stop.ci_run_not_interrupted_partial",
    "Quark.Stop.ci_stopped_for_good",
    "Quark.Stop.ci_blocked_for_good"
   ],
   "note": "The first half is false of the code (witness); the second holds unless the deadline is reached."
  },
  {
   "property": "C163",
   "status": "partial",
   "theorems": [
    "Quark.Sse.C163_prefix",
    "Quark.Sse.C163_arrived",
    "Quark.Sse.C163_complete",
    "Quark.Sse.C163_iff_partial",
    "Quark.Sse.C163_forged",
    "Quark.Sse.C163_false",
    "Quark.Sse.C163_update",
    "Quark.Sse.C163_updates"
   ],
   "note": "False of the code for messages with line ends (C163_false, C163_forged: any two events from one message). C163_iff_partial: a message arrives as it is exactly if it has none; C163_prefix/C163_arrived/C163_complete: for such messages everything holds at every cut; C163_update(s): the grader's own run updates are among them."
  },
  {
   "property": "C164",
   "status": "partial",
   "theorems": [
    "Quark.CompileAll.C164_run_iff",
    "Quark.CompileAll.C164_ce_iff_partial",
    "Quark.CompileAll.C164_system",
    "Quark.CompileAll.C164_listed",
    "Quark.CompileAll.C164_metadata",
    "Quark.CompileAll.C164_order",
    "Quark.CompileAll.C164_order_verdict",
    "Quark.CompileAll.C164_validator_blamed",
    "Quark.CompileAll.C164_false"
   ],
   "note": "False of the code: C164_false/C164_validator_blamed (the validator's compile error is the contestant's CE), C164_system (JE without the compiler's output when the sandbox fails), and an example where the order of interfaces decides. What the code does instead is characterised exactly for all submissions: C164_run_iff, C164_ce_iff_partial, C164_listed; order-independence holds while the system does not fail."
  },
  {
   "property": "C165",
   "status": "proved",
   "theorems": [
    "Quark.Access.C165_handled",
    "Quark.Access.C165_not_found",
    "Quark.Access.C165_moved",
    "Quark.Access.C165_public",
    "Quark.Access.C165_results",
    "Quark.Access.C165_one_port"
   ],
   "note": "net/http's ServeMux (Go 1.13) is modelled from its source; host names in patterns do not occur"
  },
  {
   "property": "C166",
   "status": "proved",
   "theorems": [
    "Quark.Access.C166_certificate",
    "Quark.Access.C166_admitted",
    "Quark.Access.C166_open",
    "Quark.Access.C166_debug",
    "Quark.Access.C166_name"
   ],
   "note": "TLS with RequireAndVerifyClientCert is a contract: the first certificate was issued by the configured one"
  },
  {
   "property": "C167",
   "status": "partial",
   "theorems": [
    "Quark.Access.C167_false",
    "Quark.Access.C167_exact_partial",
    "Quark.Access.C167_runner_partial",
    "Quark.Access.C167_distinct_partial",
    "Quark.Access.C167_sender_partial"
   ],
   "note": "false of the code (C167_false): unanchored expression, overflow, any sender; proved: the runner's own path, the exact meaning of every path, that the sender makes no difference"
  },
  {
   "property": "C168",
   "status": "proved",
   "theorems": [
    "Quark.Access.C168_exact",
    "Quark.Access.C168_wellformed",
    "Quark.Access.C168_other_names"
   ],
   "note": "the grader's URL has the path /"
  },
  {
   "property": "C169",
   "status": "partial",
   "theorems": [
    "Quark.CI.C169_stays_partial",
    "Quark.CI.C169_survives_restarts_partial",
    "Quark.CI.C169_carried_through",
    "Quark.CI.C169_skipped_lost",
    "Quark.CI.C169_false",
    "Quark.CI.C169_false_restart"
   ],
   "note": "False of the code (two witnesses, and in general every skipped report is lost at the next restart); proved that a settled report stays through all histories, and that the report of a run carried through survives all restarts unless evicted or refused by the cache."
  },
  {
   "property": "C17",
   "status": "partial",
   "theorems": [
    "Quark.Grade.C17_arrival_order_partial",
    "Quark.Grade.C17_time_two_processes",
    "Quark.Grade.C17_time_depends_on_order",
    "Quark.Grade.C17_memory_depends_on_order",
    "Quark.Grade.C17_verdict_rule"
   ],
   "note": "Verdict and wall time order independent; time only for at most two contestant processes (float addition; witness with 0.1, 0.2, 0.3 s); memory depends on order (witness)."
  },
  {
   "property": "C170",
   "status": "partial",
   "theorems": [
    "Quark.CI.C170_once_partial",
    "Quark.CI.C170_needed",
    "Quark.CI.C170_false",
    "Quark.CI.C170_false_each"
   ],
   "note": "False of the code (scan or eviction removing the stamp of an unfinished request); proved for every history without such a removal, and that each such removal lets a second request in."
  },
  {
   "property": "C171",
   "status": "partial",
   "theorems": [
    "Quark.Delivery.C171_result",
    "Quark.Delivery.C171_judge_error",
    "Quark.Delivery.C171_case",
    "Quark.Delivery.C171_innocent",
    "Quark.Delivery.C171_compile_error",
    "Quark.Delivery.C171_accepted_lost_partial"
   ],
   "note": "Exact characterisation of delivered judge and compile errors; the last sentence (a verdict found is delivered) is false of the code: when the output files cannot be packed after grading, the result is replaced by a judge error without points (witness)."
  },
  {
   "property": "C172",
   "status": "proved",
   "theorems": [
    "Quark.Lifecycle.C172_bounded",
    "Quark.Lifecycle.C172_never_stuck",
    "Quark.Lifecycle.C172_ends"
   ],
   "note": "for executions without races (Orderly), as the property says; with races see C24 and C66"
  },
  {
   "property": "C173",
   "status": "partial",
   "theorems": [
    "Quark.Grade.C173_maximum_scores",
    "Quark.Grade.C173_group_scores",
    "Quark.Grade.C173_run_score_partial",
    "Quark.Grade.C173_above_maximum",
    "Quark.Grade.C173_below_zero",
    "Quark.Grade.C173_zero_weights"
   ],
   "note": "False of the code for weights that are negative or all zero (three witnesses). Proved exactly for weights of any sign: maximum and contest scores of cases, scores of groups and of the run. For non-negative weights the bounds are C12, the sums C16."
  },
  {
   "property": "C174",
   "status": "partial",
   "theorems": [
    "Quark.ClockSync.C174_unique",
    "Quark.ClockSync.C174_trace",
    "Quark.ClockSync.C174_matched",
    "Quark.ClockSync.C174_file_partial",
    "Quark.ClockSync.C174_missing"
   ],
   "note": "Proved for all interleavings: distinct ids, exactly which events a trace holds, matching within the trace of the run. False of the file written when the run is closed, if the handler has not yet recorded its event (witness); exact condition in C174_file_partial."
  },
  {
   "property": "C175",
   "status": "proved",
   "theorems": [
    "Quark.Phases.C175_nested",
    "Quark.Phases.C175_executed",
    "Quark.Phases.C175_compile_error",
    "Quark.Phases.C175_no_input",
    "Quark.Phases.C175_no_stragglers",
    "Quark.Phases.C175_never_stuck",
    "Quark.Phases.C175_arrives"
   ],
   "note": "All interleavings of the goroutines of a case; Balanced is an independent inductive definition; C175_arrives composes with the encoding and decoding of traces (Tracing). A panicking runner is not modelled."
  },
  {
   "property": "C176",
   "status": "partial",
   "theorems": [
    "Quark.HashReader.C176_sum",
    "Quark.HashReader.C176_length_partial",
    "Quark.HashReader.C176_accepts_iff",
    "Quark.HashReader.C176_embedded",
    "Quark.HashReader.C176_length_false"
   ],
   "note": "The sum and the acceptance hold for all streams; the length is false of the code (witness), its exact value is proved."
  },
  {
   "property": "C177",
   "status": "partial",
   "theorems": [
    "Quark.Delays.C177_one_each",
    "Quark.Delays.C177_value_partial",
    "Quark.Delays.C177_cumulative",
    "Quark.Delays.C177_total",
    "Quark.Delays.C177_grading_counts",
    "Quark.Delays.C177_false",
    "Quark.Delays.C177_retry_counts_twice",
    "Quark.Delays.C177_not_noted"
   ],
   "note": "The number of values and the total are as stated for all executions. The values are not the time waited (C177_false): they are exactly the time since the first queueing, including grading (C177_value_partial, any duration in C177_grading_counts), retries contain the earlier attempts (C177_cumulative), and an unset QueueTime gives 292 years."
  },
  {
   "property": "C178",
   "status": "partial",
   "theorems": [
    "Quark.Pid.C178_numbers",
    "Quark.Pid.C178_roles",
    "Quark.Pid.C178_hosts_partial",
    "Quark.Pid.C178_one_byte_partial",
    "Quark.Pid.C178_false",
    "Quark.Pid.C178_no_hostname",
    "Quark.Pid.C178_one_thread",
    "Quark.Pid.C178_runner_told",
    "Quark.Pid.C178_grader_told",
    "Quark.Pid.C178_same_host"
   ],
   "note": "False in general: numbers of processes are 32-bit hashes and two host names can collide (C178_false). Proved: exactly when they collide, that grader and runner of one host do not, and that every event is preceded by the names of its process and thread."
  },
  {
   "property": "C179",
   "status": "proved",
   "theorems": [
    "Quark.Broadcast.C179_messages",
    "Quark.Broadcast.C179_drops",
    "Quark.Broadcast.C179_processed",
    "Quark.Broadcast.C179_dispatched",
    "Quark.Broadcast.C179_demo"
   ],
   "note": "The length of the latencies is not modelled, only that they are observed."
  },
  {
   "property": "C18",
   "status": "proved",
   "theorems": [
    "Quark.Grade.C18_wall_time_cut"
   ],
   "note": "Binary64 accumulation modelled; overflow to infinity is not."
  },
  {
   "property": "C180",
   "status": "proved",
   "theorems": [
    "Quark.Live.C180_stream",
    "Quark.Live.C180_complete",
    "Quark.Live.C180_private",
    "Quark.Live.C180_updates"
   ],
   "note": "Composition of the models of the broadcaster, the filters, SSETransport and the browser."
  },
  {
   "property": "C181",
   "status": "partial",
   "theorems": [
    "Quark.Sent.C181_judged_partial",
    "Quark.Sent.C181_arrives_partial",
    "Quark.Sent.C181_false",
    "Quark.Sent.C181_cases_partial"
   ],
   "note": "Proved for requests in which no case name and no custom validator's language has a slash: exactly the files of the request are on the runner, and an intact archive is always unpacked. False in general (C181_false): the cases a/b and a//b are both accepted and are unpacked to the same files, so one is judged with the other's data (and C73_false: names with .. leave the directory). C181_cases_partial: the settings' cases are exactly the request's, and the paths the judge opens for a case hold its input and output."
  },
  {
   "property": "C182",
   "status": "partial",
   "theorems": [
    "Quark.Fds.C182_false",
    "Quark.Fds.C182_false_accepts",
    "Quark.Fds.C182_enough_partial",
    "Quark.Fds.C182_limit_partial"
   ],
   "note": "False of this code: the files that are compared are closed only when Grade returns (defer in a loop). C182_false: for every number of descriptors there is a submission with all answers right that is reported as JE with score 0 and without files. C182_false_accepts: descriptors short while a wrong answer is compared and free later: accepted with full score. Proved: with two descriptors for each case and one more at any time the result is that of grading without a limit (and all files are sent with one more for each); for an accepted submission and a fixed limit, exactly when. Custom validators and descriptors of the sandbox's processes are not considered."
  },
  {
   "property": "C183",
   "status": "partial",
   "theorems": [
    "Quark.Sandbox.C183_nothing_left_partial",
    "Quark.Sandbox.C183_as_first_partial",
    "Quark.Sandbox.C183_depends_partial",
    "Quark.Sandbox.C183_killed_apart_partial",
    "Quark.Sandbox.C183_kills_partial",
    "Quark.Sandbox.C183_attempts_partial",
    "Quark.Sandbox.C183_killed_false"
   ],
   "note": "Proved for every history of a runner that is not killed, with the conditions of C92 (plain names, no clashing interface, placed files can be removed; PreserveFiles off): nothing is left, and every run is graded as if it were the first (same files until its directory is removed, same validator calls that can read the same). False of a runner that is killed (C183_killed_false): nothing removes the directory, so the source of the submission stays whatever is graded afterwards. C183_kills_partial, C183_attempts_partial: with any number of kills, every run is still graded as if it were the first, if its directory is not that of a killed run, that is if its attempt identifier is another one; C183_depends_partial: grading depends only on the files in the directory of the run and in its input. Missing: a run graded again in the directory that a kill left."
  },
  {
   "property": "C19",
   "status": "proved",
   "theorems": [
    "Quark.Grade.C19_compile_failure",
    "Quark.Grade.C19_no_ce_otherwise"
   ],
   "note": ""
  },
  {
   "property": "C20",
   "status": "proved",
   "theorems": [
    "Quark.Queue.C20_no_panic"
   ],
   "note": "Every interleaving of channel operations of any number of goroutines, every channel length."
  },
  {
   "property": "C21",
   "status": "proved",
   "theorems": [
    "Quark.Queue.C21_never_blocks",
    "Quark.Queue.C21_no_lost_wakeup"
   ],
   "note": ""
  },
  {
   "property": "C22",
   "status": "proved",
   "theorems": [
    "Quark.Queue.C22_fifo",
    "Quark.Queue.C22_calls"
   ],
   "note": ""
  },
  {
   "property": "C23",
   "status": "proved",
   "theorems": [
    "Quark.Queue.C23_highest_first",
    "Quark.Queue.C23_interference"
   ],
   "note": ""
  },
  {
   "property": "C24",
   "status": "partial",
   "theorems": [
    "Quark.Lifecycle.C24_retries_bounded_partial",
    "Quark.Lifecycle.C24_every_retry_has_a_cause",
    "Quark.Lifecycle.C24_single_attempt",
    "Quark.Lifecycle.C24_limit_iff",
    "Quark.Lifecycle.C24_race_unbounded",
    "Quark.Lifecycle.C24_race_exceeds_retries"
   ],
   "note": "Proved for executions in which every timeout/finished upload finds its attempt registered and nobody else requeuing or closing the run. Under all races: hand-outs beyond the first never exceed reported failures, and the limit holds in every execution if and only if it is at most 1; for every limit of 2 or more and every n a race hands a run out more than n times (lost updates of tries)."
  },
  {
   "property": "C25",
   "status": "partial",
   "theorems": [
    "Quark.Lifecycle.C25_resolves_to_owner",
    "Quark.Lifecycle.C25_stale_rejected_partial",
    "Quark.Lifecycle.C25_race_revives_attempt"
   ],
   "note": "Ownership and resolution proved under all interleavings; single use of identifiers and permanent rejection only without races; witness that a race revives an identifier."
  },
  {
   "property": "C26",
   "status": "proved",
   "theorems": [
    "Quark.Lifecycle.C26_finalized_once"
   ],
   "note": "All interleavings."
  },
  {
   "property": "C27",
   "status": "partial",
   "theorems": [
    "Quark.Lifecycle.C27_processed_partial",
    "Quark.Lifecycle.C27_abandoned_not_processed",
    "Quark.Lifecycle.C29_race_closed_and_queued"
   ],
   "note": "The English claim is false for abandoned runs (witness); proved for uploaded results without races."
  },
  {
   "property": "C28",
   "status": "proved",
   "theorems": [
    "Quark.Lifecycle.C28_gauge"
   ],
   "note": "All interleavings; a run in the middle of Close still counts until its event is sent."
  },
  {
   "property": "C29",
   "status": "partial",
   "theorems": [
    "Quark.Lifecycle.C29_one_place_partial",
    "Quark.Lifecycle.C29_race_closed_and_queued"
   ],
   "note": "Proved without races; witness of a closed run in the queue."
  },
  {
   "property": "C30",
   "status": "partial",
   "theorems": [
    "Quark.Watchdog.C30_lives",
    "Quark.Watchdog.C30_causes",
    "Quark.Watchdog.C30_wakes",
    "Quark.Watchdog.C30_terminates_partial",
    "Quark.Watchdog.C30_stuck_after_timeout"
   ],
   "note": "Notification part proved; termination proved only without a timeout and refuted after one (deferred timer drain blocks forever)."
  },
  {
   "property": "C31",
   "status": "proved",
   "theorems": [
    "Quark.Ephemeral.C31_accounting",
    "Quark.Ephemeral.C31_after_add"
   ],
   "note": "all histories, all removal failures; int64 overflow excluded"
  },
  {
   "property": "C32",
   "status": "proved",
   "theorems": [
    "Quark.Ephemeral.C32_suffix",
    "Quark.Ephemeral.C32_minimal",
    "Quark.Ephemeral.C32_succeeds"
   ],
   "note": "Initialize's order is the directory's, so after a restart 'oldest' means oldest in that order"
  },
  {
   "property": "C33",
   "status": "partial",
   "theorems": [
    "Quark.Ephemeral.C33_get_partial",
    "Quark.Ephemeral.C33_token_partial",
    "Quark.Ephemeral.C33_served_partial",
    "Quark.Ephemeral.C33_only_adds",
    "Quark.Ephemeral.C33_evicted",
    "Quark.Ephemeral.C33_broken_by_startup"
   ],
   "note": "holds when Initialize reads the directory before the first ephemeral run is accepted; false without it (witness)"
  },
  {
   "property": "C34",
   "status": "proved",
   "theorems": [
    "Quark.Inputs.C34_success",
    "Quark.Inputs.C34_failure",
    "Quark.Inputs.C34_cached"
   ],
   "note": "Histories of Add and eviction over any inputs. The LRU cache library is not in /repo: taken to call the loader once per miss and store only successes."
  },
  {
   "property": "C35",
   "status": "proved",
   "theorems": [
    "Quark.Persist.C35_crash_safe",
    "Quark.Persist.C35_accepted"
   ],
   "note": "kills and errors at every operation, torn writes, any number of lives; power loss and failing removals not modelled"
  },
  {
   "property": "C36",
   "status": "proved",
   "theorems": [
    "Quark.Persist.C36_crash_safe",
    "Quark.Persist.C36_accepted",
    "Quark.Persist.C36_damage"
   ],
   "note": "kills and errors at every operation, torn writes and removals; names taken as clean"
  },
  {
   "property": "C37",
   "status": "partial",
   "theorems": [
    "Quark.Persist.C37_crash_safe",
    "Quark.Persist.C37_accepted",
    "Quark.Persist.C37_report_partial",
    "Quark.Persist.C37_swallowed"
   ],
   "note": "crash half proved; the reporting half is false (write errors reported as success)"
  },
  {
   "property": "C38",
   "status": "partial",
   "theorems": [
    "Quark.Inputs.C38_sum",
    "Quark.Inputs.C38_prefix",
    "Quark.Inputs.C38_length_partial",
    "Quark.Inputs.C38_length_after_sum"
   ],
   "note": "Sum covers the whole stream however it was read; Length is right until Sum, and C38_length_after_sum proves that Sum counts every byte it drains twice."
  },
  {
   "property": "C39",
   "status": "partial",
   "theorems": [
    "Quark.Files.C39_verify_partial",
    "Quark.Files.C39_sibling_accepted",
    "Quark.Files.C39_unpack_partial",
    "Quark.Files.C39_unpack_escapes"
   ],
   "note": "proved: verification stays in the shard directory in entries that extend the input's name; unpacking is confined for members without '..'. Full claim false (two witnesses)"
  },
  {
   "property": "C40",
   "status": "partial",
   "theorems": [
    "Quark.Filter.C40_exact",
    "Quark.Filter.C40_entitled_partial",
    "Quark.Filter.C40_broken",
    "Quark.Filter.C40_validated"
   ],
   "note": "Exact characterisation of what each subscriber receives; entitlement holds except for anonymous subscribers and messages without a user, where C40_broken proves it false. The frontend's validation of filters and tokens is outside."
  },
  {
   "property": "C41",
   "status": "partial",
   "theorems": [
    "Quark.Filter.C41_accepts",
    "Quark.Filter.C41_panics_partial",
    "Quark.Filter.C41_round_trip",
    "Quark.Filter.C41_string_rejected",
    "Quark.Filter.C41_numbers",
    "Quark.Filter.C41_subscription"
   ],
   "note": "Everything proved for all strings; partial because the claim that parsing never panics is false for exactly one string, /problemset (C41_panics_partial)."
  },
  {
   "property": "C42",
   "status": "proved",
   "theorems": [
    "Quark.Broadcast.C42_order",
    "Quark.Broadcast.C42_live",
    "Quark.Broadcast.C42_removed",
    "Quark.Broadcast.C42_overflow"
   ],
   "note": "All histories, iteration orders and interleavings with readers; channel length positive (unbuffered channels not modelled)."
  },
  {
   "property": "C43",
   "status": "proved",
   "theorems": [
    "Quark.Broadcast.C43_no_panic",
    "Quark.Broadcast.C43_removed_for_good"
   ],
   "note": "For handlers as in main.go, which subscribe each subscriber object once."
  },
  {
   "property": "C44",
   "status": "proved",
   "theorems": [
    "Quark.Broadcast.C44_registered",
    "Quark.Broadcast.C44_deauthenticated",
    "Quark.Broadcast.C44_others",
    "Quark.Broadcast.C44_overtaken"
   ],
   "note": "Processed deauthentications take effect; C44_overtaken shows the stated caveat about requests that overtake each other."
  },
  {
   "property": "C45",
   "status": "proved",
   "theorems": [
    "Quark.Broadcast.C45_gauges"
   ],
   "note": ""
  },
  {
   "property": "C46",
   "status": "proved",
   "theorems": [
    "Quark.Scoreboard.C46_not_lost",
    "Quark.Scoreboard.C46_expiry",
    "Quark.Scoreboard.C46_goes_on",
    "Quark.Scoreboard.C46_one_window",
    "Quark.Scoreboard.C46_rate"
   ],
   "note": "Any arrival sequence, any timer delays. container/heap is taken to return a least element; a refresh that the frontend refuses counts as issued; infinity (292 years) never fires."
  },
  {
   "property": "C47",
   "status": "partial",
   "theorems": [
    "Quark.Transport.C47_websocket",
    "Quark.Transport.C47_sse_partial",
    "Quark.Transport.C47_sse_panic",
    "Quark.Transport.C47_sse_http2"
   ],
   "note": "Proved for WebSockets; false for SSE (C47_sse_panic, C47_sse_http2), where it holds unless the broadcaster closes the subscriber."
  },
  {
   "property": "C48",
   "status": "proved",
   "theorems": [
    "Quark.CI.C48_roundtrip",
    "Quark.CI.C48_injective",
    "Quark.CI.C48_encoding",
    "Quark.CI.C48_decoding"
   ],
   "note": "All six states; integers outside them encode as failed and every text outside the table decodes to failed."
  },
  {
   "property": "C49",
   "status": "proved",
   "theorems": [
    "Quark.CI.C49_final_state",
    "Quark.CI.C49_order_irrelevant",
    "Quark.CI.C49_test_states"
   ],
   "note": "The result of each test's run is arbitrary."
  },
  {
   "property": "C50",
   "status": "proved",
   "theorems": [
    "Quark.CI.C50_pass_iff"
   ],
   "note": "All settings and results."
  },
  {
   "property": "C51",
   "status": "partial",
   "theorems": [
    "Quark.CI.C51_unfinished_do_not_survive_partial",
    "Quark.CI.C51_scan_outcome",
    "Quark.CI.C51_false",
    "Quark.CI.C51_false_each",
    "Quark.CI.C51_failed_first_write"
   ],
   "note": "The full claim is false of the code (C51_false, with four independent histories in C51_false_each): a kill inside the scan's own RemoveAll, a failed last write, a request racing with the start-up scan, a second request creating its stamp after the first run finished. Proved for every history without these four hazards, any number of kills included."
  },
  {
   "property": "C52",
   "status": "proved",
   "theorems": [
    "Quark.Literal.C52_canonical",
    "Quark.Literal.C52_archive"
   ],
   "note": "All iteration orders of all five loops over maps and all outcomes of unstable sorts. JSON, tar, gzip and SHA-1 and libinteractive are deterministic functions the model does not look into."
  },
  {
   "property": "C53",
   "status": "proved",
   "theorems": [
    "Quark.Literal.C53_cases",
    "Quark.Literal.C53_group_determined",
    "Quark.Literal.C53_accepted_iff",
    "Quark.Literal.C53_nil_panics"
   ],
   "note": "A nil case or weight crashes instead of being rejected (C53_nil_panics)."
  },
  {
   "property": "C54",
   "status": "proved",
   "theorems": [
    "Quark.Literal.C54_limits_clamped",
    "Quark.Literal.C54_validator_limits_ignored"
   ],
   "note": "Finding: limits requested for a custom validator are never used."
  },
  {
   "property": "C55",
   "status": "partial",
   "theorems": [
    "Quark.Requests.C55_caps_partial",
    "Quark.Requests.C55_no_limits",
    "Quark.Requests.C55_exact",
    "Quark.Requests.C55_false",
    "Quark.Requests.C55_ci_uncapped",
    "Quark.Requests.C55_default_caps"
   ],
   "note": "Proved when the request gives limits; requests without limits are uncapped (C55_false for the default configuration; C55_exact gives the exact condition on the configuration under which C55 holds in full). CI runs are never capped."
  },
  {
   "property": "C56",
   "status": "proved",
   "theorems": [
    "Quark.RunnerLoop.C56_stream",
    "Quark.RunnerLoop.C56_complete",
    "Quark.RunnerLoop.C56_read",
    "Quark.RunnerLoop.C56_total",
    "Quark.RunnerLoop.C56_error_repeats"
   ],
   "note": "For all write sizes, read sizes and short writes. After a destination that takes bytes and fails at once, a consumer that goes on receives those bytes again (C56_error_repeats)."
  },
  {
   "property": "C57",
   "status": "proved",
   "theorems": [
    "Quark.Files.C57_gradeDir",
    "Quark.Files.C57_not_nested",
    "Quark.Files.C57_resource",
    "Quark.Files.C57_where",
    "Quark.Files.C57_which"
   ],
   "note": "all int64 run ids of either sign, all file names"
  },
  {
   "property": "C58",
   "status": "proved",
   "theorems": [
    "Quark.RunnerLoop.C58_ceiling",
    "Quark.RunnerLoop.C58_bounds",
    "Quark.RunnerLoop.C58_sleep"
   ],
   "note": "The ceiling as a function of the whole history. The actual sleep is truncated to whole seconds (none after the first error)."
  },
  {
   "property": "C59",
   "status": "proved",
   "theorems": [
    "Quark.Hub.C59_later_events",
    "Quark.Hub.C59_order",
    "Quark.Hub.C59_drains",
    "Quark.Hub.C59_panics",
    "Quark.Hub.C59_too_late",
    "Quark.Hub.C59_registered_twice",
    "Quark.Hub.C59_slow_listener"
   ],
   "note": "For every interleaving of any number of callers, the goroutine and the channel owners, with no channel registered twice; C59_drains shows that everything is delivered if channels have room, C59_panics exactly what panics. Limits shown as theorems: a registration after Close never returns; a channel registered twice crashes Close; one listener that does not read blocks all."
  },
  {
   "property": "C60",
   "status": "partial",
   "theorems": [
    "Quark.Hub.C60_get_partial",
    "Quark.Hub.C60_add_replaces",
    "Quark.Hub.C60_documented_false"
   ],
   "note": "Get succeeds iff the name was added and returns what the last Add of that name returned (proved for all histories). The documented 'or fetches a previously created queue' is false for every name in use: proved."
  },
  {
   "property": "C61",
   "status": "proved",
   "theorems": [
    "Quark.OutputOnly.C61_archive",
    "Quark.OutputOnly.C61_cover",
    "Quark.OutputOnly.C61_only_expected",
    "Quark.OutputOnly.C61_slash",
    "Quark.OutputOnly.C61_unreadable",
    "Quark.OutputOnly.C61_nothing_executed",
    "Quark.OutputOnly.C61_plain",
    "Quark.OutputOnly.C61_plain_unlimited",
    "Quark.OutputOnly.C61_negative_limit"
   ],
   "note": "For every archive, problem and output limit in [0, 2^63), through the model of Grade. Also shown: plain text (not an archive) is taken for the case Main with no limit; a negative limit is no limit."
  },
  {
   "property": "C62",
   "status": "partial",
   "theorems": [
    "Quark.Tracing.C62_finalize_once",
    "Quark.Tracing.C62_finalize_effect",
    "Quark.Tracing.C62_multi",
    "Quark.Tracing.C62_order",
    "Quark.Tracing.C62_append_only",
    "Quark.Tracing.C62_round_trip_partial",
    "Quark.Tracing.C62_trace_partial",
    "Quark.Tracing.C62_decoded_is_final",
    "Quark.Tracing.C62_decode_panics",
    "Quark.Tracing.C62_own_trace_can_crash",
    "Quark.Tracing.C62_attempt_id_lost",
    "Quark.Tracing.C62_transmission_false"
   ],
   "note": "Order and finalization proved in full. Transmission proved for every event the constructors make whose integers are at most 2^53; proved false beyond: the 63-bit attempt id in the runner's own 'grade' event is rounded to a float64."
  },
  {
   "property": "C63",
   "status": "proved",
   "theorems": [
    "Quark.Noop.C63_noop_ac",
    "Quark.Noop.C63_points"
   ],
   "note": "For every result; also that names, maxima and measurements are untouched."
  },
  {
   "property": "C64",
   "status": "proved",
   "theorems": [
    "Quark.ScoreRange.C64_accepted_iff"
   ],
   "note": "Numbers are the rationals FloatToRational delivers."
  },
  {
   "property": "C65",
   "status": "proved",
   "theorems": [
    "Quark.Requests.C65_priority",
    "Quark.Requests.C65_grade"
   ],
   "note": "For every history and interleaving of new, rejudge, pending, ephemeral and CI requests. What the SQL query and the git lookup answer is an arbitrary part of the request. What the answer to a rejudge request says is C125."
  },
  {
   "property": "C66",
   "status": "partial",
   "theorems": [
    "Quark.Lifecycle.C66_no_crash_partial",
    "Quark.Lifecycle.C66_race_crashes_grader"
   ],
   "note": "False of the code: witness execution crashes the grader; proved without races."
  },
  {
   "property": "C67",
   "status": "proved",
   "theorems": [
    "Quark.Lifecycle.C67_not_forgotten",
    "Quark.Lifecycle.C67_can_move"
   ],
   "note": "Proved under all interleavings while the grader is up."
  },
  {
   "property": "C68",
   "status": "proved",
   "theorems": [
    "Quark.Files.C68_source",
    "Quark.Files.C68_inputs",
    "Quark.Files.C68_ci",
    "Quark.Files.C68_where",
    "Quark.Files.C68_which"
   ],
   "note": ""
  },
  {
   "property": "C69",
   "status": "partial",
   "theorems": [
    "Quark.Files.C69_upload_partial",
    "Quark.Files.C69_upload_escapes"
   ],
   "note": "true for names reduced by filepath.Base (newer Go), false for raw names"
  },
  {
   "property": "C70",
   "status": "partial",
   "theorems": [
    "Quark.Inputs.C70_sequential_partial",
    "Quark.Inputs.C70_uniform_partial",
    "Quark.Inputs.C70_exact",
    "Quark.Inputs.C70_undisturbed_partial",
    "Quark.Inputs.C70_wrong_answer",
    "Quark.Inputs.C70_panic"
   ],
   "note": "The exact answer, and whether the reference leaks, of every request in every interleaving (C70_exact): it is decided by the last lookup of any request before the answer. So the property holds for requests served one after the other, when all lookups agree, and for each request that no lookup with the other result disturbs. False otherwise: the handlers share one error variable; witnesses for a wrong 404 that leaks its reference and for a nil dereference."
  },
  {
   "property": "C71",
   "status": "partial",
   "theorems": [
    "Quark.Broadcast.C71_unregistered_partial",
    "Quark.Broadcast.C71_leak",
    "Quark.Broadcast.C71_dropped",
    "Quark.Broadcast.C71_causes"
   ],
   "note": "C71_leak and C71_dropped prove the full claim false; true if the unsubscription is processed after the subscription; C71_causes: these two are the only ways (dropped because the queue was full, or overtaken)"
  },
  {
   "property": "C72",
   "status": "proved",
   "theorems": [
    "Quark.Literal.C72_rebuild"
   ],
   "note": ""
  },
  {
   "property": "C73",
   "status": "partial",
   "theorems": [
    "Quark.Literal.C73_names_confined_partial",
    "Quark.Literal.C73_false"
   ],
   "note": "False in general (C73_false): case names such as ../../x are accepted. Proved when case names and the custom validator's language have no slash."
  },
  {
   "property": "C74",
   "status": "partial",
   "theorems": [
    "Quark.Requests.C74_once",
    "Quark.Requests.C74_reply_partial",
    "Quark.Requests.C74_conflict",
    "Quark.Requests.C74_truncated",
    "Quark.Requests.C74_race",
    "Quark.Requests.C74_stuck"
   ],
   "note": "At-most-once and the reply are proved for every interleaving; the source is a prefix of the body, all of it if no operation of the request failed. The full claim is false (C74_truncated, C74_race)."
  },
  {
   "property": "C75",
   "status": "partial",
   "theorems": [
    "Quark.Noop.C75_noop_groups_sum",
    "Quark.Noop.C75_noop_adds_up_partial",
    "Quark.Noop.C75_noop_false"
   ],
   "note": "Exact condition proved: holds iff the run is worth 0 or 1 points; the groups' points add up to the square of the maximum."
  },
  {
   "property": "C76",
   "status": "partial",
   "theorems": [
    "Quark.ScoreRange.C76_reprint_partial",
    "Quark.ScoreRange.C76_reprint_false"
   ],
   "note": "Re-accepted and within a millionth for every monotone printer that fixes multiples of a millionth; identity is false (one third)."
  },
  {
   "property": "C77",
   "status": "partial",
   "theorems": [
    "Quark.Upload.C77_result_partial",
    "Quark.Upload.C77_finishing_upload_partial",
    "Quark.Upload.C77_no_result_is_judge_error",
    "Quark.Upload.C77_rejected_result_recorded",
    "Quark.Upload.C77_result_and_files_of_different_attempts",
    "Quark.Upload.C77_result_with_half_of_other_files"
   ],
   "note": "False as stated (three witnesses); proved: exactly which received details.json is recorded after every history. Handlers of one run are sequential here; races are in Lifecycle."
  },
  {
   "property": "C78",
   "status": "proved",
   "theorems": [
    "Quark.Upload.C78_files",
    "Quark.Upload.C78_generated",
    "Quark.Upload.C78_stuck_file"
   ],
   "note": "Under the stated hypothesis that RemoveAll empties the directory (C78_stuck_file shows it is needed); file names flat (C69 treats names)."
  },
  {
   "property": "C79",
   "status": "proved",
   "theorems": [
    "Quark.Upload.C79_judged_by"
   ],
   "note": ""
  },
  {
   "property": "C80",
   "status": "proved",
   "theorems": [
    "Quark.Upload.C80_logs_and_traces",
    "Quark.Upload.C78_generated"
   ],
   "note": ""
  },
  {
   "property": "C81",
   "status": "proved",
   "theorems": [
    "Quark.Upload.C81_unknown_attempt",
    "Quark.Upload.C81_response",
    "Quark.Upload.C81_next"
   ],
   "note": ""
  },
  {
   "property": "C82",
   "status": "partial",
   "theorems": [
    "Quark.Wire.C82_run_arrives",
    "Quark.Wire.C82_run_identical_iff_partial",
    "Quark.Wire.C82_sendable",
    "Quark.Wire.C82_source_changed"
   ],
   "note": "False for sources that are not valid UTF-8 (witness); exact characterisation proved. Go's JSON string codec is modelled on bytes; that the parser inverts the printer on trees and numbers, and go-base's conversions, are contracts."
  },
  {
   "property": "C83",
   "status": "partial",
   "theorems": [
    "Quark.Wire.C83_result_arrives",
    "Quark.Wire.C83_result_identical_partial",
    "Quark.Wire.C83_map_last_wins",
    "Quark.Wire.C83_scores",
    "Quark.Wire.C83_scores_monotone",
    "Quark.Wire.C83_sendable",
    "Quark.Wire.C83_message_changed",
    "Quark.Wire.C83_null_result"
   ],
   "note": "False for texts that are not valid UTF-8 (witness); exact characterisation proved."
  },
  {
   "property": "C84",
   "status": "partial",
   "theorems": [
    "Quark.Sandbox.C84_limits_partial",
    "Quark.Sandbox.C84_java_extra_time"
   ],
   "note": "Java's extra second is false of the code (1000 ns)"
  },
  {
   "property": "C85",
   "status": "partial",
   "theorems": [
    "Quark.Sandbox.C85_contestant_view",
    "Quark.Sandbox.C85_input_invisible_partial",
    "Quark.Sandbox.C85_nothing_copied",
    "Quark.Sandbox.C85_interface_validator"
   ],
   "note": "proved for plain names without commas; false for an interface called validator (witness)"
  },
  {
   "property": "C86",
   "status": "partial",
   "theorems": [
    "Quark.Sandbox.C86_sources_in_directory_partial",
    "Quark.Sandbox.C86_refused_iff",
    "Quark.Sandbox.C86_sibling_accepted"
   ],
   "note": "proved for all jobs; false of Compile on its own (witness)"
  },
  {
   "property": "C87",
   "status": "partial",
   "theorems": [
    "Quark.Sandbox.C87_view_partial",
    "Quark.Sandbox.C87_stale"
   ],
   "note": "stale data.out for a case without expected output (witness); exact otherwise"
  },
  {
   "property": "C88",
   "status": "partial",
   "theorems": [
    "Quark.Sandbox.C88_exactly_partial",
    "Quark.Sandbox.C88_outputs_distinct_partial",
    "Quark.Sandbox.C88_case_compile",
    "Quark.Sandbox.C88_interface_validator"
   ],
   "note": "False for a case called compile or an interface called validator (witnesses). C88_exactly_partial: for plain names, exactly when all outputs go to files of their own."
  },
  {
   "property": "C89",
   "status": "partial",
   "theorems": [
    "Quark.Sandbox.C89_archive",
    "Quark.Sandbox.C89_names_distinct_partial",
    "Quark.Sandbox.C89_names_distinct_skipping_partial",
    "Quark.Sandbox.C89_names_output_only"
   ],
   "note": "Contents proved for all. Distinct names whenever the outputs share no file (C88, which says exactly when), also when cases are skipped or not validated; and for output-only submissions."
  },
  {
   "property": "C90",
   "status": "proved",
   "theorems": [
    "Quark.Sandbox.C90_children",
    "Quark.Sandbox.C90_parent",
    "Quark.Sandbox.C90_parent_dir"
   ],
   "note": "for distinct interfaces with plain names (Tidy)"
  },
  {
   "property": "C91",
   "status": "proved",
   "theorems": [
    "Quark.Sandbox.C91_debug",
    "Quark.Sandbox.C91_flags",
    "Quark.Sandbox.C91_validator",
    "Quark.Sandbox.C91_parent"
   ],
   "note": "languages other than Java for the validator's time (see C84)"
  },
  {
   "property": "C92",
   "status": "partial",
   "theorems": [
    "Quark.Sandbox.C92_input_unmodified_partial",
    "Quark.Sandbox.C92_setup_free",
    "Quark.Sandbox.C92_outputs_free",
    "Quark.Sandbox.C92_leftover",
    "Quark.Sandbox.C92_same_name",
    "Quark.Sandbox.C92_not_removed",
    "Quark.Sandbox.C92_failed_setup"
   ],
   "note": "false for left-over directories, clashing names and failing removal (witnesses)"
  },
  {
   "property": "C93",
   "status": "proved",
   "theorems": [
    "Quark.Sandbox.C93_pipes",
    "Quark.Sandbox.C93_parent_view",
    "Quark.Sandbox.C93_distinct",
    "Quark.Sandbox.C93_parent_input"
   ],
   "note": "All interactive problems whose main program is called Main (the code hard-codes that name when setting up)."
  },
  {
   "property": "C94",
   "status": "proved",
   "theorems": [
    "Quark.Sandbox.C94_contestant",
    "Quark.Sandbox.C94_parent",
    "Quark.Sandbox.C94_validator",
    "Quark.Sandbox.C94_validator_input"
   ],
   "note": "The language and target of each program are pinned in the statements; finding: the parent's target name depends on the contestant's language."
  },
  {
   "property": "C95",
   "status": "proved",
   "theorems": [
    "Quark.Publish.C95_recorded"
   ],
   "note": "for all sequences of finished runs and failing statements; contest score in C96_contest_score"
  },
  {
   "property": "C96",
   "status": "partial",
   "theorems": [
    "Quark.Publish.C96_contest_score",
    "Quark.Publish.C96_full_marks_lost",
    "Quark.Publish.C96_full_marks_partial"
   ],
   "note": "false: with partial_score 1 the score is compared with 1 instead of the problem's points; exact recorded value proved"
  },
  {
   "property": "C97",
   "status": "partial",
   "theorems": [
    "Quark.Publish.C97_announced_partial",
    "Quark.Publish.C97_score_disagrees"
   ],
   "note": "everything but the contest score agrees; exact condition when that agrees too is proved (iff); a withheld score is announced"
  },
  {
   "property": "C98",
   "status": "proved",
   "theorems": [
    "Quark.Publish.C98_private",
    "Quark.Publish.C98_submitter_told"
   ],
   "note": "for subscribers the frontend validated with a non-empty submitter; names with '/' or ',' excluded in the second"
  },
  {
   "property": "C99",
   "status": "proved",
   "theorems": [
    "Quark.Publish.C99_not_lost",
    "Quark.Publish.C99_all_recovered"
   ],
   "note": "over all interleavings of rows, requests, handler steps, results and kills; assumes the query for pending runs returns all of them (rows.Err is not checked by the code)"
  }
 ]
}