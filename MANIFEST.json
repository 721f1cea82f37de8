{"claims":[
{"property": "C01", "status": "proved", "theorems": ["Verif.Props.c01_failed_update_changes_nothing", "Verif.Props.c01_music_continues"], "note": ""},
{"property": "C02", "status": "partial", "theorems": ["Verif.Props.c02_table_mirrors_program_partial", "Verif.Props.c02_reorder_counterexample", "Verif.Props.c02_repeated_component_counterexample", "Verif.Props.c02_text_counterexample"], "note": "Proved for programs without repeated components in a chain, for edits that keep the relative order of kept components; the code violates the rest (negations proved on the real language)."},
{"property": "C03", "status": "partial", "theorems": ["Verif.Props.c03_kept_component_keeps_node_partial"], "note": "Same restriction as C02."},
{"property": "C04", "status": "proved", "theorems": ["Verif.Props.c04_no_leak_no_dangling"], "note": ""},
{"property": "C05", "status": "partial", "theorems": ["Verif.Props.c05_update_does_not_panic_partial", "Verif.Props.c05_texts_do_not_panic_partial", "Verif.Props.c05_repeated_component_panics", "Verif.Props.c05_text_panics_counterexample"], "note": "Proved for histories of programs without repeated components in a chain and without a user-defined ~input, generically and for texts whose components have a node that can be built (psynth: its pattern is a list of events between commas); the code panics otherwise (negations proved)."},
{"property": "C06", "status": "partial", "theorems": ["Verif.Props.c06_connections_exact_partial", "Verif.Props.c06_repeated_component_counterexample", "Verif.Props.c06_repeated_component_edges"], "note": "Same restriction as C02 (component distinctness); otherwise re-sending a program can lose a reference (negation proved)."},
{"property": "C07", "status": "proved", "theorems": ["Verif.Props.c07_rejects_exactly_unresolved"], "note": ""},
{"property": "C08", "status": "proved", "theorems": ["Verif.Props.c08_audible_chains"], "note": ""},
{"property": "C09", "status": "proved", "theorems": ["Verif.Props.c09_traversal_order", "Verif.Props.c09_block"], "note": ""},
{"property": "C10", "status": "proved", "theorems": ["Verif.Props.c10_feedback_terminates", "Verif.Props.c10_feedback_block"], "note": ""},
{"property": "C11", "status": "proved", "theorems": ["Verif.Props.c11_frozen", "Verif.Props.c11_noninterference"], "note": ""},
{"property": "C12", "status": "partial", "theorems": ["Verif.Props.c12_reset_is_new_partial", "Verif.Props.c12_reset_drops_input"], "note": "reset loses the built-in ~input chain (negation proved); everything else is as in a new engine."},
{"property": "C13", "status": "partial", "theorems": ["Verif.Props.c13_external_input_accepted_partial", "Verif.Props.c13_input_after_reset_panics", "Verif.Props.c13_redefined_input_panics"], "note": "False after reset (negation proved) and after programs that define ~input (negation proved); proved for all other histories."},
{"property": "C14", "status": "proved", "theorems": ["Verif.Props.c14_messages_reach_their_node"], "note": ""},
{"property": "C15", "status": "partial", "theorems": ["Verif.Props.c15_tempo_partial", "Verif.Props.c15_arrange_counterexample", "Verif.Props.c15_psampler_counterexample", "Verif.Props.c15_points_counterexample", "Verif.Props.c15_lpf_counterexample"], "note": "False for arrange, psampler, breakpoints and filter patterns, which ignore the message or keep places computed for the old tempo (negations proved). Proved for all other components, after any past of blocks and messages."},
{"property": "C16", "status": "partial", "theorems": ["Verif.Props.c16_resend_is_noop_partial", "Verif.Props.c16_resend_keeps_inputs_partial", "Verif.Props.c16_seq_sources_counterexample"], "note": "Proved for programs without repeated components whose components equal themselves; for inputs also without seq and pattern references. Re-sending a seq that mentions a chain twice reads the wrong source, re-sending a repeated component loses a reference (negations proved)."},
{"property": "C17", "status": "partial", "theorems": ["Verif.Props.c17_hash_order_partial", "Verif.Props.c17_error_counterexample"], "note": "Proved for programs without repeated components, for every reachable pair of engines that differ only in node numbers and table orders. Which of several errors is reported does depend on the order (proved)."},
{"property": "C18", "status": "partial", "theorems": ["Verif.Props.c18_delayn_mono_partial", "Verif.Props.c18_delayn_stereo_partial", "Verif.Props.c18_stereo_counterexample"], "note": "Proved for mono inputs and for the left channel of stereo inputs; the right channel of a stereo input is lost (negation proved)."},
{"property": "C19", "status": "partial", "theorems": ["Verif.Props.c19_delayms_stereo_partial", "Verif.Props.c19_delayms_mono_partial", "Verif.Props.c19_rounding_counterexample", "Verif.Props.c19_mono_counterexample", "Verif.Props.c19_set_zero_counterexample"], "note": "Proved up to one sample and f32 rounding; the exact number, mono inputs on the right channel and a delay set to 0 fail (negations proved)."},
{"property": "C20", "status": "partial", "theorems": ["Verif.Props.c20_imp_partial", "Verif.Props.c20_rounding_counterexample", "Verif.Props.c20_panics"], "note": "Proved for the period the node computes, which is within one sample and f32 rounding of sr/freq; the exact floor fails and frequencies above the sample rate panic (negations proved)."},
{"property": "C21", "status": "partial", "theorems": ["Verif.Props.c21_first_group_partial", "Verif.Props.c21_later_groups_silent", "Verif.Props.c21_later_groups_counterexample"], "note": "Proved for the notes of the first group of a pattern (position within rounding of the written place); notes of later groups never sound (proved, with a concrete pattern)."},
{"property": "C22", "status": "partial", "theorems": ["Verif.Props.c22_envperc_partial", "Verif.Props.c22_creation_counterexample"], "note": "Bounds, ramp and silence after attack+decay proved for every trigger sequence; before the first trigger the node plays one envelope on its own (negation proved)."},
{"property": "C23", "status": "partial", "theorems": ["Verif.Props.c23_range", "Verif.Props.c23_shape_partial", "Verif.Props.c23_retrigger_counterexample"], "note": "Range [0,1] proved in general; the stages when the envelope starts from 0; retriggering before the end of the release does not reach 1 (negation proved)."},
{"property": "C24", "status": "proved", "theorems": ["Verif.Props.c24_fixed", "Verif.Props.c24_modulated", "Verif.Props.c24_sin_fixed", "Verif.Props.c24_sin_modulated"], "note": "The sine needs the hypothesis that the platform's sin stays in [-1,1]."},
{"property": "C25", "status": "proved", "theorems": ["Verif.Props.c25_choose"], "note": ""},
{"property": "C26", "status": "partial", "theorems": ["Verif.Props.c26_points_partial", "Verif.Props.c26_start_panics", "Verif.Props.c26_ends_counterexample"], "note": "Proved between the first and the last breakpoint within a stated rounding error; the first sample and the time after the last point are wrong (negation proved), and debug builds panic at the start (proved)."},
{"property": "C27", "status": "partial", "theorems": ["Verif.Props.c27_sampler_partial", "Verif.Props.c27_short_stereo_counterexample", "Verif.Props.c27_empty_counterexample", "Verif.Props.c27_psampler_partial", "Verif.Props.c27_short_pattern_counterexample"], "note": "Proved for sp and psampler for every input and every non-empty sample (stereo: at least two frames; psampler: bar of at least one sample); the excluded cases panic (proved)."},
{"property": "C28", "status": "proved", "theorems": ["Verif.Props.c28_mix"], "note": "The sum is the f32 sum in the iteration order of the inputs; see C42."},
{"property": "C29", "status": "proved", "theorems": ["Verif.Props.c29_result_buffer"], "note": ""},
{"property": "C30", "status": "partial", "theorems": ["Verif.Props.c30_left_then_right_partial", "Verif.Props.c30_other_sizes_panic"], "note": "Proved for even sizes up to two blocks; process panics for every other size (negation proved)."},
{"property": "C31", "status": "partial", "theorems": ["Verif.Props.c31_parser_never_panics_partial", "Verif.Props.c31_parser_panics_counterexample"], "note": "False: an eval with fewer than two characters between its backticks and a points factor that the expression evaluator rejects panic (negations proved). Proved for all other texts."},
{"property": "C32", "status": "partial", "theorems": ["Verif.Props.c32_written_programs_parse_partial", "Verif.Props.c32_written_definitions_last_wins_partial", "Verif.Props.c32_printable_programs_have_a_text_partial", "Verif.Props.c32_eval_counterexample"], "note": "Proved for every text that writes a program in the sense of Spec/Write, and every printable program has such a text. False for eval, whose code loses its first and last character (negation proved). Points with fractions, offsets, factors and !, exponents, escapes, bare references and comments are covered. Missing: eval, and layouts Spec/Write does not have."},
{"property": "C33", "status": "proved", "theorems": ["Verif.Props.c33_accepted_programs_are_well_formed", "Verif.Props.c33_last_definition_in_force"], "note": "Names distinct and written as names, chains non-empty, references written as names; for every text the definition in force is the last one (the text is cut at its colons outside code and comments)."},
{"property": "C34", "status": "partial", "theorems": ["Verif.Props.c34_components_partial", "Verif.Props.c34_programs_partial", "Verif.Props.c34_texts_partial", "Verif.Props.c34_feedback_counterexample", "Verif.Props.c34_choose_counterexample", "Verif.Props.c34_rhpf_counterexample", "Verif.Props.c34_meta_counterexample", "Verif.Props.c84_order_counterexample"], "note": "Proved for feed-forward texts of new components that treat their inputs sample by sample (formulas among them), with at most two chains in the output sum. False with feedback (which arrives one block later), for choose (one draw per block), for meta (one evaluation of the script per block) and for filters with a reference (cutoff from the first sample of a block); negations proved. It is also false for plate, see c68_block_counterexample, and for sums of more than two chains, where the order of the sum is heard in the last bits (c84_order_counterexample; what is played then is C88). Missing: components kept from an earlier text."},
{"property": "C35", "status": "proved", "theorems": ["Verif.Props.c35_fifo", "Verif.Props.c35_unread_intact", "Verif.Props.c35_calls"], "note": ""},
{"property": "C36", "status": "proved", "theorems": ["Verif.Props.c36_number", "Verif.Props.c36_signal"], "note": ""},
{"property": "C37", "status": "partial", "theorems": ["Verif.Props.c37_playing_never_panics_partial", "Verif.Props.c37_playing_with_input_partial", "Verif.Props.c37_playing_scripts_partial", "Verif.Props.c37_message_impulse_panics", "Verif.Props.c37_pan_without_input_panics", "Verif.Props.c37_plate_without_input_panics", "Verif.Props.c37_delayms_without_input_panics", "Verif.Props.c37_fast_impulse_panics", "Verif.Props.c37_seq_reference_panics", "Verif.Props.c37_high_speed_panics", "Verif.Props.c37_self_reference_panics", "Verif.Props.c37_text_panics_counterexample"], "note": "False for all programs (eight negations proved, one of them by a message). Proved for every history of calls in which the programs and messages sent have settings in range, formulas use only variables that have a value, and nodes get inputs they can take, for the whole engine with all nodes that can be built, the drums, synths and the plate reverb with their inner graphs and the two scripted nodes included."},
{"property": "C38", "status": "proved", "theorems": ["Verif.Props.c38_lists", "Verif.Props.c38_msgsynth"], "note": "The lists also stay in step when attack and decay change; the sum of voices is stated for an unchanged attack and decay. The shape of the envelope is C55."},
{"property": "C39", "status": "partial", "theorems": ["Verif.Props.c39_status_queries_partial", "Verif.Props.c39_available_read_when_empty", "Verif.Props.c39_full_is_inverted"], "note": "empty and available_write are right; available_read of an empty buffer and full are wrong (negations proved)."},
{"property": "C40", "status": "partial", "theorems": ["Verif.Props.c40_set_partial", "Verif.Props.c40_delayn_panics", "Verif.Props.c40_set_zero_counterexample", "Verif.Props.c40_pan_counterexample", "Verif.Props.c40_apf_counterexample"], "note": "Proved for all parameters of all nodes except delayn/delayms below one sample, pan outside [-1,1] and the delay time of apfmsgain (negations proved)."},
{"property": "C41", "status": "partial", "theorems": ["Verif.Props.c24_modulated", "Verif.Props.c41_negative_frequency_counterexample"], "note": "Holds for frequencies in [0, sr]; fails for negative ones (negation proved)."},
{"property": "C42", "status": "partial", "theorems": ["Verif.Props.c42_two_partial", "Verif.Props.c42_order_counterexample"], "note": "Holds for two inputs; fails for three (negation proved)."},
{"property": "C43", "status": "partial", "theorems": ["Verif.Props.c43_periodic_partial", "Verif.Props.c43_interpolation_counterexample"], "note": "Periodicity proved; interpolation between neighbouring points fails (negation proved)."},
{"property": "C44", "status": "proved", "theorems": ["Verif.Props.c44_superposition"], "note": ""},
{"property": "C45", "status": "partial", "theorems": ["Verif.Props.c45_original_speed_partial", "Verif.Props.c45_original_speed_counterexample"], "note": "First value, last value and silence proved for mono samples; the values in between are interpolated with swapped weights at stretched positions (negation proved)."},
{"property": "C46", "status": "partial", "theorems": ["Verif.Props.c46_pattern_partial", "Verif.Props.c46_pattern_mix_counterexample"], "note": "Proved when all samples of the pattern are mono or all are stereo; a mono sample after a stereo one overwrites the right channel (negation proved)."},
{"property": "C47", "status": "partial", "theorems": ["Verif.Props.c47_input_order_partial", "Verif.Props.c47_drum_reference_counterexample"], "note": "Drums with a reference violate it (negation proved). Proved for programs without repeated components and components whose references makenode reports in written order (all but seq); see C16."},
{"property": "C48", "status": "partial", "theorems": ["Verif.Props.c48_block_computes_the_program_partial", "Verif.Props.c48_texts_block_computes_the_program_partial"], "note": "Proved for every history in which no program repeats a component within a chain or defines ~input, with the real parser and all real nodes. Missing: repeated components, for which it is false (C02, C06)."},
{"property": "C49", "status": "partial", "theorems": ["Verif.Props.c49_program_is_composition_partial", "Verif.Props.c49_texts_sound_as_written_partial", "Verif.Props.c49_source", "Verif.Props.c49_effect"], "note": "Proved for the real parser and all real nodes, for every history in which no program repeats a component within a chain or defines ~input. Missing: repeated components, for which it is false (C02, C06); in a feedback loop which of two blocks is heard is left open."},
{"property": "C50", "status": "partial", "theorems": ["Verif.Props.c50_any_time_partial", "Verif.Props.c50_arithmetic_partial"], "note": "c50_any_time_partial holds at any time of any clean history, for kept components and feedback. Missing: a reference to the component itself (mul ~a at the end of ~a), patterns such as ~a.., histories that re-order or repeat components of the chain. c50_arithmetic_partial covers components added by the last update also after such histories."},
{"property": "C51", "status": "proved", "theorems": ["Verif.Props.c51_noise"], "note": "The generator of dasp_signal is a parameter of the model."},
{"property": "C52", "status": "partial", "theorems": ["Verif.Props.c52_any_time_partial", "Verif.Props.c52_balance_partial", "Verif.Props.c52_same_source_counterexample"], "note": "Proved for two different sources, for the node alone (c52_balance_partial) and in any program at any time (c52_any_time_partial). False for balance ~a ~a, which is silent (negation proved). Missing: a balance of itself, patterns such as ~a.., histories that re-order or repeat components of the chain."},
{"property": "C53", "status": "partial", "theorems": ["Verif.Props.c53_arrange_partial", "Verif.Props.c53_exact_partial", "Verif.Props.c53_empty_first_counterexample"], "note": "Proved for up to 2^16 parts of 0 bars or more (the first at least 2^-80), whole arrangements of up to 2^62 samples and tempos from 1 to 1024, with a bound that grows with the number of rounded sums; c53_exact_partial has a sharper bound where f32 represents the sums. False if the first part has 0 bars, which is then heard for a sample at each repetition (negation proved)."},
{"property": "C54", "status": "partial", "theorems": ["Verif.Props.c54_seq_partial", "Verif.Props.c54_speed_counterexample"], "note": "Proved for the first group of the pattern (later groups never play, C21). False if the first referenced chain has a block starting with a positive sample followed by 0, which is taken for a speed (negation proved)."},
{"property": "C55", "status": "partial", "theorems": ["Verif.Props.c55_psynth_partial", "Verif.Props.c55_msgsynth_counterexample"], "note": "Proved for psynth with event times 0 or from 2^-60 to 1-2^-20. False for msgsynth, whose stages are exchanged: a note starts at its loudest decay value and grows at its end (negation proved)."},
{"property": "C56", "status": "partial", "theorems": ["Verif.Props.c56_onepole", "Verif.Props.c56_onepole_bounded", "Verif.Props.c56_onepole_mod_partial", "Verif.Props.c56_rhpf_partial", "Verif.Props.c56_lpf_partial", "Verif.Props.c56_lpf_pattern_partial", "Verif.Props.c56_pattern_times", "Verif.Props.c56_rhpf_mod_partial", "Verif.Props.c56_lpf_mod_partial", "Verif.Props.c56_apfmsgain_partial", "Verif.Props.c56_apfmsgain_reference_partial", "Verif.Props.c56_apfmsgain_weights_counterexample", "Verif.Props.c56_rhpf_counterexample", "Verif.Props.c56_lpf_counterexample", "Verif.Props.c56_rhpf_rate_counterexample", "Verif.Props.c56_onepole_mod_counterexample", "Verif.Props.c56_apfmsgain_counterexample"], "note": "onepole with a number holds in full. False for lpf and rhpf, whose equation lacks the term of the current sample; rhpf uses 44100 at every sample rate; onepole with a reference filters the reference at the rate of the signal; apfmsgain panics below one sample of delay and only sounds on the left (negations proved; the equations that do hold are the partial theorems). apfmsgain with a reference exchanges the weights of the two samples between which the delay ends, so that 10 ms at 44100 are not 441 samples (negation proved). The equation of apfmsgain with a reference holds for 8000 to 2^18 samples in a second and delays from 1 to 2900 ms. Parameters changed while playing are C71."},
{"property": "C57", "status": "partial", "theorems": ["Verif.Props.c57_bd_partial", "Verif.Props.c57_hh_partial", "Verif.Props.c57_sn_partial", "Verif.Props.c57_synth_partial", "Verif.Props.c57_unfed", "Verif.Props.c57_rate_counterexample", "Verif.Props.c57_hat_as_written_counterexample"], "note": "Holds at 44100 samples in a second, for all drums and synths. False at other rates: the nodes inside always assume 44100 (negation proved). The hi-hat (also the snare) is another program than its source announces (negation proved for the hi-hat). Settings changed before playing: C40; while playing: C71."},
{"property": "C58", "status": "partial", "theorems": ["Verif.Props.c58_never_panics", "Verif.Props.c58_one_at_a_time_partial", "Verif.Props.c58_arrives_partial", "Verif.Props.c58_long_texts_never_arrive", "Verif.Props.c58_joined_and_cut", "Verif.Props.c58_joined_counterexample"], "note": "Holds for texts of 1 to 2048 ASCII characters that are sent one at a time (no call of run() before the worklet has taken the text before). False otherwise: longer texts are cut, and texts sent between two blocks are joined into one program (negations proved; the joined program plays 3 instead of 2)."},
{"property": "C59", "status": "partial", "theorems": ["Verif.Props.c59_terminated", "Verif.Props.c59_messages_act_one_by_one_partial", "Verif.Props.c59_messages_arrive_partial", "Verif.Props.c59_cut_counterexample"], "note": "Holds for every engine and interleaving while the messages on their way have at most 2048 characters together. False beyond: a message is cut, and sets 44 instead of 440 (negation proved)."},
{"property": "C60", "status": "partial", "theorems": ["Verif.Props.c60_stop_never_arrives", "Verif.Props.c60_stop_counterexample", "Verif.Props.c60_empty_program_is_silent_partial"], "note": "False where SharedArrayBuffer is available: the worklet never hands an empty text to the engine (proved for all schedules). On the message port, where the text arrives, it holds for every reachable engine and all later calls other than update."},
{"property": "C61", "status": "partial", "theorems": ["Verif.Props.c61_play_partial", "Verif.Props.c61_psynth_counterexample", "Verif.Props.c61_exponent_counterexample", "Verif.Props.c61_underscore_counterexample"], "note": "Holds for all functions and methods but psynth, with numbers that JavaScript writes without an exponent and references with ~. False for psynth (no closing backtick), for numbers such as 1e-7, and for references with an underscore, which are dropped (negations proved)."},
{"property": "C62", "status": "partial", "theorems": ["Verif.Props.c62_new", "Verif.Props.c62_as_noted_partial", "Verif.Props.c62_sheet", "Verif.Props.c62_no_panic_partial", "Verif.Props.c62_handles", "Verif.Props.c62_chain", "Verif.Props.c62_chain_boxed", "Verif.Props.c62_reset", "Verif.Props.c62_block", "Verif.Props.c62_aside", "Verif.Props.c62_add_node_chain_counterexample", "Verif.Props.c62_tags_counterexample"], "note": "Proved for all calls but add_node_chain, which lays wires without telling the nodes, so that rendering panics (negation proved); reset() keeps the tags (negation proved). Changes made directly on the public field graph are not treated."},
{"property": "C63", "status": "proved", "theorems": ["Verif.Props.c63_unknown_samples", "Verif.Props.c63_playing_samples_known"], "note": "For updates that return; a number in the pattern of psampler asks for the empty name."},
{"property": "C64", "status": "partial", "theorems": ["Verif.Props.c64_sides_partial", "Verif.Props.c64_ends_partial", "Verif.Props.c64_sides_alike_counterexample"], "note": "Neither side leaks into the other, for all triggers and blocks; at the original speed first and last frame come on time on both sides. That both sides are read at the same places is false: in between, the right side is read one value further on (negation proved)."},
{"property": "C65", "status": "partial", "theorems": ["Verif.Props.c65_listed_partial", "Verif.Props.c65_playable_partial", "Verif.Props.c65_file_partial", "Verif.Props.c65_folder_partial", "Verif.Props.c65_dash_counterexample", "Verif.Props.c65_surround_counterexample", "Verif.Props.c65_case_counterexample", "Verif.Props.c65_dot_counterexample"], "note": "Proved for all histories in which no sample with a dash in its listed name or more than two channels is there when the page is stopped. Negations proved: a name with a dash is changed by stopping; a file with three channels is listed though unknown, and stopping then loses the samples after it; folders differing only in capitals overwrite each other; a name with a dot cannot be written."},
{"property": "C66", "status": "partial", "theorems": ["Verif.Props.c66_report_partial", "Verif.Props.c66_missing_names_partial", "Verif.Props.c66_npm_play_partial", "Verif.Props.c66_long_lists", "Verif.Props.c66_wide_counterexample", "Verif.Props.c66_npm_run", "Verif.Props.c66_npm_stale"], "note": "Proved when the list of expected rules fits in the buffer and the line has only characters of the basic plane before the place. Otherwise false, with proofs: when the list does not fit the page throws and shows neither line nor mark (for all such failures); after a wide character the mark is misplaced; in the package the line is shown for programs sent with play only, and after run it is missing or a line of the program last played. Where parsing fails and which rules are named is computed by pest and not modelled."},
{"property": "C67", "status": "partial", "theorems": ["Verif.Props.c67_inline_partial", "Verif.Props.c67_comment_counterexample"], "note": "Proved for all texts in which every # belongs to a ##...#. False for others: a # in a comment makes the page evaluate the whole program as JavaScript and send an empty one (negation proved)."},
{"property": "C68", "status": "partial", "theorems": ["Verif.Props.c68_network_partial", "Verif.Props.c68_changed_partial", "Verif.Props.c68_dry_partial", "Verif.Props.c68_silence", "Verif.Props.c68_click_partial", "Verif.Props.c68_mix_zero", "Verif.Props.c68_block_counterexample"], "note": "The network theorem holds for all inputs with the line ab longer by one block than written, since the search through the cyclic graph visits it before its source. So the sound depends on the block size: negation proved for all pairs of block sizes. The mix may be changed while playing."},
{"property": "C69", "status": "partial", "theorems": ["Verif.Props.c69_eval_partial", "Verif.Props.c69_source_partial", "Verif.Props.c69_message", "Verif.Props.c69_unreadable", "Verif.Props.c69_last_semicolon", "Verif.Props.c69_nameless", "Verif.Props.c69_last_name_counterexample", "Verif.Props.c69_changed_partial", "Verif.Props.c69_changed_source_partial", "Verif.Props.c69_changed_unreadable"], "note": "Equivalence between what is played and the specification, so a panic happens exactly when fasteval fails on an expression. Texts that are no formula are false: negation proved (the engine panics), also for a semicolon at the end, for a statement without a name, and for a name given to the last statement (it is not set).  Code changed by messages while playing is covered with and without an input (the formula in force is the last one sent; variables and the number of the sample go on); such a message with text that is no formula panics."},
{"property": "C70", "status": "partial", "theorems": ["Verif.Props.c70_meta_partial", "Verif.Props.c70_source_partial", "Verif.Props.c70_function_partial", "Verif.Props.c70_bad_code", "Verif.Props.c70_failing_counterexample", "Verif.Props.c70_short_counterexample", "Verif.Props.c70_changed_partial", "Verif.Props.c70_changed_source_partial"], "note": "Equivalence between what is played and the specification, in which the array is laid over the block before. Silence of failing scripts is false: the block before is repeated for ever, negation proved for all numbers of blocks; so is the report of bad code. Scripts changed by messages while playing are covered: the last one that compiles is in force, variables go on."},
{"property": "C71", "status": "partial", "theorems": ["Verif.Props.c71_oscillators_partial", "Verif.Props.c71_sin_partial", "Verif.Props.c71_constsig_partial", "Verif.Props.c71_arith_partial", "Verif.Props.c71_onepole_partial", "Verif.Props.c71_rhpf_partial", "Verif.Props.c71_lpf_partial", "Verif.Props.c71_envperc_partial", "Verif.Props.c71_imp_partial", "Verif.Props.c71_imp_counterexample", "Verif.Props.c71_delayn_counterexample", "Verif.Props.c71_adsr_partial", "Verif.Props.c71_pan_partial", "Verif.Props.c71_delayn_restart_partial", "Verif.Props.c71_delayms_restart_partial", "Verif.Props.c71_delayms_zero_counterexample", "Verif.Props.c71_noise_restart_partial", "Verif.Props.c71_apfmsgain_partial", "Verif.Props.c71_bd_partial", "Verif.Props.c71_hh_partial", "Verif.Props.c71_sn_partial", "Verif.Props.c71_synth_partial", "Verif.Props.c68_changed_partial", "Verif.Props.c69_changed_partial", "Verif.Props.c70_changed_partial"], "note": "Proved for oscillators, constants, arithmetic, filters, envperc, adsr, pan, eval and meta over all histories of changes. False for imp (its clock counts from the start; negation and what it does instead proved) and for delay lines (a message empties them; negation proved; from the message on the node is proved to play what a newly built one plays; the same for noise). The gain of apfmsgain can be changed; its delay is C40 (false). The settings of drums and synths and the mix of plate can be changed; at other sample rates drums and synths are proved to play what they play at 44100 (C57)."},
{"property": "C72", "status": "partial", "theorems": ["Verif.Props.c72_pan_partial", "Verif.Props.c72_pan_reference_partial", "Verif.Props.c71_pan_partial", "Verif.Props.c72_right_counterexample", "Verif.Props.c72_outside_counterexample"], "note": "Proved for the left channel of the input, with written, referenced and changed positions, for any square root with the stated accuracy. False for the right channel of a stereo input, which is dropped, and for positions outside -1 to 1 that are written or referenced, which give NaN (negations proved)."},
{"property": "C73", "status": "partial", "theorems": ["Verif.Props.c73_untouched_chains_play_on_partial", "Verif.Props.c73_seq_counterexample"], "note": "Proved for the real language and all histories without repeated or re-ordered components, for places that reach the output before and after the edit. Missing: mix, modulated drums and delayms, generators that are not at the head of their chain, chains with feedback or with patterns. False for a sequencer that names a chain twice (negation proved)."},
{"property": "C74", "status": "partial", "theorems": ["Verif.Props.Start.c74_calls_after_loading_partial", "Verif.Props.Start.c74_queued_texts_wait_partial", "Verif.Props.Start.c74_calls_before_the_node_throw", "Verif.Props.Start.c74_early_calls_are_lost", "Verif.Props.Start.c74_no_file_when_loaded", "Verif.Props.Start.c74_early_file_prevents_onLoaded", "Verif.Props.Start.c74_message_overtaken", "Verif.Props.Start.c74_order_counterexample"], "note": "Holds for calls over the port after onLoaded, and for programs and messages in shared memory (each kind in its own order, up to 2048 characters). False, with proofs for all schedules: calls over the port before the wasm file has arrived are lost without a sign; onLoaded is called before any sample is read; a file read too early keeps onLoaded from being called; a message sent before a program is overtaken by it (concrete sound)."},
{"property": "C75", "status": "partial", "theorems": ["Verif.Props.Freq.c75_fixed_partial", "Verif.Props.Freq.c75_modulated_partial", "Verif.Props.Freq.c75_sin_fixed_partial", "Verif.Props.Freq.c75_sin_modulated_partial", "Verif.Props.Freq.c75_changed_partial", "Verif.Props.Freq.c75_sin_changed_partial", "Verif.Props.Freq.c75_zero_counterexample"], "note": "Proved with explicit bounds (drift at most 2^-23 of a period per sample; the sine against Real.sin) for frequencies, fixed, from a reference or changed by messages, from 0 to the sample rate. Missing: saw, squ and tri ignore a modulating value of 0 and keep the last frequency (proved: they run at the frequencies held; counterexample); negative frequencies see C41."},
{"property": "C76", "status": "partial", "theorems": ["Verif.Props.PagePlay.c76_page_follows_engine", "Verif.Props.PagePlay.c76_messages_in_order", "Verif.Props.PagePlay.c76_music_continues", "Verif.Props.PagePlay.c76_nothing_after_a_panic", "Verif.Props.PagePlay.c76_page_plays_on_partial", "Verif.Props.PagePlay.c76_page_silenced_counterexample", "Verif.Props.PagePlay.c76_accepted_text_silences_counterexample"], "note": "Holds for every schedule as long as the engine does not panic, and for programs meeting the conditions of C31, C05 and C37 it does not. False for texts such as 'o: []' and 'o: pan 0.5', after which the page is silent for ever."},
{"property": "C77", "status": "partial", "theorems": ["Verif.Props.PagePlay.c77_amplitude_one_partial", "Verif.Props.PagePlay.c77_track_amp_ignored", "Verif.Props.PagePlay.c77_track_amp_counterexample"], "note": "Only for the amplitude 1. False otherwise: the value is stored and never read; calls that set it can be left out of any history without any difference."},
{"property": "C78", "status": "partial", "theorems": ["Verif.Props.Glue.c78_text_arrives_partial", "Verif.Props.Glue.c78_every_string_is_text", "Verif.Props.Glue.c78_sample_arrives_partial", "Verif.Props.Glue.c78_update_is_transparent", "Verif.Props.Glue.c78_process_is_transparent", "Verif.Props.Glue.c78_stack_pointer_restored", "Verif.Props.Glue.c78_ascii_only_without_encoder", "Verif.Props.Glue.c78_no_encoder_counterexample"], "note": "Holds for texts where the worklet has a TextEncoder, and for ASCII texts everywhere; bytes, samples and results always. Without TextEncoder a text with any other character makes the call throw."},
{"property": "C79", "status": "proved", "theorems": ["Verif.Props.Handles.c79_numbers_stand_for_objects", "Verif.Props.Handles.c79_there_is_always_room", "Verif.Props.Handles.c79_table_stays_small"], "note": ""},
{"property": "C80", "status": "proved", "theorems": ["Verif.Props.Settings.c80_unused_settings", "Verif.Props.Settings.c80_what_plays_is_fixed", "Verif.Props.Settings.c80_resending_keeps_settings", "Verif.Props.Settings.c80_rate_of_new_nodes", "Verif.Props.Settings.c80_choose_uses_seed"], "note": "A consequence to know: a rate set after a program was sent is not in force for its nodes, even if the program is sent again."},
{"property": "C81", "status": "partial", "theorems": ["Verif.Props.Input.c81_input_is_heard_partial", "Verif.Props.Input.c81_side_not_given", "Verif.Props.Input.c81_no_input_counterexample"], "note": "The part on blocks without input is false: `~input` plays the last input again. Missing: chains that begin with `~input` and re-order components; after `reset` giving input panics (C13)."},
{"property": "C82", "status": "proved", "theorems": ["Verif.Props.TempoUse.c82_tempo_unused", "Verif.Props.TempoUse.c82_last_tempo", "Verif.Props.TempoUse.c82_seq_uses_tempo"], "note": "For all histories of calls; the condition on the programs is needed."},
{"property": "C83", "status": "proved", "theorems": ["Verif.Props.Rename.c83_names_do_not_matter", "Verif.Props.Rename.c83_order_after", "Verif.Props.Rename.c83_order_before", "Verif.Props.Rename.c83_patterns_go_by_name"], "note": "For all histories of calls and all renamings; references to several chains are excluded, with a witness that they have to be."},
{"property": "C84", "status": "partial", "theorems": ["Verif.Props.c84_past_partial", "Verif.Props.c84_emptied_partial", "Verif.Props.c84_kept_goes_on", "Verif.Props.c84_order_counterexample"], "note": "Missing: feedback, references to several chains at once, pasts with repeated components. False for sums of more than two chains, whose order is that of a hash map and is heard in the last bits (negation proved; what is played then is C88). That the components are new cannot be dropped (proved)."},
{"property": "C85", "status": "partial", "theorems": ["Verif.Props.c85_part_partial", "Verif.Props.c85_delay_counterexample"], "note": "False when a delay hears a part of one channel: it then plays nothing on the right (negation proved). Missing besides: feedback, references to several chains at once, sums of more than two chains (false, c84_order_counterexample), components kept from an earlier text."},
{"property": "C86", "status": "partial", "theorems": ["Verif.Props.c86_unheard_partial", "Verif.Props.c86_pattern_hears"], "note": "Missing, in the chains that are heard: feedback, references to several chains at once, sums of more than two chains (false, c84_order_counterexample). That nobody refers to the chains cannot be dropped: a pattern like ~a.. hears every chain whose name begins so (proved)."},
{"property": "C87", "status": "partial", "theorems": ["Verif.Props.c87_shared_partial", "Verif.Props.c87_both_counterexample"], "note": "False when one component refers to both chains: two connections between the same nodes count as one, so mix ~a ~a hears ~a once and balance ~a ~a is silent (negation proved). Missing besides: feedback, references to several chains at once, sums of more than two chains (false, c84_order_counterexample), components kept from an earlier text."},
{"property": "C88", "status": "partial", "theorems": ["Verif.Props.c88_tracks_partial"], "note": "Missing: feedback, references to several chains at once, sums of more than two chains inside a track, components kept from an earlier text. The order of the sum is that of the connections; of three tracks it can be heard in the last bits (C42)."},
{"property": "C89", "status": "partial", "theorems": ["Verif.Props.c89_effect_partial", "Verif.Props.c89_volume_partial", "Verif.Props.c89_unity_partial", "Verif.Props.c89_delay_partial", "Verif.Props.c89_filter_partial", "Verif.Props.c89_pan_partial"], "note": "Missing: feedback, references to several chains at once, sums of more than two chains inside the track, components kept from an earlier text. Effects with references: C90 and C91. The delayed track is followed on the left side only, as the right side of a stereo track is lost (C18); filters and pan hear the left side only (C56, C72), and rhpf is covered at 44100 (C56). With several tracks it holds for what each track plays alone, and C88 says how these are added."},
{"property": "C90", "status": "partial", "theorems": ["Verif.Props.c90_combine_partial", "Verif.Props.c90_balance_partial", "Verif.Props.c90_mix_partial"], "note": "Missing: feedback, references to several chains at once (other than in the mix itself), sums of more than two chains inside, components kept from an earlier text, `mul ~m` where `~m` is `~input`. `balance` hears only the first channel of each chain (C52)."},
{"property": "C91", "status": "partial", "theorems": ["Verif.Props.c91_source_partial", "Verif.Props.c91_effect_partial", "Verif.Props.c91_sine_partial", "Verif.Props.c91_wave_partial", "Verif.Props.c91_filter_partial", "Verif.Props.c91_pan_partial"], "note": "Missing: feedback, references to several chains at once (for mix see C90), sums of more than two chains inside the chains, components kept from an earlier text, `~input` named by the component. What the components make of their inputs is said by the properties of the components (for instance C75, C56, C54)."},
{"property": "C92", "status": "partial", "theorems": ["Verif.Props.c92_written_programs_are_heard_partial", "Verif.Props.c92_sine_partial"], "note": "Missing: programs and calls excluded by SafeProg and SafeCall that play nevertheless, texts with eval (C32)."},
{"property": "C93", "status": "partial", "theorems": ["Verif.Props.c93_sessions_run_partial", "Verif.Props.c93_sessions_are_heard_partial"], "note": "Missing: programs that do not fit but play nevertheless, messages that set numbers of delayn, apfmsgain or arrange, or texts of scripts, msgsynth or note patterns (for these see C37)."}
]}
