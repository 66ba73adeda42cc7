# Axioms of the theorems in MANIFEST.json

Output of `#print axioms` for every theorem.

## none

`C51_removed_violated`, `C60_exits`, `C62_set`, `C77_kept`, `C84_marked`

## propext

`C14_wrong_rank_rejected`, `C15_join_refused`, `C20_no_newline_left`, `C23_word_refused`, `C25_sequence`, `C25_single`, `C34_join`, `C34_crash_keeps`, `C34_crash_cuts`, `C36_no_chunks`, `C37_large_partial`, `C39_dir_rejects`, `C39_from_id_rejects`, `C39_bpe_dir`, `C44_pieces`, `C46_bad_placeholder`, `C55_same_second_violated`, `C55_removed_violated`, `C55_unmarked_violated`, `C57_empty`, `C57_empty_file`, `C60_nothing_computed`, `C60_output`, `C60_directory_violated`, `C60_cut_violated`, `C62_non_atomic`, `Counter.C62_set_others`, `Counter.C62_set_violated`, `Compare.C65_config_violated`, `Compare.C65_fails_iff`, `Compare.C65_equal_iff`, `Compare.C65_refl`, `Compare.C65_symm`, `Compare.C65_trans`, `Compare.C65_merge_hash`, `Compare.C65_merge_list`, `Compare.C65_append_violated`, `Compare.C65_append`, `Compare.C65_tokens`, `Compare.C65_append_refused`, `C69_corpus`, `C71_twice_violated`, `C77_misfit`, `C77_token_equal_violated`, `Share.C79_append_refused`, `C84_origin`, `C84_kept`, `C96_empty_violated`, `C97_swap`, `C97_swap_single`, `C97_rows`, `Scale.C100_stored`

## propext, Classical.choice, Quot.sound

`C01_bpe_lossless`, `C02_bpe_greedy_normal_form`, `C03_chars_split`, `C04_cache_lookup_violated`, `C04_uncached_lookup_repeatable_partial`, `C04_times`, `C04_right`, `C05_learnt_split_eq_encoded`, `C06_most_frequent`, `C07_fewer_merges_prefix`, `C08_learning_total`, `C09_subword_vocab`, `C10_unescape_escape`, `C10_escaped_printable`, `C10_plain_unchanged`, `C11_merges_roundtrip`, `C11_merges_limit`, `C11_merges_limit_zero`, `C11_unknown_frequency_unreadable`, `C12_cache_roundtrip`, `C13_vocab_roundtrip`, `C13_vocab_file_sorted`, `C13_corpus_vocab_roundtrip`, `C13_token_set_roundtrip`, `C14_ranks_are_positions`, `C15_metadata_wellformed`, `C15_to_repr_wellformed`, `C15_boundaries_strict`, `C15_to_repr_strict`, `C15_types`, `C16_compositional`, `C16_failure`, `C17_valid_config_total`, `C17_config_string_total`, `C17_bpe_needs_data`, `C17_refused`, `C17_underscore`, `C17_no_splitter`, `C17_no_length`, `C17_first_refused`, `C18_on_output`, `C18_empty_full_token_misindexed`, `C19_last_marked`, `C19_marks_agree_partial`, `C19_chars_marks_agree`, `C19_check_iff`, `C19_check_without_marks`, `C19_violated`, `C20_no_com`, `C20_no_str`, `C20_no_spaces`, `C20_newline_in_literal_kept`, `C21_replaced_iff_longer_partial`, `C21_large_limit_ignored`, `C21_violated`, `C21_small_limit_violated`, `C21_no_limit`, `C22_output`, `C22_reversible`, `C22_injective`, `C22_numbers`, `C23_token`, `C23_non_english`, `C24_words`, `C24_literals`, `C24_text_up_to_case`, `C24_literal_up_to_case`, `C24_text_partial`, `C24_literal_partial`, `C24_violated`, `C24_identifier_any`, `C24_words_any`, `C24_literals_any`, `C24_text_any_partial`, `C24_literal_any_partial`, `C24_text_small`, `C24_literal_small`, `C24_case_violated`, `C25_total`, `C25_responsible`, `C25_shape`, `C25_preprocess_total`, `C26_full_strings_partial`, `C26_full_strings_up_to_case`, `C26_violated`, `C26_full_strings_any`, `C26_full_strings_small`, `C27_output_partial`, `C27_word`, `C27_left`, `C27_kept`, `C27_violated`, `C27_case_violated`, `C28_accepts`, `C28_rejects`, `C28_constructor`, `C29_same_configuration`, `C29_same_bpe_codes`, `C29_default_length`, `C29_empty_id`, `C30_written`, `C30_one_writer`, `C30_progress`, `C30_terminates`, `C30_result`, `C30_ends`, `C30_files`, `C30_end_to_end`, `C31_preserved`, `C31_error`, `C31_recovery_partial`, `C31_violated`, `C32_complete_partial`, `C32_violated`, `C30_written`, `C33_complete`, `C33_not_redone`, `C33_ready`, `C33_only`, `C33_same`, `C33_progress`, `C33_failure`, `C33_good_jobs`, `C33_names`, `C33_pipeline`, `C33_tokens`, `C33_missing_violated`, `C33_two_programs_violated`, `C33_tokens_violated`, `C33_normal`, `C34_read_back`, `C34_names`, `C34_ascii`, `C34_single_file`, `C34_cache`, `C34_quotes`, `C34_literal`, `C35_prep_recoverable`, `C35_vocab_counts`, `C35_spaces_ambiguous`, `C36_complete`, `C37_limit_partial`, `C38_pair_queue_refines`, `C39_parse`, `C39_parse_sound`, `C39_parse_rejects`, `C39_min`, `C39_max`, `C39_none`, `C39_from_id`, `C39_cache_unused`, `C40_given`, `C40_first`, `C40_fresh_partial`, `C40_history_partial`, `C40_special_violated`, `C40_invalid_violated`, `C40_unlearnt_violated`, `C40_space_violated`, `C40_given_violated`, `C40_empty`, `C40_number`, `C40_error`, `C41_result`, `C41_history`, `C41_no_codes`, `C41_bpe_zero`, `C41_reuse`, `C41_reuse_violated`, `C41_failed_load_violated`, `C41_shipped`, `C41_failed_custom_violated`, `C63_history`, `C42_same_dataset`, `C42_vocab`, `C42_bpe`, `C42_no_merges`, `C42_basename_violated`, `C42_slash_violated`, `C42_extension_violated`, `C43_base_dir_partial`, `C43_suffix_partial`, `C43_base_config`, `C43_base_unicode`, `C43_separator_violated`, `C43_setting_violated`, `C43_newline_violated`, `C43_base_violated`, `C43_suffix_read`, `C43_suffix_refused`, `C44_normalize`, `C44_order`, `C44_idempotent_partial`, `C44_selected`, `C34_single_file`, `C45_merge`, `C45_add_vocab`, `C46_replaces_runs`, `C46_ascii_unchanged`, `C46_ascii_kept`, `C46_idempotent`, `C47_resume_learning`, `prepareResume_saved`, `C48_numbers`, `C48_number_tokens`, `C49_ronin_stem`, `C50_vocab_size`, `C50_statistics`, `C51_time`, `C51_noticed_partial`, `C51_limit_violated`, `C51_links_only`, `C52_partial`, `C52_no_loss_partial`, `C52_progress_partial`, `C52_gather_violated`, `C52_cut_token_violated`, `C52_cut_escape_violated`, `C52_not_again`, `C52_placeholders`, `C52_results`, `C53_violated`, `C54_size_partial`, `C54_never_wrong`, `C54_name`, `C54_shared_violated`, `C55_fresh_partial`, `C55_finishes_partial`, `C56_any`, `C56_any_unique`, `C56_reference`, `C56_unique`, `C57_text_partial`, `C57_file_partial`, `C57_dir_partial`, `C57_deterministic`, `C57_space_violated`, `C57_late_violated`, `C57_empty_dir`, `C58_escapes_partial`, `C58_escapes_bytes`, `C58_escapes_violated`, `C58_number`, `C58_merge_line`, `C58_vocab_line`, `C58_cache_line`, `C59_history_partial`, `C59_kill_partial`, `C59_extends`, `C59_ascending_partial`, `C59_load`, `C59_unsupported`, `C59_kill_blocks`, `C59_nested_violated`, `C59_kill_violated`, `C59_kill_silent_violated`, `C59_load_zero`, `C60_results_partial`, `C60_vocab_partial`, `C60_vocab_complete`, `C60_finishes_partial`, `C60_default_violated`, `C60_missing_harmless`, `C61_text_partial`, `C61_corpus`, `C61_plan`, `C61_missing`, `C61_empty_text`, `C61_empty_text_violated`, `C61_same_place`, `C61_learn_config`, `C61_learn_rejected_partial`, `C61_legacy`, `C61_learn_keeps`, `C61_learn_done`, `C61_learn_unsupported`, `C61_unsupported_violated`, `C61_directory_partial`, `C62_returns_partial`, `C62_zero`, `C62_zero_violated`, `C62_vocab`, `C63_text`, `C63_call`, `C63_no_cache`, `C63_history`, `C63_no_codes`, `C63_worker`, `C63_reuse`, `C63_twice_violated`, `C63_reuse_violated`, `C63_processes_violated`, `C63_wrong_violated`, `Overlap.C64_complete`, `Overlap.C64_stays`, `Overlap.C64_done`, `Overlap.C64_ends`, `Overlap.C64_progress`, `Overlap.C64_over`, `Overlap.C64_early_violated`, `Overlap.C64_exception_violated`, `Overlap.C64_abort_violated`, `Overlap.C64_stopped`, `Compare.C65_made_partial`, `Compare.C65_made_iff`, `Compare.C65_output`, `Compare.C65_output_place`, `Compare.C65_custom_violated`, `Compare.C65_learn_violated`, `Compare.C65_tokens_text`, `Compare.C65_place_iff`, `Source.C66_utf8`, `Source.C66_text`, `Source.C66_no_cr`, `Source.C66_plain`, `Source.C66_different`, `Source.C66_extension`, `Source.C66_extension_violated`, `Source.C66_same_partial`, `Source.C66_newline_violated`, `Source.C66_missing`, `Source.C66_ascii`, `Source.C66_words`, `Source.C66_eof`, `Source.C66_lexer`, `C67_exactly`, `C67_never_empty`, `C67_tokens`, `C67_file`, `C67_vocab`, `C67_violated`, `C68_ready_partial`, `C68_learns_partial`, `C68_possible_partial`, `C68_violated`, `C69_words`, `C69_bpe`, `C69_merges`, `C69_unknown`, `C69_progress`, `C69_available`, `C69_given_violated`, `C69_separator_violated`, `C70_reads`, `C70_one_reading`, `C70_injective`, `C70_one_line`, `C70_command`, `C70_nothing`, `C70_corpus`, `C70_any_line`, `C70_any_path`, `C71_directories`, `C71_time_partial`, `C71_script`, `C71_unnoticed_violated`, `C72_distinct_partial`, `C72_unrelated`, `C72_kept_partial`, `C72_saved`, `C72_violated`, `C72_renamed_violated`, `C73_split`, `C73_learn`, `C73_order`, `C73_text_partial`, `C73_corpus_partial`, `C73_only_calls`, `C73_length_violated`, `C73_strings_violated`, `C73_dash_violated`, `C70_shell_partial`, `C74_results`, `C74_finishes`, `C74_vocab`, `C74_single`, `C75_files_partial`, `C75_possible_partial`, `C75_learnt`, `C75_loaded`, `C75_codes`, `C75_word`, `C75_needed`, `C75_text`, `C75_others`, `C75_keeps`, `C75_shipped`, `C75_texts`, `C76_never_more`, `C76_breaks_partial`, `C76_hidden`, `C76_parts`, `C76_lines`, `C76_tab`, `C76_white`, `C76_empty_lines_violated`, `C76_tabs_violated`, `C77_equal`, `C77_parts`, `C78_tokens`, `C78_stored`, `C78_bounded`, `C78_bounded_merges`, `C78_open`, `C78_learnt`, `Share.C79_add_refused`, `Share.C79_file_lines`, `Share.C79_file_violated`, `C80_search`, `C80_merge`, `C80_learn`, `C80_any`, `C80_run`, `C80_resume`, `C80_space_violated`, `C80_linefeed_violated`, `C80_disk`, `C81_same`, `C81_ends`, `C81_deep`, `C82_bpe_partial`, `C82_basic`, `C82_types`, `C82_codes`, `C82_unicode_violated`, `C83_report`, `C83_count_violated`, `C84_current_partial`, `C84_finishes`, `C84_newer`, `C84_gone`, `C84_removed_violated`, `C84_during_violated`, `C84_restored_violated`, `C85_words_partial`, `C85_merges_partial`, `C85_owner_partial`, `C85_again_partial`, `C85_finished`, `C85_left`, `C85_owns`, `C85_killed_violated`, `C85_saving_violated`, `C86_text_partial`, `C86_word_partial`, `C86_file`, `C86_runs_partial`, `C86_repeated`, `C86_decreasing_violated`, `C87_parts`, `C87_options`, `C87_same`, `C87_spaces`, `C87_comments`, `C87_strings`, `C87_limit`, `C87_cut`, `C88_order_partial`, `C88_schedule_partial`, `C88_order_violated`, `C88_schedule_violated`, `C89_new`, `C89_parts`, `C89_size`, `C89_frequency`, `C89_whole`, `C90_rest`, `C90_last`, `C90_begin`, `C90_middle`, `C90_two`, `C90_begin_violated`, `C91_vocab`, `C91_cache`, `C91_vocab_accepts`, `C91_vocab_error`, `C91_cache_error`, `C92_exact_partial`, `C92_bounds`, `C92_less`, `C92_exact_violated`, `C92_enough`, `C93_schedule`, `C93_loaded`, `C93_words`, `C93_union`, `C94_word`, `C94_without`, `C94_more`, `C94_none`, `C94_learnt`, `C94_text`, `C94_text_more`, `C96_dict`, `C96_sum`, `C96_lookup`, `C96_illegal`, `C96_one`, `C96_parts`, `C96_learnt`, `C98_distinct`, `C98_text`, `C98_spaces`, `C98_empty_violated`, `C98_size`, `Count.C99_full_tokens`, `Count.C99_nosplit`, `Count.C99_split_violated`, `Count.C99_at_least`, `Scale.C100_split`, `Scale.C100_zero_violated`, `Scale.C100_copies`, `Alphabets.C102_apart`, `Alphabets.C102_shared_violated`, `Order.C102_split`, `Order.C103_word`, `Order.C103_removed`, `Order.C103_order_counts`, `Order.C103_file`, `Order.C103_frequencies`

## propext, Quot.sound

`C02_spec_deterministic`, `C02_normal_form_unique`, `C04_second_lookup_fails`, `splitBaseVocab_eq`, `C09_separate_vocabs`, `C10_escaped_no_controls`, `C14_add_concatenates`, `C15_join`, `C18_full_tokens`, `C18_subtokens`, `C18_groups_exist`, `C18_validation`, `C23_identifier_pieces`, `C23_spec_unique`, `C23_lossless`, `C23_forms`, `C28_encode_decode`, `C28_decode_encode`, `C28_injective`, `C33_scanned`, `C34_yielded`, `C34_distinct`, `C34_truncated`, `C34_saved`, `C34_suppressed`, `C35_corpus_size`, `C35_corpus_size_order`, `C36_groups`, `C36_even`, `C36_tables`, `C37_violated`, `C38_top_unique`, `C38_no_zero`, `C39_dir`, `C41_failed_load`, `C42_datasets_partial`, `C44_idempotent_violated`, `C46_spec_deterministic`, `C49_stem_case`, `C53_cache`, `C53_kept_partial`, `C53_no_effect`, `C54_stuck`, `C54_crash_violated`, `C54_race_violated`, `C55_nothing_lost`, `C55_empty_violated`, `C55_collision_violated`, `C57_best_unique`, `C57_unique`, `C57_total`, `C59_cut`, `C59_cut_whole`, `C60_removed_violated`, `C60_missing`, `C60_missing_raises`, `C60_missing_todo`, `C60_empty_violated`, `C61_path`, `C61_path_two`, `C62_linear`, `C62_same`, `C62_tickets`, `C62_last`, `C62_bounded`, `C62_killed`, `C62_lost_violated`, `C62_killed_violated`, `Counter.C62_set_own_partial`, `Counter.C62_set_call_partial`, `Compare.C65_config`, `Compare.C65_dict`, `Compare.C65_dict_again`, `Source.C66_mixed_violated`, `Source.C66_no_extension`, `C70_plain`, `C71_listed`, `C71_once`, `C71_results`, `C71_loop`, `C71_unnoticed`, `C71_script_rest`, `C77_create`, `C77_update`, `C77_history`, `C77_returns`, `C77_grouping`, `C77_empty`, `C77_value`, `C77_token`, `C77_token_violated`, `C77_self_violated`, `C77_self_empty_violated`, `C77_shared_violated`, `C77_not_kept`, `C77_token_equal`, `C77_token_added`, `Share.C79_append`, `Share.C79_append_again`, `Share.C79_add_untouched`, `Share.C79_add`, `Share.C79_add_last_violated`, `Share.C79_ranked`, `Share.C79_file`, `C81_size`, `C81_fails`, `C83_same`, `C83_off`, `C84_fails`, `C86_none`, `C88_times`, `C91_vocab_append`, `C91_cache_append`, `C93_total`, `C93_size`, `C95_learn`, `C95_split`, `C95_whole`, `C97_symmetric`, `C97_symmetric_comm`, `C97_row`, `Scale.C100_merges`, `Scale.C100_run`, `Scale.C100_continued`, `Scale.C100_limit`, `Kept.C101_alone`, `Kept.C101_kept_irrelevant`, `Kept.C101_same_words`, `Kept.C101_continued`

