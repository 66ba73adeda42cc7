{
 "claims": [
  {
   "property": "C01",
   "status": "proved",
   "theorems": [
    "Verif.Props.C01_bpe_lossless"
   ],
   "note": "words without ASCII spaces that are not in the merges cache (cached words: see C04)"
  },
  {
   "property": "C02",
   "status": "proved",
   "theorems": [
    "Verif.Props.C02_bpe_greedy_normal_form",
    "Verif.Props.C02_spec_deterministic",
    "Verif.Props.C02_normal_form_unique"
   ],
   "note": ""
  },
  {
   "property": "C03",
   "status": "proved",
   "theorems": [
    "Verif.Props.C03_chars_split"
   ],
   "note": ""
  },
  {
   "property": "C04",
   "status": "partial",
   "theorems": [
    "Verif.Props.C04_cache_lookup_violated",
    "Verif.Props.C04_second_lookup_fails",
    "Verif.Props.C04_uncached_lookup_repeatable_partial",
    "Verif.Props.C04_times",
    "Verif.Props.C04_right"
   ],
   "note": "the property is violated by the code for cached words: the cached list is modified in place; proved: negation with witness, general failure of the second look-up, and the part that holds (words not in the cache) C04_times says exactly what every look-up of a cached word gives, for any number of look-ups; C04_right: the second look-up is right exactly for words whose last subword ends with '@', the third one never is."
  },
  {
   "property": "C05",
   "status": "proved",
   "theorems": [
    "Verif.Props.C05_learnt_split_eq_encoded",
    "Verif.Props.splitBaseVocab_eq"
   ],
   "note": ""
  },
  {
   "property": "C06",
   "status": "proved",
   "theorems": [
    "Verif.Props.C06_most_frequent"
   ],
   "note": ""
  },
  {
   "property": "C07",
   "status": "proved",
   "theorems": [
    "Verif.Props.C07_fewer_merges_prefix"
   ],
   "note": ""
  },
  {
   "property": "C08",
   "status": "proved",
   "theorems": [
    "Verif.Props.C08_learning_total"
   ],
   "note": ""
  },
  {
   "property": "C09",
   "status": "proved",
   "theorems": [
    "Verif.Props.C09_subword_vocab",
    "Verif.Props.C09_separate_vocabs"
   ],
   "note": ""
  },
  {
   "property": "C10",
   "status": "proved",
   "theorems": [
    "Verif.Props.C10_unescape_escape",
    "Verif.Props.C10_escaped_printable",
    "Verif.Props.C10_escaped_no_controls",
    "Verif.Props.C10_plain_unchanged"
   ],
   "note": "CPython unicode-escape codec modelled on code points; \\N{...} not modelled (never written)."
  },
  {
   "property": "C11",
   "status": "proved",
   "theorems": [
    "Verif.Props.C11_merges_roundtrip",
    "Verif.Props.C11_merges_limit",
    "Verif.Props.C11_merges_limit_zero",
    "Verif.Props.C11_unknown_frequency_unreadable"
   ],
   "note": "Merges whose frequency is unknown are written as 'None' and cannot be read back (C11_unknown_frequency_unreadable)."
  },
  {
   "property": "C12",
   "status": "proved",
   "theorems": [
    "Verif.Props.C12_cache_roundtrip"
   ],
   "note": ""
  },
  {
   "property": "C13",
   "status": "proved",
   "theorems": [
    "Verif.Props.C13_vocab_roundtrip",
    "Verif.Props.C13_vocab_file_sorted",
    "Verif.Props.C13_corpus_vocab_roundtrip",
    "Verif.Props.C13_token_set_roundtrip"
   ],
   "note": ""
  },
  {
   "property": "C14",
   "status": "proved",
   "theorems": [
    "Verif.Props.C14_ranks_are_positions",
    "Verif.Props.C14_wrong_rank_rejected",
    "Verif.Props.C14_add_concatenates"
   ],
   "note": ""
  },
  {
   "property": "C15",
   "status": "proved",
   "theorems": [
    "Verif.Props.C15_metadata_wellformed",
    "Verif.Props.C15_to_repr_wellformed",
    "Verif.Props.C15_boundaries_strict",
    "Verif.Props.C15_to_repr_strict",
    "Verif.Props.C15_types",
    "Verif.Props.C15_join",
    "Verif.Props.C15_join_refused"
   ],
   "note": "Any representation configuration and splitters; strictness assumes number tokens are not empty (the parser never makes one)."
  },
  {
   "property": "C16",
   "status": "proved",
   "theorems": [
    "Verif.Props.C16_compositional",
    "Verif.Props.C16_failure"
   ],
   "note": "The BPE cache is modelled as not changing between the two calls; see C04 for what happens when it does."
  },
  {
   "property": "C17",
   "status": "proved",
   "theorems": [
    "Verif.Props.C17_valid_config_total",
    "Verif.Props.C17_config_string_total",
    "Verif.Props.C17_bpe_needs_data",
    "Verif.Props.C17_refused",
    "Verif.Props.C17_underscore",
    "Verif.Props.C17_no_splitter",
    "Verif.Props.C17_no_length",
    "Verif.Props.C17_first_refused"
   ],
   "note": "ronin and the Porter stemmer are arbitrary total functions."
  },
  {
   "property": "C18",
   "status": "proved",
   "theorems": [
    "Verif.Props.C18_full_tokens",
    "Verif.Props.C18_subtokens",
    "Verif.Props.C18_groups_exist",
    "Verif.Props.C18_on_output",
    "Verif.Props.C18_validation",
    "Verif.Props.C18_empty_full_token_misindexed"
   ],
   "note": "Empty full tokens make the subtoken iterator report wrong indices; preprocessing never produces them."
  },
  {
   "property": "C19",
   "status": "partial",
   "theorems": [
    "Verif.Props.C19_last_marked",
    "Verif.Props.C19_marks_agree_partial",
    "Verif.Props.C19_chars_marks_agree",
    "Verif.Props.C19_check_iff",
    "Verif.Props.C19_check_without_marks",
    "Verif.Props.C19_violated"
   ],
   "note": "The last subtoken of every full token is always marked. That no other one is: proved for chars mode, and for BPE for all merges if '</t>' does not occur in the text of an identifier, number or literal; violated otherwise (witness: literal \"</t>\")."
  },
  {
   "property": "C20",
   "status": "proved",
   "theorems": [
    "Verif.Props.C20_no_com",
    "Verif.Props.C20_no_str",
    "Verif.Props.C20_no_spaces",
    "Verif.Props.C20_no_newline_left",
    "Verif.Props.C20_newline_in_literal_kept"
   ],
   "note": "Literals that are treated as a whole keep newlines inside them (C20_newline_in_literal_kept)."
  },
  {
   "property": "C21",
   "status": "partial",
   "theorems": [
    "Verif.Props.C21_replaced_iff_longer_partial",
    "Verif.Props.C21_large_limit_ignored",
    "Verif.Props.C21_violated",
    "Verif.Props.C21_small_limit_violated",
    "Verif.Props.C21_no_limit"
   ],
   "note": "Holds for limits 2..61 and sys.maxsize (the default) at every API entry point; violated for n >= 62 and n < 0 (limit ignored) and for n in {0,1} (treated as 2), with witnesses. C21_no_limit: for n >= 62 or n < 0 a literal kept whole that has less than 2^63 characters is shown in full."
  },
  {
   "property": "C22",
   "status": "proved",
   "theorems": [
    "Verif.Props.C22_output",
    "Verif.Props.C22_reversible",
    "Verif.Props.C22_injective",
    "Verif.Props.C22_numbers"
   ],
   "note": "Output of basic splitting is specified exactly and a small decoder recovers the identifier."
  },
  {
   "property": "C23",
   "status": "proved",
   "theorems": [
    "Verif.Props.C23_identifier_pieces",
    "Verif.Props.C23_spec_unique",
    "Verif.Props.C23_lossless",
    "Verif.Props.C23_forms",
    "Verif.Props.C23_token",
    "Verif.Props.C23_non_english",
    "Verif.Props.C23_word_refused"
   ],
   "note": "For all Unicode classifications that satisfy the laws in Model/Unicode.lean."
  },
  {
   "property": "C24",
   "status": "partial",
   "theorems": [
    "Verif.Props.C24_words",
    "Verif.Props.C24_literals",
    "Verif.Props.C24_text_up_to_case",
    "Verif.Props.C24_literal_up_to_case",
    "Verif.Props.C24_text_partial",
    "Verif.Props.C24_literal_partial",
    "Verif.Props.C24_violated",
    "Verif.Props.C24_identifier_any",
    "Verif.Props.C24_words_any",
    "Verif.Props.C24_literals_any",
    "Verif.Props.C24_text_any_partial",
    "Verif.Props.C24_literal_any_partial",
    "Verif.Props.C24_text_small",
    "Verif.Props.C24_literal_small",
    "Verif.Props.C24_case_violated"
   ],
   "note": "The code violates the property: capital letters in number literals are lower-cased (C24_violated), and an identifier with a letter whose lower case has another upper case, such as U+0130, is changed (C24_case_violated). Proved for all texts: which pieces there are and what each token shows (C24_words_any, C24_literals_any); the output is exact if number literals have no capitals and the pieces of identifiers keep their case, which ASCII text and text without capital letters does."
  },
  {
   "property": "C25",
   "status": "proved",
   "theorems": [
    "Verif.Props.C25_total",
    "Verif.Props.C25_responsible",
    "Verif.Props.C25_sequence",
    "Verif.Props.C25_single",
    "Verif.Props.C25_shape",
    "Verif.Props.C25_preprocess_total"
   ],
   "note": ""
  },
  {
   "property": "C26",
   "status": "partial",
   "theorems": [
    "Verif.Props.C26_full_strings_partial",
    "Verif.Props.C26_full_strings_up_to_case",
    "Verif.Props.C26_violated",
    "Verif.Props.C26_full_strings_any",
    "Verif.Props.C26_full_strings_small"
   ],
   "note": "The code violates the property: capitals in number literals inside strings are lower-cased. Otherwise the output is the literal. C26_full_strings_any says for every literal, also with characters outside ASCII, what the one token shows; it is the literal itself if there are no capital letters."
  },
  {
   "property": "C27",
   "status": "partial",
   "theorems": [
    "Verif.Props.C27_output_partial",
    "Verif.Props.C27_word",
    "Verif.Props.C27_left",
    "Verif.Props.C27_kept",
    "Verif.Props.C27_violated",
    "Verif.Props.C27_case_violated"
   ],
   "note": "Proved for all modes if the non-ASCII characters are letters or digits in names, comments and literals. False otherwise: other non-ASCII characters are left (C27_violated). What is left of any text whose numbers are ASCII is described exactly by C27_left (nothing else than operators, keywords and single characters that are neither letters nor digits) and C27_kept (all of these are left, outside of string literals)."
  },
  {
   "property": "C28",
   "status": "proved",
   "theorems": [
    "Verif.Props.C28_encode_decode",
    "Verif.Props.C28_decode_encode",
    "Verif.Props.C28_injective",
    "Verif.Props.C28_accepts",
    "Verif.Props.C28_rejects",
    "Verif.Props.C28_constructor"
   ],
   "note": ""
  },
  {
   "property": "C29",
   "status": "proved",
   "theorems": [
    "Verif.Props.C29_same_configuration",
    "Verif.Props.C29_same_bpe_codes",
    "Verif.Props.C29_default_length",
    "Verif.Props.C29_empty_id"
   ],
   "note": ""
  },
  {
   "property": "C30",
   "status": "proved",
   "theorems": [
    "Verif.Props.C30_written",
    "Verif.Props.C30_one_writer",
    "Verif.Props.C30_progress",
    "Verif.Props.C30_terminates",
    "Verif.Props.C30_result",
    "Verif.Props.C30_ends",
    "Verif.Props.C30_files",
    "Verif.Props.C30_end_to_end"
   ],
   "note": "Transition system of the merger processes, queues, counters and files; every number of processes, every interleaving, every fault. Liveness (progress, termination, completeness of the result) for executions without faults."
  },
  {
   "property": "C31",
   "status": "partial",
   "theorems": [
    "Verif.Props.C31_preserved",
    "Verif.Props.C31_error",
    "Verif.Props.C31_recovery_partial",
    "Verif.Props.C31_violated"
   ],
   "note": "The recovered partial vocabularies always have the original totals (C31_preserved, every crash point, also during recovery). Violated: a dump cut off such that unpickling raises UnpicklingError instead of EOFError makes every later start fail (C31_violated); C31_error shows that this is the only cause."
  },
  {
   "property": "C32",
   "status": "partial",
   "theorems": [
    "Verif.Props.C32_complete_partial",
    "Verif.Props.C32_violated",
    "Verif.Props.C30_written"
   ],
   "note": "Violated: a crash while the vocabulary is being written leaves a beginning of the file, which is accepted later (C32_violated). Holds if nothing goes wrong during that write (C32_complete_partial); the file is always a beginning of the right one (C30_written)."
  },
  {
   "property": "C33",
   "status": "proved",
   "theorems": [
    "Verif.Props.C33_complete",
    "Verif.Props.C33_not_redone",
    "Verif.Props.C33_ready",
    "Verif.Props.C33_only",
    "Verif.Props.C33_same",
    "Verif.Props.C33_progress",
    "Verif.Props.C33_failure",
    "Verif.Props.C33_good_jobs",
    "Verif.Props.C33_names",
    "Verif.Props.C33_scanned",
    "Verif.Props.C33_pipeline",
    "Verif.Props.C33_tokens",
    "Verif.Props.C33_missing_violated",
    "Verif.Props.C33_two_programs_violated",
    "Verif.Props.C33_tokens_violated",
    "Verif.Props.C33_normal"
   ],
   "note": "One program with any number of workers, any interleaving, crashes at any access to the disk, any number of restarts. Beyond the claim: two programs at the same time (C33_two_programs_violated), missing source files (C33_missing_violated) and equal names of token files (C33_tokens_violated) are shown to go wrong."
  },
  {
   "property": "C34",
   "status": "proved",
   "theorems": [
    "Verif.Props.C34_read_back",
    "Verif.Props.C34_names",
    "Verif.Props.C34_ascii",
    "Verif.Props.C34_yielded",
    "Verif.Props.C34_distinct",
    "Verif.Props.C34_join",
    "Verif.Props.C34_single_file",
    "Verif.Props.C34_truncated",
    "Verif.Props.C34_cache",
    "Verif.Props.C34_saved",
    "Verif.Props.C34_suppressed",
    "Verif.Props.C34_crash_keeps",
    "Verif.Props.C34_crash_cuts",
    "Verif.Props.C34_quotes",
    "Verif.Props.C34_literal"
   ],
   "note": "Includes all histories of complete and crashed scans and outside changes of the saved lists, if no two of them happen in the same second. os.walk is an arbitrary list; literal_eval is modelled for bytes literals only. C34_literal says which texts are read, with a separate description of bytes literals (Spec/BytesLit)."
  },
  {
   "property": "C35",
   "status": "proved",
   "theorems": [
    "Verif.Props.C35_prep_recoverable",
    "Verif.Props.C35_corpus_size",
    "Verif.Props.C35_corpus_size_order",
    "Verif.Props.C35_vocab_counts",
    "Verif.Props.C35_spaces_ambiguous"
   ],
   "note": ""
  },
  {
   "property": "C36",
   "status": "proved",
   "theorems": [
    "Verif.Props.C36_groups",
    "Verif.Props.C36_even",
    "Verif.Props.C36_complete",
    "Verif.Props.C36_no_chunks",
    "Verif.Props.C36_tables"
   ],
   "note": ""
  },
  {
   "property": "C37",
   "status": "partial",
   "theorems": [
    "Verif.Props.C37_limit_partial",
    "Verif.Props.C37_large_partial",
    "Verif.Props.C37_violated"
   ],
   "note": "The code violates the property when the limit is the size of the vocabulary (C37_violated)."
  },
  {
   "property": "C38",
   "status": "proved",
   "theorems": [
    "Verif.Props.C38_pair_queue_refines",
    "Verif.Props.C38_top_unique",
    "Verif.Props.C38_no_zero"
   ],
   "note": ""
  },
  {
   "property": "C39",
   "status": "proved",
   "theorems": [
    "Verif.Props.C39_parse",
    "Verif.Props.C39_parse_sound",
    "Verif.Props.C39_parse_rejects",
    "Verif.Props.C39_min",
    "Verif.Props.C39_max",
    "Verif.Props.C39_none",
    "Verif.Props.C39_dir",
    "Verif.Props.C39_dir_rejects",
    "Verif.Props.C39_from_id",
    "Verif.Props.C39_from_id_rejects",
    "Verif.Props.C39_bpe_dir",
    "Verif.Props.C39_cache_unused"
   ],
   "note": ""
  },
  {
   "property": "C40",
   "status": "partial",
   "theorems": [
    "Verif.Props.C40_given",
    "Verif.Props.C40_first",
    "Verif.Props.C40_fresh_partial",
    "Verif.Props.C40_history_partial",
    "Verif.Props.C40_special_violated",
    "Verif.Props.C40_invalid_violated",
    "Verif.Props.C40_unlearnt_violated",
    "Verif.Props.C40_space_violated",
    "Verif.Props.C40_given_violated",
    "Verif.Props.C40_empty",
    "Verif.Props.C40_number",
    "Verif.Props.C40_error"
   ],
   "note": "Fresh with respect to learnt merge lists if the base name has no regex special characters; all identifiers of a history of learning runs are different, also with identifiers given by the user that are not in use. False in general: counterexamples for unescaped patterns, identifiers without merges, white space at the ends, identifiers in use given by the user."
  },
  {
   "property": "C41",
   "status": "proved",
   "theorems": [
    "Verif.Props.C41_result",
    "Verif.Props.C41_history",
    "Verif.Props.C41_no_codes",
    "Verif.Props.C41_bpe_zero",
    "Verif.Props.C41_reuse",
    "Verif.Props.C41_reuse_violated",
    "Verif.Props.C41_failed_load_violated",
    "Verif.Props.C41_shipped",
    "Verif.Props.C41_failed_load",
    "Verif.Props.C41_failed_custom_violated",
    "Verif.Props.C63_history"
   ],
   "note": "Proved for every call without reuse after any history; the violations are about calls that ask for reuse (force_reinit_bpe_data=False), which the property leaves out. C41_result describes calls in which no cached word is looked up twice; C63 has the effect of lookups on the cache inside a call, and C63_history the independence of earlier calls with that effect."
  },
  {
   "property": "C42",
   "status": "partial",
   "theorems": [
    "Verif.Props.C42_same_dataset",
    "Verif.Props.C42_vocab",
    "Verif.Props.C42_bpe",
    "Verif.Props.C42_no_merges",
    "Verif.Props.C42_datasets_partial",
    "Verif.Props.C42_basename_violated",
    "Verif.Props.C42_slash_violated",
    "Verif.Props.C42_extension_violated"
   ],
   "note": "Holds for one dataset. For different datasets only the last part of the path counts, and extensions must have no underscores; counterexamples are proved."
  },
  {
   "property": "C43",
   "status": "partial",
   "theorems": [
    "Verif.Props.C43_base_dir_partial",
    "Verif.Props.C43_suffix_partial",
    "Verif.Props.C43_base_config",
    "Verif.Props.C43_base_unicode",
    "Verif.Props.C43_separator_violated",
    "Verif.Props.C43_setting_violated",
    "Verif.Props.C43_newline_violated",
    "Verif.Props.C43_base_violated",
    "Verif.Props.C43_suffix_read",
    "Verif.Props.C43_suffix_refused"
   ],
   "note": "Holds if the name of the dataset has neither '_-_' nor a line break; otherwise false. The suffix does not keep the kind of files ('base'), which is not used."
  },
  {
   "property": "C44",
   "status": "partial",
   "theorems": [
    "Verif.Props.C44_normalize",
    "Verif.Props.C44_pieces",
    "Verif.Props.C44_order",
    "Verif.Props.C44_idempotent_partial",
    "Verif.Props.C44_idempotent_violated",
    "Verif.Props.C44_selected",
    "Verif.Props.C34_single_file"
   ],
   "note": "Idempotence fails for strings that consist of bars only; everything else is proved. A dataset that is a single file is listed whatever the extensions are (C34_single_file)."
  },
  {
   "property": "C45",
   "status": "proved",
   "theorems": [
    "Verif.Props.C45_merge",
    "Verif.Props.C45_add_vocab"
   ],
   "note": ""
  },
  {
   "property": "C46",
   "status": "proved",
   "theorems": [
    "Verif.Props.C46_replaces_runs",
    "Verif.Props.C46_spec_deterministic",
    "Verif.Props.C46_ascii_unchanged",
    "Verif.Props.C46_ascii_kept",
    "Verif.Props.C46_idempotent",
    "Verif.Props.C46_bad_placeholder"
   ],
   "note": ""
  },
  {
   "property": "C47",
   "status": "proved",
   "theorems": [
    "Verif.Props.C47_resume_learning",
    "Verif.Props.prepareResume_saved"
   ],
   "note": "in-memory part; the file round trip of the saved vocabulary is C13"
  },
  {
   "property": "C48",
   "status": "proved",
   "theorems": [
    "Verif.Props.C48_numbers",
    "Verif.Props.C48_number_tokens"
   ],
   "note": ""
  },
  {
   "property": "C49",
   "status": "proved",
   "theorems": [
    "Verif.Props.C49_ronin_stem",
    "Verif.Props.C49_stem_case"
   ],
   "note": "ronin and the Porter stemmer are arbitrary functions"
  },
  {
   "property": "C50",
   "status": "proved",
   "theorems": [
    "Verif.Props.C50_vocab_size",
    "Verif.Props.C50_statistics"
   ],
   "note": ""
  },
  {
   "property": "C51",
   "status": "partial",
   "theorems": [
    "Verif.Props.C51_time",
    "Verif.Props.C51_noticed_partial",
    "Verif.Props.C51_limit_violated",
    "Verif.Props.C51_removed_violated",
    "Verif.Props.C51_links_only"
   ],
   "note": "Proved for changes that make something newer than everything was before in datasets with at most `limit` entries; false beyond the limit and for removed files."
  },
  {
   "property": "C52",
   "status": "partial",
   "theorems": [
    "Verif.Props.C52_partial",
    "Verif.Props.C52_no_loss_partial",
    "Verif.Props.C52_progress_partial",
    "Verif.Props.C52_gather_violated",
    "Verif.Props.C52_cut_token_violated",
    "Verif.Props.C52_cut_escape_violated",
    "Verif.Props.C52_not_again",
    "Verif.Props.C52_placeholders",
    "Verif.Props.C52_results"
   ],
   "note": "The property is false: a crash while the collected tokens are written leaves an incomplete file for good, a crash while a token is written leaves a wrong token or a file that makes all further runs fail. Proved for all other crash points (no token is lost, exactly the right tokens, a further run comes to its end)."
  },
  {
   "property": "C53",
   "status": "partial",
   "theorems": [
    "Verif.Props.C53_cache",
    "Verif.Props.C53_kept_partial",
    "Verif.Props.C53_no_effect",
    "Verif.Props.C53_violated"
   ],
   "note": "The vocabulary is stored without escaping, so it has no effect on words except those whose escaped form is in it; the first half of the property is violated, the second half holds."
  },
  {
   "property": "C54",
   "status": "partial",
   "theorems": [
    "Verif.Props.C54_size_partial",
    "Verif.Props.C54_never_wrong",
    "Verif.Props.C54_stuck",
    "Verif.Props.C54_crash_violated",
    "Verif.Props.C54_race_violated",
    "Verif.Props.C54_name",
    "Verif.Props.C54_shared_violated"
   ],
   "note": "calls that do not overlap and are not killed between creating the file and writing it; the missing parts are false: C54_crash_violated, C54_race_violated, C54_shared_violated"
  },
  {
   "property": "C55",
   "status": "partial",
   "theorems": [
    "Verif.Props.C55_fresh_partial",
    "Verif.Props.C55_nothing_lost",
    "Verif.Props.C55_finishes_partial",
    "Verif.Props.C55_same_second_violated",
    "Verif.Props.C55_removed_violated",
    "Verif.Props.C55_unmarked_violated",
    "Verif.Props.C55_empty_violated",
    "Verif.Props.C55_collision_violated"
   ],
   "note": "Proved for all histories of calls killed at any point and of changes that are made later than the mark and that leave a newer file among at most 1000 (or remove the directory). The other changes are not noticed (witnesses: same second, removed file, unmarked results); with an empty dataset, or if a killed call is restarted in the same second, no later call succeeds. The files are assumed to lie directly in the directory."
  },
  {
   "property": "C56",
   "status": "proved",
   "theorems": [
    "Verif.Props.C56_any",
    "Verif.Props.C56_any_unique",
    "Verif.Props.C56_reference",
    "Verif.Props.C56_unique"
   ],
   "note": "C56_any and C56_any_unique hold for texts with any characters: the description says how the capitals of a word are made anew, what no_unicode puts in the place of words (and, with BPE, of runs of characters) and of runs of characters in literals that are kept whole. C56_reference and C56_unique are the simpler description for ASCII words, which are spelled as they are."
  },
  {
   "property": "C57",
   "status": "partial",
   "theorems": [
    "Verif.Props.C57_text_partial",
    "Verif.Props.C57_file_partial",
    "Verif.Props.C57_dir_partial",
    "Verif.Props.C57_best_unique",
    "Verif.Props.C57_unique",
    "Verif.Props.C57_deterministic",
    "Verif.Props.C57_total",
    "Verif.Props.C57_space_violated",
    "Verif.Props.C57_late_violated",
    "Verif.Props.C57_empty",
    "Verif.Props.C57_empty_file",
    "Verif.Props.C57_empty_dir"
   ],
   "note": "Holds for texts without spaces and for files that are UTF-8 or fail to be so in the first block. Violated otherwise: run_from_text with spaces raises AssertionError or merges the wrong things, since pairs are stored as strings with a space between the tokens; a file that is not UTF-8 in a later block is used twice up to there. Empty texts raise RuntimeError."
  },
  {
   "property": "C58",
   "status": "partial",
   "theorems": [
    "Verif.Props.C58_escapes_partial",
    "Verif.Props.C58_escapes_bytes",
    "Verif.Props.C58_escapes_violated",
    "Verif.Props.C58_number",
    "Verif.Props.C58_merge_line",
    "Verif.Props.C58_vocab_line",
    "Verif.Props.C58_cache_line"
   ],
   "note": "Holds for ASCII text. Violated otherwise: other characters are read as the characters of their UTF-8 bytes. Numbers with digits or white space outside of ASCII, which Python accepts, and \\N{...} escapes are not modelled."
  },
  {
   "property": "C59",
   "status": "partial",
   "theorems": [
    "Verif.Props.C59_history_partial",
    "Verif.Props.C59_kill_partial",
    "Verif.Props.C59_extends",
    "Verif.Props.C59_ascending_partial",
    "Verif.Props.C59_load",
    "Verif.Props.C59_unsupported",
    "Verif.Props.C59_kill_blocks",
    "Verif.Props.C59_nested_violated",
    "Verif.Props.C59_kill_violated",
    "Verif.Props.C59_kill_silent_violated",
    "Verif.Props.C59_load_zero",
    "Verif.Props.C59_cut",
    "Verif.Props.C59_cut_whole"
   ],
   "note": "Holds for all histories without kills; lists are beginnings of each other if the numbers asked for never decrease. Violated: after learning 3, 1 and 2 merges the identifier with 2 merges means other merges than before; a run killed while saving leaves a directory that makes later runs fail, or learn from an incomplete vocabulary. The stages that compute the vocabulary of the dataset are not part of this model."
  },
  {
   "property": "C60",
   "status": "partial",
   "theorems": [
    "Verif.Props.C60_results_partial",
    "Verif.Props.C60_vocab_partial",
    "Verif.Props.C60_vocab_complete",
    "Verif.Props.C60_finishes_partial",
    "Verif.Props.C60_nothing_computed",
    "Verif.Props.C60_output",
    "Verif.Props.C60_directory_violated",
    "Verif.Props.C60_removed_violated",
    "Verif.Props.C60_cut_violated",
    "Verif.Props.C60_default_violated",
    "Verif.Props.C60_missing",
    "Verif.Props.C60_missing_raises",
    "Verif.Props.C60_missing_todo",
    "Verif.Props.C60_missing_harmless",
    "Verif.Props.C60_exits",
    "Verif.Props.C60_empty_violated"
   ],
   "note": "Results are right after every call without a vocabulary and after every call that finds no vocabulary file; a vocabulary is right unless a call was killed while writing it. Violated: vocabulary files are shared by all output directories, so a call with a vocabulary into a second directory returns at once and leaves it empty for ever; the same after the results were removed; an incomplete vocabulary is accepted; the default directory is the current one, not `<path>_preprocessed`. The dataset does not change (see C51), and calls do not overlap. A dataset without files can make a call exit (`C60_empty_violated`)."
  },
  {
   "property": "C61",
   "status": "partial",
   "theorems": [
    "Verif.Props.C61_text_partial",
    "Verif.Props.C61_corpus",
    "Verif.Props.C61_plan",
    "Verif.Props.C61_missing",
    "Verif.Props.C61_empty_text",
    "Verif.Props.C61_empty_text_violated",
    "Verif.Props.C61_path",
    "Verif.Props.C61_path_two",
    "Verif.Props.C61_same_place",
    "Verif.Props.C61_learn_config",
    "Verif.Props.C61_learn_rejected_partial",
    "Verif.Props.C61_legacy",
    "Verif.Props.C61_learn_keeps",
    "Verif.Props.C61_learn_done",
    "Verif.Props.C61_learn_unsupported",
    "Verif.Props.C61_unsupported_violated",
    "Verif.Props.C61_directory_partial"
   ],
   "note": "Proved for all texts but the empty one and for all paths. Violated: an empty text is taken for no text, and the command preprocesses a directory called `None`; `--bytes` and `--word-end` are rejected only after the id has been written, which can make the id unusable later. Logging is not modelled; docopt's parsing of the command line is in C73 (how Python prints a list: C70)."
  },
  {
   "property": "C62",
   "status": "partial",
   "theorems": [
    "Verif.Props.C62_linear",
    "Verif.Props.C62_non_atomic",
    "Verif.Props.C62_set",
    "Verif.Props.C62_same",
    "Verif.Props.C62_tickets",
    "Verif.Props.C62_last",
    "Verif.Props.C62_returns_partial",
    "Verif.Props.C62_bounded",
    "Verif.Props.C62_zero",
    "Verif.Props.C62_killed",
    "Verif.Props.C62_zero_violated",
    "Verif.Props.C62_lost_violated",
    "Verif.Props.C62_killed_violated",
    "Verif.Props.C62_vocab",
    "Verif.Props.Counter.C62_set_own_partial",
    "Verif.Props.Counter.C62_set_call_partial",
    "Verif.Props.Counter.C62_set_others",
    "Verif.Props.Counter.C62_set_violated"
   ],
   "note": "What the calls return is proved for all schedules and kills. That they return: violated for calls that take from a counter that is 0 (they wait for ever and hold the lock), after a process was killed in a method, and after a process was killed before its item was in the pipe; proved in all other cases. The setter of `AtomicInteger.value`, which nothing uses, is not modelled."
  },
  {
   "property": "C63",
   "status": "partial",
   "theorems": [
    "Verif.Props.C63_text",
    "Verif.Props.C63_call",
    "Verif.Props.C63_no_cache",
    "Verif.Props.C63_history",
    "Verif.Props.C63_no_codes",
    "Verif.Props.C63_worker",
    "Verif.Props.C63_reuse",
    "Verif.Props.C63_twice_violated",
    "Verif.Props.C63_reuse_violated",
    "Verif.Props.C63_processes_violated",
    "Verif.Props.C63_wrong_violated"
   ],
   "note": "Violated: a cached word that is looked up twice makes the call (or the worker process) fail, or give a wrong result if it ends with `@`. Proved: exactly when this happens. If no cached word is needed twice, in a text, in two calls of which the second one reuses the codes, or in all files of a worker process, the results are those of the codes; otherwise (for words that do not end with `@` and caches of genuine splits) an exception is raised. With an empty cache the property holds. Missing: words that end with `@` beyond the counterexample."
  },
  {
   "property": "C64",
   "status": "partial",
   "theorems": [
    "Verif.Props.Overlap.C64_complete",
    "Verif.Props.Overlap.C64_stays",
    "Verif.Props.Overlap.C64_done",
    "Verif.Props.Overlap.C64_ends",
    "Verif.Props.Overlap.C64_progress",
    "Verif.Props.Overlap.C64_over",
    "Verif.Props.Overlap.C64_early_violated",
    "Verif.Props.Overlap.C64_exception_violated",
    "Verif.Props.Overlap.C64_abort_violated",
    "Verif.Props.Overlap.C64_stopped"
   ],
   "note": "Violated: all programs write to the same unfinished file, so a result can be there but empty while another program is writing it, renaming raises FileNotFoundError in the slower program, and the exception of one worker, which stops the other workers of its program, can leave an empty result for good. Proved for any number of programs and any interleaving: if no program ends while it is writing, a result nobody is writing is complete; results do not vanish, a worker that is done with a file leaves the result there, and nobody waits for anybody, also if programs are killed at any time. C64_progress holds whether or not the names of the files of tokens may coincide."
  },
  {
   "property": "C65",
   "status": "partial",
   "theorems": [
    "Verif.Props.Compare.C65_config",
    "Verif.Props.Compare.C65_config_violated",
    "Verif.Props.Compare.C65_fails_iff",
    "Verif.Props.Compare.C65_equal_iff",
    "Verif.Props.Compare.C65_refl",
    "Verif.Props.Compare.C65_symm",
    "Verif.Props.Compare.C65_trans",
    "Verif.Props.Compare.C65_made_partial",
    "Verif.Props.Compare.C65_made_iff",
    "Verif.Props.Compare.C65_output",
    "Verif.Props.Compare.C65_output_place",
    "Verif.Props.Compare.C65_custom_violated",
    "Verif.Props.Compare.C65_learn_violated",
    "Verif.Props.Compare.C65_merge_hash",
    "Verif.Props.Compare.C65_merge_list",
    "Verif.Props.Compare.C65_dict",
    "Verif.Props.Compare.C65_append_violated",
    "Verif.Props.Compare.C65_append",
    "Verif.Props.Compare.C65_tokens",
    "Verif.Props.Compare.C65_tokens_text",
    "Verif.Props.Compare.C65_dict_again",
    "Verif.Props.Compare.C65_append_refused",
    "Verif.Props.Compare.C65_place_iff"
   ],
   "note": "Violated: comparing a dataset with BPE configuration with one without raises AttributeError if everything compared before is the same; two datasets with the same custom codes looked up twice are different; a merge without a rank changes its hash when it is appended to a list. C65_made_partial is about datasets with the same object for the custom codes."
  },
  {
   "property": "C66",
   "status": "partial",
   "theorems": [
    "Verif.Props.Source.C66_utf8",
    "Verif.Props.Source.C66_text",
    "Verif.Props.Source.C66_no_cr",
    "Verif.Props.Source.C66_plain",
    "Verif.Props.Source.C66_different",
    "Verif.Props.Source.C66_mixed_violated",
    "Verif.Props.Source.C66_extension",
    "Verif.Props.Source.C66_no_extension",
    "Verif.Props.Source.C66_extension_violated",
    "Verif.Props.Source.C66_same_partial",
    "Verif.Props.Source.C66_newline_violated",
    "Verif.Props.Source.C66_missing",
    "Verif.Props.Source.C66_ascii",
    "Verif.Props.Source.C66_words",
    "Verif.Props.Source.C66_eof",
    "Verif.Props.Source.C66_lexer"
   ],
   "note": "Violated: the text functions drop a line break at the end of the parsed text, the corpus functions do not, so the result of a file has one more line break (C66_newline_violated says exactly which token); a file whose extension is not UTF-8 makes the run fail; one byte that is not UTF-8 changes the reading of the whole file. Proved for all bytes and lexers: which text is parsed, which extension is used, and that the results are the same if line breaks are not shown or the parsed text does not end with one. The lexers of Pygments are arbitrary functions."
  },
  {
   "property": "C67",
   "status": "partial",
   "theorems": [
    "Verif.Props.C67_exactly",
    "Verif.Props.C67_never_empty",
    "Verif.Props.C67_tokens",
    "Verif.Props.C67_file",
    "Verif.Props.C67_vocab",
    "Verif.Props.C67_violated"
   ],
   "note": "Violated by keywords and operators that contain spaces in the source, such as `import static` of Pygments' lexer for Java: they are shown with the space, and are two words in the results and in the vocabulary (C67_violated). Proved: these are exactly the tokens that contain spaces (C67_exactly), no token is ever empty, and without such keywords the results, vocabulary and size are those of the tokens. The hypotheses about libraries (case changes, ronin and stemming introduce no spaces; number literals have none) are explicit."
  },
  {
   "property": "C68",
   "status": "partial",
   "theorems": [
    "Verif.Props.C68_ready_partial",
    "Verif.Props.C68_learns_partial",
    "Verif.Props.C68_possible_partial",
    "Verif.Props.C68_violated"
   ],
   "note": "Violated by keywords with spaces: `import static` is recorded as not to be split, yet `import` and `static` are learnt from as if they were names (C68_violated). Partial: sources whose lexer delivers such keywords are excluded, and so are crashes that cut off a token or the collected tokens (see C52)."
  },
  {
   "property": "C69",
   "status": "partial",
   "theorems": [
    "Verif.Props.C69_words",
    "Verif.Props.C69_bpe",
    "Verif.Props.C69_merges",
    "Verif.Props.C69_unknown",
    "Verif.Props.C69_progress",
    "Verif.Props.C69_available",
    "Verif.Props.C69_corpus",
    "Verif.Props.C69_given_violated",
    "Verif.Props.C69_separator_violated"
   ],
   "note": "Violated if the user gives an identifier that another dataset has (C69_given_violated) and by datasets with `_-_` in their names, whose words are not found (C69_separator_violated). Proved for all histories of runs that succeed without these two. Runs that fail or are killed leave identifiers without merges and directories without files (C40, C59)."
  },
  {
   "property": "C70",
   "status": "proved",
   "theorems": [
    "Verif.Props.C70_reads",
    "Verif.Props.C70_one_reading",
    "Verif.Props.C70_injective",
    "Verif.Props.C70_one_line",
    "Verif.Props.C70_plain",
    "Verif.Props.C70_command",
    "Verif.Props.C70_nothing",
    "Verif.Props.C70_corpus",
    "Verif.Props.C70_any_line",
    "Verif.Props.C70_any_path"
   ],
   "note": "For a standard output that takes all characters. Python's repr of strings and lists is modelled from CPython; which characters outside of ASCII are printable is arbitrary. C70_any_line and C70_any_path begin with the words of the command line."
  },
  {
   "property": "C71",
   "status": "partial",
   "theorems": [
    "Verif.Props.C71_listed",
    "Verif.Props.C71_directories",
    "Verif.Props.C71_once",
    "Verif.Props.C71_results",
    "Verif.Props.C71_loop",
    "Verif.Props.C71_time_partial",
    "Verif.Props.C71_unnoticed",
    "Verif.Props.C71_script",
    "Verif.Props.C71_script_rest",
    "Verif.Props.C71_twice_violated",
    "Verif.Props.C71_unnoticed_violated"
   ],
   "note": "Which files are listed is settled exactly (C71_listed). That they are listed once holds for paths (C71_once) but not for files: a file behind a link is listed once for every path that leads to it (C71_loop, C71_twice_violated). Changes of files that are only reached through links are listed but not noticed (C71_unnoticed, C71_unnoticed_violated). Directories that cannot be read and limits on the length of paths are not modelled."
  },
  {
   "property": "C72",
   "status": "partial",
   "theorems": [
    "Verif.Props.C72_distinct_partial",
    "Verif.Props.C72_unrelated",
    "Verif.Props.C72_kept_partial",
    "Verif.Props.C72_saved",
    "Verif.Props.C72_violated",
    "Verif.Props.C72_renamed_violated"
   ],
   "note": "For datasets whose names have nothing to do with each other it holds without conditions (C72_unrelated). Otherwise it holds if no identifier is chosen while an unfinished run for another dataset has one that could be chosen (C72_distinct_partial), and identifiers are kept if no two programs work for the same dataset at the same time (C72_kept_partial). Without these conditions it is false: two datasets get the same identifier (C72_violated), and a second program renames a dataset whose merges are in use (C72_renamed_violated). All identifiers are read at one moment in the model."
  },
  {
   "property": "C73",
   "status": "partial",
   "theorems": [
    "Verif.Props.C73_split",
    "Verif.Props.C73_learn",
    "Verif.Props.C73_order",
    "Verif.Props.C73_text_partial",
    "Verif.Props.C73_corpus_partial",
    "Verif.Props.C73_only_calls",
    "Verif.Props.C73_length_violated",
    "Verif.Props.C73_strings_violated",
    "Verif.Props.C73_dash_violated",
    "Verif.Props.C70_shell_partial"
   ],
   "note": "C73_split and C73_learn say exactly which command lines are accepted and what they mean. Calls of the API have command lines with the same effect unless no_str and full_strings are both set or the text or the id begins with a dash; in these cases there is none (C73_strings_violated, C73_dash_violated). `-L=5`, as it is written in the usage, is not read as 5 (C73_length_violated). docopt 0.6.2 and docopt-subcommands are not part of the repository: their algorithm is modelled as published, the usage texts are given as data."
  },
  {
   "property": "C74",
   "status": "partial",
   "theorems": [
    "Verif.Props.C74_results",
    "Verif.Props.C74_finishes",
    "Verif.Props.C74_vocab",
    "Verif.Props.C74_single"
   ],
   "note": "Composes C71 (list of files), C33 (workers), C66 (a file and its text) and C67, C30 (vocabulary). One line break more than in the result of the text function is possible if line breaks are shown (C66_newline_violated). If a listed file cannot be read or its extension is not UTF-8, preprocessing never comes to its end (second part of C74_finishes). Missing: merges with cached words that a worker needs more than once (C63_violated); pickling is assumed to lose nothing; the files do not change meanwhile."
  },
  {
   "property": "C75",
   "status": "partial",
   "theorems": [
    "Verif.Props.C75_files_partial",
    "Verif.Props.C75_possible_partial",
    "Verif.Props.C75_learnt",
    "Verif.Props.C75_loaded",
    "Verif.Props.C75_codes",
    "Verif.Props.C75_word",
    "Verif.Props.C75_needed",
    "Verif.Props.C75_text",
    "Verif.Props.C75_others",
    "Verif.Props.C75_keeps",
    "Verif.Props.C75_shipped",
    "Verif.Props.C75_texts"
   ],
   "note": "Composes C71, C33, C52, C68, C30 (files to words), C59, C69 (words to merges, many datasets), C53, C63, C31 (merges to subwords). Missing: crashes that cut off a saved token or the collected tokens (C52_gather_violated, C52_cut_token_violated); identifiers given twice and names with `_-_` (C69_given_violated, C69_separator_violated); words that are needed and recorded with `@` at their end; keywords with spaces (C68_violated). Words that are recorded as not to be split are split nevertheless (C53_violated). C75_texts: all calls with one identifier use the same merges."
  },
  {
   "property": "C76",
   "status": "partial",
   "theorems": [
    "Verif.Props.C76_never_more",
    "Verif.Props.C76_breaks_partial",
    "Verif.Props.C76_hidden",
    "Verif.Props.C76_parts",
    "Verif.Props.C76_lines",
    "Verif.Props.C76_tab",
    "Verif.Props.C76_white",
    "Verif.Props.C76_empty_lines_violated",
    "Verif.Props.C76_tabs_violated"
   ],
   "note": "Exact for the line breaks in single newlines, words, shown comments and split literals (C76_breaks_partial); C76_hidden says which line breaks are always lost: those in white space of more than one character and in comments or literals that are left out (a one-line comment may include its newline). Whole texts are the concatenation of their parts (C76_parts, C76_lines). Violated: a lexer that delivers empty lines or a newline with the indentation of the next line as one piece of white space loses the line break (C76_empty_lines_violated), and two tabs at once disappear (C76_tabs_violated). Not covered: what pygments itself strips, line breaks in literals that are kept whole."
  },
  {
   "property": "C77",
   "status": "partial",
   "theorems": [
    "Verif.Props.C77_create",
    "Verif.Props.C77_update",
    "Verif.Props.C77_history",
    "Verif.Props.C77_returns",
    "Verif.Props.C77_grouping",
    "Verif.Props.C77_equal",
    "Verif.Props.C77_empty",
    "Verif.Props.C77_misfit",
    "Verif.Props.C77_value",
    "Verif.Props.C77_parts",
    "Verif.Props.C77_token",
    "Verif.Props.C77_token_violated",
    "Verif.Props.C77_self_violated",
    "Verif.Props.C77_self_empty_violated",
    "Verif.Props.C77_shared_violated",
    "Verif.Props.C77_kept",
    "Verif.Props.C77_not_kept",
    "Verif.Props.C77_token_equal",
    "Verif.Props.C77_token_equal_violated",
    "Verif.Props.C77_token_added"
   ],
   "note": "Proved for different objects that hold no set or list in common, which is so in all histories of programs that do not hand the same list to two objects (C77_history, C77_returns). Violated: a.update(a) never ends, or leaves an object that cannot be used (C77_self_violated, C77_self_empty_violated); the constructor keeps the lists it is given, so that objects made from one list change together (C77_shared_violated); the metadata of a single token holds a list instead of an empty set and cannot be added to (C77_token_violated; it does not come out of the text functions)."
  },
  {
   "property": "C78",
   "status": "proved",
   "theorems": [
    "Verif.Props.C78_tokens",
    "Verif.Props.C78_stored",
    "Verif.Props.C78_bounded",
    "Verif.Props.C78_bounded_merges",
    "Verif.Props.C78_open",
    "Verif.Props.C78_learnt"
   ],
   "note": "For every alphabet that the changes of letters do not leave. C78_open is for nosplit and for basic without ronin and stemming. C78_learnt: the bound for calls with learnt merges, over any options and histories of calls."
  },
  {
   "property": "C79",
   "status": "partial",
   "theorems": [
    "Verif.Props.Share.C79_append",
    "Verif.Props.Share.C79_append_refused",
    "Verif.Props.Share.C79_append_again",
    "Verif.Props.Share.C79_add_untouched",
    "Verif.Props.Share.C79_add",
    "Verif.Props.Share.C79_add_refused",
    "Verif.Props.Share.C79_add_last_violated",
    "Verif.Props.Share.C79_ranked",
    "Verif.Props.Share.C79_file",
    "Verif.Props.Share.C79_file_lines",
    "Verif.Props.Share.C79_file_violated"
   ],
   "note": "Proved as stated except for a pair that is repeated at the very end: C79_add_last_violated and C79_file_violated show that a repeated pair is not noticed if it is the last one of the second list, or in the last line of a file; the priorities are not the positions then. C79_append_again says what happens if a pair is appended again."
  },
  {
   "property": "C80",
   "status": "partial",
   "theorems": [
    "Verif.Props.C80_search",
    "Verif.Props.C80_merge",
    "Verif.Props.C80_learn",
    "Verif.Props.C80_any",
    "Verif.Props.C80_run",
    "Verif.Props.C80_resume",
    "Verif.Props.C80_space_violated",
    "Verif.Props.C80_linefeed_violated",
    "Verif.Props.C80_disk"
   ],
   "note": "Proved for words without spaces whose last subword does not end with a line feed, which the words of the learner are (they end with @). C80_space_violated: learning fails if a word has a space. C80_linefeed_violated: $ also matches before a line feed at the end. regex.escape is trusted: the text of a pair stands for itself."
  },
  {
   "property": "C81",
   "status": "proved",
   "theorems": [
    "Verif.Props.C81_size",
    "Verif.Props.C81_same",
    "Verif.Props.C81_fails",
    "Verif.Props.C81_ends",
    "Verif.Props.C81_deep"
   ],
   "note": "Sizes of single objects (sys.getsizeof) and what hasattr/isinstance say about them are data. C81_deep: for every limit there are nested lists for which the calculation fails, so the condition cannot be left out."
  },
  {
   "property": "C82",
   "status": "partial",
   "theorems": [
    "Verif.Props.C82_bpe_partial",
    "Verif.Props.C82_basic",
    "Verif.Props.C82_types",
    "Verif.Props.C82_codes",
    "Verif.Props.C82_unicode_violated"
   ],
   "note": "With no_unicode the full tokens of bpe and nosplit differ (C82_unicode_violated), therefore the comparison of BPE with nosplit is for calls without no_unicode; the comparison of codes with each other, of basic with nosplit and of types has no such condition."
  },
  {
   "property": "C83",
   "status": "partial",
   "theorems": [
    "Verif.Props.C83_report",
    "Verif.Props.C83_same",
    "Verif.Props.C83_off",
    "Verif.Props.C83_count_violated"
   ],
   "note": "Entries of the statistics give one merge less than has been done (C83_count_violated); everything else of the property is proved: the merges are the same, the numbers of entries belong to the text after the merges, and a run ends early only because of its memory."
  },
  {
   "property": "C84",
   "status": "partial",
   "theorems": [
    "Verif.Props.C84_current_partial",
    "Verif.Props.C84_finishes",
    "Verif.Props.C84_fails",
    "Verif.Props.C84_origin",
    "Verif.Props.C84_kept",
    "Verif.Props.C84_marked",
    "Verif.Props.C84_newer",
    "Verif.Props.C84_gone",
    "Verif.Props.C84_removed_violated",
    "Verif.Props.C84_during_violated",
    "Verif.Props.C84_restored_violated"
   ],
   "note": "Proved for all histories in which each change gives the dataset a time that it never had before (C84_newer: a newer file among at most 1000 does). Violated: removed files are not noticed; a change during a call gives marked results that belong to no dataset there was; if the dataset is then restored with its time, these results are used for ever. Nobody else changes the kept directories (C55), calls do not overlap (C64), no extensions are given."
  },
  {
   "property": "C85",
   "status": "partial",
   "theorems": [
    "Verif.Props.C85_words_partial",
    "Verif.Props.C85_merges_partial",
    "Verif.Props.C85_owner_partial",
    "Verif.Props.C85_again_partial",
    "Verif.Props.C85_finished",
    "Verif.Props.C85_left",
    "Verif.Props.C85_owns",
    "Verif.Props.C85_killed_violated",
    "Verif.Props.C85_saving_violated"
   ],
   "note": "Proved from any state in which merges have been learnt for the dataset and no other directory has its identifier (C85_owns: so after all histories without crashes), if names have no characters with a meaning in patterns (C40). Violated: the identifier of a run that was killed or failed before it saved anything is given out again, and then leads to the wrong dataset; a run that was killed while it saved cannot be repeated. The identifier itself is written at once."
  },
  {
   "property": "C86",
   "status": "partial",
   "theorems": [
    "Verif.Props.C86_text_partial",
    "Verif.Props.C86_word_partial",
    "Verif.Props.C86_none",
    "Verif.Props.C86_file",
    "Verif.Props.C86_runs_partial",
    "Verif.Props.C86_repeated",
    "Verif.Props.C86_decreasing_violated"
   ],
   "note": "Proved for all texts and for all codes of which one consists of the first merges of the other, if the words in the caches are stored as the merges split them; chars has no merges (C86_none); a file read up to a smaller number gives such codes if no pair is repeated in it (C86_file, C86_repeated); so do the identifiers of a dataset if the numbers of merges learnt never decreased (C86_runs_partial). Violated: after learning fewer merges from a dataset, three merges can split a word into more subtokens than two."
  },
  {
   "property": "C87",
   "status": "proved",
   "theorems": [
    "Verif.Props.C87_parts",
    "Verif.Props.C87_options",
    "Verif.Props.C87_same",
    "Verif.Props.C87_spaces",
    "Verif.Props.C87_comments",
    "Verif.Props.C87_strings",
    "Verif.Props.C87_limit",
    "Verif.Props.C87_cut"
   ],
   "note": "Proved for all texts, given as what the lexer delivers, for all options and for all ways of splitting; BPE needs codes that can be loaded and whose cached words are stored whole."
  },
  {
   "property": "C88",
   "status": "partial",
   "theorems": [
    "Verif.Props.C88_order_partial",
    "Verif.Props.C88_times",
    "Verif.Props.C88_schedule_partial",
    "Verif.Props.C88_order_violated",
    "Verif.Props.C88_schedule_violated"
   ],
   "note": "Proved for all corpora, all numbers of processes and all schedules if no other pair was as frequent as one that was merged; violated for ties: what is learnt then depends on the order of the words in the vocabulary file, which depends on which partial vocabulary was ready first."
  },
  {
   "property": "C89",
   "status": "proved",
   "theorems": [
    "Verif.Props.C89_new",
    "Verif.Props.C89_parts",
    "Verif.Props.C89_size",
    "Verif.Props.C89_frequency",
    "Verif.Props.C89_whole"
   ],
   "note": "Proved for all words with positive frequencies and all numbers of merges (up to sys.maxsize where words are split again)."
  },
  {
   "property": "C90",
   "status": "proved",
   "theorems": [
    "Verif.Props.C90_rest",
    "Verif.Props.C90_last",
    "Verif.Props.C90_begin",
    "Verif.Props.C90_middle",
    "Verif.Props.C90_two",
    "Verif.Props.C90_begin_violated"
   ],
   "note": "Proved for all lists of merges with different ranks and all words without spaces. `C90_begin_violated` shows that the condition on merges about the end of words is needed for beginnings and single subwords."
  },
  {
   "property": "C91",
   "status": "proved",
   "theorems": [
    "Verif.Props.C91_vocab",
    "Verif.Props.C91_cache",
    "Verif.Props.C91_vocab_accepts",
    "Verif.Props.C91_vocab_error",
    "Verif.Props.C91_cache_error",
    "Verif.Props.C91_vocab_append",
    "Verif.Props.C91_cache_append"
   ],
   "note": "Proved for all files of ASCII text (what codeprep writes is ASCII, C14; other text is not read as what it is, C58_escapes_violated); the theorems about added lines hold for all texts."
  },
  {
   "property": "C92",
   "status": "partial",
   "theorems": [
    "Verif.Props.C92_exact_partial",
    "Verif.Props.C92_bounds",
    "Verif.Props.C92_less",
    "Verif.Props.C92_exact_violated",
    "Verif.Props.C92_enough"
   ],
   "note": "The exact number is proved for merges of two different subwords (`C92_exact_partial`); for merges of equal subwords it is false (`C92_exact_violated`: `aaa` has the pair twice and is joined once), and the bounds between one half and the whole of the sum of the frequencies hold for all learnt merges."
  },
  {
   "property": "C93",
   "status": "proved",
   "theorems": [
    "Verif.Props.C93_total",
    "Verif.Props.C93_size",
    "Verif.Props.C93_schedule",
    "Verif.Props.C93_loaded",
    "Verif.Props.C93_words",
    "Verif.Props.C93_union"
   ],
   "note": "For files with any contents, any number of processes and every schedule of the calculation of the vocabulary; the size is the one that is calculated (a size stored earlier for another corpus is the subject of C54)."
  },
  {
   "property": "C94",
   "status": "proved",
   "theorems": [
    "Verif.Props.C94_word",
    "Verif.Props.C94_without",
    "Verif.Props.C94_more",
    "Verif.Props.C94_none",
    "Verif.Props.C94_learnt",
    "Verif.Props.C94_text",
    "Verif.Props.C94_text_more"
   ],
   "note": "For every list of merges, every cache and every word, also words with spaces and with `@` (`C94_none` is about words without spaces that are not in the cache)."
  },
  {
   "property": "C95",
   "status": "proved",
   "theorems": [
    "Verif.Props.C95_learn",
    "Verif.Props.C95_split",
    "Verif.Props.C95_whole"
   ],
   "note": "For every renaming of the characters that keeps different characters different and, for words and splits, keeps `@` and the space."
  },
  {
   "property": "C96",
   "status": "proved",
   "theorems": [
    "Verif.Props.C96_dict",
    "Verif.Props.C96_sum",
    "Verif.Props.C96_lookup",
    "Verif.Props.C96_illegal",
    "Verif.Props.C96_one",
    "Verif.Props.C96_empty_violated",
    "Verif.Props.C96_parts",
    "Verif.Props.C96_learnt"
   ],
   "note": "For merges without empty parts; C96_empty_violated shows that this condition is needed."
  },
  {
   "property": "C97",
   "status": "proved",
   "theorems": [
    "Verif.Props.C97_swap",
    "Verif.Props.C97_swap_single",
    "Verif.Props.C97_symmetric",
    "Verif.Props.C97_symmetric_comm",
    "Verif.Props.C97_row",
    "Verif.Props.C97_rows"
   ],
   "note": "C97_row and C97_rows determine self_merge for all lists, as every list consists of rows."
  },
  {
   "property": "C98",
   "status": "proved",
   "theorems": [
    "Verif.Props.C98_distinct",
    "Verif.Props.C98_text",
    "Verif.Props.C98_spaces",
    "Verif.Props.C98_empty_violated",
    "Verif.Props.C98_size"
   ],
   "note": "For words that are not in the cache (cached words: C04) and, for C98_distinct and C98_spaces, merges without empty parts, as learnt merges are (C96_parts); C98_empty_violated shows that the condition is needed."
  },
  {
   "property": "C99",
   "status": "proved",
   "theorems": [
    "Verif.Props.Count.C99_full_tokens",
    "Verif.Props.Count.C99_nosplit",
    "Verif.Props.Count.C99_split_violated",
    "Verif.Props.Count.C99_at_least"
   ],
   "note": "For all texts, options and functions. C99_split_violated shows that the bound is one for full tokens (and for nosplit), not for the strings that a splitting function delivers."
  },
  {
   "property": "C100",
   "status": "proved",
   "theorems": [
    "Verif.Props.Scale.C100_merges",
    "Verif.Props.Scale.C100_run",
    "Verif.Props.Scale.C100_continued",
    "Verif.Props.Scale.C100_split",
    "Verif.Props.Scale.C100_stored",
    "Verif.Props.Scale.C100_zero_violated",
    "Verif.Props.Scale.C100_limit",
    "Verif.Props.Scale.C100_copies"
   ],
   "note": "For all vocabularies, kept words, numbers of merges and positive factors, errors included; C100_limit for limiting the vocabulary, C100_copies for corpora with k copies of every file under every schedule. C100_zero_violated shows why the factor must be positive. C100_merges says the same as C88_times; the other theorems extend it to whole runs, continued runs, splitting and the stored files."
  },
  {
   "property": "C101",
   "status": "proved",
   "theorems": [
    "Verif.Props.Kept.C101_alone",
    "Verif.Props.Kept.C101_kept_irrelevant",
    "Verif.Props.Kept.C101_same_words",
    "Verif.Props.Kept.C101_continued"
   ],
   "note": "For all vocabularies without repeated words, all words to keep and all numbers of merges, errors included; runs from scratch and runs that continue earlier ones."
  },
  {
   "property": "C102",
   "status": "proved",
   "theorems": [
    "Verif.Props.Alphabets.C102_apart",
    "Verif.Props.Alphabets.C102_shared_violated",
    "Verif.Props.Order.C102_split"
   ],
   "note": "For all vocabularies, alphabets and numbers of merges. Which of several equally frequent pairs is merged first may depend on the other words, therefore the merges are compared with the specification of learning (each is a most frequent pair at its time, with its exact frequency) and not with one run. C102_shared_violated shows that the words must not share characters."
  },
  {
   "property": "C103",
   "status": "proved",
   "theorems": [
    "Verif.Props.Order.C103_word",
    "Verif.Props.Order.C103_removed",
    "Verif.Props.Order.C103_order_counts",
    "Verif.Props.Order.C103_file",
    "Verif.Props.Order.C103_frequencies"
   ],
   "note": "For all lists of merges with distinct ranks below the largest number, all words without spaces and all caches. C103_order_counts shows that the order itself matters. C103_frequencies: the frequencies in the file do not count either."
  }
 ]
}
