{"id": "C01", "title": "BPE splitting loses no text", "statement": "Splitting any word that contains no ASCII space with BPE (any merge list, no cache entry for the word) never raises, and concatenating the returned subwords gives back exactly the word, including words that contain the escape character '@'.", "quantifier": "all words without ' ', all merge lists (any pairs, any priorities)", "why_tests_cant": "the word and the learnt merge list are unbounded; escaping interacts with every possible merge", "anchors": ["codeprep/bpepkg/bpe_encode.py: escape, unescape, to_char_list, encode, encode_word, get_bpe_subwords"]}
{"id": "C02", "title": "BPE splitting is the greedy normal form of the merge list", "statement": "For every word, BPE splitting terminates in a list of subwords in which no two neighbours form a known merge, and it is reached by repeatedly replacing, left to right without overlaps, all occurrences of the best-ranked merge present.", "quantifier": "all words, all merge lists", "why_tests_cant": "termination and the 'no mergeable neighbours remain' condition range over all words and merge lists", "anchors": ["codeprep/bpepkg/bpe_encode.py: encode, encode_word"]}
{"id": "C03", "title": "Character splitting is BPE with zero merges", "statement": "With no merges (API chars(), split value '8') a word is split into exactly its characters followed by one empty subword that carries the end-of-token mark; no character is lost, duplicated or reordered.", "quantifier": "all words without ' '", "why_tests_cant": "ranges over all strings, including ones made of escape characters", "anchors": ["codeprep/api/text.py: chars", "codeprep/bpepkg/bpe_encode.py: get_bpe_subwords"]}
{"id": "C04", "title": "Looking a word up in the BPE cache is repeatable", "statement": "Splitting the same word twice with the same BPE data gives the same subwords both times, whether or not the word is in the merges cache.", "quantifier": "all words, caches and merge lists; all sequences of look-ups", "why_tests_cant": "needs a history of calls: a single look-up per word hides in-place modification of the cache", "anchors": ["codeprep/bpepkg/bpe_encode.py: unescape, get_bpe_subwords"]}
{"id": "C05", "title": "Learnt splits equal encoded splits", "statement": "For every word of the training vocabulary, the split that learn-bpe records for it (the merges cache, the final split vocabulary) is exactly the split that later encoding of this word with the learnt merges produces.", "quantifier": "all training vocabularies with positive counts and pairwise different words, all numbers of merges", "why_tests_cant": "learning applies merges globally one at a time, encoding picks the best-ranked merge per word; agreement is a confluence fact over all vocabularies", "anchors": ["codeprep/bpepkg/bpe_learn.py: do_merges, merge_vocab, create_bpe_cache", "codeprep/bpepkg/bpe_encode.py: encode_word"]}
{"id": "C06", "title": "Every learnt merge is a most frequent pair with its exact frequency", "statement": "While learning, each merge appended is a pair of neighbouring subwords whose weighted number of occurrences in the current split vocabulary is maximal, and the frequency stored with the merge is exactly this number; stored frequencies never increase along the merge list.", "quantifier": "all training vocabularies with positive counts, all numbers of merges", "why_tests_cant": "the pair statistics are maintained incrementally; drift from the true counts only shows on specific overlap patterns", "anchors": ["codeprep/bpepkg/bpe_learn.py: get_stats, merge_vocab, do_merges", "codeprep/util.py: PriorityCounter"]}
{"id": "C07", "title": "Learning fewer merges gives a prefix", "statement": "Learning n merges gives the first n entries (pairs, frequencies and ranks) of learning any larger number of merges from the same vocabulary; so using the first n lines of a bigger merge file equals having learnt n merges.", "quantifier": "all vocabularies, all n <= m", "why_tests_cant": "quantifies over two runs of unbounded length", "anchors": ["codeprep/bpepkg/bpe_learn.py: do_merges", "codeprep/bpepkg/merge.py: read_merges", "codeprep/pipeline/bperegistry.py: CustomBpeConfig.from_id"]}
{"id": "C08", "title": "Learning never fails and never corrupts words", "statement": "Learning never raises on any vocabulary with positive counts and pairwise different words; the learnt split vocabulary contains the same words (concatenated splits) in the same order with the same frequencies; the merges have ranks 0,1,2,... and pairwise different pairs; fewer than the requested number of merges are learnt only if every word has become a single subword.", "quantifier": "all vocabularies with positive counts, all numbers of merges", "why_tests_cant": "a pair learnt twice would raise only for special vocabularies; must hold for every vocabulary", "anchors": ["codeprep/bpepkg/bpe_learn.py: do_merges, merge_vocab", "codeprep/bpepkg/merge.py: MergeList.append"]}
{"id": "C09", "title": "Subword vocabulary accounts for every occurrence", "statement": "The vocabulary of subwords created after learning gives every subword exactly the sum, over all words, of (number of times the subword occurs in the word's split) x (frequency of the word).", "quantifier": "all split vocabularies, all subwords", "why_tests_cant": "aggregation over arbitrary vocabularies", "anchors": ["codeprep/bpepkg/bpe_learn.py: create_resulting_vocab, create_bpe_cache, separate_vocabs"]}
{"id": "C10", "title": "Text escaping used in all output files is lossless", "statement": "Every string survives the literal escaping used for .prep, vocab, merges and cache files: un-escaping the escaped form returns the original string, and the escaped form contains only printable ASCII, hence no tab, newline or carriage return that could break the file format.", "quantifier": "all strings (all Unicode scalar values)", "why_tests_cant": "covers 1.1 million code points and all their combinations", "anchors": ["codeprep/util.py: to_literal_str, to_non_literal_str"]}
{"id": "C11", "title": "Merge files round-trip", "statement": "Writing a learnt merge list to a file and reading it back gives the same pairs, frequencies and ranks, for all pairs whose parts contain no ASCII space; reading with a limit n>0 gives the first n of them.", "quantifier": "all merge lists with frequencies, all limits", "why_tests_cant": "pairs range over all Unicode strings including tabs, newlines and backslashes", "anchors": ["codeprep/bpepkg/merge.py: read_merges, dump_merges, Merge.parse_file_entry, MergeList"]}
{"id": "C12", "title": "BPE cache files round-trip", "statement": "Writing a BPE cache and reading it back gives the same mapping from words to subword lists, for all words and all non-empty subword lists whose parts contain no ASCII space.", "quantifier": "all caches", "why_tests_cant": "unbounded mapping of arbitrary Unicode strings", "anchors": ["codeprep/bpepkg/cache.py: read_bpe_cache, dump_bpe_cache"]}
{"id": "C13", "title": "Vocabulary files round-trip and are sorted", "statement": "Dumping a word-frequency dictionary and loading it returns the same word-frequency pairs; the file is ordered by non-increasing frequency and contains every word once.", "quantifier": "all word-frequency dictionaries", "why_tests_cant": "arbitrary Unicode words, arbitrary sizes", "anchors": ["codeprep/pipeline/vocab.py: _dump_vocab_dict, _load_vocab_dict, _load_vocab_set", "codeprep/pipeline/vocabloader.py"]}
{"id": "C14", "title": "Merge ranks are positions", "statement": "A merge list built by appending merges with pairwise different pairs gives each pair its position as rank; adding two such lists with disjoint pairs concatenates them and shifts the ranks of the second; appending with a wrong rank is rejected.", "quantifier": "all merge lists", "why_tests_cant": "inductive over list construction", "anchors": ["codeprep/bpepkg/merge.py: MergeList.append, __add__, __contains__, get_priority"]}
{"id": "C15", "title": "Preprocessing metadata always describes the output", "statement": "For every sequence of parsed tokens and every configuration, the returned word boundaries start at 0, never decrease, end at the number of returned subtokens, and there is exactly one token type per full token; they are strictly increasing when splitters never return an empty list for a token.", "quantifier": "all token sequences, all configurations, all splitters", "why_tests_cant": "metadata is assembled by mutation across all nested token classes", "anchors": ["codeprep/preprocess/metadata.py: PreprocessingMetadata", "codeprep/preprocess/core.py: to_repr_list, torepr", "codeprep/tokens/*.py"]}
{"id": "C16", "title": "Preprocessing is compositional", "statement": "Preprocessing the concatenation of two token sequences gives the concatenation of their subtokens, the concatenation of token types and the boundaries of the second shifted by the size of the first; so splitting a file into pieces of parsed tokens does not change the result.", "quantifier": "all pairs of token sequences, all configurations", "why_tests_cant": "ranges over all splits of all inputs", "anchors": ["codeprep/preprocess/core.py: to_repr_list", "codeprep/preprocess/metadata.py: PreprocessingMetadata.update"]}
{"id": "C17", "title": "Valid configurations never make preprocessing fail", "statement": "For every configuration accepted by PrepConfig and every token sequence the parser can produce, building the representation raises no exception (in particular the string-length limit and the word splitter are never used when they are undefined).", "quantifier": "all valid configurations, all token sequences whose identifiers contain no ASCII space", "why_tests_cant": "the undefined values are guarded only by the interplay of six independent parameters", "anchors": ["codeprep/prepconfig.py: PrepConfig", "codeprep/pipeline/to_repr.py: to_repr", "codeprep/tokens/*.py"]}
{"id": "C18", "title": "Iterating over full tokens is faithful", "statement": "For subtokens and metadata produced by preprocessing, iterating over full tokens yields the consecutive slices delimited by the boundaries, in order, so concatenating the slices gives back the subtokens; iterating over subtokens yields every subtoken once, tagged with the index of the full token it belongs to.", "quantifier": "all subtoken lists with well-formed boundaries", "why_tests_cant": "ranges over all boundary lists", "anchors": ["codeprep/subtokens.py: TokenIterator, SubtokenIterator, FullTokenIterator"]}
{"id": "C19", "title": "End-of-token marks agree with the metadata", "statement": "In BPE/chars mode exactly the last subtoken of each full token ends with '</t>'; consequently the metadata validity check passes on every such output.", "quantifier": "all token sequences, all merge lists / all BPE configurations", "why_tests_cant": "depends on what arbitrary merge lists can produce from arbitrary text", "anchors": ["codeprep/pipeline/to_repr.py: insert_and_word_tokens, to_repr", "codeprep/preprocess/metadata.py: check_metadata_validity", "codeprep/subtokens.py: is_terminal_subtoken"]}
{"id": "C20", "title": "Comment, string and whitespace options do exactly what they say", "statement": "no_com replaces every comment by exactly one '<comment>' token and leaves all other tokens as they would be without it; no_str does the same with '<str-literal>' for string literals; no_spaces removes exactly the newline and tab tokens.", "quantifier": "all token sequences, all configurations", "why_tests_cant": "ranges over all files and option combinations", "anchors": ["codeprep/tokens/containers.py: Comment, StringLiteral", "codeprep/tokens/whitespace.py", "codeprep/prepconfig.py: get_types_to_be_repr"]}
{"id": "C21", "title": "Long strings are replaced exactly above max_str_length", "statement": "With max_str_length=n, a string literal is replaced by an empty string literal if and only if its length including quotes exceeds n.", "quantifier": "all n, all string literals", "why_tests_cant": "the limit is squeezed into one character of the configuration string; boundary values need all n", "anchors": ["codeprep/api/common.py: create_str_value", "codeprep/prepconfig.py: get_max_str_length, get_possible_str_values", "codeprep/tokens/containers.py: StringLiteral.non_preprocessed_repr"]}
{"id": "C22", "title": "Basic splitting with lower-casing is reversible", "statement": "For ASCII identifiers, the output of basic splitting with no_case ('<w>', '</w>', '<Cap>', '<CAPS>' marks) determines the original identifier; without no_case the concatenation of the pieces is the identifier.", "quantifier": "all identifiers over ASCII word characters", "why_tests_cant": "ranges over all identifiers", "anchors": ["codeprep/parse/subtokens.py: split_identifier", "codeprep/tokens/word.py: Word", "codeprep/tokens/containers.py: wrap_in_word_boundaries_if_necessary, SplitContainer"]}
{"id": "C23", "title": "Identifier splitting loses nothing and follows camelCase/underscore/digits", "statement": "Splitting an identifier yields consecutive non-empty pieces whose concatenation is the identifier; every piece is '_', a digit run, an optional capital followed by lower-case letters, a run of capitals, or one other character.", "quantifier": "all identifiers (all Unicode character classifications)", "why_tests_cant": "regex search semantics over all strings", "anchors": ["codeprep/parse/subtokens.py: split_identifier"]}
{"id": "C24", "title": "Tokenising text keeps every visible character", "statement": "Splitting code text into words keeps, in order, every character except ASCII spaces, and yields one tab token per complete group of four spaces in a run; splitting a string literal keeps every character and the length of every run of spaces.", "quantifier": "all texts", "why_tests_cant": "regex search semantics over all strings", "anchors": ["codeprep/parse/subtokens.py: split_into_words, split_string, to_parsed_token"]}
{"id": "C25", "title": "Parsing never fails", "statement": "Every (token type, text) pair delivered by a lexer is converted into parsed tokens without an exception, exactly one matcher being responsible for it.", "quantifier": "all lexer token types and values", "why_tests_cant": "ranges over all lexers and texts", "anchors": ["codeprep/parse/core.py: _convert, convert_text", "codeprep/parse/matchers.py"]}
{"id": "C26", "title": "full_strings leaves string contents unchanged", "statement": "With full_strings a string literal not longer than the limit is output as one token that equals the literal with spaces written as non-breaking spaces.", "quantifier": "all ASCII string literals", "why_tests_cant": "ranges over all strings, including those that contain things that look like numbers", "anchors": ["codeprep/tokens/containers.py: StringLiteral", "codeprep/tokens/numeric.py: Number", "codeprep/api/text.py: nosplit"]}
{"id": "C27", "title": "no_unicode removes non-ASCII text", "statement": "With no_unicode, the output tokens contain no non-ASCII character except the documented placeholders.", "quantifier": "all token sequences, all configurations with no_unicode", "why_tests_cant": "ranges over all texts", "anchors": ["codeprep/noneng.py: replace_non_ascii_seqs, is_non_eng", "codeprep/tokens/noneng.py: NonEng", "codeprep/tokens/word.py: NonCodeChar"]}
{"id": "C28", "title": "Configuration strings are faithful", "statement": "Encoding a configuration as a string and decoding it returns the same configuration; decoding accepts exactly the valid strings; different configurations have different strings.", "quantifier": "all configurations, all strings", "why_tests_cant": "the whole product of parameter values and all malformed strings", "anchors": ["codeprep/prepconfig.py: PrepConfig.from_encoded_string, __str__, __check_invariants"]}
{"id": "C29", "title": "CLI and API build the same valid configuration", "statement": "For every combination of options, the command line and the Python API build the same configuration, and every combination the API offers is accepted by PrepConfig.", "quantifier": "all option values", "why_tests_cant": "the full option product, including numeric and string arguments", "anchors": ["codeprep/api/common.py: create_split_value, create_prep_config", "codeprep/cli/impl.py: create_prep_config_from_args, create_split_value_from_args", "codeprep/api/text.py"]}
{"id": "C30", "title": "Vocabulary merging is schedule-independent", "statement": "Whatever the number of merger processes and however their steps interleave, if a vocabulary is written then it is written by exactly one process, after all merges, and gives every word the sum of its counts in all partial vocabularies; without timeouts or crashes some process can always make a step until the vocabulary is written.", "quantifier": "all numbers of processes, all partial vocabularies and chunk assignments, all interleavings, all timeouts", "why_tests_cant": "races between processes depend on the schedule", "anchors": ["codeprep/pipeline/vocab.py: VocabMerger.run, _finish_merges, _merge, create_chunk_queue, mapify_tasks", "codeprep/util.py: merge_dicts_, AtomicInteger"]}
{"id": "C31", "title": "Vocabulary merging survives a crash at any point", "statement": "If the merging process is killed at any file-system step of dumping, deleting or renaming partial vocabularies, the recovery at the next start reconstructs partial vocabularies whose total word counts are the original totals (nothing lost, nothing counted twice).", "quantifier": "all crash points in all sequences of merges, also crashes during recovery", "why_tests_cant": "needs every prefix of every sequence of file operations", "anchors": ["codeprep/pipeline/vocab.py: create_and_dump_partial_vocab, finish_file_dumping, load_partial_vocabs, VocabMerger._merge"]}
{"id": "C32", "title": "An existing vocabulary file is complete", "statement": "If the vocab file exists after a crash and restart, it contains all words; i.e. a run that finds an existing vocabulary may use it.", "quantifier": "all crash points while the final vocabulary is written", "why_tests_cant": "needs every crash point", "anchors": ["codeprep/pipeline/vocab.py: calc_vocab, VocabMerger._finish_merges, PartialVocab.write_vocab", "codeprep/pipeline/stages.py: run_until_vocab"]}
{"id": "C33", "title": "Preprocessed and parsed files appear atomically", "statement": "At every crash point of preprocessing a set of files by any number of workers, every final (.prep / .parsed) file that exists is complete; re-running after the crash finishes with exactly the files an uninterrupted run produces and does not redo finished files.", "quantifier": "all file sets, all interleavings of workers, all crash points, any number of restarts", "why_tests_cant": "needs all prefixes of all interleavings", "anchors": ["codeprep/pipeline/to_repr.py: preprocess_and_write", "codeprep/pipeline/parse_projects.py: preprocess_and_write"]}
{"id": "C34", "title": "Cached file lists return the same files", "statement": "A list of files saved by the scanner is read back as the same list of byte paths, for file names with arbitrary bytes.", "quantifier": "all lists of byte strings", "why_tests_cant": "file names are arbitrary bytes including quotes, newlines and backslashes", "anchors": ["codeprep/dirutils.py: walk_and_save", "codeprep/pipeline/dataset.py: Dataset.get_all_files"]}
{"id": "C35", "title": "Preprocessed corpora can be read back token by token", "statement": "A .prep file is one line from which the written subtokens can be recovered by splitting at spaces and un-escaping, provided no subtoken contains an ASCII space; the reported corpus size is the number of subtokens written and the vocabulary counts are their multiplicities.", "quantifier": "all token sequences", "why_tests_cant": "arbitrary Unicode tokens including newlines", "anchors": ["codeprep/pipeline/to_repr.py: preprocess_and_write, to_token_str", "codeprep/api/corpus.py: _calc_n_tokens", "codeprep/pipeline/vocab.py: get_vocab"]}
{"id": "C36", "title": "Work is distributed completely and evenly", "statement": "Dividing a list of work items into n chunks keeps every item exactly once and in order within its chunk, produces min(n, #items) chunks, and chunk sizes differ by at most one.", "quantifier": "all lists, all n>0", "why_tests_cant": "all lengths and chunk counts", "anchors": ["codeprep/util.py: create_chunk_generator, groupify"]}
{"id": "C37", "title": "Limiting the vocabulary size", "statement": "Limiting a vocabulary to n words never fails, leaves at most n words, keeps the counts of those kept, and never drops a word while keeping a less frequent one.", "quantifier": "all vocabularies, all n", "why_tests_cant": "boundary between n and the vocabulary size, and ties", "anchors": ["codeprep/pipeline/vocab.py: PartialVocab.limit_max_vocab"]}
{"id": "C38", "title": "The pair queue is an exact maximum-priority map", "statement": "After any sequence of additions and removals, popping returns a pair with the largest accumulated value (the earliest updated one among equals) together with exactly that value and removes it; pairs whose value is zero are not present; it raises only when empty.", "quantifier": "all sequences of operations", "why_tests_cant": "lazy deletion makes correctness depend on the whole history", "anchors": ["codeprep/util.py: PriorityCounter"]}
{"id": "C39", "title": "Merge list identifiers resolve to the right number of merges", "statement": "An identifier 'id-n' is parsed back to id and n for every id and n>=1; the smallest available number of merges >= n and the largest available one are found among the learnt ones; requests that cannot be served are rejected.", "quantifier": "all ids, all sets of learnt merge counts, all requests", "why_tests_cant": "ids may contain dashes and digits; all directory contents", "anchors": ["codeprep/pipeline/bperegistry.py: parse_merge_list_id, _get_extreme_n_merges, get_min_merges, get_max_merges, CustomBpeConfig.from_id"]}
{"id": "C40", "title": "New merge list identifiers are fresh", "statement": "The identifier created for a newly learnt merge list differs from all existing identifiers.", "quantifier": "all base names, all sets of existing identifiers", "why_tests_cant": "names may contain arbitrary characters; all histories of assigned ids", "anchors": ["codeprep/pipeline/bperegistry.py: create_new_id_from"]}
{"id": "C41", "title": "BPE calls do not depend on earlier calls", "statement": "A call of bpe()/chars() with force_reinit (the default) gives a result that depends only on its arguments and the files on disk, not on earlier calls; non-BPE calls never depend on the global BPE state.", "quantifier": "all histories of API calls", "why_tests_cant": "global mutable state; needs all histories", "anchors": ["codeprep/pipeline/to_repr.py: init_bpe_data, to_repr", "codeprep/api/text.py"]}
{"id": "C42", "title": "Results of different configurations never share a directory", "statement": "For the same dataset, two different preprocessing configurations / BPE codes are stored under different directory names; for different datasets the parsed results are stored in different directories.", "quantifier": "all dataset names, timestamps, extension lists, configurations", "why_tests_cant": "collisions depend on unusual names", "anchors": ["codeprep/pipeline/dataset.py: Dataset"]}
{"id": "C43", "title": "Base vocabulary directory is recovered from the BPE directory", "statement": "The directory of the base vocabulary computed when a merge list is used equals the directory that was used when it was learnt; BPE config suffixes round-trip.", "quantifier": "all dataset names, all BPE configurations", "why_tests_cant": "names may contain the separator", "anchors": ["codeprep/pipeline/bperegistry.py: get_base_vocab_dir", "codeprep/bpepkg/bpe_config.py: BpeConfig.to_suffix, from_suffix", "codeprep/pipeline/dataset.py"]}
{"id": "C44", "title": "Extension filters", "statement": "Normalising an extension string yields sorted, duplicate-free extensions, is idempotent, does not depend on the order in which extensions are given, and a file is selected iff it ends with one of the extensions.", "quantifier": "all extension strings, all file names", "why_tests_cant": "all strings", "anchors": ["codeprep/pipeline/dataset.py: normalize_extension_string", "codeprep/fileutils.py: has_one_of_extensions"]}
{"id": "C45", "title": "Merging counts of two vocabularies", "statement": "Merging one count dictionary into another adds the counts word by word, keeps all words and reports exactly the words that were new.", "quantifier": "all dictionaries", "why_tests_cant": "all sizes and overlaps", "anchors": ["codeprep/util.py: merge_dicts_", "codeprep/pipeline/vocab.py: PartialVocab.add_vocab"]}
{"id": "C46", "title": "Replacing non-ASCII text", "statement": "Replacing non-ASCII sequences keeps all ASCII characters in order, replaces every maximal non-ASCII run by exactly one placeholder, leaves ASCII text unchanged and is idempotent; a placeholder that is not one character is rejected.", "quantifier": "all strings", "why_tests_cant": "all strings", "anchors": ["codeprep/noneng.py: replace_non_ascii_seqs"]}
{"id": "C47", "title": "Continuing a learning run is as good as learning from scratch", "statement": "Learning n merges, saving, and later continuing to m merges never fails; the earlier merges stay as a prefix, every merge of the complete list (old and new) is a most frequent pair with its exact frequency at its time, frequencies never increase, pairs are distinct, words excluded from BPE are kept unchanged, and the saved split of every word is the split that encoding with the complete merge list gives.", "quantifier": "all vocabularies with positive counts, all sets of excluded words, all n and m", "why_tests_cant": "The continued run starts from a vocabulary read back from the first run; coherence of old and new merges must hold for every corpus.", "anchors": ["codeprep/pipeline/bpelearner.py: run, prepare_vocabs", "codeprep/bpepkg/bpe_learn.py: do_merges, separate_vocabs", "codeprep/bpepkg/merge.py: MergeList.__add__"]}
{"id": "C48", "title": "Which words are numbers", "statement": "While text is split into words, exactly the words that are number literals (decimal integers and fractions with exponent and suffix, hexadecimal, octal/binary forms accepted by the grammar) become number tokens, and their text is stored in lower case; all other words are identifiers.", "quantifier": "all words", "why_tests_cant": "regular-expression search over all strings", "anchors": ["codeprep/parse/subtokens.py: is_number, to_parsed_token", "codeprep/parse/matchers.py: number matching"]}
{"id": "C49", "title": "Ronin splitting and stemming keep the structure and the capitals", "statement": "With ronin every sub-word of an identifier is split by ronin and nothing else is touched; with stemming the parts are stemmed after splitting, a stem of a word in capitals is in capitals, of a capitalised word is capitalised, and word boundaries are marked as for basic splitting.", "quantifier": "all identifiers, all behaviours of ronin and of the stemmer", "why_tests_cant": "Ranges over all identifiers and over arbitrary third-party splitters", "anchors": ["codeprep/pipeline/to_repr.py / tokens/word.py: Word, stem", "codeprep/prepconfig.py: get_word_splitter", "codeprep/api/text.py: basic"]}
{"id": "C50", "title": "The vocabulary size and the other statistics are right", "statement": "Whenever the file with vocabulary statistics is complete, however the merges were scheduled and whatever crashes and restarts there were before, its first line is the number of different words of the corpus, the further lines are in increasing order of the part of the corpus they are about, the first of them has the mean sizes and mean counts of non-English words over all partial vocabularies, the last one those of the whole corpus, and no line has more words or more non-English words than the whole corpus.", "quantifier": "all partial vocabularies, numbers of processes, interleavings, crashes and restarts", "why_tests_cant": "the statistics are combined in the order of the merges, which depends on the schedule", "anchors": ["codeprep/pipeline/vocab.py: PartialVocab.add_vocab, write_stats, __generate_stats, VocabMerger._finish_merges"]}
{"id": "C51", "title": "Changes of a dataset are noticed", "statement": "If a file or directory of a dataset is changed, added or removed after it has been processed, the dataset's modification time, which names all cached results, changes.", "quantifier": "all directory contents and modification times", "why_tests_cant": "all trees; changes beyond the limit of examined entries never occur in small fixtures", "anchors": ["codeprep/dirutils.py: get_dir_last_modification, get_timestamp", "codeprep/pipeline/dataset.py: Dataset"]}
{"id": "C52", "title": "The collected unsplittable tokens are complete", "statement": "When preprocessing for learning BPE has finished, the stored set of tokens that must not be split is exactly the set of such tokens of all files together with the placeholders, whatever crashes and restarts there were.", "quantifier": "all file sets, token sets, interleavings of workers, crash points, any number of restarts", "why_tests_cant": "needs all crash points while files with tokens and the collected file are written", "anchors": ["codeprep/pipeline/to_repr.py: run, preprocess_and_write", "codeprep/pipeline/vocabloader.py: gather_non_bpe_vocab", "codeprep/preprocess/metadata.py: save_metadata"]}
{"id": "C53", "title": "Unsplittable tokens are kept whole by learnt codes", "statement": "When learnt BPE codes are applied, a word that is in the vocabulary of unsplittable tokens of these codes is not split; all other words are split with the merges only.", "quantifier": "all vocabularies of unsplittable tokens, all merge lists, all words", "why_tests_cant": "ranges over all vocabularies; the effect depends on the exact form of the cache keys", "anchors": ["codeprep/pipeline/to_repr.py: init_bpe_data", "codeprep/pipeline/vocabloader.py: nonbpe", "codeprep/bpepkg/bpe_encode.py: get_bpe_subwords, escape"]}
{"id": "C54", "title": "The size of a corpus is right", "statement": "get_corpus_size returns the number of subtokens in all preprocessed files of the corpus, in the first call and in all later ones, also after a process was killed during a call and when several processes ask at the same time.", "quantifier": "all corpora, orders in which the files are counted, interleavings of calls, crash points", "why_tests_cant": "needs all crash points and interleavings around the file in which the size is stored", "anchors": ["codeprep/api/corpus.py: PreprocessedCorpus.get_corpus_size, _calc_corpus_size", "codeprep/pipeline/dataset.py: path_to_prep_corpus_size_file"]}
{"id": "C55", "title": "Cached results are never stale", "statement": "Whenever a stage of the pipeline (parsing or preprocessing a dataset) comes to its end, its output directory has exactly the results for the dataset; results that were changed or removed by others are computed again, and nothing is lost: the changed files are kept in the archive.", "quantifier": "all numbers of results, all histories of calls that are killed at any point, all changes by users between the calls", "why_tests_cant": "needs all crash points and all histories of changes", "anchors": ["codeprep/pipeline/stages.py: run_parsing, run_until_preprocessing", "codeprep/pipeline/dataset.py: SubDataset.set_ready, ready, is_outdated, archive, Dataset.create", "codeprep/fileutils.py", "codeprep/dirutils.py: get_timestamp"]}
{"id": "C56", "title": "The whole output of the text functions", "statement": "The output and the metadata of nosplit, chars, basic and bpe are those of a reference description that knows no parsed tokens: the text consists of pieces (white space, fixed texts, numbers, words, string literals, constants), the last newline is left out, and every piece is spelled as the mode says; with the option of leaving out white space exactly the white space pieces are missing, and the metadata lists the type, the boundaries and the texts that must not be processed further of every piece. The description leaves no choice.", "quantifier": "all lists of lexer tokens, whatever their characters (and a simpler description for those whose word characters are ASCII), all calls and options, all BPE data, all Unicode databases", "why_tests_cant": "a complete description of the output for every text and every combination of the options, not of single aspects", "anchors": ["codeprep/api/text.py: nosplit, chars, basic, bpe", "codeprep/parse/core.py: convert_text", "codeprep/parse/matchers.py", "codeprep/pipeline/to_repr.py: to_repr, to_repr_list", "codeprep/tokens/containers.py", "codeprep/tokens/word.py", "codeprep/prepconfig.py"]}
{"id": "C57", "title": "Byte-pair encoding of a whole text", "statement": "For every text, file or directory the merges delivered by run_from_text, run_from_file and run_from_dir are the ones of byte-pair encoding of the text as one sequence: every merge merges the pair of neighbouring tokens that occurs most often in the text as it is at that time (among several, the one that occurs first), it is delivered with the number of occurrences that are replaced, and the merges end when their number is reached or the text is a single token. The result does not depend on the order in which sets are iterated over or equal entries leave the heap.", "quantifier": "all non-empty texts, all files (as sequences of decoded blocks) and directories, all numbers of merges, all orders of iteration over sets and all heaps", "why_tests_cant": "two incremental indices and a lazily cleaned priority queue must agree with a full recount after every merge; overlapping, doubled and neighbouring occurrences give unboundedly many interaction patterns", "anchors": ["codeprep/bpepkg/wild_bpe.py: run, run_from_text, run_from_file, run_from_dir, build_indices, update_location_index, update_neighbour_index, merge_lists, merge_lists_both, choose_positions_to_merge", "codeprep/util.py: PriorityCounter"]}
{"id": "C58", "title": "What may stand in files", "statement": "Merge files, vocabulary files and files with split words may be written or edited by hand: the escapes of single characters, hexadecimal and octal escapes and unknown escapes stand for what Python says, other text stands for itself, numbers may have signs, white space at the ends and underscores; lines with more columns than needed are accepted, and everything else raises an error.", "quantifier": "all texts, all lines", "why_tests_cant": "an exact description of the accepted files, for all combinations of escapes", "anchors": ["codeprep/util.py: to_non_literal_str", "codeprep/bpepkg/merge.py: Merge.parse_file_entry", "codeprep/pipeline/vocab.py: _load_vocab_dict", "codeprep/bpepkg/cache.py: read_bpe_cache"]}
{"id": "C59", "title": "Repeated learning", "statement": "Whatever was learnt before from a dataset, and with whatever numbers of merges, learning succeeds, and every directory of learnt merges holds exactly a result of learning that many merges: merge list, splits of all words, cache, subword vocabulary. A run continues the longest shorter list. The same identifier always means the same merges, also after further learning, and a run that is killed does no harm.", "quantifier": "all datasets, all sequences of learning runs with any numbers of merges, kills at any point while saving, stray directories, any order of listing", "why_tests_cant": "histories of runs and points at which a run is killed", "anchors": ["codeprep/pipeline/bpelearner.py: run, prepare_vocabs, get_dir_with_most_merges, save_results, check_if_bpe_config_supported", "codeprep/pipeline/bperegistry.py: get_max_merges, load_bpe_merges"]}
{"id": "C60", "title": "A finished corpus call leaves its results and its vocabulary", "statement": "When a call that preprocesses a corpus returns, the directory it returns has exactly the preprocessed files of the dataset, and if a vocabulary was asked for, the vocabulary file is the complete vocabulary of these files; whatever calls for other directories and configurations were made before, and wherever they were killed. Without an output directory, the documented default is used.", "quantifier": "all datasets, all sequences of calls into any directories, with any configurations, with or without vocabulary, also as a part of learning, kills between any two accesses to the disk, changes of results by users", "why_tests_cant": "histories of calls that share parsed files and vocabularies, and kill points", "anchors": ["codeprep/api/corpus.py: preprocess_corpus", "codeprep/pipeline/stages.py: run_parsing, run_until_preprocessing, run_until_base_bpe_vocab, run_until_vocab", "codeprep/pipeline/dataset.py: Dataset.create, vocab_path, archive_path", "codeprep/pipeline/vocab.py: calc_vocab", "codeprep/cli/spec.py: option --output-path"]}
{"id": "C61", "title": "The command line does what the API does", "statement": "A command `nosplit`, `chars`, `basic` or `bpe` with a text prints exactly the tokens that the function of the same name returns, and with a path it preprocesses the corpus exactly as the corpus function does; an invalid id of BPE codes is reported, and every other error is passed on. `learn-bpe` resolves the path however it is written, learns from the files with the extensions asked for, keeps everything that was learnt before, uses the given id unless the dataset has one, and a command that is rejected has no effect.", "quantifier": "all texts, all paths, all options and their combinations, all states of the directory of learnt codes", "why_tests_cant": "all combinations of options and arguments, all states of the disk", "anchors": ["codeprep/cli/impl.py: handle_splitting, handle_learnbpe, create_bpe_config_from_args, get_option", "codeprep/api/corpus.py: preprocess_corpus", "codeprep/api/text.py: preprocess", "codeprep/pipeline/dataset.py: Dataset.create, normalize_extension_string"]}
{"id": "C62", "title": "A counter shared by processes is a counter", "statement": "However the processes that share a counter are scheduled, their calls return, in the order in which they return, exactly what the calls of a counter for one process return one after the other; in particular `get_and_dec` hands out every number once, and exactly the last process that leaves by `compare_and_dec(1)` is told so. Every call returns after finitely many steps.", "quantifier": "all initial values, all numbers of processes, all calls, all interleavings of the accesses to the lock and the queue, all points at which processes are killed", "why_tests_cant": "needs all interleavings of the accesses to lock and queue", "anchors": ["codeprep/util.py: AtomicInteger, NonAtomicCounter", "codeprep/pipeline/vocab.py: VocabMerger.run, calc_vocab"]}
{"id": "C63", "title": "Cached splits do not change the result", "statement": "A call of `bpe` or `chars`, and the preprocessing of a corpus, give the result that the codes and the cached splits determine, however often the words of the texts are looked up: using a cached split does not make later lookups of the word fail or differ, in the same text, in a later call that reuses the codes, or in another file that the same process gets.", "quantifier": "all texts, all calls and histories of calls, all codes and caches, all distributions of files to processes", "why_tests_cant": "the effect depends on which cached words occur how often, in which order and in which process", "anchors": ["codeprep/bpepkg/bpe_encode.py: get_bpe_subwords, unescape", "codeprep/api/text.py: bpe, chars", "codeprep/pipeline/to_repr.py: to_repr, init_bpe_data, preprocess_and_write", "codeprep/preprocess/core.py: to_repr_list, torepr"]}
{"id": "C64", "title": "Programs that preprocess the same dataset at the same time", "statement": "Several programs may preprocess the same dataset into the same directory at the same time. Every result that is there is complete, no program fails because of another one, a result that is there does not vanish, and every worker comes to the end of its file.", "quantifier": "all numbers of programs and workers, all interleavings of their accesses to the disk, all points at which programs end or are killed, all datasets", "why_tests_cant": "whether a result is incomplete depends on the interleaving of single file operations of independent programs", "anchors": ["codeprep/pipeline/to_repr.py: preprocess_and_write, run", "codeprep/pipeline/parse_projects.py: preprocess_and_write, run"]}
{"id": "C65", "title": "Comparing datasets, configurations, merges and tokens", "statement": "Comparing two datasets, configurations, merges, lists of merges or parsed tokens never fails. Equality is an equivalence; things made in the same way are equal; equal datasets keep their results at the same places; equal merges have the same hash, so that they are found in dictionaries; tokens are equal exactly if class and contents are the same.", "quantifier": "all datasets, configurations, merges, lists of merges and parsed tokens (nested to any depth), all hash functions of tuples", "why_tests_cant": "a test compares a few objects; symmetry, transitivity and the agreement of equality and hashes are statements about all pairs and triples, and failures occur only for certain combinations of equal and different parts", "anchors": ["codeprep/pipeline/dataset.py: Dataset.__eq__, SubDataset.__eq__", "codeprep/prepconfig.py: PrepConfig.__eq__", "codeprep/bpepkg/bpe_config.py: BpeConfig.__eq__", "codeprep/bpepkg/merge.py: Merge.__eq__, Merge.__hash__, MergeList.__eq__", "codeprep/tokens/*.py: __eq__"]}
{"id": "C66", "title": "A file of a corpus gives what its text gives", "statement": "Preprocessing a file as a part of a corpus gives, in the file with the result, the tokens that the text functions give for the text of the file and its extension, with the end-of-file token. The text of a file is its contents as UTF-8, or else as ISO-8859-1, with plain line breaks; no contents and no name of a file make the run fail. Results are ASCII, and the words counted in them are the tokens.", "quantifier": "all bytes of files, all paths, all configurations, all lexers, all libraries", "why_tests_cant": "decoding, line breaks, the choice of the lexer and the two stages have to fit together for every sequence of bytes and every name; a test sees a few files", "anchors": ["codeprep/fileutils.py: read_file_contents", "codeprep/pipeline/parse_projects.py: preprocess_and_write", "codeprep/pipeline/to_repr.py: preprocess_and_write", "codeprep/parse/core.py: convert_text", "codeprep/api/text.py: preprocess"]}
{"id": "C67", "title": "Tokens can be told apart", "statement": "No token of an output is empty or contains a space. So the tokens of a file can be read from its result by splitting it at spaces, the vocabulary of a dataset has exactly the tokens of its files with the numbers of their occurrences, and the size of a corpus is the number of its tokens.", "quantifier": "all modes and options, all outputs of lexers, all codes, all datasets and schedules of the vocabulary calculation, all libraries that introduce no spaces", "why_tests_cant": "spaces can come from every kind of token, every splitter and every placeholder; a test sees the tokens of a few texts", "anchors": ["codeprep/api/text.py: nosplit, chars, ronin, basic, bpe", "codeprep/pipeline/to_repr.py: to_repr_list, preprocess_and_write", "codeprep/pipeline/vocab.py: get_vocab", "codeprep/prepconfig.py: PrepConfig", "codeprep/tokens/containers.py: StringLiteral, TextContainer"]}
{"id": "C68", "title": "Merges are learnt from the words that are shown of the texts", "statement": "Learning merges for a dataset starts from exactly the words that the text functions show of its files without splitting, with comments left out and with long literals emptied, each with the number of its occurrences, and without the words recorded as not to be split. Every directory with merges holds the result of learning from these words.", "quantifier": "all datasets of files of any bytes, all outputs of lexers, all supported BPE settings, all numbers of processes, all schedules of gathering and of the vocabulary calculation, all crashes that do not cut a token, all sequences of learning runs", "why_tests_cant": "the words pass through files of tokens, partial vocabularies, a gathering stage and a merge in any order; a test sees one schedule of one small dataset", "anchors": ["codeprep/pipeline/bpelearner.py: get_base_vocab, prepare_vocabs, run", "codeprep/pipeline/stages.py: run_until_base_bpe_vocab", "codeprep/pipeline/vocab.py: calc_vocab", "codeprep/pipeline/vocabloader.py: gather_non_bpe_vocab", "codeprep/pipeline/to_repr.py: preprocess_and_write", "codeprep/api/text.py: nosplit"]}
{"id": "C69", "title": "What is loaded for an identifier belongs to its dataset", "statement": "After merges have been learnt for any number of datasets, the identifier of each dataset leads to this dataset only: with it, exactly its words, the words that are not split, the words it was learnt from, the subwords of each learnt number of merges and the merges are loaded. Identifiers that no dataset has are refused, and the list of identifiers names each dataset once, with its greatest number of merges.", "quantifier": "all datasets, all sequences of learning runs for them with any settings, numbers of merges and identifiers that are not in use, all listings of the directories in any order", "why_tests_cant": "identifiers, directories of merges and directories of vocabularies are connected only by names from which other names are reconstructed; a test has one or two datasets with plain names", "anchors": ["codeprep/pipeline/vocabloader.py: all, nonbpe, base, bpe", "codeprep/pipeline/bperegistry.py: get_base_vocab_dir, get_bpe_dir, load_bpe_merges, format_available_merge_list_ids", "codeprep/cli/impl.py: handle_learnbpe", "codeprep/api/corpus.py: PreprocessedCorpus.load_vocab"]}
{"id": "C70", "title": "What a command prints can be read back", "statement": "A command with a text prints its tokens as one line of printable characters that Python reads as exactly the list of tokens which the function of the API returns; different lists are never printed in the same way, and nothing is printed if the function fails.", "quantifier": "all texts but the empty one, all options, all tokens with any characters (quotes, backslashes, control characters, characters outside of ASCII, whichever of them are printable)", "why_tests_cant": "tests print a few words; whether quotes, separators and escapes can be confused depends on every possible token", "anchors": ["codeprep/cli/impl.py: handle_splitting (print of a list)", "codeprep/api/text.py: preprocess"]}
{"id": "C71", "title": "Which files of a directory are listed", "statement": "Preprocessing a directory lists every regular file with one of the extensions that can be reached from it, through links to directories too, exactly once; links to files are not listed; and a change of any listed file changes the modification time by which a dataset is recognised.", "quantifier": "all directory trees of any depth and size, all arrangements of symbolic links (broken ones, links to files, to directories, back to a directory above), all limits on the number of links in a path, all file names", "why_tests_cant": "trees in tests are small and have no links; loops of links, several paths to one file and depth are only settled by induction over trees and over the number of links", "anchors": ["codeprep/dirutils.py: walk_and_save, get_dir_last_modification, walk", "codeprep/pipeline/dataset.py: Dataset.get_all_files, get_timestamp", "codeprep/cli/vocab.py"]}
{"id": "C72", "title": "Learning merges in several programs at the same time", "statement": "When several programs learn merges at the same time, and whichever of them are killed, different datasets get different identifiers, every identifier leads to the merges of its own dataset, and a dataset that has an identifier keeps it together with its merges.", "quantifier": "all numbers of programs, all interleavings of their steps (looking for the identifier, choosing one, creating the file, writing it, saving merges), all points at which programs are killed, all numbers of merges, all names of datasets and identifiers given by the user", "why_tests_cant": "races between processes cannot be reproduced in tests, and there are unboundedly many interleavings and kill points", "anchors": ["codeprep/cli/impl.py: handle_learnbpe", "codeprep/pipeline/bpelearner.py: run", "codeprep/pipeline/bperegistry.py: create_new_id_from, write_bpe_codes_id, get_codes_id_by_bpe_path, _get_all_custom_bpe_codes_and_max_merges, get_dataset_bpe_dir", "codeprep/pipeline/dataset.py: Dataset.assign_bpe_codes_id, Dataset.create"]}
{"id": "C73", "title": "What can be said on the command line", "statement": "Exactly the command lines that the usage describes are accepted, and they mean what they say: options in any order, in their long form, an unambiguous beginning of it or as letters, at most once, with their values, between the other words. Every call of the API has a command line that does the same, and every accepted command line makes a call of the API.", "quantifier": "all command lines (any number of any words), all calls of the API with all options, texts, paths, extensions and identifiers", "why_tests_cant": "there are infinitely many command lines; tests try a few combinations of options", "anchors": ["codeprep/cli/spec.py: nosplit_handler, chars_handler, basic_handler, bpe_handler, bpelearn_handler, parse_and_run", "codeprep/cli/impl.py: handle_splitting, handle_learnbpe, create_prep_config_from_args", "codeprep/api/text.py: nosplit, chars, basic, bpe", "codeprep/api/corpus.py: nosplit, chars, basic, bpe"]}
{"id": "C74", "title": "From the files of a dataset to the results", "statement": "When a directory or a single file has been preprocessed, there is a result for every regular file with one of the extensions, at the path of the file with .prep at its end, and nothing else is in the directory with the results. The result has the tokens that the text function gives for the text of the file (up to one line break at the end), the vocabulary has exactly these tokens, and all this does not depend on the number of processes, their speed, or crashes before.", "quantifier": "all directories with any files and links, all contents of files, all calls of the API, all numbers of processes, all schedules, all crashes", "why_tests_cant": "files, directories, texts, schedules and points of crashes are unlimited, and the parts can be right while their composition is not", "anchors": ["codeprep/pipeline/dataset.py: Dataset, SubDataset.file_iterator, SubDataset.get_new_file_name", "codeprep/pipeline/parse_projects.py: preprocess_and_write, run", "codeprep/pipeline/to_repr.py: preprocess_and_write, run", "codeprep/pipeline/stages.py", "codeprep/pipeline/vocab.py", "codeprep/api/text.py", "codeprep/api/corpus.py"]}
{"id": "C75", "title": "From the files of a dataset to learnt merges and subwords", "statement": "When merges have been learnt from the files of a directory, a call of bpe with the identifier of the dataset and a number n splits every word by the first n merges that follow from the words which the text functions show of these files, applied in the order in which they were learnt; the result does not depend on other datasets, on the number of processes, on their speed, or on crashes before.", "quantifier": "all directories and contents of files, all histories of learning for any datasets, all numbers of merges, all texts, all numbers of processes, all schedules, all crashes that do not cut off a saved token", "why_tests_cant": "directories, histories, texts and schedules are unlimited, and each stage can be right while what a user gets from the composition is not", "anchors": ["codeprep/bpepkg/bpe_learn.py", "codeprep/bpepkg/bpe_encode.py: get_bpe_subwords", "codeprep/pipeline/bpelearner.py", "codeprep/pipeline/bperegistry.py: CustomBpeConfig, create_new_id_from", "codeprep/bpepkg/merge.py: read_merges", "codeprep/pipeline/vocabloader.py: nonbpe", "codeprep/pipeline/to_repr.py: init_bpe_data", "codeprep/api/text.py: bpe", "codeprep/pipeline/to_repr.py: run", "codeprep/pipeline/vocab.py"]}
{"id": "C76", "title": "The line structure of a text is kept", "statement": "Unless no_spaces is given, the result shows one newline token for every line break of the text except the newline at its very end, in the right place: a newline between two parts of a text stands as one token between their results, and indentation is shown as one tab token per tab or four spaces. No result shows more line breaks than the text has.", "quantifier": "all sequences of lexer tokens with any characters, all split options and BPE codes, all texts before and after the line break", "why_tests_cant": "line breaks can stand in white space, comments, string literals and words, and can be swallowed by the lexer's way to cut white space; tests look at a few texts", "anchors": ["codeprep/parse/matchers.py: NewLineMatcher, WhitespaceMatcher, TabMatcher", "codeprep/parse/subtokens.py: split_into_words", "codeprep/parse/core.py: convert_text", "codeprep/api/text.py: remove_trailing_newline", "codeprep/tokens/whitespace.py: NewLine, Tab"]}
{"id": "C77", "title": "Metadata of consecutive texts can be put together", "statement": "a.update(b) makes a describe its full tokens followed by those of b, with their types and numbers of subtokens, and the tokens not to be split of both; it changes no other metadata. Grouping does not matter, empty metadata adds nothing, and metadata is equal exactly if it describes the same. The metadata of a text in two parts is that of the first part with that of the second one added.", "quantifier": "all metadata objects, all histories in which programs make them, put them together and change types, all pairs of texts", "why_tests_cant": "lists and sets are changed in place and can be held by several objects; whether one call changes what another object says depends on the history", "anchors": ["codeprep/preprocess/metadata.py: PreprocessingMetadata", "codeprep/tokens/rootclasses.py: wrap_in_metadata_for_full_word", "codeprep/preprocess/core.py: to_repr_list", "codeprep/api/text.py"]}
{"id": "C78", "title": "The vocabulary of bpe and chars is closed and bounded", "statement": "Every token that bpe and chars deliver is a single character, what one of the merges makes, a part of a word that is stored with the codes, an operator or keyword of the text, or one of ten fixed texts. So the number of different tokens of any number of texts is at most 2\u00b7(number of characters) + (number of operators and keywords) + (number of merges) + (number of stored parts) + 10; stored words add nothing if they are stored as they would be split. nosplit and basic have no such bound.", "quantifier": "all texts, any number of them, all options, all merge lists and stored words, all characters", "why_tests_cant": "the size of the vocabulary that a model has to be built for must hold for texts that were not seen", "anchors": ["codeprep/api/text.py: bpe, chars, nosplit, basic", "codeprep/bpepkg/bpe_encode.py: encode_word, get_bpe_subwords, unescape", "codeprep/preprocess/core.py", "codeprep/preprocess/metadata.py"]}
{"id": "C79", "title": "Lists of merges can share merges and be added", "statement": "A merge is appended to a list if it has no priority or the priority that is next there, which it has afterwards; otherwise nothing happens. No other list changes, even if lists share merges. a + b is a new list with the merges of a and, with later priorities, those of b; a, b and their merges stay as they were, whether or not the lists can be added. The priorities are the positions if no pair is put into a list twice. A file of merges is refused if a pair is in it twice.", "quantifier": "all histories of programs that make merges and lists, append and add them; all files of merges", "why_tests_cant": "the lists hold references to the same merges, which append and + change in place; whether a third list is affected depends on the whole history", "anchors": ["codeprep/bpepkg/merge.py: Merge, MergeList, read_merges"]}
{"id": "C80", "title": "Merges are learnt on the text of the words", "statement": "Merges are learnt from texts with spaces between the subwords, in which pairs are found with a regular expression. The pair is found exactly if the two subwords are neighbours, at the first place where they are; merging it replaces all its occurrences, and the changes that are reported for other pairs are the changes of their numbers of occurrences. So learning from words, or from the words saved by an earlier run, has the same outcome as on lists of subwords: most frequent pairs, and words with the merges applied.", "quantifier": "all pairs, split words, vocabularies, sets of unsplittable words and numbers of merges", "why_tests_cant": "a match of the regular expression could begin or end in the middle of a subword, for some subwords out of infinitely many; tests only show words of letters", "anchors": ["codeprep/bpepkg/bpe_learn.py: get_stats, merge_vocab, do_merges, create_bpe_cache, create_resulting_vocab", "codeprep/pipeline/bpelearner.py: prepare_vocabs, run"]}
{"id": "C81", "title": "The reported memory of an object counts everything once", "statement": "The memory that is reported for the indexes of the byte-pair encoder is the sum of the sizes of all objects that can be reached from the object, as members, keys, values, attributes and slots, each counted once, also if objects are shared or refer to each other in a circle. The calculation ends whenever fewer objects can be reached than Python's limit for recursion allows; it fails only with a RecursionError, and only if so many different objects refer to each other in turn.", "quantifier": "all finite and infinite graphs of objects and all limits for recursion", "why_tests_cant": "tests only show a few small objects; sharing and circles matter for the sum and for the end of the calculation", "anchors": ["codeprep/util.py: getsize"]}
{"id": "C82", "title": "All splitting functions deliver the same full tokens", "statement": "With the same common options, bpe and chars deliver the same full tokens of the same types as nosplit(full_strings=True), split into subtokens that joined give the token with the mark of its end; basic (with or without split_numbers) delivers the full tokens of nosplit, each unchanged or in parts between <w> and </w> that joined give the token; the types of the full tokens are the same for nosplit and for basic with all its options, and for all BPE codes.", "quantifier": "all texts (all lists of lexer tokens), all common options, all BPE data whose cache agrees with the merges, with and without the end-of-file mark", "why_tests_cant": "A comparison of two functions on all inputs; tests compare single results with expected ones, in one mode each.", "anchors": ["codeprep/api/text.py: nosplit, basic, chars, bpe", "codeprep/pipeline/to_repr.py", "codeprep/prepconfig.py"]}
{"id": "C83", "title": "Performance statistics of wild_bpe", "statement": "Taking performance statistics does not change the merges of wild_bpe.run: they are the same as without statistics, or, if more than 3072 MB have been measured, the first ones of them. An entry is added after the first two merges and after every n-th one; it gives the number of merges done, the number of different pairs of adjacent tokens of the text after these merges, and a number of queue entries that is at least as large.", "quantifier": "all texts without spaces (for the comparison of merges: all lists of tokens), all numbers of merges, all intervals, all orders of iteration over sets and of equal heap entries, all measured amounts of memory", "why_tests_cant": "Statistics are never taken in tests; that they agree with the text is a property of all states of the two indices.", "anchors": ["codeprep/bpepkg/wild_bpe.py: run, BpePerformanceStatsEntry"]}
{"id": "C84", "title": "After a dataset has been changed, the next call gives the new results", "statement": "When a dataset is changed, at any time, also while it is being preprocessed, then the next call that preprocesses it returns exactly the results for the changed dataset, as if nothing had been kept from earlier calls; the results that earlier calls have left stay as they are.", "quantifier": "all histories of calls with any output directories and configurations, killed at any point, and of arbitrary changes of the dataset between and during calls; all datasets, parsers and configurations", "why_tests_cant": "Which parts of the kept lists, parsed files and results are mixed up depends on the moment of the change and of a crash; tests never change a dataset during a call.", "anchors": ["codeprep/pipeline/dataset.py: Dataset, get_all_files, set_path_ready, is_path_outdated", "codeprep/pipeline/stages.py: run_parsing, run_until_preprocessing", "codeprep/pipeline/parse_projects.py: run, preprocess_and_write", "codeprep/pipeline/to_repr.py: run, preprocess_and_write", "codeprep/dirutils.py: get_timestamp"]}
{"id": "C85", "title": "A learning run that is killed or fails does no harm to what was learnt before", "statement": "When learn-bpe is killed at any point or fails, the identifiers of all datasets for which merges have been learnt still give the same words, subwords and merges as before, for ever, also if further runs are killed or fail; and the run can be repeated with the result it would have had.", "quantifier": "all states of the user's directories, all sequences of runs for any datasets with any settings, numbers of merges and identifiers that are not in use, that finish, fail or are killed at any point, all orders in which directories are listed", "why_tests_cant": "needs all crash points in all sequences of runs; tests do not kill runs and have one dataset", "anchors": ["codeprep/cli/impl.py: handle_learnbpe", "codeprep/pipeline/bpelearner.py: run, save_results", "codeprep/pipeline/bperegistry.py: create_new_id_from, write_bpe_codes_id, get_dataset_bpe_dir", "codeprep/pipeline/dataset.py: Dataset.create, assign_bpe_codes_id", "codeprep/pipeline/vocabloader.py: all, nonbpe, base, bpe"]}
{"id": "C86", "title": "More merges split less", "statement": "If a text is split with more merges of the same list, neighbouring subtokens of the splitting with fewer merges are glued together and nothing else changes: full tokens correspond to each other, every subtoken consists of whole subtokens of the other splitting, and the number of subtokens never grows. In particular every BPE splitting is coarser than that of chars.", "quantifier": "all texts (token streams from the lexer), all options, all lists of merges and numbers of merges, all datasets and sequences of learning runs", "why_tests_cant": "needs all texts, lists of merges and pairs of numbers; the greedy order of merging makes it far from obvious, and tests compare single words with one list", "anchors": ["codeprep/bpepkg/bpe_encode.py: encode, encode_word, get_bpe_subwords", "codeprep/bpepkg/merge.py: read_merges, MergeList", "codeprep/api/text.py: bpe, chars", "codeprep/pipeline/bperegistry.py: CustomBpeConfig.create, load_bpe_merges"]}
{"id": "C87", "title": "Every piece of a text is processed by itself, and every option changes only what it is about", "statement": "The output for a text consists of fixed contributions of the pieces that the lexer finds in it, in their order, without a newline at the very end; so a text may be cut after any operator. no_com replaces the comments and leaves everything else, no_str the string literals, max_str_length the string literals above the limit, no_spaces takes out newlines and tabs, and no_unicode makes no difference to pieces of ASCII characters.", "quantifier": "all texts (token streams from the lexer), all ways of splitting, all pairs of options, all loaded BPE codes", "why_tests_cant": "that nothing else changes must hold for all texts and all combinations of options; tests compare single outputs for single options", "anchors": ["codeprep/api/text.py: nosplit, chars, basic, bpe", "codeprep/parse/core.py: convert_text", "codeprep/parse/matchers.py", "codeprep/preprocess/core.py: to_repr_list", "codeprep/prepconfig.py: PrepConfig"]}
{"id": "C88", "title": "Learning merges from the same corpus gives the same merges", "statement": "The merges learnt from a corpus depend only on how often its words occur: not on the order of the words, nor on the number of processes or the order in which files are counted and partial vocabularies merged. Words that are all k times as frequent give the same merges, each k times as frequent.", "quantifier": "all corpora, all numbers of processes, all schedules of calculating the vocabulary, all numbers of merges, all factors k", "why_tests_cant": "depends on the schedule of several processes and on ties between frequencies; a test sees one schedule and few words", "anchors": ["codeprep/bpepkg/bpe_learn.py: do_merges", "codeprep/pipeline/bpelearner.py: run", "codeprep/bpepkg/merge.py", "codeprep/util.py: PriorityCounter", "codeprep/pipeline/vocab.py: calc_vocab, write_vocab"]}
{"id": "C89", "title": "Every learnt merge makes a new subword", "statement": "The merges learnt from words make subwords that are all different and that are not single characters; the parts of a merge are characters or were made before. So the vocabulary of subwords has at most one entry for each character and each merge. A subword is at most as frequent in this vocabulary as the frequency recorded for its merge. With the learnt merges a word is delivered in one piece if and only if a merge makes it.", "quantifier": "all vocabularies of words, all numbers of merges, all words to be split", "why_tests_cant": "two different sequences of merges could make the same subword only in particular words; this must be excluded for all words and all histories of merges", "anchors": ["codeprep/bpepkg/bpe_learn.py: do_merges, create_resulting_vocab", "codeprep/bpepkg/bpe_encode.py: get_bpe_subwords, encode_word"]}
{"id": "C90", "title": "Parts of a split word are split like that by themselves", "statement": "If a word is split into subwords, the rest of the word from any boundary between subwords on is split by itself into just these subwords; in particular the last subword is kept whole. If no merge is about the end of words, the same holds for the beginning of the word up to a boundary, for everything between two boundaries and for every single subword, and a word with a boundary between two parts is split into the subwords of its parts.", "quantifier": "all lists of merges, all words, all boundaries", "why_tests_cant": "the merges are applied to the whole word at once in an order that depends on all of its pairs", "anchors": ["codeprep/bpepkg/bpe_encode.py: get_bpe_subwords, encode_word, encode"]}
{"id": "C91", "title": "Whole vocabulary files and files with split words", "statement": "A vocabulary file or a file with split words of ASCII text, with any of the three kinds of line ends and with or without one at the end, is read if and only if every line is an entry. Of several lines for one word the last one counts, and the words are in the order of their first lines. Otherwise the first line that is not an entry decides the error: IndexError if it has one column only, ValueError if an escape or a number in it is malformed. Lines added to the end of such a file are read like a file of their own and count for the words that are in both.", "quantifier": "all texts, all numbers of lines, all entries", "why_tests_cant": "the files may be edited by hand; the number of lines, their contents, repetitions and mistakes are arbitrary", "anchors": ["codeprep/pipeline/vocab.py: _load_vocab_dict", "codeprep/bpepkg/cache.py: read_bpe_cache"]}
{"id": "C92", "title": "The frequencies of learnt merges say how much they save", "statement": "When merges are learnt from words with frequencies, the words are split with these merges into as many subwords fewer than they have characters and ends as the recorded frequencies of the merges add up to. Every merge saves at least one subword; there are never more merges than the words have characters, and as many merges as that keep every word of the corpus whole.", "quantifier": "all word-frequency dictionaries, all numbers of merges", "why_tests_cant": "the frequencies are kept up to date merge by merge; the sum over all words after any number of merges is a global property of the whole run", "anchors": ["codeprep/bpepkg/bpe_learn.py: do_merges, get_stats, merge_vocab", "codeprep/bpepkg/bpe_encode.py: get_bpe_subwords"]}
{"id": "C93", "title": "The frequencies in the vocabulary add up to the size of the corpus", "statement": "The frequencies in the vocabulary of a preprocessed corpus add up to the corpus size that is calculated for it, and both are the number of its tokens. This is so for whatever the preprocessed files contain, however many processes calculate the vocabulary and in whatever order they work.", "quantifier": "all lists of files with all contents, all numbers of processes, all schedules", "why_tests_cant": "the vocabulary is merged from thousands of partial tables by several processes and the size is counted separately by other code; tests compare neither for all schedules", "anchors": ["codeprep/pipeline/vocab.py: get_vocab, calc_vocab, create_partial_vocabs", "codeprep/api/corpus.py: PreprocessedCorpus.load_vocab, PreprocessedCorpus._calc_corpus_size, _calc_n_tokens"]}
{"id": "C94", "title": "Only merges that occur in a word matter for it", "statement": "How a word is split depends only on those merges whose two parts stand one after the other in the word (with its end mark): other merges can be added or left out. So when learning goes on, the words in which none of the further merges occurs are split as before, and a word in which no merge occurs is split into characters.", "quantifier": "all lists of merges, all words, all caches, all numbers of merges learnt", "why_tests_cant": "merges are applied to the results of other merges in the order of their ranks, so that irrelevance must be shown for every intermediate split", "anchors": ["codeprep/bpepkg/bpe_encode.py: encode, encode_word, get_bpe_subwords", "codeprep/bpepkg/bpe_learn.py: do_merges"]}
{"id": "C95", "title": "All characters are treated alike by byte-pair encoding", "statement": "If all characters of the words to learn from are renamed consistently, then the merges learnt, their order and their frequencies are the same up to the renaming, also when several pairs are equally frequent, and renamed words are split at the same places. So neither learning nor splitting depends on the alphabet.", "quantifier": "all renamings of characters, all word-frequency dictionaries, all numbers of merges, all words", "why_tests_cant": "it compares two whole runs for every possible renaming; ties are broken in the queue by insertion, which tests only see for particular words", "anchors": ["codeprep/bpepkg/bpe_learn.py: do_merges, get_stats, merge_vocab", "codeprep/bpepkg/bpe_encode.py: encode, encode_word, get_bpe_subwords", "codeprep/util.py: PriorityCounter"]}
{"id": "C96", "title": "Splitting a whole dictionary of words", "statement": "encode(words, merges) gives one entry for every word, in the same order: the parts the word is split into when it is encoded alone, separated by spaces, with the number of the word. Different words never fall together, also if they contain spaces, so no number is lost. One word with an illegal escape sequence makes the call fail with a ValueError. encode_word is the call with one word.", "quantifier": "all dictionaries of words, all merge lists whose merges have no empty part, all words", "why_tests_cant": "two words that fall together would have to be found among all words; tests only encode single words", "anchors": ["codeprep/bpepkg/bpe_encode.py: encode, encode_word, to_char_list"]}
{"id": "C97", "title": "Helpers for pairs of tokens in wild_bpe", "statement": "swap_pair swaps the two tokens of a pair; are_symmetric is true exactly for a pair and the swapped pair; self_merge finds, in every row of occurrences of a token right after each other, every second one, so that pairs of equal tokens do not overlap, and rows do not influence each other. A text that is not a pair is an IndexError.", "quantifier": "all tokens without spaces, all lists of positions, all distances", "why_tests_cant": "tests have a few literals; rows may have any length and any distance", "anchors": ["codeprep/bpepkg/wild_bpe.py: swap_pair, are_symmetric, self_merge"]}
{"id": "C98", "title": "Words with spaces, and telling words apart by their subwords", "statement": "Byte-pair encoding also splits words that contain spaces: it never fails, the subwords have the text of the word without its spaces, and every space becomes two empty subwords. So different words, with or without spaces, never have the same subwords. There are at most as many subwords as characters, plus one for every space and one for the end.", "quantifier": "all words, all merge lists (without empty parts for the last two claims)", "why_tests_cant": "a space goes through a text that is joined and split at spaces; two words that are split alike would have to be found among all words", "anchors": ["codeprep/bpepkg/bpe_encode.py: get_bpe_subwords, encode_word, encode, escape, unescape"]}
{"id": "C99", "title": "The number of tokens is bounded by the size of the text", "statement": "The metadata describe at most as many full tokens as the text has characters, plus one for every line comment and one for the end of the text if it is marked; nosplit delivers at most that many strings. Indentation, literals that are replaced and characters that are not ASCII never add tokens. Conversely there is at least one full token for every text of the lexer that can be seen, whatever is left out.", "quantifier": "all texts in any script, all functions and options, all merges and stored words", "why_tests_cant": "each kind of text is cut in its own way, and a bound must hold for every mixture of them", "anchors": ["codeprep/parse/core.py: convert_text", "codeprep/parse/subtokens.py", "codeprep/pipeline/to_repr.py: to_repr", "codeprep/api/text.py: preprocess", "codeprep/preprocess/metadata.py"]}
{"id": "C100", "title": "Learning depends only on the proportions of the frequencies", "statement": "If every word of the training vocabulary occurs k times as often (k positive), learn-bpe finds the same merges in the same order, every word is split as before, and the stored frequencies are k times as large; the same for a run that continues an earlier one.", "quantifier": "all vocabularies, words kept whole, numbers of merges, positive factors, and all words split afterwards", "why_tests_cant": "the frequencies are kept up to date incrementally in a priority queue with stale entries; a comparison with a constant or an absolute threshold anywhere would only show on some corpora", "anchors": ["codeprep/bpepkg/bpe_learn.py: do_merges, get_stats, merge_vocab", "codeprep/bpepkg/merge.py: MergeList", "codeprep/util.py: PriorityCounter", "codeprep/pipeline/bpelearner.py: run, prepare_vocabs"]}
{"id": "C101", "title": "Words that are kept whole do not influence what is learnt", "statement": "learn-bpe finds the merges that it would find in the vocabulary without the words that are kept whole: it does not matter which such words there are, how frequent they are, where they stand in the vocabulary, or which further words are listed; the same for runs that continue an earlier one.", "quantifier": "all vocabularies, words to keep, merges learnt before, and numbers of merges", "why_tests_cant": "the words are taken out, put back and recognised again in the saved vocabulary; an influence would only show for words that share pairs with others", "anchors": ["codeprep/pipeline/bpelearner.py: prepare_vocabs, run", "codeprep/bpepkg/bpe_learn.py: separate_vocabs, do_merges"]}
{"id": "C102", "title": "Words that have no characters in common do not influence each other", "statement": "If every word of the training vocabulary consists of characters of an alphabet or has none of them, then the learnt merges of this alphabet, in their order and with their frequencies, are merges that learning from the words of the alphabet alone may find, and these words are split in the same way.", "quantifier": "all vocabularies, alphabets and numbers of merges", "why_tests_cant": "the pairs of all words are kept in one queue and the words are searched for pairs as text; an influence would show only for certain mixtures of scripts", "anchors": ["codeprep/bpepkg/bpe_learn.py: do_merges, get_stats, merge_vocab", "codeprep/util.py: PriorityCounter"]}
{"id": "C103", "title": "Only the order of the merges counts", "statement": "Two lists of merges that have the merges which occur in a word in the same order split it alike, whatever their numbers and frequencies are; in particular merges that do not occur in a word may be removed from the list and the others numbered anew.", "quantifier": "all lists of merges, words and caches", "why_tests_cant": "the encoder compares numbers and uses a largest number as a mark; a dependence on their values would show only for some lists", "anchors": ["codeprep/bpepkg/bpe_encode.py: encode_word, get_bpe_subwords", "codeprep/bpepkg/merge.py: MergeList"]}
