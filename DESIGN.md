# Formal model of codeprep in Lean 4 -- design

## Method

The Python code in `/repo/codeprep` is modelled by shallow functional Lean definitions, function by
function.  Strings are lists of Unicode scalar values (`Str := List Char`), Python exceptions are values of
an `Except`, loops are recursive functions that follow the branches of the code, mutable objects are threaded
as state, file systems are maps from paths to contents, and concurrent processes / crashes are transition
relations whose every finite execution is covered by induction.  Every definition cites the file and lines it
models and says where it simplifies.

Layout (all under `lean/Verif/`):

* `Base/`   -- Python-like primitives (`str.split`, `str.replace`, dict as insertion-ordered association list).
* `Model/`  -- the model of the code.
* `Spec/`   -- small independent specifications used in theorem statements (they do not use model helpers).
* `Proofs/` -- helper lemmas.
* `Props/`  -- the property theorems (one file per area), each with a non-vacuity example next to it.

`AXIOMS.md` lists the axioms each theorem of `MANIFEST.json` depends on, as printed by `#print axioms`.

## Trusted base

* Lean 4.33.0 kernel; axioms `propext`, `Classical.choice`, `Quot.sound` only (no `native_decide`, `bv_decide`,
  `sorry`, own axioms).
* The hand translation Python -> Lean (each definition cites its source).
* Assumed, not modelled: CPython, `regex` engine details other than the patterns modelled, Pygments lexers
  (arbitrary list of (token type, text) pairs), NLTK's Porter stemmer and spiral's ronin splitter (arbitrary
  functions), pickle/dill/gzip (opaque lossless serialisation which can be truncated by a crash), OS file
  semantics (atomic rename and unlink), multiprocessing queues (atomic FIFO put/get), Unicode character database (arbitrary
  functions that agree with ASCII on ASCII).
* Simplifications that matter: splitters are functions of the word, except in C63, which models the change of a cache
  entry by a lookup for whole calls and worker processes and says when the two agree (single lookups: C04); process identifiers and time stamps in names of new files
  are new; a crash kills the process, what was handed to the OS before persists; source files do not change during a run, except in C84;
  `os.walk` and `os.listdir` deliver an arbitrary list (`os.walk` is modelled in `Model/Walk`, C71); `ast.literal_eval` is modelled for literals of bytes; identifiers used as
  patterns for characters, dots and single quantifiers; `\\N{...}` escapes are not decoded.
* The lists of merges that come with codeprep (`codeprep/data/bpe`) meet the hypotheses on lists of merges: read as text, no pair is repeated, no part is
  empty, every part is a character or was made before, frequencies never increase, and the lists with 1000, 2000 and 5000 merges are the first
  lines of the one with 10000 (checked with a script over the files, not in Lean).
* Hypotheses on the Unicode database that some theorems need are collected in `Ucd.Laws`; `asciiUcd_laws` shows that they can be met.
* Not modelled: logging, progress bars, measured times, docopt's reading of usage texts (C73 has them as data, and docopt's published algorithm), plotting/CLI output.

## Plan per property

| id | what is modelled | how it is proved |
|----|------------------|------------------|
| C01 | escape / to_char_list / encode / unescape on `List Char` | invariant "symbols are unit-aligned": concatenation preserved by every round |
| C02 | the scan loop of `encode`, exactly as in the code | loop invariant of the scan = greedy non-overlapping positions of the minimal rank; length decreases |
| C03 | same, empty merge list | direct induction on the word |
| C04 | list mutation in `unescape` as state passing of the cache | counterexample (the code violates it) + `_partial`: words not in the cache |
| C05 | `do_merges`, `encode_word` | unique-derivation argument (segmentation inside never-crossed spans is context independent) |
| C06 | `get_stats`, `merge_vocab`, `PriorityCounter` | invariant: counter = exact adjacency counts |
| C07 | `do_merges`, `read_merges` | induction on the number of merges |
| C08 | `do_merges`, `MergeList.append` | invariants (concatenation, no learnt pair adjacent any more) |
| C09 | `create_resulting_vocab` etc. | fold induction |
| C10 | unicode-escape codec on code points | case analysis on code point ranges + digits lemmas |
| C11-C13 | file writers/readers on text | C10 + split/join lemmas |
| C14 | `MergeList` | induction |
| C15-C17 | all token classes, `torepr`, `PrepConfig.get_repr_config` | mutual induction on tokens |
| C18 | iterators as state machines | invariant over `__next__` |
| C19 | `insert_and_word_tokens`, `check_metadata_validity` | from C15 + shape of subwords; counterexample for merges that build '</t>' |
| C20 | `torepr` under two configurations | mutual induction |
| C21 | `create_str_value`, `get_max_str_length`, `StringLiteral` | finite case analysis + counterexamples for n<2 and n>61 |
| C22-C24 | regex scanners of parse/subtokens.py, `Word` | scanner induction |
| C25 | matchers | case analysis |
| C26, C27 | `StringLiteral`, `Number`, `NonEng`, `NonCodeChar` | counterexamples + `_partial` |
| C28, C29 | `PrepConfig`, option functions | case analysis |
| C30 | merger processes as a transition system | inductive invariant |
| C31, C32 | file system with crash at every step | inductive invariant; C32 has a counterexample |
| C33 | worker processes on a file system, crash, restart | inductive invariant |
| C34 | `bytes.__repr__` / `ast.literal_eval` | byte case analysis; which lines are read is compared with a relation for bytes literals (`Spec/BytesLit`) |
| C35 | writers/readers | split/join lemmas |
| C36 | `groupify` | arithmetic induction |
| C37 | `limit_max_vocab` | counterexample for n = size; `_partial` otherwise |
| C38 | `PriorityCounter` with lazy deletion | refinement to a finite map |
| C39, C40, C43 | bperegistry / bpe_config | string lemmas; counterexamples for special names |
| C41, C53 | global BPE data with fields that may be missing, loading from an abstract disk | the result equals that of a stateless call; counterexamples for reuse |
| C42 | path construction | string lemmas; counterexamples |
| C44-C46 | helper functions | induction |
| C47, C48 | parsing of lexer tokens, matchers, tokenisation | case analysis on token types, scanner lemmas |
| C49 | ronin/stemming wrappers, literals | arbitrary splitter/stemmer functions |
| C50 | `PartialVocab.stats`, `write_stats` | invariant: the largest number of files occurs once, with the size; the entries for single partial vocabularies are kept; all entries are bounded by the totals |
| C51 | `get_dir_last_modification` | the first `limit` times; counterexamples beyond |
| C52 | collecting tokens after the workers, crash at any access, restart | inductive invariant on top of C33 |
| C54 | any number of processes that call `get_corpus_size`, crash at any access | inductive invariants |
| C55 | a stage as a sequence of accesses to the disk, crash at any access, changes by users | inductive invariant; stuck states |
| C56 | reference description: pieces of a text (relation), spelling of a piece in a mode (relation), options of a call; for any characters (`Spec/AnyText`) and, simpler, for ASCII words (`Spec/Reference`) | the parsed tokens correspond to pieces; the relations are functional |
| C57 | `wild_bpe.py`: both indices, the queue, the updates after a merge, the reading of files; order of iteration over sets and choice among equal heap entries are parameters | invariant: the location index and the queue are those of a full recount of the current text, the neighbour index covers all neighbours; the current text is the start text with all merges replaced |
| C58 | decoder of escapes, `int`, lines of files; grammar of escapes and numerals as relations | both directions by induction on the text; complete tables for ASCII digits and white space |
| C59 | `bpelearner.run` with the texts of all files it reads and writes, interrupted saving; histories as an inductive relation | invariant over histories: every directory holds a result of learning, using the round trips of C11-C13 and the continuation of C47 |
| C60 | transition system of whole corpus calls: two stages of C55 that share the parsed files, output directories, vocabulary files by configuration | the invariant of C55 for every directory at once, results computed from the parsed files on disk; counterexamples |
| C61 | the two handlers of the command line as functions from docopt's dictionary to what is printed, run or changed; `normpath`/`abspath`; `preprocess_corpus` up to the stages (C60) | equality with the functions of the API through C29; paths by a fold over components against a walk in the tree; counterexamples |
| C62 | `AtomicInteger` with lock, semaphore, pipe and buffers of `multiprocessing.Queue` as a transition system in which every access is a step; `NonAtomicCounter` as functions | invariant: the process in the method, run to its end, has the effect of one atomic call (linearizability); counting invariant and a measure for progress; stuck states are closed under all steps; counterexamples |
| C63 | the functions of `tokens` and `core.py` again, as programs with a state (the global data with the cache) that is kept also when an exception is raised; whole calls; the files of a worker process | logical relation between the programs with different lookups (closed under sequence): without an effect, written down, with the cache that wears; the words that are looked up are specified per token; counterexamples |
| C64 | the workers of C33 for any number of programs on one disk, renaming that fails, exceptions that stop a program | inductive invariant: at every position a file has the right character or a writer that is going to write it; counterexamples |
| C65 | all methods `__eq__` and `__hash__`; comparing may fail; the custom configuration is compared by address; dicts find keys by the hash stored when they were inserted | characterisations of equality and of failing, from which reflexivity, symmetry and transitivity follow; mutual induction for tokens; counterexamples |
| C66 | UTF-8 and ISO-8859-1 decoders on bytes, universal newlines, `splitext`, choice of the lexer, both stages for one file | the decoder is the inverse of the library's encoder (arithmetic for each length); lines joined again are the text; compositionality (C16) for the two stages; counterexamples |
| C67 | the models of C05, C16, C30, C35 and C66 | an invariant of parsed tokens (their texts are solid) is kept by every conversion to tokens of the output, for every kind of token and every splitter; then the theorems about results, vocabularies and sizes apply; counterexample |
| C68 | the models of C30, C50, C52, C66 and C67 put together | the stages are composed: what each file shows, what is recorded of it, what the gathering and the vocabulary calculation leave on disk, and what learning reads from there; existence of such runs; counterexample |
| C69 | `Model/VocabLoader`: the user's directories with vocabularies, identifiers and merges; the loading functions; a learning run that succeeds | an invariant of histories of runs for any datasets: the registry is one of C40's histories, the directories of each dataset hold one of C59's histories over the vocabulary found through the directory's name (C43); counterexamples |
| C70 | `Model/Print`: CPython's `repr` of strings and of lists of strings | a relation for how Python reads such lists (`Spec/Print`, with the escapes of C58): what is printed is read as the list, by induction; readings are unique |
| C71 | `Model/Walk`: trees with symbolic links, `os.walk` with and without following links, the three functions of `dirutils.py` that use it | where a list of names leads to is a relation (`Spec/Walk`); the directories of a walk are those to which names lead, by induction over the number of links and the size of the tree; counterexamples for links |
| C72 | `Model/Learners`: programs that learn merges, each with a phase (look, choose, open, write, learn), over one directory of merges | steps of any interleaving as a relation (`Spec/Learners`); an invariant says who holds which identifier; concrete histories for the violations |
| C73 | `Model/Docopt`: the options and usage patterns of spec.py as data, docopt's reading of words and matching of patterns as functions | `Spec/Docopt` says how options may be written and which fit together; reading = the relation `Writes` (induction on the words), matching = an invariant for patterns of options (`Takes`); composed with C61 |
| C74 | `Model/Whole`: the jobs of both stages made from the list of files of a directory tree and the contents of the files | composition of C71, C33 (with `C33_only`: nothing else is in the directory with the results), C66, C67 and C30 |
| C75 | `Model/UserCodes`: the files the text functions see, made from the user's directories that learning leaves | composition of C74's stages with C52, C68, C69, C53 and C63; `Spec/UserCodes` says what the pieces of a word are; results of a program that writes down its lookups depend on the splitter only by these words |
| C76 | the whole text functions (`textApi`) | counts of newlines over the reference description of C56 for any characters (`C56_any`; changes of case are assumed to introduce neither line breaks nor spaces): `Proofs/Breaks` relates the pieces of every lexer token, and the subtokens of every piece, to the newlines of the text; uniqueness of the description gives the results of parts of texts |
| C77 | `PreprocessingMetadata` as objects with references (`Model/MetaObj`); the text functions | invariant over all histories of objects: what each one describes, that no two hold anything in common; `update` on objects is `update` of the values that the other models use (`C77_value`) |
| C78 | `encode_word`, `get_bpe_subwords`, `unescape`, the text functions | the symbols of a word are characters and products of merges throughout the loop (invariant `Syms`); the pieces of a text stay within the alphabet; counting with `Nodup.length_le_of_subset`; words of one letter for the other functions |
| C79 | `Merge`, `MergeList.append`, `__add__` as objects (Model/MergeObj), `read_merges` | invariant of all histories (the pair of a merge is its key, merges in lists have a priority, `HeapOk`); copies are new and different; the loop of `__add__` refines one on values; induction over the lines of a file |
| C80 | bpe_learn.py and the preparation in bpelearner.py on texts, with the regular expression as a backtracking matcher (Model/MergeText) | refinement to the functions on lists of subwords (Model/BpeLearn): the matches at every position of the text, the leftmost one is the leftmost pair; invariants: split words are `Clean`, the pairs of the queue have no spaces; different split words have different texts |
| C81 | `getsize` of util.py on graphs of objects, with the set of seen objects as a state and the limit for recursion as a number | invariant: what has been seen is closed except for the objects that are being looked at; a failing call gives a chain of different objects |
| C82 | the text functions of the api in all modes (as for C56), two calls side by side | the reference description of C56: the pieces of a text depend only on the common options and on what is done with literals; every piece is spelled in both modes; losslessness of BPE (C01) |
| C83 | `wild_bpe.run` with statistics; memory is a function of the state, times are left out | the invariant of C57 with unique keys of the location index; runs with and without statistics side by side |
| C84 | both stages for a dataset that changes at any time; lists, parsed files and results are kept by the time of the dataset | invariant: what is kept for the current time belongs to the current dataset, what is kept for times that never were is empty |
| C85 | `handle_learnbpe` with the points at which it can be killed, on the user's directories of C69 | invariant: the directory keeps its identifier and its merges, and no other directory gets the identifier; the state after a kill is one the repeated run passes through |
| C86 | the encoder, `read_merges`, the text functions and the learning runs of C59 | a step with the first merges is a step with all of them, and steps are deterministic, so the splitting with fewer merges is passed on the way to the other; transfer through escaping to visible subtokens and whole texts |
| C87 | the text functions as in C56 | the reference description of C56 determines a contribution for every piece of the lexer; leaving out the last newline commutes with putting contributions together; two descriptions with other options agree on pieces that the options are not about |
| C88 | learning as in C22, calculating vocabularies as in C30 | without ties the greedy choice is unique, so two greedy runs over permuted vocabularies make the same merges; multiplying frequencies preserves the order of the priority queue (simulation); for ties two schedules of two files with other merges |
| C89 | learning as in C06, splitting as in C02 | the symbols of a stretch of a word are determined by its text alone (the invariant used for C05), so a pair of neighbours cannot be a symbol elsewhere; induction over the merges |
| C90 | splitting as in C02 | joining a pair on both sides of a boundary that stays is joining it in the two parts, so the steps for a word are steps for its parts or nothing; uniqueness of the normal form; counterexample |
| C91 | loops of C12 and C13, lines of C58 | line ends are normalised first; induction over the lines for both loops at once; the dictionary after the loop is described by the last entry of each word |
| C92 | learning as in C06, splitting as in C02 | a replacement shortens a word by the number of its pairs (exactly if the parts differ, at least half of it otherwise); induction over the merges; C05 for the delivered subwords; counterexample |
| C93 | vocabulary calculation as in C30, corpus size as in C35 | totals of tables of counts: induction over lines and words; a sum of tables has the sum of their totals (exchange of sums); C30 for all schedules |
| C94 | splitting as in C02, learning as in C07 | the text of the subwords stays the same in every round, so neighbouring subwords are an occurrence; two lists with the same ranks for occurring pairs do the same in every round |
| C95 | learning as in C06 with the queue of C38, splitting as in C02 | every function commutes with an injective renaming of keys (simulation of the queue, the dictionaries and the loops) |
| C96 | `encode` with both of its dictionaries, on top of the loop of C02 | the text of the parts, where an empty part counts as a space, is kept by every merge and determines the word |
| C97 | `swap_pair`, `are_symmetric`, `self_merge` of wild_bpe.py | split of a joined pair; induction on the length of a row |
| C98 | splitting as in C02 for words with spaces | the text of the parts of C96; subwords determine the symbols, which determine the word |
| C99 | pieces of a text as in C56 | every kind of text has at most as many pieces as characters, and one more for a line comment; two strings only for the quotes of a literal of at least three characters |
| C100 | the learner of C92 run on the vocabulary and on the one with multiplied frequencies | the two runs are related step by step: queue, statistics, vocabulary and merges are those of the other run times k; C100_merges repeats C88_times, the others extend it to runs, splitting and files |
| C101 | separation of the vocabulary and the learner as in C47 | separation is filtering (C09); the merges depend on the first part only |
| C102 | the specification of learning of C06 | a pair of one alphabet does not occur in the words of the other, so a merge is a step for its own part of the vocabulary and no step for the other part |
| C103 | the encoder and the specification of C02 | a step of smallest rank is one for every list with the same order; the normal form is unique; positions in a filtered list are in the same order |

## Disagreements between the code and the properties

Each has a theorem named `..._violated` (or a name given below) with a concrete witness and a `..._partial` theorem with what
does hold.

* C04: `unescape` changes the list that is stored in the cache, so looking up a cached word a second time raises
  (`C04_cache_lookup_violated`, `C04_second_lookup_fails`).
* C11: `read_merges(file, 0)` reads all merges (`C11_merges_limit_zero`); merges of unknown frequency are written as `None` and
  cannot be read back (`C11_unknown_frequency_unreadable`).
* C18: with an empty full token `SubtokenIterator` reports wrong indices (`C18_empty_full_token_misindexed`); preprocessing
  never produces one.
* C19: with merges that build `</t>`, a literal that contains `</t>` has more than one mark (`C19_violated`).
* C20: newlines inside literals that are treated as a whole (BPE, chars, full strings) remain with `no_spaces`
  (`C20_newline_in_literal_kept`).
* C21: limits from 62 on and negative ones are ignored (`C21_violated`); the limits 0 and 1 are treated as 2
  (`C21_small_limit_violated`).
* C24, C26: capital letters in number literals such as `0xFF` are lower-cased (`C24_violated`, `C26_violated`).
* C24: a name with a letter whose lower case has a different upper case is changed: `İ` (U+0130) is lower-cased to `i` and
  U+0307 and comes back as `I` and U+0307 (`C24_case_violated`).
* C31: a truncated pickle may raise `UnpicklingError`, which is not caught; then no later start can resume the calculation
  (`C31_violated`).
* C32: a vocabulary file that is cut off by a crash is accepted by later runs (`C32_violated`).
* C33: two programs that work on the same dataset at once may leave an incomplete file for good (`C33_two_programs_violated`); a
  source file that cannot be read is ignored when parsing, but then preprocessing always fails (`C33_missing_violated`); tokens
  saved at the same time for files with the same base name overwrite each other (`C33_tokens_violated`).
* C35: subtokens that contain spaces cannot be told from several subtokens in `.prep` files (`C35_spaces_ambiguous`).
* C37: limiting a vocabulary to exactly its size raises an `IndexError` (`C37_violated`).
* C40: the name of a dataset is used as a pattern without escaping, so an identifier may be given out twice or no identifier be
  created (`C40_special_violated`, `C40_invalid_violated`); identifiers whose merges have not been learnt yet, identifiers given
  by the user and white space at the ends are not taken into account (`C40_unlearnt_violated`, `C40_given_violated`,
  `C40_space_violated`).
* C42: datasets with the same name that were changed in the same second share a directory (`C42_basename_violated`), all datasets
  given with a slash at the end have an empty name (`C42_slash_violated`), extensions with underscores are ambiguous
  (`C42_extension_violated`).
* C43: names with `_-_` or a line break lead to another directory or to an error (`C43_separator_violated`,
  `C43_setting_violated`, `C43_newline_violated`); the kind of files is lost (`C43_base_violated`).
* C44: a string of bars only is not normalised idempotently (`C44_idempotent_violated`); extensions are ignored if the dataset is
  a single file (`C34_single_file`).
* C51: changes after the first 1000 entries and removed files are not noticed (`C51_limit_violated`, `C51_removed_violated`).
* C52: a crash while the collected tokens are written leaves an incomplete file that is never written again
  (`C52_gather_violated`); a crash while a worker writes a token leaves a wrong token (`C52_cut_token_violated`) or a file that
  cannot be read, so that every further run fails (`C52_cut_escape_violated`).
* C41: with `force_reinit_bpe_data=False` the codes of an earlier call are used, whatever codes are asked for (`C41_reuse_violated`),
  and after a call that failed while loading, further calls fail (`C41_failed_load_violated`); `bpe(text, '0')` always raises
  `KeyError` although `0` is accepted as a name of codes (`C41_bpe_zero`).
* C53: the vocabulary of unsplittable tokens is put into the cache without escaping, but looked up with escaped words, so it has no
  effect (`C53_no_effect`, `C53_violated`).
* C27: with `no_unicode`, non-ASCII characters that are not letters or digits remain (`C27_violated`); with BPE, words with non-ASCII
  letters lose their inner capital letters as well (`C27_case_violated`).
  What remains is described for any text by `C27_left` and `C27_kept`.
* C54: a process that is killed between creating the file with the size and writing it makes all later calls fail
  (`C54_crash_violated`), a call that overlaps with another one can fail (`C54_race_violated`), datasets with the same name and time
  share the stored size (`C54_shared_violated`).
* C55: changes of results are not noticed in the second in which they were marked (`C55_same_second_violated`), if a file is removed
  (`C55_removed_violated`) or if the results are not marked (`C55_unmarked_violated`); with a dataset without files, or after a call
  that is killed while it archives and restarted in the same second, all later calls fail (`C55_empty_violated`,
  `C55_collision_violated`).
* C57: `run_from_text` with spaces fails or merges the wrong things (`C57_space_violated`); of a file that is not UTF-8, what comes
  before the first block that cannot be decoded is used twice (`C57_late_violated`).
* C58: text that is not ASCII stands for the characters of its UTF-8 bytes (`C58_escapes_violated`).
* C59: learning fewer merges later and continuing from there changes what an identifier means (`C59_nested_violated`); a run killed while saving makes later runs fail (`C59_kill_violated`, `C59_kill_blocks`) or learn from an incomplete vocabulary without notice (`C59_kill_silent_violated`).
* C60: `run_until_vocab` returns at once if the vocabulary file exists, which does not depend on the output directory: a call for a second directory leaves it empty (`C60_directory_violated`), as does one after the results were removed (`C60_removed_violated`); an incomplete vocabulary is accepted (`C60_cut_violated`); the default output directory is not the documented one (`C60_default_violated`); for a dataset without files, a call that does not cache can archive the parsed files and then exit because their directory is missing (`C60_empty_violated`).
* C61: an empty `<text>` is false, so `handle_splitting` calls `preprocess_corpus(None, …)` (`C61_empty_text_violated`); `handle_learnbpe` writes the id before `bpelearner.run` rejects `--bytes` or `--word-end` (`C61_unsupported_violated`); `--legacy` does the same as `-e java` (`C61_legacy`), no other parser is used.
* C62: `AtomicInteger.dec`, `compare_and_dec` and `get_and_dec` of a counter that is 0 wait for ever while they hold the lock (`C62_zero_violated`), where `NonAtomicCounter` returns; a process killed in a method, or before its item is in the pipe, blocks all others (`C62_killed_violated`, `C62_lost_violated`). The model of the vocabulary calculation (C09, C30) takes the counters as atomic; `C62_linear` and `C62_vocab` justify this for processes that are not killed inside of these methods.
* C63: `bpe("ab ab", "1k")` raises `ValueError` if the cache file has a split of `ab` (`C63_twice_violated`), so does the second of two calls that share the codes (`C63_reuse_violated`), and whether a corpus can be preprocessed depends on which files a worker process gets (`C63_processes_violated`); for words that end with `@` a wrong split is returned silently (`C63_wrong_violated`).
* C64: with two programs at once a result can be empty while the other program is still writing (`C64_early_violated`), the slower program ends with `FileNotFoundError` (`C64_exception_violated`), and an exception can leave an empty result for good although nothing was killed (`C64_abort_violated`).
* C65: `BpeConfig.__eq__` and `PrepConfig.__eq__` use `other.params` without asking for the class, so comparing a dataset with codes to learn with the same dataset without them raises `AttributeError` (`C65_learn_violated`, `C65_config_violated`); `CustomBpeConfig` has no `__eq__`, so datasets made in the same way are different (`C65_custom_violated`); `MergeList.append` sets the rank of its argument, which changes its hash (`C65_append_violated`).
* C66: results of files have a line break before the end-of-file token which the text functions do not give (`C66_newline_violated`); the name of a file is decoded as UTF-8, so a file such as `x.j\xff` makes the whole run fail (`C66_extension_violated`); a file that is not UTF-8 in one place is read as ISO-8859-1 everywhere (`C66_mixed_violated`).
* C67: keywords that the lexer delivers with a space (`import static` of Java, `yield from` of Python) are tokens with a space; in results and vocabularies they cannot be told from two tokens (`C67_violated`).
* C68: the parts of a keyword with a space are learnt from, although the keyword is recorded as not to be split (`C68_violated`).
* C69: an identifier given for two datasets loads the words and merges of one of them only (`C69_given_violated`); the words of a dataset with `_-_` in its name cannot be loaded (`C69_separator_violated`).
* C71: a file behind a link to a directory is listed once for every path that leads to it, 41 times with one link to the directory itself (`C71_twice_violated`); files behind links are listed, but when they change the dataset counts as unchanged (`C71_unnoticed_violated`).
* C72: two programs that learn for two datasets with the same name at the same time give both the same identifier, and the merges of one cannot be used (`C72_violated`); two programs for the same dataset: the second one writes another identifier over that of the first one, under which merges have already been learnt (`C72_renamed_violated`).
* C73: `-L=<max-str-length>` of the usage texts is read as the value `=<...>` and ends with a ValueError (`C73_length_violated`); a text that begins with a dash cannot be given on the command line (`C73_dash_violated`); `no_str` together with `full_strings` is possible in the API only (`C73_strings_violated`).
* C74: a listed file that cannot be read, or has an extension that is not UTF-8, keeps the whole dataset from being preprocessed, however often it is tried (`C74_finishes`, second part).
* C75: holds for datasets with names and identifiers as in C69; words recorded as not to be split have no effect on the text functions unless they end with `@` (`C75_text`, `C53_no_effect`).
* C76: `WhitespaceMatcher` (parse/matchers.py 90-95) takes any white space but a single newline or tab, and shows one tab for four characters: `"\n\n"` or `"\n  "` from one lexer token loses its line breaks (`C76_empty_lines_violated`), `"\t\t"` disappears while `"\t"` is one tab (`C76_tab`, `C76_tabs_violated`). Comments that include their newline lose it with `no_com` (`C76_hidden`).
* C82: with `no_unicode` a word with characters that are not ASCII is `<non-en>` for `nosplit` and `basic`, but for `bpe` and `chars`
  it keeps its ASCII characters, and `÷` stands for the rest (`C82_unicode_violated`).
* C83: `merges_done` of an entry is the index of the last merge, one less than the number of merges done; after the first merge it
  is 0, as in the entry for the beginning (`C83_count_violated`).
* C84: the time of the dataset is taken when a call begins, the files are read later: a change during the call gives marked results that
  belong to no state of the dataset (`C84_during_violated`), and they are used for ever if the dataset is restored with its old time
  (`C84_restored_violated`); removed files are not noticed (`C84_removed_violated`).
* C85: an identifier is written before anything is learnt, but only identifiers with merges count as taken: after a run that was killed or
  failed, the next dataset of the same name gets the same identifier, which then leads to the first directory in the listing
  (`C85_killed_violated`).
* C86: learning fewer merges from a dataset after more makes a new directory with other merges, so that more merges can split a word
  into more subtokens (`C86_decreasing_violated`); a pair repeated in the last line of a file of merges loses its priority
  (`C86_repeated`).
* C88: when pairs of neighbours are equally frequent, the one that entered the priority counter first is merged. This depends on the order of
  the words in the vocabulary file, and among equally frequent words this order depends on which partial vocabulary was ready first. So
  learning twice from the same corpus can give different merges (`C88_order_violated`, `C88_schedule_violated`).
* bpe_encode.py 167-172 (not modelled): run as a program, the module declares the positional argument `merges-file` but reads `args.merges_file`, so it always ends with `AttributeError`.
* C92: the recorded frequency of a merge of two equal subwords counts overlapping pairs, so it may be larger than the number of subwords that the merge saves (`aaa` has the pair `a`, `a` twice): `C92_exact_violated`.
* C62: the setter of `AtomicInteger.value` stores a new queue in the object; other processes have copies of the object and go on
  with the old queue, so they never see the value (`C62_set_violated`).  Nothing in codeprep uses the setter.
* C102: words that share characters do influence each other (`C102_shared_violated`); only the order of equally frequent pairs is left open.
* C100: the factor must be positive; with frequencies of zero pairs are still merged, but in another order (`C100_zero_violated`).
* C99: the bound is one for full tokens; `basic` delivers four strings for the word `aB` (`C99_split_violated`).
* C98: a space in a word is lost: `a b` is split into `a`, two empty subwords and `b` (`C98_text`, `C98_spaces`).
* C96: a merge list may contain a merge of two empty texts; then the words `''` and `' '` fall together in the result of
  `encode` and one of their numbers is lost (`C96_empty_violated`).
* C80: a word with a space gets an empty subword (`a  b @`), which the regular expression never finds; the same pair is taken
  again and the list of merges refuses it (`ValueError`).  `$` matches before a final line feed, so that `x y` is found in `x y\n`
  (not reachable from words, whose texts end with `@`).
* C79: a pair that is appended to a list again takes the old place but has the next priority (merge.py 142), so that priorities
  are no longer positions; `a + b` and `read_merges` notice this only if another merge follows, as the length of the list is one
  less than expected then.  A repeated pair in the last line of a file of merges is accepted.
* C77: `update` iterates over the list of positions of the other object while appending to its own: with itself it never ends (`C77_self_violated`). The constructor keeps the given lists without copying (`C77_shared_violated`). rootclasses.py 16 stores `[]` for an empty set (`C77_token_violated`).
