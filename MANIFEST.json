{
 "claims": [
  {
   "property": "C01",
   "status": "partial",
   "theorems": [
    "Hound.search_complete_partial",
    "Hound.search_complete_noAlternate_partial",
    "Hound.not_searchCompleteFull",
    "Hound.search_only_matching_partial",
    "Hound.exists_compiles",
    "Hound.compiles_faithful",
    "Hound.tree_search_partial",
    "Hound.search_complete_tree_partial",
    "Hound.search_only_matching_tree_partial",
    "Hound.search_complete_pattern_partial",
    "Hound.search_only_matching_pattern_partial",
    "Hound.search_complete_noBar_partial",
    "Hound.search_only_matching_noBar_partial",
    "Hound.GoRe.search_complete_longFirst_partial",
    "Hound.GoRe.compile_total",
    "Hound.GoRe.compile_faithful",
    "Hound.GoRe.simplify_same"
   ],
   "note": "From the files, or from the directory tree (tree_search_partial), to the answer: index writer, index reader, posting query, trigram query, byte program, line matcher, grep and Search composed. The full claim is false (trigram query aliasing: xx([abc]|d.*e) misses xxd-e); completeness proved under the exact provisos of C09 and C17. That nothing else is reported (the search_only_matching theorems) needs no proviso of C09: the bug in the trigram query never makes a wrong line appear. Go's Simplify and Compile are modelled too: the *_tree_partial theorems start from the syntax tree the parser makes and assume nothing of the compiled program but that it has fewer than 2^32 instructions. search_complete_pattern_partial and search_only_matching_pattern_partial start from the text of the pattern (C80). For patterns without | (search_complete_noBar_partial, search_only_matching_noBar_partial) nothing is asked of the tree any more, only of the pattern as it is written: its characters and sets are among those compiled correctly (C17)."
  },
  {
   "property": "C02",
   "status": "partial",
   "theorems": [
    "Hound.search_sound_partial",
    "Hound.grep_match_is_a_line_partial",
    "Hound.not_eachLineOnceFull"
   ],
   "note": "Holds except for one defect, made explicit in the statement: the empty text after a final newline is reported as an extra line for patterns accepting the empty line (not_eachLineOnceFull)."
  },
  {
   "property": "C03",
   "status": "partial",
   "theorems": [
    "Hound.grep_reports_each_line_once_partial",
    "Hound.grep_reports_each_line_once_exact",
    "Hound.grep_linenos_increasing",
    "Hound.not_eachLineOnceFull",
    "Hound.grep_begin_text_counterexample"
   ],
   "note": "Full statement false of the code (phantom line after the final newline; \\A matches after each hit). The _exact theorem describes the behaviour for every pattern without \\A, the _partial theorem is the clean property."
  },
  {
   "property": "C04",
   "status": "partial",
   "theorems": [
    "Hound.grep_after_context",
    "Hound.grep_before_context_partial",
    "Hound.grep_before_context_run",
    "Hound.not_beforeContextFull"
   ],
   "note": "After is fully proved. Before: full statement false of the code (an empty first line of the gap is dropped), exact behaviour proved."
  },
  {
   "property": "C05",
   "status": "proved",
   "theorems": [
    "Hound.search_paging",
    "Hound.pages_partition"
   ],
   "note": ""
  },
  {
   "property": "C06",
   "status": "proved",
   "theorems": [
    "Hound.search_cap"
   ],
   "note": ""
  },
  {
   "property": "C07",
   "status": "proved",
   "theorems": [
    "Hound.search_filesWithMatch"
   ],
   "note": ""
  },
  {
   "property": "C08",
   "status": "partial",
   "theorems": [
    "Hound.search_file_filters_partial",
    "Hound.not_fileFiltersFull"
   ],
   "note": "Proved for file names that are not empty and do not begin with a newline; counterexample for the others."
  },
  {
   "property": "C09",
   "status": "partial",
   "theorems": [
    "Hound.regexpQuery_sound_partial",
    "Hound.regexpQuery_sound_noAlternate",
    "Hound.regexpQuery_sound_values",
    "Hound.regexpQuery_noEmptyAnd",
    "Hound.GoRe.regexpQuery_sound_longFirst",
    "Hound.not_regexpQueryFull"
   ],
   "note": "Full statement false of the code: alternate appends twice to the same slice, and with Go's growth policy xx([abc]|d.*e) gets a query that rejects the matching text xxd-e. Proved for every pattern on which neither append happens in place, for every pattern without |, and (regexpQuery_sound_longFirst) for every pattern in which the first of the alternatives in each place has a repetition, a dot or a text of four characters in it, or all the others are texts of at most three bytes."
  },
  {
   "property": "C10",
   "status": "partial",
   "theorems": [
    "Hound.postingQuery_partial",
    "Hound.regexpQuery_posting",
    "Hound.not_postingQueryFull"
   ],
   "note": "Full statement false of the code: an AND node without operands is answered with no file. Proved for every other query, in particular every query made from a regular expression, without proviso (regexpQuery_posting): also the wrong queries of C09 have no such node, and all their trigrams have three bytes."
  },
  {
   "property": "C11",
   "status": "proved",
   "theorems": [
    "Hound.index_names",
    "Hound.index_postings"
   ],
   "note": "For every run of the writer that does not end the program; buildIndex_succeeds gives a size bound below which it never does."
  },
  {
   "property": "C12",
   "status": "proved",
   "theorems": [
    "Hound.index_buffering",
    "Hound.index_chunking"
   ],
   "note": ""
  },
  {
   "property": "C13",
   "status": "proved",
   "theorems": [
    "Hound.sortPost_sorts",
    "Hound.sortPost_strictly_increasing"
   ],
   "note": "The two-pass radix sort returns a stable, sorted permutation of the posting entries."
  },
  {
   "property": "C14",
   "status": "partial",
   "theorems": [
    "Hound.sparseSet_partial",
    "Hound.not_sparseSetFull"
   ],
   "note": "Proved for every history in which Init is called on an empty set only (as NewSet does); Init on a non-empty set keeps stale elements (not_sparseSetFull)."
  },
  {
   "property": "C15",
   "status": "proved",
   "theorems": [
    "Hound.matcher_total",
    "Hound.match_first_line",
    "Hound.matcher_is_line_matcher"
   ],
   "note": "For every well-formed byte program: the lazily built DFA returns the end of the first line some path of the program accepts; this discharges the matcher hypothesis used by the grep theorems."
  },
  {
   "property": "C16",
   "status": "proved",
   "theorems": [
    "Hound.match_history_irrelevant"
   ],
   "note": ""
  },
  {
   "property": "C17",
   "status": "partial",
   "theorems": [
    "Hound.class_exact_partial",
    "Hound.class_member_partial",
    "Hound.toByteProg_exact_partial",
    "Hound.toByteProg_complete_partial",
    "Hound.toByteProg_succeeds",
    "Hound.not_classFull",
    "Hound.class_case_pair_counterexample",
    "Hound.class_fold_counterexample",
    "Hound.compile_tree_partial"
   ],
   "note": "Full statement false of the code: ranges whose bound (or a split point) falls into the surrogate block are compiled with U+FFFD in its place, two case variants outside ASCII become one byte, and folding stops at U+1044F. Proved for all other rune instructions, as a statement about whole programs and about single classes."
  },
  {
   "property": "C18",
   "status": "proved",
   "theorems": [
    "Hound.text_check_accepts",
    "Hound.text_check_short",
    "Hound.text_check_long",
    "Hound.text_check_error"
   ],
   "note": "No valid UTF-8 text is refused; short files pass exactly if valid; text_check_long says exactly what passes beyond 2047 bytes."
  },
  {
   "property": "C19",
   "status": "partial",
   "theorems": [
    "Hound.accounted_partial",
    "Hound.accounted_sound",
    "Hound.not_accountedFull",
    "Hound.unreadable_not_accounted",
    "Hound.tree_serves",
    "Hound.build_succeeds"
   ],
   "note": "Full statement false of the code: a directory that cannot be listed is passed over in silence, and a file whose reading fails after 2048 bytes is neither indexed nor listed; the build succeeds in both cases. Proved for readable files in listable directories, together with the converse (what is searchable or listed is a file of the tree and the reason holds)."
  },
  {
   "property": "C20",
   "status": "partial",
   "theorems": [
    "Hound.skipReasons_partial",
    "Hound.not_skipReasonsFull",
    "Hound.unreadable_not_indexed"
   ],
   "note": "Every reason given is true. Full statement false of the code: above 16 MiB the size is rounded to a float32, so a file of 16777219 bytes with 1677722 different trigrams (more than 10%) is indexed. Proved exactly which files these are; every other file is treated as stated. A file that cannot be read is neither indexed nor excluded."
  },
  {
   "property": "C21",
   "status": "partial",
   "theorems": [
    "Hound.Sr.update_not_lost_partial",
    "Hound.Sr.not_updateNotLostFull"
   ],
   "note": "Full statement false of the code: before the poller has consumed the token put by begin, an accepted push update without timer is dropped with it. Proved for every request accepted after the first check was entered."
  },
  {
   "property": "C22",
   "status": "partial",
   "theorems": [
    "Hound.Sr.stop_wait_partial",
    "Hound.Sr.stop_wait_polling",
    "Hound.Sr.not_stopWaitFull"
   ],
   "note": "Full statement false of the code: Stop writes the flag after the send, so a searcher without timer can go back to sleep. Proved for polling searchers, and for the others when the flag is seen."
  },
  {
   "property": "C23",
   "status": "partial",
   "theorems": [
    "Hound.Sr.live_index_usable_partial",
    "Hound.Sr.not_liveUsableFull"
   ],
   "note": "Full statement false of the code: when destroying the replaced index fails, the index just made live is destroyed. Proved for every run without such a failure."
  },
  {
   "property": "C24",
   "status": "proved",
   "theorems": [
    "Hound.search_revision",
    "Hound.Sr.search_one_index",
    "Hound.Sr.search_index_stays_open"
   ],
   "note": ""
  },
  {
   "property": "C25",
   "status": "proved",
   "theorems": [
    "Hound.Ix.limit_respected",
    "Hound.Ix.slot_given_back",
    "Hound.Ix.slots_free",
    "Hound.Ix.limiter_no_deadlock"
   ],
   "note": ""
  },
  {
   "property": "C26",
   "status": "proved",
   "theorems": [
    "Hound.Up.crashed_build_removed"
   ],
   "note": "Every repository has a non-empty url. Crash means process death (what was written stays); a truncated manifest cannot be read."
  },
  {
   "property": "C27",
   "status": "partial",
   "theorems": [
    "Hound.Up.dirs_live_partial",
    "Hound.Up.not_dirsLiveFull",
    "Hound.Up.dirs_distinct_partial",
    "Hound.Up.not_dirsDistinctFull",
    "Hound.Up.shared_index_destroyed"
   ],
   "note": "Full statement false of the code: a failed build leaves its directory behind until the next start, and repositories with the same url at the same revision claim the same directory (after which an update of one removes the live index of the other). Proved without failed builds, and for repositories with different urls."
  },
  {
   "property": "C28",
   "status": "proved",
   "theorems": [
    "Hound.Up.one_outcome_each",
    "Hound.Up.outcome_when_serving"
   ],
   "note": ""
  },
  {
   "property": "C29",
   "status": "proved",
   "theorems": [
    "Hound.Api.searchAll_ok",
    "Hound.Api.searchAll_error",
    "Hound.Api.searchAll_order",
    "Hound.Api.searchAll_fails_iff"
   ],
   "note": ""
  },
  {
   "property": "C30",
   "status": "proved",
   "theorems": [
    "Hound.Api.params_bounded",
    "Hound.Api.params_exact",
    "Hound.Api.range_exact",
    "Hound.Api.params_flags"
   ],
   "note": ""
  },
  {
   "property": "C31",
   "status": "proved",
   "theorems": [
    "Hound.Api.repoList_exact",
    "Hound.Api.repoList_configured",
    "Hound.Api.items_exist"
   ],
   "note": ""
  },
  {
   "property": "C32",
   "status": "partial",
   "theorems": [
    "Hound.Api.update_ok",
    "Hound.Api.update_complete",
    "Hound.Api.update_other_method",
    "Hound.Api.update_effect",
    "Hound.Api.webhook_exact",
    "Hound.Notify.update_named_partial",
    "Hound.Notify.not_updateNamedFull"
   ],
   "note": "Full statement (every repository named) false of the code: names that are not configured are passed over, and the answer is ok. Proved for the names that are configured, with the answers as they are written; C79 has the notifications."
  },
  {
   "property": "C33",
   "status": "proved",
   "theorems": [
    "Hound.Config.secrets_not_served"
   ],
   "note": "Two configurations that differ only in the secrets are served identically. Whether a vcs-config is present at all (null or {}) is visible."
  },
  {
   "property": "C34",
   "status": "partial",
   "theorems": [
    "Hound.Config.load_defaults",
    "Hound.Config.load_globals",
    "Hound.Config.load_vcs_settings",
    "Hound.Config.override_partial",
    "Hound.Config.driver_reads_last",
    "Hound.Config.driver_reads_none",
    "Hound.Config.not_overrideFull"
   ],
   "note": "Full statement false of the code: keys of JSON objects are matched without regard to case when decoded, but merged case-sensitively, so a global \"ref\" wins over a repository's \"Ref\". Proved when keys are spelled alike."
  },
  {
   "property": "C35",
   "status": "proved",
   "theorems": [
    "Hound.Web.ready_gate",
    "Hound.Web.set_after_load",
    "Hound.Web.health_always"
   ],
   "note": ""
  },
  {
   "property": "C36",
   "status": "proved",
   "theorems": [
    "Hound.Client.coalesce_exact",
    "Hound.Client.coalesce_flag_once",
    "Hound.Client.coalesce_server"
   ],
   "note": "For all matches in file order, and for every prefix of what the server's grep reports."
  },
  {
   "property": "C37",
   "status": "proved",
   "theorems": [
    "Hound.Client.hilite_disabled",
    "Hound.Client.hilite_enabled",
    "Hound.Client.coloured_unique",
    "Hound.Client.present_exact",
    "Hound.Client.lineNumber_numeral"
   ],
   "note": ""
  },
  {
   "property": "C38",
   "status": "proved",
   "theorems": [
    "Hound.Vcs.git_pull_commands",
    "Hound.Vcs.git_pull_fresh",
    "Hound.Vcs.git_clone_fresh"
   ],
   "note": "git itself is a stated semantics of the commands (Spec/Vcs)."
  },
  {
   "property": "C39",
   "status": "partial",
   "theorems": [
    "Hound.Vcs.autogen_exact_partial",
    "Hound.Vcs.not_autoGenFull"
   ],
   "note": "Full statement false of the code: an attribute that is set without a value is not recognised. Proved for attribute=true."
  },
  {
   "property": "C40",
   "status": "proved",
   "theorems": [
    "Hound.uvarint_roundtrip",
    "Hound.uint32_roundtrip",
    "Hound.trigram_roundtrip",
    "Hound.trigram_bytes",
    "Hound.postEntry_roundtrip"
   ],
   "note": ""
  },
  {
   "property": "C41",
   "status": "proved",
   "theorems": [
    "Hound.bufWriter_transparent",
    "Hound.bufWriter_offset",
    "Hound.bufWriter_bounded",
    "Hound.fillFrom_whole",
    "Hound.fillFrom_error"
   ],
   "note": ""
  },
  {
   "property": "C42",
   "status": "partial",
   "theorems": [
    "Hound.Merge.merge_partial",
    "Hound.Merge.made_serves",
    "Hound.Merge.merged_exists",
    "Hound.Merge.not_mergeFull",
    "Hound.Merge.not_mergeAnyOrder",
    "Hound.Merge.not_mergeAnyPath"
   ],
   "note": "Full statement false of the code: a path of the second index also removes files of directories whose name only begins with it, the order of names is needed, and so is a last character of paths that is ASCII. Proved for every pair of index files made by the writer or by earlier merges, with names in order and paths ending in an ASCII character below DEL; the size of the result is assumed below 4 GB."
  },
  {
   "property": "C43",
   "status": "proved",
   "theorems": [
    "Hound.state_encoding_roundtrip",
    "Hound.state_encoding_injective"
   ],
   "note": ""
  },
  {
   "property": "C44",
   "status": "proved",
   "theorems": [
    "Hound.index_never_aborts"
   ],
   "note": "Queries whose trigrams have three bytes (regexpQuery_threeByte); paths must be non-empty and without NUL."
  },
  {
   "property": "C45",
   "status": "partial",
   "theorems": [
    "Hound.Ix.label_partial",
    "Hound.Ix.not_labelFull"
   ],
   "note": "Full statement false of the code: repositories with the same url share a working directory and are fetched and indexed concurrently. Proved when no two repositories have the same url or max-concurrent-indexers is 1."
  },
  {
   "property": "C46",
   "status": "proved",
   "theorems": [
    "Hound.Sr.no_needless_reindex",
    "Hound.Sr.failed_update_harmless",
    "Hound.Sr.new_revision_built"
   ],
   "note": ""
  },
  {
   "property": "C47",
   "status": "partial",
   "theorems": [
    "Hound.Ui.webPaging_partial",
    "Hound.Ui.webPaging_progress",
    "Hound.Ui.webPaging_absent",
    "Hound.Ui.not_webPagingFull",
    "Hound.Ui.double_press_repeats"
   ],
   "note": "Full statement false of the code: when the result limit cuts the first answer no button leads to the remaining files, and pressing the button twice before the answer repeats files. Proved for every cap and every history of presses that wait for the answer, composed with the server's range parsing, repository list and search."
  },
  {
   "property": "C48",
   "status": "proved",
   "theorems": [
    "Hound.literal_search",
    "Hound.literal_text_accepted",
    "Hound.literal_within"
   ],
   "note": "From the text to the reported lines: QuoteMeta, the part of Go's regexp parser and compiler that quoted texts go through, the trigram query, the index and the matcher. A text that is not valid UTF-8 is refused by the parser."
  },
  {
   "property": "C49",
   "status": "proved",
   "theorems": [
    "Hound.Signal.delivery_exact",
    "Hound.Signal.call_has_delivery",
    "Hound.Signal.delivery_advances"
   ],
   "note": "Arrays are modelled as mutable objects, listeners may do anything, including throwing."
  },
  {
   "property": "C50",
   "status": "proved",
   "theorems": [
    "Hound.Vcs.local_unwatched",
    "Hound.Vcs.local_order",
    "Hound.Vcs.local_watched",
    "Hound.Vcs.local_watched_succeeds"
   ],
   "note": "The hash is assumed injective on the inputs compared, as the property says."
  },
  {
   "property": "C51",
   "status": "partial",
   "theorems": [
    "Hound.Up.claimed_complete_partial",
    "Hound.Up.not_claimedCompleteFull"
   ],
   "note": "Full statement false of the code: a crash in the middle of removing a replaced index directory leaves a readable manifest without its index; if the head returns to that revision it is claimed. Proved when no removal is interrupted that way."
  },
  {
   "property": "C52",
   "status": "proved",
   "theorems": [
    "Hound.Client.repoName_url",
    "Hound.Client.repoName_known",
    "Hound.Client.repoName_fails_iff"
   ],
   "note": "The url /x, with only a leading slash, makes the client panic; repoName_fails_iff says exactly when."
  },
  {
   "property": "C53",
   "status": "partial",
   "theorems": [
    "Hound.Vcs.simple_pull_reports",
    "Hound.Vcs.git_reports_partial",
    "Hound.Vcs.not_gitReportsFull",
    "Hound.Vcs.git_clone_reports",
    "Hound.Vcs.simple_clone_reports"
   ],
   "note": "Full statement false of the git driver: failures of fetch and reset are only logged. Proved for the other drivers, and for git which failures are reported."
  },
  {
   "property": "C54",
   "status": "partial",
   "theorems": [
    "Hound.literal_search_fold_partial",
    "Hound.not_literalFoldFull"
   ],
   "note": "Full statement false of the code: letters above U+1044F are not folded. Proved for all other texts."
  },
  {
   "property": "C55",
   "status": "proved",
   "theorems": [
    "Hound.Ui.page_lines_exact",
    "Hound.Ui.page_lines_server",
    "Hound.Ui.page_like_client"
   ],
   "note": "For all matches in file order, and for every prefix of what the server's grep reports; the page's loop is shown to agree with the client's."
  },
  {
   "property": "C56",
   "status": "partial",
   "theorems": [
    "Hound.Ui.content_exact",
    "Hound.Ui.content_terminates_partial",
    "Hound.Ui.content_terminates_iff",
    "Hound.Ui.not_contentFull",
    "Hound.Ui.literal_content"
   ],
   "note": "Full statement false of the code: a pattern that matches the empty string makes the page hang. Proved: whatever is shown is the text of the line with the hits marked, exactly when the loop ends, and everything for literal searches. JavaScript's regular expressions are a function from texts to hits."
  },
  {
   "property": "C57",
   "status": "proved",
   "theorems": [
    "Hound.Url.client_request"
   ],
   "note": "From the url the client builds to the options the handler searches with; net/url and net/http are modelled as far as used. A context that is negative or has more than 54 bits becomes the server's default."
  },
  {
   "property": "C58",
   "status": "proved",
   "theorems": [
    "Hound.Ui.page_request"
   ],
   "note": "reqwest, encodeURIComponent and the browser's url parser are modelled from their documentation; a string with a lone surrogate makes encodeURIComponent throw."
  },
  {
   "property": "C59",
   "status": "partial",
   "theorems": [
    "Hound.Ui.address_leads_back_partial",
    "Hound.Ui.not_addressFull"
   ],
   "note": "Full statement false of the code: the names of repositories are not encoded, so that c++ becomes c and two spaces, a=b is dropped and 100% makes the page fail. Proved for every other field and for names without these characters."
  },
  {
   "property": "C60",
   "status": "partial",
   "theorems": [
    "Hound.Ui.expand_partial",
    "Hound.Ui.not_expandFull",
    "Hound.Ui.web_link_partial",
    "Hound.Ui.ssh_link_partial",
    "Hound.Ui.wiki_link_partial",
    "Hound.Ui.ssh_wiki_link_partial",
    "Hound.Ui.default_link",
    "Hound.Ui.excluded_link_undefined"
   ],
   "note": "Full statement false of the code: only the first occurrence of a placeholder is replaced, $ in a path is interpreted, a path with {rev} is expanded again, and links of excluded files name the revision undefined. Proved for patterns with each placeholder at most once and values without $ and {: web and ssh urls for all hosts, ports, projects and names, and wikis."
  },
  {
   "property": "C61",
   "status": "partial",
   "theorems": [
    "Hound.Ui.shows_last_partial",
    "Hound.Ui.not_showsLastFull",
    "Hound.Ui.late_answer",
    "Hound.Ui.typed_meanwhile",
    "Hound.Ui.mixed_results",
    "Hound.Ui.bar_asks"
   ],
   "note": "Full statement false of the code: a late answer to an earlier search replaces the results of the last one, load more then mixes two searches, and the pattern is read from the search bar when the answer comes. Proved for all visits in which the user types and asks only while no answer is outstanding. React's setState and the browser are modelled as far as used; which patterns new RegExp accepts is a parameter."
  },
  {
   "property": "C62",
   "status": "partial",
   "theorems": [
    "Hound.Ui.tells_partial",
    "Hound.Ui.not_tellsFull",
    "Hound.Ui.error_stays",
    "Hound.Ui.refused_pattern",
    "Hound.Ui.sortEntries_inOrder",
    "Hound.Ui.sortEntries_perm"
   ],
   "note": "Full statement false of the code: an error stays on the screen while the next search runs, a search for nothing from the search bar changes nothing (undefined is handed to the view), and if the browser refuses the pattern the page goes on saying that it is searching. Everything else proved for every state of the page; localeCompare is a parameter, total and transitive."
  },
  {
   "property": "C63",
   "status": "partial",
   "theorems": [
    "Hound.Ui.choice_partial",
    "Hound.Ui.not_choiceFull",
    "Hound.Ui.constructor_chosen",
    "Hound.Ui.comma_chosen",
    "Hound.Ui.star_chosen",
    "Hound.Ui.empty_chosen",
    "Hound.Ui.blank_chosen"
   ],
   "note": "Full statement false of the code: repositories called constructor, toString and the like, *, the empty name, or names with a comma or blanks at the ends cannot be chosen. Proved for all other names, from the list on the page through the request to the list the server searches."
  },
  {
   "property": "C64",
   "status": "partial",
   "theorems": [
    "Hound.Wire.client_receives",
    "Hound.Wire.not_clientExactFull",
    "Hound.Wire.client_exact_partial",
    "Hound.Wire.page_receives",
    "Hound.Wire.page_error"
   ],
   "note": "Full statement false of the code: bytes that are not UTF-8 (lines after the first 2 KB of a file, file names) arrive as U+FFFD. Proved for all results: the same characters arrive in the client and in the page, everything else exactly; exactly the same bytes if all strings are UTF-8. json.Marshal's text, json.Unmarshal and JSON.parse are modelled byte by byte for the values used; reqwest and net/http pass bodies on."
  },
  {
   "property": "C65",
   "status": "partial",
   "theorems": [
    "Hound.Wire.client_silent",
    "Hound.Wire.not_reportsFull",
    "Hound.Wire.client_reports_partial",
    "Hound.Wire.searchAndLoad_reports"
   ],
   "note": "Full statement false of the code: the server reports a failed search with status 200 and a body with Error, which the client takes for an answer without results. Proved: exactly which outcomes the client reports."
  },
  {
   "property": "C66",
   "status": "proved",
   "theorems": [
    "Hound.Wire.client_repos",
    "Hound.Wire.client_names"
   ],
   "note": "For configurations in UTF-8 (json.Unmarshal makes every string of the configuration UTF-8). The fields of a repository the client does not use are not decoded in the model."
  },
  {
   "property": "C67",
   "status": "partial",
   "theorems": [
    "Hound.Boot.script_intact",
    "Hound.Boot.title_shown",
    "Hound.Boot.page_knows_partial",
    "Hound.Boot.page_knows_exact",
    "Hound.Boot.not_knowsAllFull",
    "Hound.Boot.served_searchable",
    "Hound.Boot.page_lists_searchable_partial"
   ],
   "note": "Full statement false of the code for a repository named __proto__: the assignment in Load creates no property. Proved for all other names, from the loaded configuration over the bytes of the page to Model.repos. Go's escaping in html/template and the browser's reading of the script, of the string literal and of JSON are modelled as far as they are used."
  },
  {
   "property": "C68",
   "status": "partial",
   "theorems": [
    "Hound.Boot.page_name_partial",
    "Hound.Boot.not_pageNameFull",
    "Hound.Boot.nameOfUrl_root"
   ],
   "note": "Full statement false of the code for an address whose only slash is its first character (a local repository in the root directory): it is shown as '/ / name'. Proved for all others, and exactly what is shown for those."
  },
  {
   "property": "C69",
   "status": "partial",
   "theorems": [
    "Hound.Excl.served_list_exact",
    "Hound.Excl.served_list_partial",
    "Hound.Excl.not_servedListFull",
    "Hound.Excl.excludes_unknown",
    "Hound.Excl.page_list_partial",
    "Hound.Excl.not_pageListFull",
    "Hound.Excl.crossed_shows",
    "Hound.Excl.page_stuck",
    "Hound.Excl.excluded_shown",
    "Hound.Excl.reasons_differ"
   ],
   "note": "Full statement false of the code twice: the directory read is chosen without the lock, so a request that overlaps a replacement can be answered with an empty body (proved; proved right if no index is published in between, and exactly which answers are possible otherwise), after which the page says 'Searching...' for ever; and with two requests under way the list of one repository can be shown under the name of the other (proved; right if the user waits for each outcome)."
  },
  {
   "property": "C70",
   "status": "partial",
   "theorems": [
    "Hound.Stream.grep_pieces",
    "Hound.Stream.grep_lines_partial",
    "Hound.Stream.grep_hangs",
    "Hound.Stream.not_grepLinesFull",
    "Hound.Stream.grep_phantom",
    "Hound.Stream.matcher_is_stream_matcher",
    "Hound.Stream.reader_prints_partial"
   ],
   "note": "Full statement false of the code twice: a line that does not fit into the buffer (1 MiB) makes it loop for ever, and a pattern that accepts an empty line gets an extra line wherever the buffer ends, after which the numbers are wrong. Proved for lines shorter than the buffer and patterns that accept no empty line; that the pieces make no difference is proved without conditions. The server does not use these functions."
  },
  {
   "property": "C71",
   "status": "partial",
   "theorems": [
    "Hound.Cmd.conf_fails_iff",
    "Hound.Cmd.host_exact",
    "Hound.Cmd.host_flag_partial",
    "Hound.Cmd.not_hostFlagFull",
    "Hound.Cmd.headers_exact",
    "Hound.Cmd.request_exact",
    "Hound.Cmd.sent_once",
    "Hound.Cmd.headers_sent_partial",
    "Hound.Cmd.headers_by_chance",
    "Hound.Cmd.not_headersSentFull",
    "Hound.JsonText.goRead_json"
   ],
   "note": "Full statement false of the code twice: a host in a configuration file overrides the flag (which server is asked is proved exactly), and of two configured names that differ in case only chance decides which value is sent. Numbers in configuration files are integers in the model."
  },
  {
   "property": "C72",
   "status": "partial",
   "theorems": [
    "Hound.Cmd.command_finds",
    "Hound.Cmd.command_prints",
    "Hound.Cmd.command_usage",
    "Hound.Cmd.likeGrep_writes",
    "Hound.Cmd.not_presentsFull",
    "Hound.Cmd.stats_not_shown",
    "Hound.Cmd.serves_exists"
   ],
   "note": "Proved from the command line to the bytes written for results that are UTF-8 text, through the query of the url, the search, the JSON and the presenter. False with --like-grep (nothing found is printed) and --show-stats (never shown); a search that fails on the server prints nothing (C65)."
  },
  {
   "property": "C73",
   "status": "partial",
   "theorems": [
    "Hound.Down.exit_between_updates",
    "Hound.Down.exit_leaves_one_index",
    "Hound.Down.exit_only_if_asked",
    "Hound.Down.request_kept",
    "Hound.Down.loading_not_stopped",
    "Hound.Down.request_tells_all",
    "Hound.Down.server_ends_partial",
    "Hound.Down.not_endsFull",
    "Hound.Down.not_searchesAnsweredFull"
   ],
   "note": "The safety half is proved for every execution, the index left behind if replaced indexes could be destroyed (C23). That the server ends is false of the code for a searcher without polling whose goroutine takes the signal before the flag is set (C22), and proved otherwise, limiter included. Searches under way are cut off. Ends are stated as a bound on the steps of the goroutines and absence of deadlock; C97 has the end itself for fair histories."
  },
  {
   "property": "C74",
   "status": "partial",
   "theorems": [
    "Hound.Config.config_exact",
    "Hound.Config.config_accepted_iff",
    "Hound.Config.data_dir_exact",
    "Hound.Config.dot_files_by_default",
    "Hound.Config.data_dir_by_default",
    "Hound.Config.not_documentedDefaultsFull",
    "Hound.JsonText.goRead_json"
   ],
   "note": "Proved from the text of the file to the loaded configuration. Two documented defaults are not those of the code: dot files are searched, and the data directory is that of the file; what the code does instead is proved. Numbers in the file are integers in the model; names of settings are compared regardless of the case of ASCII letters; symbolic links are not followed."
  },
  {
   "property": "C75",
   "status": "partial",
   "theorems": [
    "Hound.Vcs.driver_exact",
    "Hound.Vcs.driver_accepted_iff",
    "Hound.Vcs.setting_from_file",
    "Hound.Vcs.configured_branch",
    "Hound.Vcs.tool_commands",
    "Hound.Vcs.local_link",
    "Hound.Vcs.next_index",
    "Hound.Vcs.workdir_exact",
    "Hound.Vcs.own_copies",
    "Hound.Vcs.unusable_settings",
    "Hound.Vcs.own_files_hidden",
    "Hound.JsonText.goRead_json"
   ],
   "note": "Proved from the text of the configuration file to the commands run. Partial: that the own setting comes before the global one holds for settings written once and in small letters (see C34), and two urls have copies of their own unless their SHA-1 sums collide (two repositories with the same url share one, see C27)."
  },
  {
   "property": "C76",
   "status": "partial",
   "theorems": [
    "Hound.Vcs.marks_partial",
    "Hound.Vcs.marks_shown",
    "Hound.Vcs.not_marksFull"
   ],
   "note": "False of the code: the list of generated files is made once, when the searcher starts, and all later indexes reuse it (proved). Proved: configured lists are always used; without one, all indexes mark what git marked at the start, so the first index is right and later ones are as long as what git prints has not changed. (What counts as marked by git is the subject of C39.)"
  },
  {
   "property": "C77",
   "status": "proved",
   "theorems": [
    "Hound.Routes.health_and_ready",
    "Hound.Routes.address_found",
    "Hound.Routes.address_redirected",
    "Hound.Routes.redirected_once",
    "Hound.Routes.always_answered",
    "Hound.Routes.other_requests",
    "Hound.Routes.found_one"
   ],
   "note": "In production mode. ServeMux as for programs whose go.mod says less than go 1.22 (this one says 1.16)."
  },
  {
   "property": "C78",
   "status": "partial",
   "theorems": [
    "Hound.OpenSearch.field_search_partial",
    "Hound.OpenSearch.not_fieldFull",
    "Hound.OpenSearch.template_right_iff",
    "Hound.OpenSearch.description_linked"
   ],
   "note": "Full statement false of the code: the description is made without escaping, and a request's host can contain an ampersand, for which it is not well formed. Proved for all other names of hosts the server accepts (and that the ampersand is the only exception)."
  },
  {
   "property": "C79",
   "status": "proved",
   "theorems": [
    "Hound.Notify.notification_exact",
    "Hound.Notify.notification_refused",
    "Hound.Notify.notification_form",
    "Hound.JsonText.goRead_json"
   ],
   "note": "The body is any text of the grammar of RFC 8259 (numbers without fraction and exponent, surrogates in pairs); that the model of encoding/json reads the value the grammar gives is goRead_json. GitHub's other content type (a form) is always refused, which is proved as well."
  },
  {
   "property": "C80",
   "status": "partial",
   "theorems": [
    "Hound.parse_faithful_partial",
    "Hound.not_parseFaithfulFull",
    "Hound.parse_faithful_if_folds_told_apart",
    "Hound.search_pattern_partial",
    "Hound.search_pattern_noBar",
    "Hound.search_complete_pattern_partial",
    "Hound.search_only_matching_pattern_partial",
    "Hound.search_complete_noBar_partial",
    "Hound.search_only_matching_noBar_partial"
   ],
   "note": "Go's parser is modelled function by function (Model/Parse). The full claim is false: (?i:a)b*|Ac* is parsed as (?i:a)(?:b*|c*), as literals are compared without the flag for folding (not_parseFaithfulFull; with that flag compared the full claim is proved). Proved under the proviso that wherever there are alternatives case matters in none of them or in all, and then no character is written in two cases. search_complete_pattern_partial and search_only_matching_pattern_partial are C01 and C02 from the text of the pattern. Patterns without | need no proviso (search_pattern_noBar). Left out: the limits on the height and size of trees. For texts that are not properly written see C81."
  },
  {
   "property": "C81",
   "status": "proved",
   "theorems": [
    "Hound.accepted_is_written",
    "Hound.bad_pattern_refused",
    "Hound.accepted_search_is_written",
    "Hound.bad_search_refused",
    "Hound.bad_filter_refused",
    "Hound.refused_not_written"
   ],
   "note": "From what Go's parser (Model/Parse) accepts back to how it is written: every accepted text is the text of a pattern of Spec/Pattern, or has the one exception. The limits on the height and size of trees, which are not modelled, only refuse more."
  },
  {
   "property": "C82",
   "status": "partial",
   "theorems": [
    "Hound.Cmd.command_exact_partial",
    "Hound.Cmd.understood_noBar",
    "Hound.Cmd.search_capped",
    "Hound.Cmd.printed_row",
    "Hound.Cmd.plain_of_text",
    "Hound.Cmd.search_text"
   ],
   "note": "From the files and the written pattern to the rows on the terminal. Proved for patterns that are settled and whose tree is compiled correctly (all patterns without alternatives: understood_noBar), with or without a file filter (for ordinary names, C84), in the format with names and numbers, for files and names that are text. The format like that of grep is not written yet in the code (client/grep.go). Missing: lines that are not UTF-8 (they arrive changed, C64), and the case of a pattern with \\A, whose matches on later lines are reported although they should not be (C17)."
  },
  {
   "property": "C83",
   "status": "partial",
   "theorems": [
    "Hound.Ui.page_exact_partial",
    "Hound.Ui.page_absent_partial"
   ],
   "note": "From the files and the written pattern to the lines of the page, for a user who does not press a button twice before the answer comes (C47). Proved for patterns and file filters that are understood (as in C82 and C84). Missing: matches beyond the limit of results (they are cut, C47), and matches of \\A."
  },
  {
   "property": "C84",
   "status": "partial",
   "theorems": [
    "Hound.search_complete_filtered_partial",
    "Hound.search_only_chosen_partial",
    "Hound.filters_choose",
    "Hound.nameMatcher",
    "Hound.namePattern_noBar"
   ],
   "note": "From the written patterns to the files reported. Proved for patterns that are settled and whose tree is compiled correctly (all patterns without alternatives whose characters and sets are plain: namePattern_noBar), and for ordinary names. Missing: names that begin with a newline (not_fileFiltersFull shows that the exclude pattern can fail for them) and the patterns of the defects in C17 and C80."
  },
  {
   "property": "C85",
   "status": "partial",
   "theorems": [
    "Hound.Ui.searches_shown_partial",
    "Hound.Ui.shown_exact",
    "Hound.Ui.address_shown",
    "Hound.Ui.not_searchesShownFull",
    "Hound.Ui.shown_not_searched",
    "Hound.Ui.shown_more"
   ],
   "note": "The full statement is false: a page opened with repositories in its address marks them in the list after the first answer, but a search from the bar does not use the marks until the user has changed the list (not_searchesShownFull; two concrete visits). shown_exact says for every history which repositories are marked beyond those that are searched; searches_shown_partial is the property, up to the server, for all histories in which the user has changed the list since the first answer, or none has come, or the address names none of the repositories."
  },
  {
   "property": "C86",
   "status": "partial",
   "theorems": [
    "Hound.Ui.expand_all",
    "Hound.Ui.collapse_all",
    "Hound.Ui.click_file",
    "Hound.Ui.click_repo",
    "Hound.Ui.click_sign",
    "Hound.Ui.more_files",
    "Hound.Ui.fresh_partial",
    "Hound.Ui.collapsed_partial",
    "Hound.Ui.not_freshFull",
    "Hound.Ui.not_collapsedFull"
   ],
   "note": "What each event does is proved for all states. False are: that results are always shown fresh (boxes are kept by position if a second answer comes while results are shown, not_freshFull), and that nothing is open after Collapse all until the user opens something (files loaded later are open, not_collapsedFull). The partial theorems are about searches whose answer comes when nothing is shown, and about the files that were there."
  },
  {
   "property": "C87",
   "status": "partial",
   "theorems": [
    "Hound.Ui.panel_partial",
    "Hound.Ui.opened_shown",
    "Hound.Ui.key_up",
    "Hound.Ui.offer_or_panel",
    "Hound.Ui.not_panelFull",
    "Hound.Ui.repo_hidden",
    "Hound.Ui.back_hidden"
   ],
   "note": "False for pages opened with repositories only, and after a step back to a search with filters (two concrete visits). Proved for all other histories; the panel of a page just opened is described exactly."
  },
  {
   "property": "C88",
   "status": "partial",
   "theorems": [
    "Hound.Ui.number_partial",
    "Hound.Ui.not_numberFull"
   ],
   "note": "False from 2^31 on, where the number is taken modulo 2^32. Proved for all smaller numbers."
  },
  {
   "property": "C89",
   "status": "partial",
   "theorems": [
    "Hound.Ui.literal_page_partial",
    "Hound.Ui.literal_page_only",
    "Hound.Ui.literal_absent_partial",
    "Hound.GoRe.parse_quoted"
   ],
   "note": "Proved for the whole chain and without a condition on surrogates in the files. Partial: a search that ignores case is for texts without letters above U+1044F (false otherwise, not_literalFoldFull, C54), the file filters are for names that are ordinary, and lines may be missing once the limit of results is reached (C47)."
  },
  {
   "property": "C90",
   "status": "partial",
   "theorems": [
    "Hound.Cur.answers_true",
    "Hound.Cur.answers_current_partial",
    "Hound.Cur.latest_shown_partial",
    "Hound.Cur.request_shown_partial",
    "Hound.Cur.poll_shown_partial"
   ],
   "note": "The first sentence is proved as stated. Partial: the rest is for histories in which every replaced index could be removed; after such a failure the program goes on with the index it has just made and removed, while it remembers the old revision, so that when the repository is back at that revision no change is seen and searches are still made in the newer files (not_currentFull). A request made before the gate is open can be lost (C21). The working copy belongs to one searcher only (C45)."
  },
  {
   "property": "C91",
   "status": "partial",
   "theorems": [
    "Hound.Again.start_serves",
    "Hound.Again.start_serves_partial",
    "Hound.Again.start_files_partial",
    "Hound.Again.update_serves"
   ],
   "note": "What is served always has the url and the revision just fetched, and was made when this revision was fetched, in this run or an earlier one; after an update the claim holds without condition. Partial: the claim for a start is false if the settings were changed since this revision was indexed (not_startFull_settings) or if a revision does not determine the files, as for a local directory that is not watched (not_startFull_files). Assumes that no repository has an empty url. That the index is complete is C51."
  },
  {
   "property": "C92",
   "status": "partial",
   "theorems": [
    "Hound.GoRe.words_search_partial"
   ],
   "note": "The full claim is false: item1|item2|item3|items_all misses a file with items_all only (not_wordsFull). Proved where the first word has four characters or more, or case matters and all the others have three bytes or less; each word has at least two characters; words next to each other begin with different characters (the parser then takes nothing out of them); and, if case does not matter, no letter is above U+1044F (C17)."
  },
  {
   "property": "C93",
   "status": "proved",
   "theorems": [
    "Hound.same_files_same_answer",
    "Hound.answer_about_file",
    "Hound.answer_in_order",
    "Hound.more_files_more_answer",
    "Hound.refused_alike",
    "Hound.tree_answer_about_file"
   ],
   "note": "For every compiled pattern that is looked up with the query RegexpQuery makes for it, also where that query is wrong (C09): a wrong query misses the file everywhere or nowhere. tree_answer_about_file starts from two directory trees that share one file. All but same_files_same_answer are for searches without paging and cap; under a cap the answer about a file does depend on the files before it."
  },
  {
   "property": "C94",
   "status": "proved",
   "theorems": [
    "Hound.GoRe.pattern_read_or_refused",
    "Hound.GoRe.match_calls_return",
    "Hound.GoRe.search_answered",
    "Hound.GoRe.lookups_return",
    "Hound.GoRe.request_answered"
   ],
   "note": "regexp/syntax is modelled with fuel; that it never runs out is part of the claim (the error `internal` stands for it). The model has no bound on memory: a text whose program has 2^32 instructions or more would exhaust it, and match_calls_return leaves such texts out; what smaller programs can cost is C95. exists_compilesAll shows that the hypotheses on Compile can be met."
  },
  {
   "property": "C95",
   "status": "partial",
   "theorems": [
    "Hound.GoRe.not_costFull",
    "Hound.GoRe.not_stackFull",
    "Hound.GoRe.dear_states",
    "Hound.GoRe.dear_stack",
    "Hound.GoRe.dots_cost",
    "Hound.GoRe.states_kept_partial",
    "Hound.GoRe.stack_suffices_partial",
    "Hound.GoRe.states_bounded"
   ],
   "note": "The full property is CostFull and StackFull. dear_states and dear_stack give the counterexample, from the text of the pattern, for any Unicode tables, and dear_search says that a search compiles that text. dots_cost shows that the dot has to be excluded too. The two partial theorems hold for patterns that match no newline; states_bounded gives, for all patterns, the bound that is left, which is exponential. Missing: bytes per state, and the cost of the parser."
  },
  {
   "property": "C96",
   "status": "proved",
   "theorems": [
    "Hound.Client.shown_as_asked",
    "Hound.Client.asked_inj",
    "Hound.Client.matches_stand_out",
    "Hound.Client.number_stands_out",
    "Hound.Client.displays_unique"
   ],
   "note": "A terminal is the relation Displays of Spec/Ansi, which reads the codes of ECMA-48 hound uses; displays_unique says that it settles what is shown. code_table goes through all combinations of colours and styles, of which there are finitely many; the texts are arbitrary. The constant Colorless is modelled as having no background; nobody asks for it as a foreground."
  },
  {
   "property": "C97",
   "status": "partial",
   "theorems": [
    "Hound.Fair.checked_forever",
    "Hound.Fair.nobody_starves",
    "Hound.Fair.request_served",
    "Hound.Fair.last_revision_shown",
    "Hound.Fair.requested_revision_shown",
    "Hound.Fair.stop_ends",
    "Hound.Fair.server_ends",
    "Hound.Fair.not_servedFull",
    "Hound.Fair.not_serverEndsFull",
    "Hound.Fair.searches_end",
    "Hound.Fair.server_searches_end",
    "Hound.Fair.fairRepo_iff",
    "Hound.Fair.fairServer_iff",
    "Hound.Fair.last_revision_shown_fairly",
    "Hound.Fair.server_ends_fairly"
   ],
   "note": "Histories are functions from the moments to states and events (Spec/Fair); fairness is a hypothesis on the history and is shown to be met by concrete ones (fair_case and the examples of Props/FairCases). That searches end is not assumed but follows from no search being passed over for ever (fairRepo_iff, fairServer_iff). For nobody_starves the limiter's channel is assumed to serve those who wait in turn. Partial: a request made before the gate is open may never be followed by a check (not_servedFull), and a server with a searcher that only takes requests may never end (not_serverEndsFull), both in fair histories; the last revision is shown if every replaced index could be removed (C23, C90) and nothing fails any more."
  },
  {
   "property": "C98",
   "status": "partial",
   "theorems": [
    "Hound.Found.found_in_the_end",
    "Hound.Found.found_on_request",
    "Hound.Found.text_search",
    "Hound.Found.tree_files",
    "Hound.Found.pattern_found_in_the_end",
    "Hound.Found.pattern_found_on_request",
    "Hound.Found.text_found_in_chosen",
    "Hound.Found.pattern_search",
    "Hound.Found.text_search_in"
   ],
   "note": "Composition of C97, C90, C19, C01, C89 and what these rest on. Partial: that every replaced index could be removed (C23, C90), that files and directories can be read (C19), and, if case is ignored, that the text has no letters above U+1044F (C54) is assumed; searches have no limits. pattern_found_in_the_end is the same for patterns that are understood (as in C82), without \\A, on lines without encoded surrogates; file filters are those understood as in C84, for ordinary names. The example has a repository that is changed to a sample tree, and a search for EEP that from some moment on finds deep and does not find hello."
  },
  {
   "property": "C99",
   "status": "proved",
   "theorems": [
    "Hound.QN.query_undisturbed",
    "Hound.QN.shared_kept",
    "Hound.QN.nothing_overwritten",
    "Hound.QN.query_in_memory_sound_partial",
    "Hound.QN.third_undisturbed",
    "Hound.QN.rep_unique"
   ],
   "note": "The analysis of patterns once more, with queries as nodes in memory that are overwritten; it is shown to give the same query as the analysis with queries as values, on which C09 and C01 rest, so that these do not assume any more that no node is used twice. Two analyses at the same time are covered operation by operation (third_undisturbed); the lists inside a node are values. query_in_memory_sound_partial inherits its proviso from C09. The example makes two queries in one process; the second overwrites a node of its own and leaves the first as it is."
  },
  {
   "property": "C100",
   "status": "partial",
   "theorems": [
    "Hound.Race.races_exact",
    "Hound.Race.no_race_partial",
    "Hound.Race.search_never_races",
    "Hound.Race.index_never_races",
    "Hound.Race.excluded_runs",
    "Hound.Race.excluded_race",
    "Hound.Race.shutdown_runs",
    "Hound.Race.shutdown_race",
    "Hound.Race.not_noRaceFull"
   ],
   "note": "The property does not hold. There are two races, each shown in a run of the model: GetExcludedFiles reads s.idx without the lock under which swapIndexes writes it (excluded_race), and Stop writes shutdownRequested after the send that announces it (shutdown_race). races_exact: these are the only ones, so searches and the contents of indexes never race, and without such requests and before the shutdown nothing does (no_race_partial). The limiter and the channel for results of searches are left out; they would only add order. One repository; the places modelled are s.idx, the contents of each index, shutdownRequested and the handlers of the web server; other shared data is not written after the goroutines that read it were started."
  },
  {
   "property": "C101",
   "status": "proved",
   "theorems": [
    "Hound.Lw.update_ends",
    "Hound.Lw.search_ends",
    "Hound.Lw.no_update_while_waiting",
    "Hound.Lw.one_update",
    "Hound.Lw.closed_unused"
   ],
   "note": "Assumed: a goroutine that can go on does so some time (FairLocks), and the work done while a lock is held ends. The locks are those of sync.RWMutex: a reader is let in unless a writer has the lock or waits for it, and when the writer leaves all readers in the queue are let in. This accounts for what C97 assumes of locks and searches. case_fair is a history in which a search waits for the lock of the searcher and then for that of the index, whose swap failed."
  },
  {
   "property": "C102",
   "status": "proved",
   "theorems": [
    "Hound.Fan.request_over",
    "Hound.Fan.answer_right"
   ],
   "note": "For the searches of a request C101 is used for each repository: the history of the server is projected to the locks of one repository, and shown to be fair there. Assumed as in C101: a goroutine that can go on does so some time, and the work done while a lock is held ends (C94 for the search itself). case_fair is a history in which the request is answered with an error before the second goroutine has begun to search."
  },
  {
   "property": "C103",
   "status": "partial",
   "theorems": [
    "Hound.Mk.all_made",
    "Hound.Mk.starts_exact",
    "Hound.Mk.starts_partial",
    "Hound.Mk.not_startsFull"
   ],
   "note": "The full property is false: a negative max-concurrent-indexers is accepted when the configuration is loaded, and make(chan bool, n) panics for it. starts_exact: the server starts with exactly the other configurations (a number that is not given is 2, so that the limiter has room for one; without room nothing would ever be made). Making one searcher is one step here (C19, C26, C51, C91 say what it does), and sizes for which there is not enough memory are left out. case_fair is a history in which two repositories are made one at a time, the second with an error."
  },
  {
   "property": "C104",
   "status": "partial",
   "theorems": [
    "Hound.DevUi.shown_partial",
    "Hound.DevUi.shown_since",
    "Hound.DevUi.shown_unedited",
    "Hound.DevUi.other_addresses",
    "Hound.DevUi.answered_partial",
    "Hound.DevUi.not_shownFull",
    "Hound.DevUi.not_answeredFull"
   ],
   "note": "The full property is false (not_shownFull, not_answeredFull): renderForDev puts the parsed template in a field of the page that all requests share and executes what it finds there, so that a request can show a template that had been replaced before it came, or fail because of an error another request found (nil is assigned with the error). shown_partial and answered_partial: it holds for requests that arrive when no other request for the page is open. shown_since, for all requests: the template is one of those since a moment when no request was open; shown_unedited: so if it was not edited since then, all is right. Parsing and executing templates is any function; the access to the field is taken to be whole although it is a data race; the file server is any function of the address."
  },
  {
   "property": "C105",
   "status": "partial",
   "theorems": [
    "Hound.Gate.becomes_ready",
    "Hound.Gate.answered",
    "Hound.Gate.ends_for_a_reason",
    "Hound.Gate.health_exact",
    "Hound.Gate.health_at_once",
    "Hound.Gate.not_refused",
    "Hound.Gate.refused_before",
    "Hound.Gate.failure_reported_partial",
    "Hound.Gate.not_failureReportedFull"
   ],
   "note": "All parts but the last are proved. The last is false as stated (not_failureReportedFull): the error of ListenAndServe waits in an unbuffered channel until the repositories are loaded, so that a server whose port is taken loads everything first and never says so if that does not end. failure_reported_partial: once they are loaded the process ends. The lock is sync.RWMutex as known; that the handlers return is fairness of the goroutine of the request here, and C102 for searches."
  },
  {
   "property": "C106",
   "status": "partial",
   "theorems": [
    "Hound.Flag.parse_exact",
    "Hound.Flag.number_exact",
    "Hound.Flag.line_unique",
    "Hound.Flag.dash_argument",
    "Hound.Flag.any_argument",
    "Hound.Flag.hound_line",
    "Hound.Flag.help_exact",
    "Hound.Flag.hound_only",
    "Hound.Flag.houndd_line_partial",
    "Hound.Flag.houndd_only",
    "Hound.Flag.not_hounddFull"
   ],
   "note": "Proved for hound, and for houndd but for the last part, which is false (not_hounddFull): houndd does not look at the arguments that are left, and flags behind the first of them are ignored. Numbers are read as by strconv.ParseInt with base 0, exactly the integers Go can write (number_exact). Packages flag and strconv are modelled from the Go source as known."
  },
  {
   "property": "C107",
   "status": "proved",
   "theorems": [
    "Hound.Flag.typed_is_asked",
    "Hound.Flag.has_unique",
    "Hound.Flag.line_unique"
   ],
   "note": "Composition of C106, C71 and C57. A context that is negative or has more than 54 bits is read by the server as 2, one above 20 as 20; a name in the configuration files overrides the flag (C71). Requests are functions of the network (each request has one outcome); the time they take is not modelled."
  },
  {
   "property": "C108",
   "status": "proved",
   "theorems": [
    "Hound.Mm.mapped_exact",
    "Hound.Mm.close_releases",
    "Hound.Mm.buffer_released_iff",
    "Hound.Mm.buffers_whole",
    "Hound.Mm.flush_releases"
   ],
   "note": "Linux only (mmap_linux.go). Mmap and Munmap of package syscall are modelled from the Go source as known. Files do not change while they are mapped; failures of the operating system are not modelled. buffer_released_iff shows that the writer's way of releasing a buffer (by the slice cut to the file's length) works for whole pages only; buffers_whole shows that its buffers are of this kind."
  },
  {
   "property": "C109",
   "status": "partial",
   "theorems": [
    "Hound.Mm.Win.win_mapped_exact_partial",
    "Hound.Mm.Win.win_large_fails",
    "Hound.Mm.Win.win_close_releases",
    "Hound.Mm.Win.win_never_released",
    "Hound.Mm.Win.not_releasesFull"
   ],
   "note": "Two parts are false of the code. unmmap hands the address of its argument, not of the bytes, to UnmapViewOfFile, so that no temporary buffer is ever released (win_never_released, for every run of the writer; not_releasesFull). An index of more than 2^30 bytes ends the program when it is opened (win_large_fails). Reading files of at most 2^30 bytes and closing are proved. MapViewOfFile and UnmapViewOfFile are modelled as documented; variables of the program are not in mapped files; failures of the system are not modelled. That a run of the writer with a full buffer exists is not shown, as it takes more than 8388608 postings."
  }
 ]
}