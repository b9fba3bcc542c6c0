{"id": "C01", "title": "Search never misses a matching line (completeness)", "statement": "If a text file was indexed and some line of it matches the search pattern, then an unfiltered, unpaged search of that index reports that file and that line: the trigram pre-filter never hides a match.", "quantifier": "all repository contents, all patterns, all indexed files and lines", "why_tests_cant": "The trigram filter is a symbolic approximation of an arbitrary regular expression; a false negative needs a specific combination of sub-expression shapes and file content, and tests only sample such combinations.", "anchors": ["index/index.go:Search", "codesearch/index/regexp.go:RegexpQuery,analyze,alternate,concat,simplify", "codesearch/index/read.go:PostingQuery", "codesearch/index/write.go:Add"]}
{"id": "C02", "title": "Every reported match is real (soundness)", "statement": "Every match returned by a search names a file of the index, a line number of that file, and carries exactly the text of that line, and the matcher accepts that line.", "quantifier": "all indexes, patterns and options", "why_tests_cant": "Must hold for every file content and every sequence of matches inside it, including empty lines, missing final newline and matches at the buffer end.", "anchors": ["index/index.go:Search", "index/grep.go:grep2"]}
{"id": "C03", "title": "Each matching line is reported exactly once, in order", "statement": "For one file, the reported line numbers are strictly increasing and are exactly the numbers of the matching lines, when the pattern is line-local.", "quantifier": "all file contents, all line-local patterns", "why_tests_cant": "Quantifies over all interleavings of matching and non-matching lines.", "anchors": ["index/grep.go:grep2,countLines", "codesearch/regexp/match.go:Match"]}
{"id": "C04", "title": "Context lines are the true neighbours", "statement": "The Before (After) context of a match is the run of lines immediately before (after) it in the file, at most as many as requested; After is cut only by the end of file, Before only by the start of the file or the previous reported match.", "quantifier": "all file contents, all patterns, all context sizes", "why_tests_cant": "Off-by-one behaviour depends on the positions of empty lines and of previous matches; unbounded many shapes.", "anchors": ["index/grep.go:lastNLines,firstNLines,grep2"]}
{"id": "C05", "title": "Offset/limit paging returns consecutive slices", "statement": "With no match cap, the files returned for (offset o, limit l) are exactly the slice [o, o+l) of the full result, so consecutive pages partition the full result with no gap or duplicate; limit 0 means no limit.", "quantifier": "all result sets, offsets and limits", "why_tests_cant": "Holds for all sizes and page boundaries.", "anchors": ["index/index.go:Search (filesFound, filesCollected)", "api/api.go:parseRangeValue"]}
{"id": "C06", "title": "The match cap is a hard bound and yields a prefix", "statement": "With a positive match cap M the total number of returned line matches is at most M and the returned matches are exactly the first M (in file and line order) of the uncapped result for the same page.", "quantifier": "all result sets, all caps", "why_tests_cant": "The cap is checked at two places (per file and per line); the property is about every way the totals can line up.", "anchors": ["index/index.go:Search (matchesCollected)"]}
{"id": "C07", "title": "FilesWithMatch does not depend on paging", "statement": "With no match cap, FilesWithMatch equals the number of files (passing the file filters) that contain a match, whatever the offset and limit.", "quantifier": "all result sets, offsets, limits", "why_tests_cant": "All page positions and result sizes.", "anchors": ["index/index.go:Search (filesFound)"]}
{"id": "C08", "title": "File filters select exactly the intended files", "statement": "A search with an include pattern and an exclude pattern returns exactly the results of the unfiltered search restricted to files whose name matches the include pattern and does not match the exclude pattern.", "quantifier": "all file names, include and exclude patterns", "why_tests_cant": "The two filters use different comparisons of the matcher result; difference shows only for particular names.", "anchors": ["index/index.go:Search (fre, excludeFre)"]}
{"id": "C09", "title": "The trigram query is implied by a match", "statement": "For every regular expression, every text that matches it satisfies the trigram query derived from it.", "quantifier": "all regular expressions and texts", "why_tests_cant": "Unbounded syntactic recursion with size-triggered approximations.", "anchors": ["codesearch/index/regexp.go:RegexpQuery,analyze,simplify,simplifySet,andOr"]}
{"id": "C10", "title": "Posting query evaluation is exact", "statement": "Evaluating a trigram query against an index returns exactly the ids of the files whose trigram set satisfies the query, in increasing order and without duplicates.", "quantifier": "all indexes, all queries", "why_tests_cant": "All nested AND/OR trees and all posting lists.", "anchors": ["codesearch/index/read.go:PostingQuery,postingAnd,postingOr,mergeOr"]}
{"id": "C11", "title": "The on-disk index round-trips", "statement": "Writing any sequence of files with the index writer and opening the result gives back every file name by id, and for every trigram exactly the ascending ids of the added files containing it.", "quantifier": "all sequences of files", "why_tests_cant": "Byte-level format with delta/varint coding, sentinels and binary search; every boundary matters.", "anchors": ["codesearch/index/write.go:Flush,mergePost", "codesearch/index/read.go:Open,findList,postReader,Name"]}
{"id": "C12", "title": "Index content does not depend on internal buffering", "statement": "The posting data written does not depend on how many times the in-memory posting buffer overflowed to temporary files nor on the buffer size.", "quantifier": "all file sequences, all overflow points", "why_tests_cant": "The overflow happens at 8M entries; no unit test reaches the multi-file merge.", "anchors": ["codesearch/index/write.go:flushPost,mergePost,postHeap"]}
{"id": "C13", "title": "Posting sort sorts", "statement": "The radix sort of posting entries yields a permutation of its input ordered by trigram, keeping the order of file ids inside a trigram.", "quantifier": "all arrays of posting entries", "why_tests_cant": "All inputs.", "anchors": ["codesearch/index/write.go:sortPost"]}
{"id": "C14", "title": "Sparse set behaves as a set", "statement": "After any sequence of Init/Add/Reset, the set contains exactly the values added since the last reset, each once, regardless of garbage left in its uninitialised storage.", "quantifier": "all operation sequences, all initial memory contents", "why_tests_cant": "Correctness relies on reading uninitialised memory safely.", "anchors": ["codesearch/sparse/set.go:Set"]}
{"id": "C15", "title": "Line matcher agrees with the automaton semantics", "statement": "Match returns the end of the first line (newline position or text length) that contains a match of the compiled program, or -1 if no line does; empty-width assertions see the true line/word/text boundaries.", "quantifier": "all programs, all texts", "why_tests_cant": "Lazy DFA over unbounded state space.", "anchors": ["codesearch/regexp/match.go:match,computeNext,stepByte,stepEmpty,addq"]}
{"id": "C16", "title": "Matcher caching is transparent", "statement": "The result of a match does not depend on which texts were matched before with the same compiled pattern (lazily built, cached DFA states).", "quantifier": "all programs, all histories of earlier matches", "why_tests_cant": "All histories.", "anchors": ["codesearch/regexp/match.go:cache,computeNext,match"]}
{"id": "C17", "title": "Unicode classes compile to the right byte sequences", "statement": "A character class of code points compiled for the byte matcher accepts exactly the UTF-8 encodings of its members.", "quantifier": "all rune ranges", "why_tests_cant": "1.1M code points times all ranges; boundaries at each encoding length.", "anchors": ["codesearch/regexp/utf.go:toByteProg,addRange,runeBuilder,oneByteRange"]}
{"id": "C18", "title": "Valid UTF-8 text files are never rejected as binary", "statement": "Every file whose content is valid UTF-8 passes the text check whatever its length, including when a multi-byte character straddles the 2048-byte peek window; a short file passes only if it is valid UTF-8.", "quantifier": "all byte contents", "why_tests_cant": "All alignments of all encodings around the window.", "anchors": ["index/index.go:isTextFile,validUTF8IgnoringPartialTrailingRune"]}
{"id": "C19", "title": "Every walked file is indexed or listed as excluded, never both", "statement": "After a successful build every regular or irregular file of the tree outside special and skipped directories is either searchable or listed in the excluded files with a reason, and not both.", "quantifier": "all directory trees, all option combinations", "why_tests_cant": "All tree shapes and contents.", "anchors": ["index/index.go:indexAllFiles,addFileToIndex", "codesearch/index/write.go:Add"]}
{"id": "C20", "title": "Exclusion reasons are truthful", "statement": "A file excluded by the index writer really violates the stated rule (too long, invalid byte pair, too many long lines, too many distinct trigrams) and a file violating none of them is indexed.", "quantifier": "all file contents", "why_tests_cant": "Streaming computation over unbounded content.", "anchors": ["codesearch/index/write.go:Add"]}
{"id": "C21", "title": "An accepted update request is never lost", "statement": "If an update request is accepted, a full check of the repository starts after the request.", "quantifier": "all schedules of update requests and polling loop", "why_tests_cant": "All interleavings.", "anchors": ["searcher/searcher.go:Update,waitForUpdate,newSearcher"]}
{"id": "C22", "title": "Stop/Wait terminates", "statement": "After Stop, Wait eventually returns once any update in progress ends, under any interleaving.", "quantifier": "all schedules", "why_tests_cant": "All interleavings.", "anchors": ["searcher/searcher.go:Stop,Wait,completeShutdown"]}
{"id": "C23", "title": "The live index is always usable", "statement": "At every moment a search goes to an index that is open and whose files are on disk, whatever sequence of updates, failures and searches occurred.", "quantifier": "all histories of updates and failures", "why_tests_cant": "All histories.", "anchors": ["searcher/searcher.go:swapIndexes,updateAndReindex", "index/index.go:Destroy"]}
{"id": "C24", "title": "A search sees exactly one revision", "statement": "A search running concurrently with index swaps returns results computed from a single index, the one current when it started, and that index is not destroyed before it ends.", "quantifier": "all interleavings of searches and swaps", "why_tests_cant": "All interleavings.", "anchors": ["searcher/searcher.go:Search,swapIndexes", "index/index.go:Search,Destroy"]}
{"id": "C25", "title": "The concurrency limit is respected", "statement": "At no time do more than max-concurrent-indexers repositories fetch or index simultaneously, and each slot is given back.", "quantifier": "all schedules, all limits", "why_tests_cant": "All interleavings.", "anchors": ["searcher/searcher.go:limiter,updateAndReindex,newSearcherConcurrent"]}
{"id": "C26", "title": "Restart after a crash never serves a half-built index", "statement": "If the process dies at any point while building an index, the next start never claims that directory and removes it.", "quantifier": "all crash points", "why_tests_cant": "Every intermediate file system state.", "anchors": ["index/index.go:Build,writeManifest,Read", "searcher/searcher.go:findExistingRefs,removeUnclaimed"]}
{"id": "C27", "title": "Index directories are not shared and stale ones are removed", "statement": "After start-up every index directory in the data directory is the live index of some repository, and different repositories use different index directories.", "quantifier": "all sets of existing directories and repositories", "why_tests_cant": "All combinations of urls, revisions and left-over directories.", "anchors": ["searcher/searcher.go:foundRefs,MakeAll"]}
{"id": "C28", "title": "Every configured repository has exactly one start-up outcome", "statement": "After start-up each configured repository either has a searcher or an error entry, exactly one of the two, for any completion order.", "quantifier": "all repository maps and completion orders", "why_tests_cant": "All completion orders.", "anchors": ["searcher/searcher.go:MakeAll,newSearcherConcurrent"]}
{"id": "C29", "title": "Multi-repository search is order independent", "statement": "The combined response for a set of repositories does not depend on the order in which the per-repository searches finish; it contains exactly the repositories with matches, or an error of one of the failing repositories.", "quantifier": "all completion orders", "why_tests_cant": "All permutations.", "anchors": ["api/api.go:searchAll"]}
{"id": "C30", "title": "API parameters are bounded", "statement": "Whatever the query string contains, context lines are at most 20, the match cap is at most 100000 and at least -1 or the configured default, and the range parameter never fails. The flags (ignore case, literal, statistics) are on exactly for the words that mean yes, and the file patterns are the parameters of their names.", "quantifier": "all parameter strings", "why_tests_cant": "All strings.", "anchors": ["api/api.go:parseAsUintValue,parseAsIntValue,parseRangeValue,parseRangeInt"]}
{"id": "C31", "title": "Only known repositories are searched", "statement": "The repository list parameter always resolves to configured repositories; '*' resolves to all of them exactly once.", "quantifier": "all parameter strings and repository sets", "why_tests_cant": "All strings.", "anchors": ["api/api.go:parseAsRepoList"]}
{"id": "C32", "title": "Update endpoint reports success only if every named repository was notified", "statement": "A POST to update answers ok only if every repository named in it accepted the update request; otherwise the answer says which did not; repositories not named are not affected, and requests with another method have no effect.", "quantifier": "all request contents and repository sets", "why_tests_cant": "All combinations.", "anchors": ["api/api.go:Setup /api/v1/update, /api/v1/github-webhook"]}
{"id": "C33", "title": "Secrets never appear in served configuration", "statement": "Two configurations differing only in vcs credentials produce the same JSON for the repository list.", "quantifier": "all configurations", "why_tests_cant": "Noninterference over all values.", "anchors": ["config/config.go:SecretMessage.MarshalJSON,Repo", "api/api.go:/api/v1/repos"]}
{"id": "C34", "title": "Configuration defaults and overrides", "statement": "After loading, a repository setting that is present wins over the global vcs setting, which wins over the default; every repository has a vcs, a poll interval, url pattern and push/poll flags set.", "quantifier": "all configurations", "why_tests_cant": "All combinations of present/absent fields.", "anchors": ["config/config.go:initRepo,initConfig,mergeVCSConfigs,LoadFromFile"]}
{"id": "C35", "title": "The server answers searches only when ready", "statement": "Before all repositories are loaded API requests are answered 'not ready'; after that they reach the API; once ready it stays ready.", "quantifier": "all request/serve histories", "why_tests_cant": "All interleavings.", "anchors": ["web/web.go:Server"]}
{"id": "C36", "title": "Client coalescing loses and invents no lines", "statement": "Merging matches with context into blocks yields blocks that are runs of consecutive line numbers, containing exactly the matched and context lines, each matched line flagged as match exactly once.", "quantifier": "all match lists of a file", "why_tests_cant": "Overlaps of any number of matches.", "anchors": ["client/coalesce.go:coalesceMatches"]}
{"id": "C37", "title": "Terminal output text equals the line text", "statement": "Removing colour codes from highlighted output yields exactly the original line; with colours disabled output is exactly the line.", "quantifier": "all lines and match positions", "why_tests_cant": "All strings.", "anchors": ["client/ack.go:hiliteMatches", "client/grep.go", "ansi/ansi.go"]}
{"id": "C38", "title": "Git revision selection", "statement": "The ref fetched and checked out is the configured one if given, else the detected default branch if detection is on and succeeds, else the default.", "quantifier": "all driver configurations", "why_tests_cant": "All combinations.", "anchors": ["vcs/git.go:targetRef,Pull,Clone"]}
{"id": "C39", "title": "Auto-generated file list parsing", "statement": "The auto-generated list contains exactly the files whose attribute output says so.", "quantifier": "all attribute outputs", "why_tests_cant": "All strings.", "anchors": ["vcs/git.go:AutoGeneratedFiles"]}
{"id": "C40", "title": "Integer codings round-trip", "statement": "Every unsigned 32-bit value written as varint, 32-bit big-endian word or trigram is read back unchanged and exactly the written bytes are consumed.", "quantifier": "all 32-bit values and all following bytes", "why_tests_cant": "2^32 values and all contexts.", "anchors": ["codesearch/index/write.go:writeUint32,writeUvarint,writeTrigram", "codesearch/index/read.go:uvarint,uint32"]}
{"id": "C41", "title": "Buffered I/O is transparent", "statement": "The bytes reaching the index file are the concatenation of all writes in order, for any buffer size; reading a file for search returns its whole content for any chunking of the reader.", "quantifier": "all write sequences, buffer sizes and read chunkings", "why_tests_cant": "All chunkings.", "anchors": ["codesearch/index/write.go:bufWriter", "index/grep.go:fillFrom"]}
{"id": "C42", "title": "Index merge preserves content", "statement": "Merging two indexes yields an index with the documents of the second replacing those of the first under the second's paths, and posting lists remapped accordingly.", "quantifier": "all pairs of indexes", "why_tests_cant": "All overlaps of path ranges.", "anchors": ["codesearch/index/merge.go:Merge,postMapReader,postDataWriter"]}
{"id": "C43", "title": "Automaton state encoding is injective", "statement": "Encoding a matcher state for the cache and decoding gives back the same state; distinct states never share a cache key.", "quantifier": "all states", "why_tests_cant": "All sets and flags.", "anchors": ["codesearch/regexp/match.go:nstate.enc,dec"]}
{"id": "C44", "title": "Opening and querying a written index never aborts", "statement": "Any file produced by the index writer can be opened and any query evaluated without a corrupt-index abort or out-of-range access.", "quantifier": "all written files, all queries", "why_tests_cant": "All inputs.", "anchors": ["codesearch/index/read.go:Open,slice,uvarint,findList"]}
{"id": "C45", "title": "The revision label matches the indexed content", "statement": "The revision reported with search results is the revision whose files were indexed.", "quantifier": "all schedules of repositories sharing a working directory", "why_tests_cant": "All interleavings.", "anchors": ["searcher/searcher.go:updateAndReindex,buildAndOpenIndex,vcsDirFor"]}
{"id": "C46", "title": "No needless reindex, and failed updates are retried", "statement": "If the repository head did not change no new index is built; if fetching or building fails the old index stays live with its old revision and the next check tries again.", "quantifier": "all histories of heads and failures", "why_tests_cant": "All histories.", "anchors": ["searcher/searcher.go:updateAndReindex,newSearcher"]}
{"id": "C47", "title": "Web paging loads every file once", "statement": "The web page's initial load followed by repeated 'load more' requests shows each matching file exactly once, in order, until all are shown.", "quantifier": "all result sizes", "why_tests_cant": "All result sizes.", "anchors": ["ui/assets/js/hound.js:Model.LoadMore,Model.Search", "index/index.go:Search"]}
{"id": "C48", "title": "Literal search matches the literal text", "statement": "A literal search for a string reports a line if and only if that line contains the string (byte for byte, case sensitive).", "quantifier": "all query strings and lines without newline", "why_tests_cant": "All strings.", "anchors": ["index/index.go:Search (QuoteMeta)"]}
{"id": "C49", "title": "Event signal delivery", "statement": "Raising a signal calls exactly the listeners tapped and not yet untapped, in tap order, even if listeners tap or untap during delivery.", "quantifier": "all tap/untap histories", "why_tests_cant": "All histories including re-entrancy.", "anchors": ["ui/assets/js/signal.js:Signal"]}
{"id": "C50", "title": "Local repositories report the right revision", "statement": "For a watched local directory the reported revision changes whenever a file is added, removed, renamed or its content changes (assuming the hash has no collisions) and does not depend on the order in which files are listed; for an unwatched one it is a constant of the working directory.", "quantifier": "all directory states", "why_tests_cant": "All trees and contents.", "anchors": ["vcs/local.go:HeadRev,myHash"]}
{"id": "C51", "title": "A claimed index directory is complete", "statement": "Whatever crashes, failures and updates happened before, an index directory taken over by a repository at start-up holds a complete index of that repository at that revision.", "quantifier": "all histories of starts, updates, failures and crash points, all interleavings of the repositories", "why_tests_cant": "Crash points and interleavings cannot be enumerated.", "anchors": ["searcher/searcher.go:findExistingRefs,find,claim,removeUnclaimed,newSearcher", "index/index.go:Build,Read,Destroy"]}
{"id": "C52", "title": "Repository names shown by the command line client", "statement": "The command line client names a repository by the last two parts of its url without the .git suffix, and by its key when the server did not describe it; it fails only on a url whose only slash is its first character.", "quantifier": "all repository urls and repository tables", "why_tests_cant": "All urls.", "anchors": ["client/client.go:repoNameFromUrl,repoNameFor"]}
{"id": "C53", "title": "A failed update is reported", "statement": "If a command that fetches or updates the working directory fails, the pull reports an error and no new revision is taken from it; likewise a clone.", "quantifier": "all version control drivers, all outcomes of the external commands", "why_tests_cant": "All combinations of failures of external commands.", "anchors": ["vcs/git.go:run,Pull", "vcs/hg.go:Pull", "vcs/svn.go:Pull", "vcs/bzr.go:Pull"]}
{"id": "C54", "title": "Literal search that ignores case", "statement": "A literal search for a string with the ignore-case option reports a line if and only if that line contains the string or one that differs from it only in the case of its letters.", "quantifier": "all query strings and all lines of all indexed files", "why_tests_cant": "All strings, all code points with case variants.", "anchors": ["index/index.go:Search,GetRegexpPattern", "codesearch/regexp/utf.go:toByteProg,runeBuilder"]}
{"id": "C55", "title": "Lines shown on the web page", "statement": "For every file with matches the web page shows each matched line and each line of the context around a match that the server sent exactly once, in file order, with its own number, marked as a match if and only if it is one; the page and the command line client show the same lines.", "quantifier": "all lists of matches in file order, all context sizes", "why_tests_cant": "All overlaps and adjacencies of context blocks.", "anchors": ["ui/assets/js/hound.js:MatchToLines,CoalesceMatches"]}
{"id": "C56", "title": "Highlighted lines on the web page", "statement": "The text of a result line is shown on the web page exactly as it stands in the file, characters of the source are never interpreted as mark-up, what is highlighted is what the pattern matches, and the rendering of every line finishes.", "quantifier": "all lines, all patterns", "why_tests_cant": "All strings and all behaviours of the regular expression.", "anchors": ["ui/assets/js/hound.js:EscapeHtml,ContentFor,getRegExp", "ui/assets/js/common.js:EscapeRegExp"]}
{"id": "C57", "title": "The client's request arrives as given", "statement": "Whatever pattern, repositories, file pattern, context and flags are given to the command line client, the server searches for exactly that pattern in those repositories with those options (the context up to the server's limit).", "quantifier": "all byte strings, all integers, both flags", "why_tests_cant": "All strings of bytes, including every character with a meaning in urls.", "anchors": ["client/client.go:Search", "api/api.go:Setup,parseAsBool,parseAsUintValue"]}
{"id": "C58", "title": "The page's requests arrive as given", "statement": "For every parameter of a request of the web page the server reads the same text the page gave it, and nothing for parameters not given.", "quantifier": "all parameter lists, all texts", "why_tests_cant": "All unicode texts in names and values.", "anchors": ["ui/assets/js/hound.js:Model.Search,Model.LoadMore"]}
{"id": "C59", "title": "The address of a search leads back to it", "statement": "After every search the address shown by the browser, opened again, leads to the same search: same query, flags, file patterns and repositories.", "quantifier": "all contents of the search form, all repository names", "why_tests_cant": "All unicode texts and all names of repositories.", "anchors": ["ui/assets/js/hound.js:updateHistory,ParamsFromQueryString,ParamsFromUrl"]}
{"id": "C60", "title": "Links to the source", "statement": "The link of a result line is the configured url pattern with every placeholder replaced by its value: the address of the repository without .git, or the browser address belonging to an ssh url, its host, port, project and name, the path of the file, the revision searched and the anchor of the line; for every path and every pattern.", "quantifier": "all urls, paths, lines, revisions and url patterns", "why_tests_cant": "All strings, including those with a meaning in replacements.", "anchors": ["ui/assets/js/common.js:ExpandVars,UrlParts,UrlToRepo", "ui/assets/js/excluded_files.js:ExcludedRow"]}
{"id": "C61", "title": "The page shows what was asked for last", "statement": "At every moment of a visit to the web page the files on the screen were found for the search asked for last, and the text highlighted in them is the pattern of that search; whatever the user types and presses, however long the answers take and in whatever order they come.", "quantifier": "all sequences of typing, searching, going back, loading more, and answers in any order", "why_tests_cant": "All interleavings of the user with the network.", "anchors": ["ui/assets/js/hound.js:Model.Search,Model.LoadMore,SearchBar.getRegExp,ResultView,App"]}
{"id": "C62", "title": "The page tells where a search stands", "statement": "After a search was asked for the page says that it is searching, or at once that there is nothing if the query is empty; after the answer it shows every result once, repositories with more files first and then by name, or says that there is nothing, or shows the error.", "quantifier": "all states of the page, all answers", "why_tests_cant": "All histories of errors, results and patterns before the search.", "anchors": ["ui/assets/js/hound.js:Model.Search,ResultView.render,App"]}
{"id": "C63", "title": "The repositories chosen are searched", "statement": "A search from the web page searches exactly the repositories chosen in the list, each once, and all repositories if none or all are chosen.", "quantifier": "all sets of repositories with any names, all choices", "why_tests_cant": "All names, including those with a meaning in lists, objects and addresses.", "anchors": ["ui/assets/js/hound.js:Model.ValidRepos,SearchBar.getParams,Model.Search", "api/api.go:parseAsRepoList"]}
{"id": "C64", "title": "Results arrive as found", "statement": "What the server found arrives: the command-line client and the web page end up with exactly the same repositories, files, lines, line numbers, context lines, counts and revisions as the search produced, string for string.", "quantifier": "all results of a search, with any bytes in lines, file names and revisions", "why_tests_cant": "All contents: quotes, control characters, angle brackets, separators, and bytes that are not UTF-8.", "anchors": ["api/api.go:writeResp,Setup", "index/index.go:Match,FileMatch,SearchResponse", "client/client.go:Search,Response", "ui/assets/js/hound.js:Model.Search"]}
{"id": "C65", "title": "The client reports failed searches", "statement": "When the search failed, whether on the way, with a bad status, or on the server (for example because the pattern is no regular expression), the command-line client reports an error instead of showing that nothing was found.", "quantifier": "all outcomes of the two requests of a search", "why_tests_cant": "All statuses, bodies and messages.", "anchors": ["client/client.go:Search,LoadRepos,SearchAndLoadRepos", "api/api.go:writeError"]}
{"id": "C66", "title": "Repositories carry their configured names in the client", "statement": "The client has for every configured repository, and for no other, the display name and the address of the configuration, and so shows each repository under the name that follows from them.", "quantifier": "all configurations", "why_tests_cant": "All names and addresses, with any characters.", "anchors": ["api/api.go:Setup", "config/config.go:Repo", "client/client.go:LoadRepos,repoNameFor"]}
{"id": "C67", "title": "The page starts with the repositories that can be searched", "statement": "The web page is served intact whatever the configuration contains: its script ends where it should and its title reads as configured. The page then offers exactly the configured repositories that have a searcher, and knows for each the address, the display name and the templates for links of the configuration.", "quantifier": "all configurations, all outcomes of making the searchers, all Host headers", "why_tests_cant": "All titles, names and addresses, with any characters, including markup and quotation marks, and all sets of failures.", "anchors": ["cmds/houndd/main.go:makeSearchers", "searcher/searcher.go:MakeAll", "config/config.go:ToJsonString", "ui/ui.go:renderForPrd,newPrdHandler", "ui/assets/index.tpl.html", "ui/assets/js/hound.js:Model.Load"]}
{"id": "C68", "title": "Names of repositories on the page", "statement": "The page shows a repository under its display name; without one, under the last two parts of its address separated by a slash and without the ending .git, the last part alone if there is only one, and the name in the configuration if the address has no slash.", "quantifier": "all repositories the page knows", "why_tests_cant": "All addresses.", "anchors": ["ui/assets/js/hound.js:Model.NameForRepo"]}
{"id": "C69", "title": "The page of excluded files shows the list of the repository chosen", "statement": "A request for the excluded files of a repository is answered with the list of an index that was current during the request. On the page, after the user chose a repository, it says that it is searching; when the list arrives it shows exactly the files and reasons of that list, as those of the repository chosen. Every excluded file of the index is among them.", "quantifier": "all executions of requests and replacements of indexes, all visits, all lists, all names and reasons", "why_tests_cant": "Replacements may fall between the two halves of a request, answers may come in any order, and names may contain any bytes.", "anchors": ["searcher/searcher.go:GetExcludedFiles,swapIndexes", "index/index.go:Index.Destroy", "api/api.go:/api/v1/excludes", "ui/assets/js/excluded_files.js"]}
{"id": "C70", "title": "Searching a stream finds every matching line", "statement": "Searching a stream through the buffered line search, or with the command-line printer of the search library, hands over or prints exactly the lines that match, in order, with their numbers, however the stream arrives in pieces and however large the buffer is; it ends, and a read error is reported after the lines read.", "quantifier": "all streams and their division into pieces, all buffer sizes, all patterns, all flags", "why_tests_cant": "All texts and all places where the end of the buffer can fall.", "anchors": ["codesearch/regexp/match.go:Grep.Reader,countNL", "index/grep.go:grep"]}
{"id": "C71", "title": "The command asks the server and sends the header fields it was told to", "statement": "The hound command asks the server named by its --host flag, or else by the configuration files; every header field that is configured is sent with its configured value; and the command refuses to run exactly when a configuration file that exists cannot be used.", "quantifier": "all contents of the two configuration files, present or not, all values of the flag, all orders in which the map of header fields is visited", "why_tests_cant": "The files are arbitrary text; the order in which Go visits a map is random.", "anchors": ["cmds/hound/main.go:loadConfig,loadConfigFrom,main", "client/client.go:doHttpGet,Config"]}
{"id": "C72", "title": "The command prints what the server found", "statement": "Given a pattern and flags, the hound command prints exactly what a search of the named repositories on the server finds for that pattern with those options: every repository under its shown name, every file, and the lines with their numbers, with colour codes only on a terminal; statistics if asked for, and the output of grep if asked for.", "quantifier": "all patterns, flags, servers and indexes, all orders of the results, terminal or not", "why_tests_cant": "The output depends on everything between the command line and the index.", "anchors": ["cmds/hound/main.go:main,newPresenter", "client/client.go:SearchAndLoadRepos,Search,LoadRepos", "client/ack.go:Present", "client/grep.go:Present", "api/api.go:Setup"]}
{"id": "C73", "title": "A termination request ends the server between updates", "statement": "When the server is asked to terminate it ends, and it ends only when no repository is being fetched, indexed or swapped; for every repository exactly one index is left on disk, the complete one it was serving; the searches it had accepted are answered first. A request that arrives while repositories are being loaded is kept until they are loaded; the server does not end unless asked to.", "quantifier": "all numbers of repositories, update configurations and concurrency limits, all interleavings of updates, searches, update requests and termination requests, all results of version control and indexing", "why_tests_cant": "All interleavings of the ending goroutine with every repository's goroutine.", "anchors": ["cmds/houndd/main.go:handleShutdown,registerShutdownSignal,main", "searcher/searcher.go:Stop,Wait,waitForUpdate,swapIndexes,begin"]}
{"id": "C74", "title": "The configuration file is taken at its word", "statement": "A configuration that loads has exactly the repositories the file names and every setting as the file gives it, whatever the order and number of its members; a setting the file does not give has its documented default. A relative data directory is found from the directory of the file. A file is refused exactly if it is not JSON, a value has not the type of its setting, or settings that must be merged are not objects.", "quantifier": "all texts of configuration files, names of files and working directories", "why_tests_cant": "All texts: repeated members, null, members in any case and order, paths with any detours.", "anchors": ["config/config.go:Config,Repo,UrlPattern,LoadFromFile,initConfig,initRepo,mergeVCSConfigs", "docs/config-options.md"]}
{"id": "C75", "title": "A repository's settings reach its version control system", "statement": "The version control system of a repository is the one its settings name, with the branch, user name, password, and ignored files the settings give: the repository's own, or else the global ones. Its working copy is a directory of its own in the data directory. A copy that is not there is made from the repository's url, one that is there is updated, by the commands of that system; the revision is what it reports after that. Names of the system's own files, and ignored ones, never appear on the path of a file that can be searched. Settings the system does not accept, or an unknown system, run no command.", "quantifier": "all configuration files, answers of commands, working copies and histories", "why_tests_cant": "All combinations of settings, all answers of the commands and all trees.", "anchors": ["vcs/vcs.go:New,PullOrClone", "vcs/git.go:newGit", "vcs/svn.go:newSvn", "vcs/local.go:newLocal", "vcs/hg.go", "vcs/bzr.go", "searcher/searcher.go:newSearcher,vcsDirFor,updateAndReindex"]}
{"id": "C76", "title": "A file is marked as generated exactly if it is so in the revision shown", "statement": "In every answer, a file of a git repository is marked as generated exactly if git marks it so in the revision the answer was made from; if the configuration lists the generated files of the repository, exactly those are marked.", "quantifier": "all histories of a repository, attributes of files and searches", "why_tests_cant": "All sequences of updates after the start of the server.", "anchors": ["searcher/searcher.go:newSearcher,updateAndReindex", "vcs/git.go:AutoGeneratedFiles", "index/index.go:Search"]}
{"id": "C77", "title": "Every address gives the one thing that is there", "statement": "The health check answers at its address, from the start and whatever else is there; all other requests are refused until the server is ready. After that every address made of plain names gives the call of the programming interface, the page, or the file of that name in the program, and otherwise nothing; any other address leads, in one step, to the address with plain names of the same place on the same server. Nothing but the files in the program can be fetched, and no request makes the server fail.", "quantifier": "all requests, paths, health check addresses and files in the program", "why_tests_cant": "All paths, with any number of empty names, dots and slashes.", "anchors": ["web/web.go:ServeHTTP", "api/api.go:Setup", "ui/ui.go:prdHandler.ServeHTTP,serveAsset", "ui/content.go:contents", "ui/bindata.go:Asset,AssetInfo"]}
{"id": "C78", "title": "A search from the browser's search field asks for what was typed", "statement": "The main page tells browsers where the description of its search is, on the host it was asked for by. With that description, whatever is typed into the browser's search field, and however the browser encodes it, the page that opens asks the server for exactly that text, in all repositories and with nothing else chosen.", "quantifier": "all names of hosts, texts and ways browsers encode them", "why_tests_cant": "All texts and encodings.", "anchors": ["ui/assets/open_search.tpl.xml", "ui/ui.go:renderForPrd", "ui/assets/index.tpl.html", "ui/assets/js/hound.js:ParamsFromQueryString,ParamsFromUrl,Load,Search"]}
{"id": "C79", "title": "A push notification updates the repository it names, and no other", "statement": "Whatever JSON a notification consists of, the repository it gives the full name of gets an update if it is configured and takes updates, and the answer is ok; if it is not configured or takes no updates, the answer says so and names it. A notification that cannot be read, or is sent in another way, is refused. In all cases no other repository is affected.", "quantifier": "all bodies of requests, methods and sets of repositories", "why_tests_cant": "All JSON texts: any order of members, repeated and nested members, escapes, spaces.", "anchors": ["api/api.go:Setup /api/v1/github-webhook,writeError,writeResp,writeJson"]}
{"id": "C80", "title": "A pattern means what is written", "statement": "A pattern built from characters and escapes, sets and ranges, named classes, repetitions, groups, flags, quoted texts and alternatives is accepted, and it matches a stretch of a text exactly if its parts do, as each of them is documented to; in a search ^ and $ match at line ends, and case does not matter if asked for. So a search lists the lines that have what was written.", "quantifier": "all properly written patterns of any size, all texts and search options", "why_tests_cant": "The parser rewrites patterns (common beginnings are factored out, characters merged into classes, classes turned into letters): every combination would have to be tried.", "anchors": ["index/index.go:GetRegexpPattern,Search", "codesearch/regexp/regexp.go:Compile"]}
{"id": "C81", "title": "What is not a pattern is refused", "statement": "A search whose pattern or file filter is not properly written (an open parenthesis, nothing to repeat, a repetition of a repetition, a range or a repetition that goes downwards, an unknown escape, class or flag, an open bracket, bytes that are no UTF-8, and so on) gives an error and no results; it is never searched as if something else had been written. The one thing accepted beside properly written patterns is a repetition right behind (?flags) or \\Qtext\\E.", "quantifier": "all texts given as pattern or file filter, all search options without the literal one", "why_tests_cant": "Nobody can list the texts that are not patterns: all of them would have to be tried.", "anchors": ["index/index.go:GetRegexpPattern,Search", "codesearch/regexp/regexp.go:Compile"]}
{"id": "C82", "title": "The command prints the lines that match", "statement": "Whoever gives a pattern to the command reads every line of every indexed file of the repositories asked for in which the pattern has a match, under the names of the repository and of the file and with its line number; unless the server's limit of results was reached in that repository. And every line printed as a match is a line of a file of such a repository, with that number, and the pattern has a match in it.", "quantifier": "all properly written patterns, all repositories, files, configurations and limits of the server, all orders of maps and all schedules of the server", "why_tests_cant": "It relates the files on the server to the text on the terminal of the client, through the parser of the pattern, the index, the search, JSON and the printing: no test runs through all of them, and the sets of files and patterns are infinite.", "anchors": ["cmds/hound/main.go:main", "client/client.go:SearchAndLoadRepos", "client/ack.go:Present", "client/coalesce.go:coalesceMatches", "api/api.go:Setup,searchAll", "index/index.go:Search", "codesearch/regexp/regexp.go:Compile", "codesearch/index/write.go:IndexWriter.Add"]}
{"id": "C83", "title": "The page shows the lines that match", "statement": "Whoever searches on the web page finds there, once the button that loads more is gone, every line of every indexed file of a repository in which the pattern has a match, under the name of the file and with its line number, if the matches in the repository are below the limit of results. At any time every line marked as a match is a line of such a file with that number, and the pattern has a match in it. A repository that was asked for and is not on the page has no matching line.", "quantifier": "all properly written patterns, all repositories, files, limits of the server, all orders of presses of the buttons and answers", "why_tests_cant": "It relates the files on the server to what the page's script shows after any number of further requests, through the parser of the pattern, the index, the search and the ranges the page asks for: no test runs through all of them.", "anchors": ["ui/assets/js/hound.js:Model.Search,Model.LoadMore,CoalesceMatches,FilesView", "api/api.go:Setup,searchAll,parseRangeValue", "index/index.go:Search", "codesearch/regexp/regexp.go:Compile", "codesearch/index/write.go:IndexWriter.Add"]}
{"id": "C84", "title": "The file filters choose files by what is written in them", "statement": "A search with patterns for file names reports every line in which the search pattern has a match of every indexed file in whose name the first of these patterns, as it is written, has a match and the second has none, and no line of any other file. In patterns for names case matters and ^ and $ stand for the beginning and the end of the name only. A filter that is not given lets every file through.", "quantifier": "all properly written search patterns and file patterns, all file names that are not empty and have no newline or encoded surrogate, all file contents", "why_tests_cant": "It relates two texts the user writes to the names of all files, through the parser, the compiler and the matcher of patterns: no sample of names settles it.", "anchors": ["index/index.go:Search,196-205", "codesearch/regexp/regexp.go:Compile,Regexp.MatchString"]}
{"id": "C85", "title": "A search from the search bar is made in the repositories shown as selected", "statement": "After any sequence of answers and of changes the user makes to the list of repositories of the page, a search from the search bar is made in exactly the repositories that the list shows as selected, or in all if none is.", "quantifier": "all lists of repositories, all addresses the page is opened with, all sequences of answers and changes", "why_tests_cant": "Which options are marked in the browser and what the program believes to be selected are two states that are updated at different moments; a test follows one order of events.", "anchors": ["ui/assets/js/hound.js:SearchBar,App,RepoOption,getParams", "ui/assets/js/react-0.12.2.min.js:ReactDOMSelect"]}
{"id": "C86", "title": "The boxes of the result page open and close as the user asks", "statement": "Results of a search are shown open, except files marked as generated. A click on the title of a file opens or closes this file only; a click on the title of a repository, or on the sign in it, opens or closes the repository with all its files and nothing else; after Expand all every file is open and after Collapse all every file is closed, and it stays so until the user opens something. Loading more files of a repository changes nothing about the files already there.", "quantifier": "all results, all sequences of clicks, answers and loads", "why_tests_cant": "The state is spread over a tree of components which the library matches by position, and one click can reach two handlers; only a statement about all sequences shows what is kept.", "anchors": ["ui/assets/js/hound.js:FileContentView,FilesView,RepoView,ResultView"]}
{"id": "C87", "title": "Filters that are set are shown", "statement": "As long as the user does not hide it, the panel with the filters is shown whenever a filter is set; either the panel or the line that offers it is shown, never both or none.", "quantifier": "all addresses the page is opened with, all sequences of focus changes, keys, clicks, answers and steps back", "why_tests_cant": "It is an invariant of a user interface with many events, several of which hide the panel.", "anchors": ["ui/assets/js/hound.js:SearchBar"]}
{"id": "C88", "title": "Numbers on the page are the numbers they stand for", "statement": "The times shown on the page are the decimal numerals of the numbers, with a comma before every three digits from the end.", "quantifier": "all natural numbers", "why_tests_cant": "It is a statement about all numbers; rounding to 32 bits shows only beyond the numbers one would test.", "anchors": ["ui/assets/js/hound.js:FormatNumber"]}
{"id": "C89", "title": "A literal search on the page shows exactly the lines with the text in them", "statement": "With the box for literal searches ticked, and any text as the query, the lines of a repository that the page marks as matches are lines of the files chosen by the file filters that contain the text, each with its number and under the name of its file; once everything is loaded, and if the matches are below the limit of results, all of these lines are there. Without regard to case the text may differ from the line in case only. A repository that was asked for and does not appear has no such line.", "quantifier": "all texts, all indexed files, all file filters that are understood, all orders of loading", "why_tests_cant": "The way leads through quoting, parsing, compiling, the trigram query, the index, the limits and the script of the page; a test follows a few texts, and special characters, long files or invalid encodings are what goes wrong.", "anchors": ["codesearch/regexp/regexp.go:Compile", "index/index.go:Search,GetRegexpPattern", "api/api.go:searchAll,Setup", "ui/assets/js/hound.js:Model.Search,Model.LoadMore,CoalesceMatches"]}
{"id": "C90", "title": "A change of a repository reaches the searches", "statement": "Every answer is made from the files of the revision it names, and the repository was at that revision when it was checked. A search that starts after a check that succeeded is made from the files of the revision found by that check or by a later one. After an update request was accepted, or by polling, a bounded number of steps of the repository's goroutine leads to searches of the files the repository has now, as long as it is not changed again, nothing fails and the program is not stopped.", "quantifier": "all histories of changes, checks, failures, searches and requests, in any interleaving", "why_tests_cant": "A change may come at any moment of a check, a build or a swap, while searches run; a test sees a few of these orders.", "anchors": ["searcher/searcher.go:updateAndReindex,newSearcher,Update,waitForUpdate,swapIndexes", "vcs/vcs.go:PullOrClone", "index/index.go:Build"]}
{"id": "C91", "title": "After a start, each repository is served as it is and as it is configured", "statement": "When the program begins to serve, every repository it serves is searched in the files just fetched, with the settings it has in the present configuration, whatever earlier runs have left in the data directory and wherever they were interrupted. The same holds after every update that replaced the index.", "quantifier": "all sequences of runs with any configurations, interrupted anywhere, all files and revisions", "why_tests_cant": "What a start finds depends on all runs before it and on where they died; tests start with an empty directory.", "anchors": ["searcher/searcher.go:MakeAll,newSearcher,findExistingRefs,buildAndOpenIndex", "index/index.go:Build,Open,Read", "vcs/local.go:HeadRev"]}
{"id": "C92", "title": "A search for one of several words finds each of them", "statement": "If words are quoted and written with | between them, a search for this pattern reports a line of an indexed file exactly if one of the words is in it, in any case of its letters if the search says so.", "quantifier": "all lists of words, all files, both settings for case", "why_tests_cant": "Which words are missed depends on all the words together, their order and lengths, through Go's growth of slices; there are too many combinations to try.", "anchors": ["codesearch/regexp/regexp.go:Compile", "codesearch/index/regexp.go:RegexpQuery,analyze,alternate,concat,simplify", "index/index.go:Search,GetRegexpPattern"]}
{"id": "C93", "title": "What a search finds in a file depends on that file alone", "statement": "What a search without limits answers about a file is settled by the name and content of that file (and whether it counts as generated): it is the same in every index that has the file, whatever other files are there and in whatever order they were added. The files of the answer come in the order of the index, more files only add to the answer, a pattern refused in one index is refused in every other, and two indexes of the same files give the same answer to every search, with every page and limit.", "quantifier": "all sets of files, all patterns and options, all ways an index of the files can be laid out", "why_tests_cant": "Every pair of sets of files would have to be indexed and searched; the posting lists of all files are shared, so any other file could disturb the answer about one.", "anchors": ["index/index.go:Search,Open,indexAllFiles", "codesearch/index/read.go:PostingQuery,postingAnd,postingOr,Name", "codesearch/index/write.go:Add,Flush"]}
{"id": "C94", "title": "Every search is answered", "statement": "Whatever text is given as pattern, with whatever options and in whatever index, a search comes to an end and is answered. The text is either refused, with an error that says what is wrong with it, or the expression parser, the compiler and the translation into bytes all give a program, without panicking and without running on for ever. The matcher of a program of fewer than 2^32 instructions answers every call, whatever calls were made before. Looking up the candidates and their names in an index that was built returns. So a search is answered with a result if all its patterns are accepted, and with the error for a bad pattern exactly if one of them is refused; a request of the API to several repositories likewise, whatever its parameters are and whichever index each of them has at the time.", "quantifier": "all texts of bytes as patterns, all options, all indexed files, all earlier calls of the matcher", "why_tests_cant": "There are infinitely many texts; a panic or an endless loop on a single one of them takes the server down for everybody.", "anchors": ["index/index.go:Search,GetRegexpPattern", "codesearch/regexp/regexp.go:Compile,Match,MatchString", "codesearch/regexp/utf.go:toByteProg,addRange,addRange2", "codesearch/regexp/match.go:init,match", "codesearch/index/read.go:PostingQuery,Name"]}
{"id": "C95", "title": "A search costs no more memory and stack than what it reads accounts for", "statement": "The matcher made for a pattern keeps at most one state for each byte it is given, and three more, and at most three calls are nested while it is made, so that a short pattern can neither exhaust the server's memory nor its stack. (As stated this is violated: for the pattern of 87 characters given in the theorem, compiling it makes 9,699,690 states, in as many nested calls, before any file is read. It holds for patterns that can match no newline and have no dot.)", "quantifier": "all texts of bytes as patterns, all sequences of calls of the matcher", "why_tests_cant": "The number of states depends on the pattern in ways no sample of patterns shows; the patterns come from anybody who can reach the server.", "anchors": ["codesearch/regexp/match.go:init,cache,computeNext,match,matchString", "codesearch/regexp/regexp.go:Compile", "codesearch/regexp/utf.go:toByteProg"]}
{"id": "C96", "title": "The terminal shows text in the colours asked for", "statement": "Text written in a colour and style is shown by a terminal exactly as it is, every character in the colour, background and style asked for, and the terminal is left as it was before, so nothing that follows is coloured. In the line of a search result the matches are black and bold on bright yellow and nothing else is; line numbers are bold yellow. When colours are off the text is shown like everything else. (The text has no escape characters of its own.)", "quantifier": "all texts, all colours and styles, all lines and match positions", "why_tests_cant": "All combinations of styles, texts and match positions.", "anchors": ["ansi/ansi.go:Fg,FgBg", "client/ack.go:hiliteMatches,lineNumber"]}
{"id": "C97", "title": "What is promised is done, if no goroutine is passed over for ever", "statement": "In every unending history of the server in which no goroutine that can go on is passed over for ever, every search ends and no reader gets a lock that a writer waits for: a repository with polling is checked again and again for ever, also when there are more repositories than may be checked at once; an accepted request for an update is followed by a check; when the repository is not changed any more, there comes a moment from which on every search is answered from the files of its last revision; when Stop has returned, Wait returns; and when the server is asked to end, it ends.", "quantifier": "all infinite histories of the server and of each searcher: all interleavings, all moments of requests, searches, changes and signals", "why_tests_cant": "Infinite executions cannot be run; that something happens at last cannot be seen by looking at any finite beginning.", "anchors": ["searcher/searcher.go:waitForUpdate,updateAndReindex,newSearcher,Update,Stop,Wait,limiter", "cmds/houndd/main.go:handleShutdown"]}
{"id": "C98", "title": "What is in a repository in the end is found in the end, and nothing else", "statement": "A repository is checked by polling, or an update was requested, and is not changed any more. In every unending history in which no goroutine is passed over for ever, every search ends and nothing fails any more, there comes a moment from which on every literal search, with or without regard to case, reports the last revision and exactly these lines: the lines that have the text in them, of the files of that revision that are not left out by their names and not in the list of excluded files, each under the path of its file and with its number. A search for a pattern likewise reports the lines in which the pattern has a match, and a search with patterns for file names those of the files chosen by name.", "quantifier": "all infinite histories of a repository and its searcher; all directory trees; all texts and patterns to search for; all sizes of buffers", "why_tests_cant": "It takes the whole program, from the working copy and the walk through it over index, posting lists, parser, compiler and matcher to the exchange of indexes under concurrent searches, in unending histories.", "anchors": ["searcher/searcher.go:waitForUpdate,updateAndReindex", "index/index.go:Build,indexAllFiles,Search", "codesearch/index/write.go", "codesearch/index/read.go", "codesearch/regexp/match.go"]}
{"id": "C99", "title": "Searches do not disturb one another", "statement": "Making the query for a pattern overwrites nodes of queries in memory, and two such nodes are shared by all searches of the process. Yet no node that was there before is changed: the query of a search is the one it would be if no other search had been made, whatever searches were made before in the same process, and it stays so until it is used, whatever searches are made in the meantime. While queries are being made, joining two trees of one search changes no tree of another search.", "quantifier": "all patterns; all sequences of searches of a process before and after; all contents of the memory that earlier searches leave behind", "why_tests_cant": "An aliasing error shows only for particular sequences of patterns, in a process that has run for a while, and then as a search that misses files.", "anchors": ["codesearch/index/regexp.go:allQuery,noneQuery,andOr,implies,andTrigrams,concat,alternate,simplify,analyze,RegexpQuery"]}
{"id": "C100", "title": "Goroutines do not access memory without coordination", "statement": "Whatever requests, searches, updates and signals reach the server, and in whatever order its goroutines run, no two goroutines access the same memory, one of them writing, without one access happening before the other by the rules of the Go memory model (the order inside a goroutine, go statements, locks, channels).", "quantifier": "all interleavings of the goroutines that know about a repository: start-up, the web server with any number of requests, any number of searches for each, the list of excluded files, requested updates, the poller with any number of updates, failed or not, and shutdown", "why_tests_cant": "The race detector reports only races of the executions it sees; a program with a race has no defined meaning, and the effects show on other machines or with other compilers.", "anchors": ["searcher/searcher.go:Searcher,swapIndexes,Search,GetExcludedFiles,Stop,waitForUpdate,updateAndReindex,newSearcher,newSearcherConcurrent,MakeAll", "index/index.go:Close,Destroy,Search", "web/web.go:ServeHTTP,serveWith,Start,ServeWithIndex", "cmds/houndd/main.go:handleShutdown,main", "api/api.go:searchAll,Setup"]}
{"id": "C101", "title": "Searches and updates do not keep each other waiting for ever", "statement": "Every search of a repository returns and every update of its index comes to an end, however many searches and updates there are and in whatever order they come: searches wait for an update only while it swaps or closes indexes, the update waits only for the searches that were there before it. No update begins while a search waits to be let in, and at most one begins between the call of a search and its end. While an index is closed no search reads it.", "quantifier": "all infinite histories of one repository with any number of searches and updates, failed swaps included, in which no goroutine that can go on is passed over for ever", "why_tests_cant": "A deadlock or a starved search shows only in particular interleavings of an unbounded history; no finite test shows that something always comes to an end.", "anchors": ["searcher/searcher.go:swapIndexes,Search,updateAndReindex", "index/index.go:Destroy,Search"]}
{"id": "C102", "title": "A search of several repositories is answered and leaves nothing behind", "statement": "Every search request is answered, however many repositories it names, whichever of the searches fail, whatever other requests there are and however often the repositories are updated meanwhile; it is answered with results exactly if every search ended without an error. All goroutines it started come to an end, also those whose results nobody waits for any more since the request was answered with the error of another one.", "quantifier": "all infinite histories with any number of requests, repositories (one may be named twice) and updates, in which no goroutine that can go on is passed over for ever", "why_tests_cant": "Goroutines left behind show only when a search fails before the others have ended, and then only as memory that is never given back.", "anchors": ["api/api.go:searchAll", "searcher/searcher.go:Search,swapIndexes,updateAndReindex", "index/index.go:Search,Destroy"]}
{"id": "C103", "title": "The server starts", "statement": "With every configuration that can be loaded, whatever repositories there are, whichever of them cannot be fetched or indexed and in whatever order they are done, the start of the server comes to an end: there is one outcome for each repository, a searcher or an error, all goroutines that made searchers have ended, and the limiter is free for the updates that follow.", "quantifier": "all loaded configurations, and all infinite histories of the start in which no goroutine that can go on is passed over for ever (and fetching and indexing a repository ends, with or without an error)", "why_tests_cant": "A start that hangs shows only with particular numbers of repositories and orders; a loop that ends in all tests may hang in others.", "anchors": ["searcher/searcher.go:MakeAll,newSearcherConcurrent,makeLimiter,Acquire,Release", "config/config.go:initConfig,LoadFromFile"]}
{"id": "C104", "title": "While the pages are worked on, a page shows its template as it is", "statement": "In development mode, the answer to a request for a page is made from the template of that page as it was at some moment between the arrival of the request and the answer (an edit that was saved before the page was asked for is seen), a page whose template has no error is answered, and every other address gives what the file server gives.", "quantifier": "all template engines, all histories of edits of the templates and of requests for pages, with any number of requests at a time in any interleaving", "why_tests_cant": "The templates of requests that come at the same time meet in a field they share; no test of one request at a time shows it, and a test with several only the interleavings that happened.", "anchors": ["ui/ui.go:devHandler.ServeHTTP,renderForDev,newDevHandler", "ui/content.go:contents"]}
{"id": "C105", "title": "The server begins to serve, and every request is answered", "statement": "Once the repositories are loaded the server begins to serve, whatever requests come and however many are under way. Every request is answered, unless the process ends; the health check at its address and nowhere else, and without waiting for anybody. No request is served before, and none that comes after the handlers are built is refused as not ready. The process ends only if loading, the pages or listening failed, or by a signal; and it does end, saying so, if the address cannot be listened on.", "quantifier": "all unending histories of requests, the loading, listening and signals in any interleaving in which no goroutine is passed over for ever", "why_tests_cant": "The switch from refusing to serving has to get a lock that any number of requests hold; a test shows that it did in the interleavings that happened.", "anchors": ["web/web.go:Server.ServeHTTP,serveWith,Start,ServeWithIndex", "cmds/houndd/main.go:main,handleShutdown"]}
{"id": "C106", "title": "The command line is read as it is written", "statement": "A command line is a sequence of flags, each written with one or two hyphens as -name=value, -name value or, for a switch, -name, followed by the other arguments, behind -- if they look like flags. hound searches for its one other argument with every setting as it was given last, or else with its default; it shows its use if there is not exactly one other argument, an error if a flag is unknown or a value cannot be read, and ignores nothing. Every text can be searched for behind --. houndd serves the configuration, at the address and in the mode its flags say, and refuses a command line it cannot read or use in full.", "quantifier": "all command lines (all lists of texts), all default hosts", "why_tests_cant": "Command lines, and the texts on them, are without bound.", "anchors": ["cmds/hound/main.go:main,defaultFlagForHost", "cmds/houndd/main.go:main"]}
{"id": "C107", "title": "What is typed is what is asked of the server", "statement": "A hound command line with one argument behind its flags makes two requests to one server, the one the configuration files name or else the flag: the server reads from the first the typed pattern, repositories, file filter and options, byte for byte; the second asks for the list of repositories. What the command does depends on the answers to these two requests alone, and it fails if one of them is not answered. If a configuration file cannot be used or the pattern cannot be compiled it fails whatever the server answers.", "quantifier": "all command lines with one argument behind the flags, all configuration files, default hosts, servers and networks", "why_tests_cant": "Command lines, patterns and files are without bound, and that nothing else matters is a statement on all networks.", "anchors": ["cmds/hound/main.go:main", "client/client.go:SearchAndLoadRepos,doHttpGet", "api/api.go:Setup"]}
{"id": "C108", "title": "Files mapped into memory are read byte for byte, and are released", "statement": "What is read from an opened index file is the file, byte for byte, whatever its size and wherever the system maps it, and nothing that was mapped before is disturbed. Closing an index releases its mapping and its file and nothing else; closing it once more is an error and changes nothing. Whatever files are indexed, when the index has been written all memory that was mapped for temporary files has been released, and nothing else.", "quantifier": "all file contents and sizes, all addresses and mappings of the process, all lists of indexed files", "why_tests_cant": "Sizes, addresses and histories of mappings are without bound, and temporary files are mapped only behind 8388608 postings, which no unit test writes; that they are released rests on their being made of whole pages.", "anchors": ["codesearch/index/mmap_linux.go:mmapFile,unmmapFile,unmmap", "codesearch/index/write.go:Flush,flushPost,mergePost", "codesearch/index/read.go:Open,Close"]}
{"id": "C109", "title": "Mapped files on Windows are read byte for byte, and are released", "statement": "On Windows too, what is read from an opened index file of any size is the file, byte for byte, closing an index releases its mapping and its file and nothing else, and when an index has been written all memory that was mapped for temporary files has been released.", "quantifier": "all file contents and sizes, all addresses and mappings of the process, all lists of indexed files", "why_tests_cant": "Sizes, addresses and histories of mappings are without bound; temporary files are mapped only behind 8388608 postings, which no unit test writes.", "anchors": ["codesearch/index/mmap_windows.go:mmapFile,unmmapFile,unmmap", "codesearch/index/write.go:Flush,flushPost,mergePost"]}
