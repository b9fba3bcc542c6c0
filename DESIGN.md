# Design: a Lean 4 model of hound-search/hound

## Trusted base

* Lean 4.33.0's kernel and the axioms `propext`, `Classical.choice` and `Quot.sound`.  No theorem uses another axiom;
  the table at the end lists them for each claimed theorem.  There is no `sorry`, `admit`, `native_decide` or `bv_decide`,
  and Mathlib is not imported.
* The correspondence between `/repo` and `lean/Verif/Model/*.lean`, which is made by hand.  Each definition cites the file
  and lines it models and says where it simplifies.
* The specifications in `lean/Verif/Spec/*.lean`.  They are written without the model's functions; they use its data types
  (a match, a configuration, a syntax tree), and UTF-8 encoding (`validRune`, `encodeRaw`), which both sides share.

## Layout

* `Verif/Model/*`  – the code, function by function, as total computable functions, or as step relations where there is
  concurrency or where the process may die.
* `Verif/Spec/*`   – what the English properties mean.
* `Verif/Proofs/*` – lemmas.
* `Verif/Props/*`  – the property theorems; beside each, `example`s meeting its hypotheses.
* `seeded/LOG.jsonl` – wrong programs the theorems were tried against.

A property that the code violates has three kinds of theorem: `def XFull : Prop` states it in full, `not_xFull` refutes it
for the model by a concrete case, and `x_partial` (or `x_exact`) proves the part that holds or says exactly what happens instead.

## Modelling conventions

* A Go `string` or `[]byte` is a `List UInt8`.  Machine integers are `UInt32`/`UInt8` or bounded `Nat` where overflow can
  matter, otherwise `Nat`/`Int` with the bound stated.  JavaScript strings are lists of 16-bit code units or of code points,
  as each definition says.
* Slices are values, except where sharing can be observed: `stringSet` in `codesearch/index/regexp.go` and the listener
  arrays of `signal.js` are modelled with an explicit heap.
* `log.Fatal`, `corrupt()`, panics, thrown exceptions and errors are explicit (`Option`, `Except` or an outcome type).
* Loops are structural recursions, or recursions on fuel with a proof that the fuel suffices.
* Goroutines, channels, locks and timers are step relations; the theorems are invariants proved by induction over
  arbitrary executions, or statements about all executions from a state.
* A crash is the death of the process: what was written stays, in the order it was written.

## What is modelled

| code | model | left out |
|------|-------|----------|
| `index/grep.go` | `Model/Grep`, `Model/FillFrom`, `Model/GrepReader` | gzip: a raw file is its content |
| `index/index.go` Search, GetRegexpPattern | `Model/Search` | timings, FilesOpened is kept |
| `index/index.go` isTextFile, containsString, indexAllFiles, addDirToIndex, addFileToIndex, Open, Read, Build, manifests | `Model/TextFile`, `Model/Walk`, `Model/Startup`, `Model/Search` | gob and gzip encodings (a manifest or raw file is read back as written, or is truncated and unreadable) |
| `codesearch/index/write.go` | `Model/BufWriter`, `Coding`, `SortPost`, `PostHeap`, `IndexWrite` | temporary file names; I/O errors end the program |
| `codesearch/index/read.go` | `Model/Coding`, `Model/IndexRead` | mmap: the file is a byte list (C108 justifies this on Linux) |
| `codesearch/index/mmap_linux.go` | `Model/Mmap` | files do not change while mapped; no failures of the system |
| `codesearch/index/mmap_windows.go` | `Model/MmapWin` | as `mmap_linux.go` |
| `codesearch/index/merge.go` | `Model/Merge` | – |
| `codesearch/index/regexp.go` | `Model/Query`, `RegexpQuery` (values), `HeapQuery` (slices that share memory) | – |
| `codesearch/regexp/regexp.go`, `match.go`, `utf.go`, `copy.go` | `Model/Matcher`, `Model/ByteProg`, `Model/Syntax`, `Model/GrepReader` | functions that print programs for debugging |
| Go's `regexp/syntax` | `Spec/Regex` (meaning of a syntax tree), `Spec/Compile` (shape of compiled programs), `Model/GoCompile` (`Simplify` and `Compile`, from the Go source as known, since the standard library is not in the sandbox), `Model/Parse` (the parser, from the Go source as known), `Model/LiteralParse` (a smaller model of it on quoted texts), `Spec/Pattern` (patterns by their parts: how they are written and what they mean) | limits on the height and size of trees |
| `codesearch/sparse/set.go` | `Model/Sparse` | – |
| `searcher/searcher.go` | `Model/Searcher` (one repository's goroutines), `Model/Indexers` (limiter and initial builds), `Model/Startup` (data directory, claims, crashes), `Model/Excluded` (reading the list of excluded files), `Model/MakeAll` (the goroutines of the start), `Model/LockWait` (who waits for whom at its locks), `Model/Race` (every access to shared memory, with those of `web/web.go` and `main.go`) | logging |
| `api/api.go` | `Model/Api`, `Model/Answer` and `Model/JsonText` (the JSON of search answers, errors and /repos), `Model/Fan` (the goroutines of a search of several repositories), `Model/Notify` (bodies and answers of update requests) | HTTP; a request is its parsed form |
| `config/config.go` | `Model/Config`, `Model/ConfigFile`, `Model/Paths` | numbers that are not integers; folding of letters outside ASCII in names of members; symbolic links |
| `web/web.go`, `cmds/houndd/main.go` | `Model/Web`, `Model/Gate` (its lock, the listener and the beginning of service), `Model/PageStart` (makeSearchers), `Model/Shutdown`, `Model/Routes` | sockets |
| `client/*`, `ansi/*`, `cmds/hound/main.go` | `Model/Coalesce`, `Model/Client`, `Model/Answer`, `Model/UrlQuery`, `Model/HoundCmd`, `Model/CmdLine` (the flags, of both programs) | HTTP, terminal detection |
| `vcs/*` | `Model/Vcs`, `Model/WorkDir` (drivers made from settings) | the version control programs: git has a stated semantics in `Spec/Vcs`, others are an outcome per command |
| `ui/assets/js/signal.js`, `common.js`, `hound.js`, `excluded_files.js` | `Model/Signal`, `Model/Paging`, `Model/PageStart`, `Model/Excluded` and the `Model/Ui*` modules | React rendering, the DOM |
| `ui/ui.go`, `ui/content.go`, `index.tpl.html`, `excluded_files.tpl.html`, `open_search.tpl.xml` | `Model/PageStart` (the main page in production mode, with html/template's escapers for its five places), `Model/OpenSearch` (the search description, and a browser reading it), `Model/DevUi` (development mode, with any template engine), `Model/Routes` (which address gives what, with net/http's ServeMux before Go 1.22) | the bytes of the other static files (any file system), Go's template engine in general |

## Plan per property

| id | what is modelled | how it is proved |
|----|------------------|------------------|
| C01 | grep2 + PostingQuery + Add + RegexpQuery + Search | composition of C09, C10, C11, C15; the code violates it (aliasing in `alternate`): kernel-checked counterexample plus `_partial` theorem |
| C02 | `Search`, `grep2` | induction over the loop, against `Spec.lines` |
| C03 | `grep2` | loop invariant: consumed prefix = whole lines |
| C04 | `lastNLines`, `firstNLines`, `grep2` | refinement to take/drop on `Spec.lines`; empty-first-line defect shown by counterexample |
| C05–C07 | `Search` loop | refinement to drop/take/count over the list of matching files |
| C08 | `Search` filters | filter commutes with the loop; `> 0` vs `>= 0` defect as counterexample |
| C09 | `RegexpQuery` and helpers, value and heap models | structural induction on the regexp; the invariant relates `regexpInfo` to the language |
| C10 | `postingAnd/Or/List`, `mergeOr`, `postingQuery` | induction on query, sortedness invariant |
| C11 | byte-level writer and reader | round trip by induction on entries |
| C12 | `flushPost`, `mergePost`, heap | merged chunks = sorted whole |
| C13 | `sortPost` | two stable counting passes |
| C14 | `sparse.Set` | representation invariant with arbitrary garbage |
| C15 | `match`, `stepEmpty`, `stepByte`, `addq` | DFA state = closure of NFA state set |
| C16 | cache as part of the state | invariant: every cached edge equals the computed edge |
| C17 | `addRange`, `runeBuilder`, `toByteProg` | case analysis on encodings; defects as counterexamples |
| C18 | `isTextFile` and `utf8` functions | induction over decoded runes |
| C19, C20 | `indexAllFiles`, `Add` | induction over the walk / over the bytes |
| C21–C28, C45, C46 | searcher as transition system | inductive invariants; defects as concrete executions |
| C29–C32 | `api` handlers | permutation invariance, decision logic |
| C33, C34 | `config` | noninterference, decision logic |
| C35 | `web` server | invariant over request histories |
| C36, C37 | `client`, `ansi` | refinement / round trip |
| C38, C39, C50 | `vcs` | decision logic, parsing round trip |
| C40, C41, C43, C44 | codings, buffering | round trip |
| C42 | `Merge` | refinement, byte+1 limit defect as counterexample |
| C47, C49 | the web UI's `Model` and `Signal` | induction over loads / listener lists |
| C48, C54 | `QuoteMeta`, the parser and compiler on quoted texts, then the whole of C01 | quoting and parsing round trip, program of a literal = chain of runes, composed with the search theorems |
| C51 | data directory as a set of directories with manifest and files; claims, builds, removals and crashes as steps | invariant: a readable manifest outside an interrupted removal has a complete index |
| C52 | `repoNameFromUrl`, `repoNameFor` | case analysis on the slashes of the url |
| C53 | every command of `Pull`/`Clone` has an outcome | induction over the commands |
| C55 | `MatchToLines`, `CoalesceMatches` of the page | simulation with the client's loop (C36) |
| C56 | `EscapeHtml`, `ContentFor`, `EscapeRegExp` on UTF-16 units; a small reader of HTML as specification | reading back what was written, induction over the hits; empty hits as counterexample |
| C57 | `Search` of the client, `QueryEscape`, `Encode`, `ParseQuery`, `FormValue` on bytes | escaping round trip, then the handlers' parsing (C30) |
| C58, C59 | `encodeURIComponent`, `decodeURIComponent`, the browser's url parser, `updateHistory`, `ParamsFromQueryString`, reqwest on UTF-16 units | UTF-16 and UTF-8 round trips by code point, induction over parameters; unencoded names as counterexample |
| C60 | `ExpandVars` with JavaScript's `replace`, `UrlParts` with its regular expression, `UrlToRepo` | patterns as lists of pieces, induction over the values; the ssh expression on urls by their parts |
| C61 | the page as a state machine: search bar, `Model`, outstanding requests, `ResultView` with React's state | invariant over calm visits; visits as counterexamples |
| C62 | the same | case analysis over the state of the view; `mergeSort` sorts |
| C63 | `ValidRepos` with inherited names, `getParams`, `Search`, the request of C58 and `parseAsRepoList` | injectivity of UTF-8 and UTF-16, joins and splits by commas |
| C64 | the text `json.Marshal` writes (escapes, HTML-safe), a parser of JSON text, the strings Go and JavaScript make of a literal, the decoders of the client and the page | the parser reads back every encoded value (mutual induction), strings by induction over decoded runes |
| C65 | `writeError`, `Search`, `LoadRepos`, `SearchAndLoadRepos` on the outcomes of the requests | the general result on encoded values; case analysis |
| C66 | the answer of `/api/v1/repos`, `LoadRepos`, `repoNameFor` | the same |
| C67 | `makeSearchers`, html/template's escapers, index.tpl.html as bytes, the browser's search for the script and evaluation of its literal, `Load` | texts that cannot begin in escaped parts; the JSON round trip of C64 twice |
| C68 | `NameForRepo` with `lastIndexOf` and `substring` | cases by the last two slashes |
| C69 | executions of requests, publications and removals; the handler; the state and the screen of the page | invariant on directories of requests under way; JSON round trip of C64 |
| C70 | `io.ReadFull`, the two loops, the printer | lines of a chunk that ends in a newline; induction on what is left of the stream |
| C71 | the two files as text, decoded into the settings one after the other; the loop over the header map in any order | the last thing said counts: fold over members; invariants of the loop over the map |
| C72 | `main` of the command as a function of its world (files, network, terminal, map orders) | composition of C57 (request), C29 (search), C64, C66 (answers), C36, C37 (presenter) |
| C73 | all searchers of C22 in parallel, the goroutine of `handleShutdown`, the signal's channel, the limiter | invariant per place of that goroutine; an execution of the server projects to one of each searcher; measure summed over the searchers |
| C74 | `encoding/json` into the structs of config/config.go, member by member; `filepath.Clean`, `Join`, `Dir`, `Abs` as loops over bytes | a field is a fold over what is said under its name; the output of `Clean` is a stack of names, which following the path makes too |
| C75 | the constructors of the drivers as readings of JSON; the commands of each driver; the directory of the copy; the options of the indexes | fields as folds over what is said; `filepath.Join` followed name by name; indexes by induction on the updates; hidden files by the soundness of the walk |
| C76 | the list of generated files in `newSearcher` and the options kept for later indexes | induction on the updates; counterexample with two states of the world |
| C77 | `Server.ServeHTTP`, `ServeMux` with `cleanPath`, `prdHandler`, `embed.FS` with `ValidPath`, as a function of the request | paths followed name by name (as for C74); a path is left alone iff it is plain |
| C78 | the description, the browser's reading of it, the encodings browsers use, the page's reading of its address and the request it makes | induction on the encoding; composition with C58 and C59 |
| C79 | the webhook handler from body to answer; JSON texts by the grammar of RFC 8259 | the reader follows the grammar (mutual induction); members folded in order |
| C80 | Go's `syntax.Parse` from the text; patterns by their parts, with their text and meaning (`Spec/Pattern`) | mutual induction over the parts, with the parser's stack as piles of sequences above bars and parentheses; the rewritings of `factor` kept by an invariant |
| C81 | Go's `syntax.Parse` run backwards: what each step has read | induction over the loop of the parser: what is left is the rest of a properly written pattern with as many open groups as the stack has parentheses |
| C82 | the chain: Go's parser, the compiled program, the index, `Search`, `searchAll`, JSON both ways, `coalesceMatches` and the presenter of the client | composition of C01, C02, C07, C37, C72 and C80; what a search of text gives back is shown to be text, so it arrives unchanged |
| C83 | the chain: Go's parser, the compiled program, the index, `Search`, `searchAll`, the requests for more, `CoalesceMatches` of the page | composition of C01, C02, C47, C55 and C80 |
| C84 | `compileOpt`, `nameRejected`, `Search` and the chain from the text of a pattern to its matcher | a name without newlines is one line that begins and ends the text, so the matcher of the compiled pattern is exact on it (C17, C80) also for `\A` and `\z`; composed with C01 and C02 |
| C85 | the list of repositories as React 0.12.2 keeps it: marks in the browser, `state.repos` of the bar, `state.value` of the list; answers and changes | invariant over all histories relating marks and `state.value`; composed with C63 up to the server |
| C86 | states of the boxes of files and repositories, handlers with batched updates, matching of children by index | every event described for all states; shape invariant for loads; histories after "Collapse all" by induction |
| C87 | focus handlers, keys, clicks of the search bar, steps back, the panel and the offer | invariant over all histories of steps |
| C88 | `FormatNumber` with `ToInt32` | induction over the groups |
| C89 | the chain of C83, with `QuoteMeta` and the box for literal searches | a quoted text is a pattern with one part for each character; what Go's parser makes of it is computed exactly; composed with C83, where the compiled program asks for no surrogates |
| C90 | `Model/Current`: the searcher's machine with the repository, its working copy and the files each index was made of | invariants along all executions for truth; a measure that each step of the goroutine makes smaller for the arrival of a change; a history in which removing fails refutes the full claim |
| C91 | `Model/Restart`: `Model/Startup` over several runs with different configurations, with the files and settings each index directory was made of | invariants of one run, which hold from any disk, and an invariant of the disk that passes from run to run; two histories refute the full claim |
| C92 | nothing new is modelled: the whole path from `Model/Parse` to `Model/Search` is used | the parse of the words is computed by following the parser's stack; the query is sound as `alternate` never appends in place when the first alternative is long; C01 and C02 from the tree; a refutation computed by the kernel |
| C93 | nothing new is modelled: the index writer and reader, the posting queries and `Search` are used | the candidates are the files whose own trigrams satisfy the query, in order (C10); the answer is then written as a `filterMap` over the list of the files |
| C94 | nothing new is modelled: the parser, the compiler, `toByteProg`, the matcher, the index and `Search` are used | the parser's fuel is shown to suffice and its trees to hold only code points and well-formed classes (`Sound`, an invariant of the stack through every step); the compiled program is closed and bounded, so no range splits into an empty one and no target is out of reach |
| C95 | nothing new is modelled: the states kept and the nesting of `cache` are read off the model of the matcher (`cacheKey`, whose first argument bounds the nesting) | without newlines the state after a newline and the one at the end of the text are always the same two, so each byte adds one state; the counterexample has loops of 2, 3, 5, …, 19 newlines, and the state after n newlines determines n modulo each |
| C96 | nothing new is modelled: `fgBg`, `hiliteMatches`, `lineNumber` are those of C37; a terminal is specified (`Displays`) | the codes are read back for every combination of colours and styles; induction over the match positions for lines |
| C97 | nothing new is modelled: the searcher of C21-C24, the repository of C90, the server of C73; infinite histories, fairness and what is promised are specified in `Spec/Fair` | the bounds on the steps of C21, C22, C73 and C90 make a history without the promised event quiet; then a goroutine can always go on, or waits for a lock that comes when the readers have gone; contradiction with fairness. Counterexamples are finite pieces after which nothing happens |
| C98 | nothing new is modelled: the repository of C90 with directory trees (C19) as its files, and the literal search of C89 | C97 gives the moment from which on the index searched was made of the last revision; C19 says which files are in it; C01 and C02 for the quoted text say which lines are reported |
| C99 | all of codesearch/index/regexp.go once more with queries as nodes at addresses, overwritten in place by `andOr`; the two shared nodes; the nodes left behind by earlier searches | ownership: a predicate says which nodes a tree occupies; `andOr` on trees with no node in common writes only to their nodes (induction on the recursion), and the analysis keeps all its trees apart (mutual induction on the pattern); so it refines the analysis with queries as values |
| C100 | every access to shared memory, lock, channel and go statement of the goroutines that know about a repository, as programs that are interleaved in any way; Go's happens-before relation as the specification | a general theorem that locks order what is done while they are held (from the last release and the next acquisition); invariants saying what each goroutine has done when it comes to a line; the index a search uses was made before the write that made it live; two runs with a race, where a set of events closed under happens-before separates the two accesses |
| C101 | the two locks of a repository (of the searcher and of each index) with their queues, any number of searches, the poller in `swapIndexes`, `Destroy` and after a failed swap | an invariant saying who waits where; while a writer waits the readers that are in its way only become fewer (induction over their numbers); fairness for each of the remaining steps |
| C102 | `searchAll`: the goroutine of the request, one goroutine for each repository named, the channel with room for all of them; the locks of each repository and its updates as in C101 | an invariant saying that what was sent is in the channel or was received, each once, so that there is room for whoever has not sent; projection to one repository for the searches; pigeonhole for the number of results |
| C103 | `MakeAll`, the goroutine for each repository, the limiter as a channel of the configured size, the channel for results | a measure that every step makes smaller, so that from some moment on nothing happens; with the invariant (tokens are those of the goroutines that hold one, results are received or in the channel, each once), nobody can go on only if all is done |
| C104 | the handler of development mode: requests that read and parse a template, keep it in a shared field and execute what is there, with edits in between | an invariant for every set of templates that contains the file of each moment: what requests have parsed or will find in the field is in it, from any moment when no request for the page is open; counterexamples for overlapping requests |
| C105 | the goroutines of requests, of main and of the listener, with the lock of the server as a lock that a waiting writer closes to new readers | an invariant for safety; the writer waits only for the requests that were inside, each of which leaves, so it gets the lock; requests in the queue are let in when it leaves |
| C106 | package flag and strconv.ParseInt with base 0 as known, the flags of the two programs and what they do with them | a grammar of command lines as a relation; parsing is shown to give exactly what the grammar says, one flag at a time |
| C107 | nothing new: C106, C71 and C57 put together | composition; that no other request matters is shown by comparing two networks |
| C108 | the mappings of a process with `mmapFile`, `unmmapFile`, `unmmap` and the loops of `write.go` that map and release the buffers | invariant that mappings do not overlap; induction on the buffers; induction on the indexed files for the sizes of the buffers |
| C109 | `mmap_windows.go`, on the mappings of C108 | as C108; a counterexample for the release of buffers |

## Where the code and its properties disagree

Each of these was found while modelling.  Those marked (proved) have a kernel-checked counterexample.

Search and index
* A trigram query can reject a matching text: `alternate` appends twice to the same slice (regexp.go 606-609); `xx([abc]|d.*e)` misses `xxd-e` (proved, C09 and end to end in C01).
* A phantom empty line after a final newline is reported by patterns that accept the empty line (proved, C03); `\A` matches again after each hit (proved).
* An empty first line of the gap is dropped from the Before context (proved, C04).
* The file filters test the end of the match with `> 0`, so a match ending at position 0 (an empty name, or one beginning with a newline) is not seen (proved, C08).
* `PostingQuery` answers an AND node without operands with no file (proved, C10; no query made from a pattern contains one).
* Character classes with a bound inside the surrogate block, pairs of case variants outside ASCII (`[Àà]` becomes the byte C0), and folding above U+1044F are compiled wrongly (proved, C17; end to end in C54).
* The byte programs accept raw encoded surrogates.
* `sparse.Set.Init` on a set with elements keeps stale ones (proved, C14; hound never does that).
* The share of distinct trigrams is computed in float32, so from 16 MiB on the limit is inexact: a file of 16777219 bytes with 1677722 distinct trigrams is indexed although these are more than 10% (C20, `not_skipReasonsFull`). An unterminated last long line is not counted as long.
* `Merge`: a path of the second index also removes files of directories whose name only begins with it (proved, C42), depends on name order, which `filepath.Walk` does not give (proved), and encodes limit byte + 1 as a code point (proved); an empty path or a last byte 0xFF panics. `Merge` is not called by hound.
* `Open` checks the length of the trailer with 4*4 instead of 5*4 bytes.

Building
* A directory that cannot be listed is passed over in silence, and a file whose reading fails after 2048 bytes is neither indexed nor listed (proved, C19). Special files and dot directories are left out without a record. A name that is listed but whose lstat fails panics.
* A root directory whose name begins with a dot is skipped whole when dot files are excluded.
* `isTextFile` accepts 2048 bytes ending in 0xFF.

Searcher
* An accepted update is lost when the poller has not yet consumed the token put by `begin` and there is no timer (proved, C21).
* `Stop` sends before it writes the flag; without timer the poller can go back to sleep and `Wait` blocks (proved, C22).
* When destroying the replaced index fails, the index just made live is destroyed (proved, C23).
* Repositories with the same url share working and index directories (proved, C27, C45); after an update of one, the live index of the other is removed (proved).
* A failed build leaves its directory until the next start (proved, C27); a crash inside `RemoveAll` can leave a readable manifest without index (proved, C51).
* `GetExcludedFiles` reads the index without the lock. A negative `ms-between-poll` disables the timer; a negative `max-concurrent-indexers` panics.

Configuration and API
* JSON keys match without regard to case but are merged case-sensitively: a global `ref` wins over a repository's `Ref` (proved, C34). A `null` repository or global vcs-config panics; numbers pass through float64.
* `excludes` for an unknown repository dereferences nil. `update` schedules the repositories before the refused one. Unknown names in `repos` are ignored. `limit=0` is unlimited; a huge range bound wraps negative.
* `searchAll` leaves the statistics of repositories without matches out of `FilesOpened`.

Version control
* The git driver logs failures of fetch and reset and goes on (proved, C53). An attribute that is set without the value `true` is not recognised (proved, C39). `HEAD branch: (unknown)` is taken as a branch name.

Web page and client
* When the match limit cuts the first answer, no button leads to the remaining files, and pressing the button twice before the answer repeats files (both proved, C47).
* The client panics on a url whose only slash is its first character (proved, C52).
* `ContentFor` never ends on a line where the pattern matches the empty string, so a search for `x*` hangs the page (proved, C56). A pattern beginning with `^` is tried again after every hit and highlights more than it matches. Go syntax that JavaScript does not know, such as `(?i)`, makes `new RegExp` throw, so that no result is shown.
* `updateHistory` does not encode the names of repositories: the address of a search in `c++`, `a=b` or `100%` leads to another search or to a page that fails (proved, C59).
* `ExpandVars` replaces only the first occurrence of a placeholder, interprets `$&` and the like in paths, and expands a path containing `{rev}` again (proved, C60). `git@host:12/p/r` is read as port 12. The page of excluded files links to a revision called `undefined` (proved, C60).
* The page takes answers in the order they come: a late answer to an earlier search replaces the results of the last one, and load more then adds files of the last search to them (proved, C61). The highlighted pattern is read from the search bar when the answer comes (proved, C61).
* A search for nothing hands `this.Results` (undefined; the property is `results`) to the view, whose `render` throws: the screen stays as it was. An old error stays on the screen while the next search runs. If the browser refuses a pattern Go accepts, such as `(?i)x`, the page says "Searching..." for ever (proved, C62).
* `ValidRepos` looks names up in a plain object: a repository called `constructor` can never be chosen, all are searched instead. The same holds for `*` and the empty name; names with a comma or with blanks at the ends give searches in no repository (proved, C63).
* The server answers a failed search with status 200 and `{"Error": ...}`; the client decodes this into an empty answer and prints nothing, whatever the error (proved, C65). `LoadRepos` does not look at the status.
* Lines and file names with bytes that are not UTF-8 arrive changed, with U+FFFD in place of each such byte, in the client and in the page (proved, C64).
* A repository named `__proto__` can be searched but is not offered on the page (proved, C67). A local repository with an address like `/src` is shown as `/ / src` (proved, C68).
* `GetExcludedFiles` reads `s.idx` without the lock and the file afterwards. A request that overlaps the replacement of the index can be answered with an empty body; the page then shows 'Searching...' for ever. An unknown repository makes the handler panic (proved, C69).
* On the page of excluded files, a click on a second repository before the first answer can show the list of the first under the name of the second (proved, C69).
* `Grep.Reader` and `grepper.grep` (not used by the server) loop for ever on a line of 1 MiB or more, and report an empty line that does not exist at each end of the buffer for patterns that accept the empty line; all later numbers are then wrong (proved, C70).
* The flag `--host` of the command only counts if no configuration file names a host (proved, C71). Of header names that differ in case only, a random one is sent (proved, C71). `--show-stats` shows nothing, `--like-grep` no results (proved, C72).
* A terminating server does not wait for searches under way (proved, C73); and with a repository that is updated by push only it may never end: `Stop` sends its signal before it sets the flag, the goroutine may take the signal in between, find no flag, and wait for ever (proved, C22, C73).
* The documentation of the configuration gives `true` as the default of `exclude-dot-files` and `data` as that of `dbpath`; the code searches dot files and keeps its data beside the configuration file (proved, C74). The documented top-level `url-pattern` is not read. A repository given as `null`, or `null` settings of a version control system, end the program with a panic.
* The files marked as generated are found once, when a searcher starts; indexes built after later updates keep the old list, so that a file generated since is not marked, and one no longer generated is (proved, C76).
* The description of the search for browsers is made without escaping; a host with `&` in its name makes it ill formed (proved, C78). Its address always begins with `http://`, also when the page was fetched by https.
* All files in the program can be fetched, among them the unfilled templates (`/index.tpl.html`) and the tests of the page's programs (example in C77).
* `/api/v1/update` answers ok for repositories that are not configured, also for `a, b` with a blank after the comma, where only `a` is updated (proved, C32). Notifications sent as a form, one of the two ways GitHub offers, are refused (proved, C79).
* In Go's parser `factor` compares letters without the flag for folding: `(?i:a)b*|Ac*` is searched as `(?i:a)(?:b*|c*)` and lists lines it should not (proved, C80).
* **Selected repositories are not searched** (`shown_not_searched`, `not_searchesShownFull`, C85; hound.js:395, 1017-1021). The repositories in the address of the page are marked in the list after the first answer by setting `selected` on the options; `getParams` reads `state.value` of the list, which React 0.12 changes only when the user changes the list. So a page opened with `?q=x&repos=a` shows `a` selected, and the next search from the bar is made in all repositories.
* **Files appear open after "Collapse all"** (`not_collapsedFull`, C86; hound.js:729-731): the button that loads more files is visible in a closed repository, and the files it loads are open.
* **Boxes keep their state for other results** (`not_freshFull`, C86): if a second answer comes while the results of the first are shown, the boxes are kept by position.
* **Filters that are not shown** (`repo_hidden`, `back_hidden`, C87; hound.js:306-321, 1045-1049): the panel stays hidden if the address has repositories as its only filter, and after going back to a search with filters.
* **Large numbers** (`not_numberFull`, C88; hound.js:11): `t | 0` takes numbers modulo 2^32.
* **C91, changed settings have no effect.** At a start an index directory with the same url and revision is used again (searcher/searcher.go:429-436), and the settings it was made with are not compared; the manifest holds only the list of generated files. After a change of `exclude-dot-files` or of `auto-generated-files`, the old index is served until the repository has a new revision. `Again.not_startFull_settings`.
* **C91, local directories that are not watched.** Their revision is a part of the name of the working directory (vcs/local.go:64-71), which never changes. After a restart the files of the first run are served, however the directory has changed. `Again.not_startFull_files`.
* **C92, ordinary lists of words are missed.** The slices shared in `alternate` (C09) also spoil searches that look quite ordinary: `item1|item2|item3|items_all` is parsed to `item(?:[1-3]|s_all)`, and the query asks for `em1`, `em2` or `em3`, or for `eml` and `mll`, so a file with `items_all` only is not found. `GoRe.not_wordsFull`. With a word of four characters first this cannot happen (`words_search_partial`, `regexpQuery_sound_longFirst`).
* **A short pattern can take the server down (C95).** `matcher.cache` computes, inside the making of each state, the state after a newline (codesearch/regexp/match.go:266-278), and no state is ever given up. For `\A((\n{2})*a|(\n{3})*b|(\n{5})*c|(\n{7})*d|(\n{11})*e|(\n{13})*f|(\n{17})*g|(\n{19})*h)` that makes 9,699,690 states in nested calls when the pattern is compiled, before any file is read. A state holds an array of 256 pointers, so this is about 20 GB, and Go ends the program when the stack reaches its limit. Patterns with `.` have the same problem, since `.` is compiled to one that matches newlines as well (codesearch/regexp/utf.go:61-66).
* **C100, two data races.** `GetExcludedFiles` (searcher/searcher.go:140) reads `s.idx` without `s.lck`, while `swapIndexes` (line 122) writes it: a request for the list of excluded files during an update is a data race. `Stop` (lines 167-168) sends on `shutdownCh` and then sets `shutdownRequested`, which the poller reads (line 477) when it has received the message or was woken by something else. `Race.excluded_race`, `Race.shutdown_race`; `Race.races_exact` shows that there are no others.
* **C103, a negative `max-concurrent-indexers`** is taken as it is (config/config.go:127 replaces 0 only) and makes `make(chan bool, n)` (searcher/searcher.go:60) panic when the server starts. `Mk.not_startsFull`.
* **C104, templates in development mode meet in a shared field** (ui/ui.go:71, 79, 97): `renderForDev` assigns `c.tpl` and executes `c.tpl` without a lock. A request that comes while another one for the same page is open can show a template that was replaced before it came (`DevUi.not_shownFull`), or panic on nil because the other one found an error (`DevUi.not_answeredFull`). It is also a data race (C100 is about production mode). A local variable would do.
* **C105, that the address cannot be listened on is reported late or never** (web/web.go:64, 84): the error of `http.ListenAndServe` is sent on an unbuffered channel that is read only after all repositories have been loaded (`Gate.not_failureReportedFull`). If the port is taken, `houndd` first fetches and indexes everything, which can take hours, and then panics.
* **C106, `houndd` ignores what is left of its command line** (cmds/houndd/main.go:137-150): `flag.NArg` is not looked at, and parsing stops at the first argument that is no flag. `houndd start -conf other.json` and `houndd -dev false -conf other.json` serve `config.json` without a word (`Flag.not_hounddFull`); `hound` in the same case shows its use.
* **C109, on Windows temporary buffers are never released** (codesearch/index/mmap_windows.go:51): `unmmap` passes `&d`, the address of the slice variable, where `&d[0]` is meant; `UnmapViewOfFile` fails and the error is ignored (`Mm.Win.win_never_released`). Each 8388608 postings of an index leave 64 MiB mapped for the life of the server. An index of more than 2^30 bytes cannot be opened there (line 38, `Mm.Win.win_large_fails`).

## Axioms of the claimed theorems

| theorem | property | axioms |
|---|---|---|
| `search_complete_partial` | C01 | propext, Classical.choice, Quot.sound |
| `search_complete_noAlternate_partial` | C01 | propext, Classical.choice, Quot.sound |
| `not_searchCompleteFull` | C01 | propext, Classical.choice, Quot.sound |
| `search_only_matching_partial` | C01 | propext, Classical.choice, Quot.sound |
| `exists_compiles` | C01 | propext, Quot.sound |
| `compiles_faithful` | C01 | propext, Classical.choice, Quot.sound |
| `tree_search_partial` | C01 | propext, Classical.choice, Quot.sound |
| `search_complete_tree_partial` | C01 | propext, Classical.choice, Quot.sound |
| `search_only_matching_tree_partial` | C01 | propext, Classical.choice, Quot.sound |
| `search_complete_pattern_partial` | C01, C80 | propext, Classical.choice, Quot.sound |
| `search_only_matching_pattern_partial` | C01, C80 | propext, Classical.choice, Quot.sound |
| `search_complete_noBar_partial` | C01, C80 | propext, Classical.choice, Quot.sound |
| `search_only_matching_noBar_partial` | C01, C80 | propext, Classical.choice, Quot.sound |
| `GoRe.search_complete_longFirst_partial` | C01 | propext, Classical.choice, Quot.sound |
| `GoRe.compile_total` | C01 | propext, Classical.choice, Quot.sound |
| `GoRe.compile_faithful` | C01 | propext, Classical.choice, Quot.sound |
| `GoRe.simplify_same` | C01 | propext, Classical.choice, Quot.sound |
| `search_sound_partial` | C02 | propext, Classical.choice, Quot.sound |
| `grep_match_is_a_line_partial` | C02 | propext, Quot.sound |
| `not_eachLineOnceFull` | C02, C03 | none |
| `grep_reports_each_line_once_partial` | C03 | propext, Quot.sound |
| `grep_reports_each_line_once_exact` | C03 | propext, Quot.sound |
| `grep_linenos_increasing` | C03 | propext, Quot.sound |
| `grep_begin_text_counterexample` | C03 | none |
| `grep_after_context` | C04 | propext, Quot.sound |
| `grep_before_context_partial` | C04 | propext, Quot.sound |
| `grep_before_context_run` | C04 | propext, Quot.sound |
| `not_beforeContextFull` | C04 | none |
| `search_paging` | C05 | propext, Classical.choice, Quot.sound |
| `pages_partition` | C05 | propext, Classical.choice, Quot.sound |
| `search_cap` | C06 | propext, Classical.choice, Quot.sound |
| `search_filesWithMatch` | C07 | propext, Classical.choice, Quot.sound |
| `search_file_filters_partial` | C08 | propext, Classical.choice, Quot.sound |
| `not_fileFiltersFull` | C08 | propext |
| `regexpQuery_sound_partial` | C09 | propext, Classical.choice, Quot.sound |
| `regexpQuery_sound_noAlternate` | C09 | propext, Classical.choice, Quot.sound |
| `regexpQuery_sound_values` | C09 | propext, Classical.choice, Quot.sound |
| `regexpQuery_noEmptyAnd` | C09 | propext, Classical.choice, Quot.sound |
| `GoRe.regexpQuery_sound_longFirst` | C09 | propext, Classical.choice, Quot.sound |
| `not_regexpQueryFull` | C09 | propext, Quot.sound |
| `postingQuery_partial` | C10 | propext, Classical.choice, Quot.sound |
| `regexpQuery_posting` | C10 | propext, Classical.choice, Quot.sound |
| `not_postingQueryFull` | C10 | propext, Classical.choice, Quot.sound |
| `index_names` | C11 | propext, Classical.choice, Quot.sound |
| `index_postings` | C11 | propext, Classical.choice, Quot.sound |
| `index_buffering` | C12 | propext, Classical.choice, Quot.sound |
| `index_chunking` | C12 | propext, Classical.choice, Quot.sound |
| `sortPost_sorts` | C13 | propext, Classical.choice, Quot.sound |
| `sortPost_strictly_increasing` | C13 | propext, Classical.choice, Quot.sound |
| `sparseSet_partial` | C14 | propext, Classical.choice, Quot.sound |
| `not_sparseSetFull` | C14 | propext, Quot.sound |
| `matcher_total` | C15 | propext, Classical.choice, Quot.sound |
| `match_first_line` | C15 | propext, Classical.choice, Quot.sound |
| `matcher_is_line_matcher` | C15 | propext, Classical.choice, Quot.sound |
| `match_history_irrelevant` | C16 | propext, Classical.choice, Quot.sound |
| `class_exact_partial` | C17 | propext, Classical.choice, Quot.sound |
| `class_member_partial` | C17 | propext, Classical.choice, Quot.sound |
| `toByteProg_exact_partial` | C17 | propext, Classical.choice, Quot.sound |
| `toByteProg_complete_partial` | C17 | propext, Classical.choice, Quot.sound |
| `toByteProg_succeeds` | C17 | propext, Classical.choice, Quot.sound |
| `not_classFull` | C17 | propext, Classical.choice, Quot.sound |
| `class_case_pair_counterexample` | C17 | propext, Classical.choice, Quot.sound |
| `class_fold_counterexample` | C17 | propext, Classical.choice, Quot.sound |
| `compile_tree_partial` | C17 | propext, Classical.choice, Quot.sound |
| `text_check_accepts` | C18 | propext, Classical.choice, Quot.sound |
| `text_check_short` | C18 | propext, Classical.choice, Quot.sound |
| `text_check_long` | C18 | propext, Classical.choice, Quot.sound |
| `text_check_error` | C18 | propext, Classical.choice, Quot.sound |
| `accounted_partial` | C19 | propext, Classical.choice, Quot.sound |
| `accounted_sound` | C19 | propext, Classical.choice, Quot.sound |
| `not_accountedFull` | C19 | propext, Classical.choice, Quot.sound |
| `unreadable_not_accounted` | C19 | propext, Classical.choice, Quot.sound |
| `tree_serves` | C19 | propext, Classical.choice, Quot.sound |
| `build_succeeds` | C19 | propext, Classical.choice, Quot.sound |
| `skipReasons_partial` | C20 | propext, Classical.choice, Quot.sound |
| `not_skipReasonsFull` | C20 | propext, Classical.choice, Quot.sound |
| `unreadable_not_indexed` | C20 | propext, Classical.choice, Quot.sound |
| `Sr.update_not_lost_partial` | C21 | propext, Quot.sound |
| `Sr.not_updateNotLostFull` | C21 | propext |
| `Sr.stop_wait_partial` | C22 | propext, Quot.sound |
| `Sr.stop_wait_polling` | C22 | propext, Quot.sound |
| `Sr.not_stopWaitFull` | C22 | propext |
| `Sr.live_index_usable_partial` | C23 | propext, Quot.sound |
| `Sr.not_liveUsableFull` | C23 | propext, Quot.sound |
| `search_revision` | C24 | propext, Classical.choice, Quot.sound |
| `Sr.search_one_index` | C24 | propext, Quot.sound |
| `Sr.search_index_stays_open` | C24 | propext, Quot.sound |
| `Ix.limit_respected` | C25 | propext, Classical.choice, Quot.sound |
| `Ix.slot_given_back` | C25 | propext, Classical.choice, Quot.sound |
| `Ix.slots_free` | C25 | propext, Classical.choice, Quot.sound |
| `Ix.limiter_no_deadlock` | C25 | propext, Classical.choice, Quot.sound |
| `Up.crashed_build_removed` | C26 | propext, Classical.choice, Quot.sound |
| `Up.dirs_live_partial` | C27 | propext, Classical.choice, Quot.sound |
| `Up.not_dirsLiveFull` | C27 | propext, Quot.sound |
| `Up.dirs_distinct_partial` | C27 | propext, Classical.choice, Quot.sound |
| `Up.not_dirsDistinctFull` | C27 | propext, Quot.sound |
| `Up.shared_index_destroyed` | C27 | propext, Quot.sound |
| `Up.one_outcome_each` | C28 | propext, Quot.sound |
| `Up.outcome_when_serving` | C28 | propext, Classical.choice, Quot.sound |
| `Api.searchAll_ok` | C29 | propext, Quot.sound |
| `Api.searchAll_error` | C29 | propext, Quot.sound |
| `Api.searchAll_order` | C29 | propext, Quot.sound |
| `Api.searchAll_fails_iff` | C29 | propext, Quot.sound |
| `Api.params_bounded` | C30 | propext, Classical.choice, Quot.sound |
| `Api.params_exact` | C30 | propext, Classical.choice, Quot.sound |
| `Api.range_exact` | C30 | propext, Quot.sound |
| `Api.params_flags` | C30 | propext, Quot.sound |
| `Api.repoList_exact` | C31 | propext, Classical.choice, Quot.sound |
| `Api.repoList_configured` | C31 | propext, Classical.choice, Quot.sound |
| `Api.items_exist` | C31 | propext, Quot.sound |
| `Api.update_ok` | C32 | propext, Classical.choice, Quot.sound |
| `Api.update_complete` | C32 | propext, Classical.choice, Quot.sound |
| `Api.update_other_method` | C32 | propext |
| `Api.update_effect` | C32 | propext, Classical.choice, Quot.sound |
| `Api.webhook_exact` | C32 | propext, Classical.choice, Quot.sound |
| `Notify.update_named_partial` | C32 | propext, Classical.choice, Quot.sound |
| `Notify.not_updateNamedFull` | C32 | propext |
| `Config.secrets_not_served` | C33 | propext, Classical.choice, Quot.sound |
| `Config.load_defaults` | C34 | propext, Classical.choice, Quot.sound |
| `Config.load_globals` | C34 | propext |
| `Config.load_vcs_settings` | C34 | propext, Classical.choice, Quot.sound |
| `Config.override_partial` | C34 | propext, Classical.choice, Quot.sound |
| `Config.driver_reads_last` | C34 | propext, Classical.choice, Quot.sound |
| `Config.driver_reads_none` | C34 | propext, Classical.choice, Quot.sound |
| `Config.not_overrideFull` | C34 | propext |
| `Web.ready_gate` | C35 | propext, Classical.choice, Quot.sound |
| `Web.set_after_load` | C35 | propext, Quot.sound |
| `Web.health_always` | C35 | propext, Quot.sound |
| `Client.coalesce_exact` | C36 | propext, Classical.choice, Quot.sound |
| `Client.coalesce_flag_once` | C36 | propext, Classical.choice, Quot.sound |
| `Client.coalesce_server` | C36 | propext, Classical.choice, Quot.sound |
| `Client.hilite_disabled` | C37 | propext, Classical.choice, Quot.sound |
| `Client.hilite_enabled` | C37 | propext, Classical.choice, Quot.sound |
| `Client.coloured_unique` | C37 | propext |
| `Client.present_exact` | C37 | propext, Classical.choice, Quot.sound |
| `Client.lineNumber_numeral` | C37 | propext, Classical.choice, Quot.sound |
| `Vcs.git_pull_commands` | C38 | propext, Quot.sound |
| `Vcs.git_pull_fresh` | C38 | propext, Classical.choice, Quot.sound |
| `Vcs.git_clone_fresh` | C38 | propext, Classical.choice, Quot.sound |
| `Vcs.autogen_exact_partial` | C39 | propext, Quot.sound |
| `Vcs.not_autoGenFull` | C39 | propext, Quot.sound |
| `uvarint_roundtrip` | C40 | propext, Classical.choice, Quot.sound |
| `uint32_roundtrip` | C40 | propext, Quot.sound |
| `trigram_roundtrip` | C40 | propext, Quot.sound |
| `trigram_bytes` | C40 | propext, Quot.sound |
| `postEntry_roundtrip` | C40 | propext, Quot.sound |
| `bufWriter_transparent` | C41 | propext |
| `bufWriter_offset` | C41 | propext |
| `bufWriter_bounded` | C41 | propext, Quot.sound |
| `fillFrom_whole` | C41 | propext, Classical.choice, Quot.sound |
| `fillFrom_error` | C41 | propext, Classical.choice, Quot.sound |
| `Merge.merge_partial` | C42 | propext, Classical.choice, Quot.sound |
| `Merge.made_serves` | C42 | propext, Classical.choice, Quot.sound |
| `Merge.merged_exists` | C42 | propext, Classical.choice, Quot.sound |
| `Merge.not_mergeFull` | C42 | propext, Classical.choice, Quot.sound |
| `Merge.not_mergeAnyOrder` | C42 | propext, Classical.choice, Quot.sound |
| `Merge.not_mergeAnyPath` | C42 | propext, Classical.choice, Quot.sound |
| `state_encoding_roundtrip` | C43 | propext, Classical.choice, Quot.sound |
| `state_encoding_injective` | C43 | propext, Classical.choice, Quot.sound |
| `index_never_aborts` | C44 | propext, Classical.choice, Quot.sound |
| `Ix.label_partial` | C45 | propext, Classical.choice, Quot.sound |
| `Ix.not_labelFull` | C45 | propext |
| `Sr.no_needless_reindex` | C46 | propext, Quot.sound |
| `Sr.failed_update_harmless` | C46 | propext, Quot.sound |
| `Sr.new_revision_built` | C46 | propext, Quot.sound |
| `Ui.webPaging_partial` | C47 | propext, Classical.choice, Quot.sound |
| `Ui.webPaging_progress` | C47 | propext, Classical.choice, Quot.sound |
| `Ui.webPaging_absent` | C47 | propext, Classical.choice, Quot.sound |
| `Ui.not_webPagingFull` | C47 | propext, Quot.sound |
| `Ui.double_press_repeats` | C47 | propext, Quot.sound |
| `literal_search` | C48 | propext, Classical.choice, Quot.sound |
| `literal_text_accepted` | C48 | propext, Classical.choice, Quot.sound |
| `literal_within` | C48 | propext, Classical.choice, Quot.sound |
| `Signal.delivery_exact` | C49 | propext, Classical.choice, Quot.sound |
| `Signal.call_has_delivery` | C49 | propext, Classical.choice, Quot.sound |
| `Signal.delivery_advances` | C49 | propext, Classical.choice, Quot.sound |
| `Vcs.local_unwatched` | C50 | propext, Quot.sound |
| `Vcs.local_order` | C50 | propext, Classical.choice, Quot.sound |
| `Vcs.local_watched` | C50 | propext, Classical.choice, Quot.sound |
| `Vcs.local_watched_succeeds` | C50 | propext, Classical.choice, Quot.sound |
| `Up.claimed_complete_partial` | C51 | propext, Classical.choice, Quot.sound |
| `Up.not_claimedCompleteFull` | C51 | propext, Quot.sound |
| `Client.repoName_url` | C52 | propext, Quot.sound |
| `Client.repoName_known` | C52 | propext, Quot.sound |
| `Client.repoName_fails_iff` | C52 | propext, Quot.sound |
| `Vcs.simple_pull_reports` | C53 | propext |
| `Vcs.git_reports_partial` | C53 | propext, Classical.choice, Quot.sound |
| `Vcs.not_gitReportsFull` | C53 | propext, Quot.sound |
| `Vcs.git_clone_reports` | C53 | propext, Quot.sound |
| `Vcs.simple_clone_reports` | C53 | propext, Quot.sound |
| `literal_search_fold_partial` | C54 | propext, Classical.choice, Quot.sound |
| `not_literalFoldFull` | C54 | propext, Classical.choice, Quot.sound |
| `Ui.page_lines_exact` | C55 | propext, Classical.choice, Quot.sound |
| `Ui.page_lines_server` | C55 | propext, Classical.choice, Quot.sound |
| `Ui.page_like_client` | C55 | propext, Classical.choice, Quot.sound |
| `Ui.content_exact` | C56 | propext, Quot.sound |
| `Ui.content_terminates_partial` | C56 | propext, Classical.choice, Quot.sound |
| `Ui.content_terminates_iff` | C56 | propext, Classical.choice, Quot.sound |
| `Ui.not_contentFull` | C56 | propext, Classical.choice, Quot.sound |
| `Ui.literal_content` | C56 | propext, Classical.choice, Quot.sound |
| `Url.client_request` | C57 | propext, Classical.choice, Quot.sound |
| `Ui.page_request` | C58 | propext, Classical.choice, Quot.sound |
| `Ui.address_leads_back_partial` | C59 | propext, Classical.choice, Quot.sound |
| `Ui.not_addressFull` | C59 | propext, Quot.sound |
| `Ui.expand_partial` | C60 | propext, Classical.choice, Quot.sound |
| `Ui.not_expandFull` | C60 | propext, Quot.sound |
| `Ui.web_link_partial` | C60 | propext, Classical.choice, Quot.sound |
| `Ui.ssh_link_partial` | C60 | propext, Classical.choice, Quot.sound |
| `Ui.wiki_link_partial` | C60 | propext, Classical.choice, Quot.sound |
| `Ui.ssh_wiki_link_partial` | C60 | propext, Classical.choice, Quot.sound |
| `Ui.default_link` | C60 | propext, Classical.choice, Quot.sound |
| `Ui.excluded_link_undefined` | C60 | propext, Classical.choice, Quot.sound |
| `Ui.shows_last_partial` | C61 | propext, Classical.choice, Quot.sound |
| `Ui.not_showsLastFull` | C61 | propext, Quot.sound |
| `Ui.late_answer` | C61 | propext, Quot.sound |
| `Ui.typed_meanwhile` | C61 | propext, Quot.sound |
| `Ui.mixed_results` | C61 | propext, Quot.sound |
| `Ui.bar_asks` | C61 | propext, Quot.sound |
| `Ui.tells_partial` | C62 | propext, Quot.sound |
| `Ui.not_tellsFull` | C62 | propext, Quot.sound |
| `Ui.error_stays` | C62 | propext, Quot.sound |
| `Ui.refused_pattern` | C62 | propext, Quot.sound |
| `Ui.sortEntries_inOrder` | C62 | propext, Quot.sound |
| `Ui.sortEntries_perm` | C62 | propext, Quot.sound |
| `Ui.choice_partial` | C63 | propext, Classical.choice, Quot.sound |
| `Ui.not_choiceFull` | C63 | propext, Classical.choice, Quot.sound |
| `Ui.constructor_chosen` | C63 | propext, Classical.choice, Quot.sound |
| `Ui.comma_chosen` | C63 | propext, Classical.choice, Quot.sound |
| `Ui.star_chosen` | C63 | propext, Classical.choice, Quot.sound |
| `Ui.empty_chosen` | C63 | propext, Classical.choice, Quot.sound |
| `Ui.blank_chosen` | C63 | propext, Classical.choice, Quot.sound |
| `Wire.client_receives` | C64 | propext, Classical.choice, Quot.sound |
| `Wire.not_clientExactFull` | C64 | propext, Classical.choice, Quot.sound |
| `Wire.client_exact_partial` | C64 | propext, Classical.choice, Quot.sound |
| `Wire.page_receives` | C64 | propext, Classical.choice, Quot.sound |
| `Wire.page_error` | C64 | propext, Classical.choice, Quot.sound |
| `Wire.client_silent` | C65 | propext, Classical.choice, Quot.sound |
| `Wire.not_reportsFull` | C65 | propext, Classical.choice, Quot.sound |
| `Wire.client_reports_partial` | C65 | propext, Quot.sound |
| `Wire.searchAndLoad_reports` | C65 | propext, Quot.sound |
| `Wire.client_repos` | C66 | propext, Classical.choice, Quot.sound |
| `Wire.client_names` | C66 | propext, Classical.choice, Quot.sound |
| `Boot.script_intact` | C67 | propext, Classical.choice, Quot.sound |
| `Boot.title_shown` | C67 | propext, Quot.sound |
| `Boot.page_knows_partial` | C67 | propext, Classical.choice, Quot.sound |
| `Boot.page_knows_exact` | C67 | propext, Classical.choice, Quot.sound |
| `Boot.not_knowsAllFull` | C67 | propext, Classical.choice, Quot.sound |
| `Boot.served_searchable` | C67 | propext, Classical.choice, Quot.sound |
| `Boot.page_lists_searchable_partial` | C67 | propext, Classical.choice, Quot.sound |
| `Boot.page_name_partial` | C68 | propext, Quot.sound |
| `Boot.not_pageNameFull` | C68 | propext, Quot.sound |
| `Boot.nameOfUrl_root` | C68 | propext, Quot.sound |
| `Excl.served_list_exact` | C69 | propext, Quot.sound |
| `Excl.served_list_partial` | C69 | propext, Quot.sound |
| `Excl.not_servedListFull` | C69 | propext, Quot.sound |
| `Excl.excludes_unknown` | C69 | propext |
| `Excl.page_list_partial` | C69 | propext, Classical.choice, Quot.sound |
| `Excl.not_pageListFull` | C69 | propext, Classical.choice, Quot.sound |
| `Excl.crossed_shows` | C69 | propext, Classical.choice, Quot.sound |
| `Excl.page_stuck` | C69 | propext, Quot.sound |
| `Excl.excluded_shown` | C69 | propext, Classical.choice, Quot.sound |
| `Excl.reasons_differ` | C69 | propext |
| `Stream.grep_pieces` | C70 | propext, Classical.choice, Quot.sound |
| `Stream.grep_lines_partial` | C70 | propext, Classical.choice, Quot.sound |
| `Stream.grep_hangs` | C70 | propext, Classical.choice, Quot.sound |
| `Stream.not_grepLinesFull` | C70 | propext, Classical.choice, Quot.sound |
| `Stream.grep_phantom` | C70 | none |
| `Stream.matcher_is_stream_matcher` | C70 | propext, Classical.choice, Quot.sound |
| `Stream.reader_prints_partial` | C70 | propext, Classical.choice, Quot.sound |
| `Cmd.conf_fails_iff` | C71 | propext, Classical.choice, Quot.sound |
| `Cmd.host_exact` | C71 | propext, Quot.sound |
| `Cmd.host_flag_partial` | C71 | propext, Quot.sound |
| `Cmd.not_hostFlagFull` | C71 | propext |
| `Cmd.headers_exact` | C71 | propext, Classical.choice, Quot.sound |
| `Cmd.request_exact` | C71 | propext, Quot.sound |
| `Cmd.sent_once` | C71 | propext, Quot.sound |
| `Cmd.headers_sent_partial` | C71 | propext, Quot.sound |
| `Cmd.headers_by_chance` | C71 | none |
| `Cmd.not_headersSentFull` | C71 | propext |
| `JsonText.goRead_json` | C71, C74, C75, C79 | propext, Classical.choice, Quot.sound |
| `Cmd.command_finds` | C72 | propext, Classical.choice, Quot.sound |
| `Cmd.command_prints` | C72 | propext, Classical.choice, Quot.sound |
| `Cmd.command_usage` | C72 | propext, Classical.choice, Quot.sound |
| `Cmd.likeGrep_writes` | C72 | propext, Classical.choice, Quot.sound |
| `Cmd.not_presentsFull` | C72 | propext, Quot.sound |
| `Cmd.stats_not_shown` | C72 | propext, Quot.sound |
| `Cmd.serves_exists` | C72 | propext, Classical.choice, Quot.sound |
| `Down.exit_between_updates` | C73 | propext, Classical.choice, Quot.sound |
| `Down.exit_leaves_one_index` | C73 | propext, Classical.choice, Quot.sound |
| `Down.exit_only_if_asked` | C73 | propext |
| `Down.request_kept` | C73 | propext |
| `Down.loading_not_stopped` | C73 | propext, Classical.choice, Quot.sound |
| `Down.request_tells_all` | C73 | propext, Classical.choice, Quot.sound |
| `Down.server_ends_partial` | C73 | propext, Classical.choice, Quot.sound |
| `Down.not_endsFull` | C73 | propext, Quot.sound |
| `Down.not_searchesAnsweredFull` | C73 | propext, Quot.sound |
| `Config.config_exact` | C74 | propext, Classical.choice, Quot.sound |
| `Config.config_accepted_iff` | C74 | propext, Classical.choice, Quot.sound |
| `Config.data_dir_exact` | C74 | propext, Classical.choice, Quot.sound |
| `Config.dot_files_by_default` | C74 | propext, Classical.choice, Quot.sound |
| `Config.data_dir_by_default` | C74 | propext, Classical.choice, Quot.sound |
| `Config.not_documentedDefaultsFull` | C74 | propext |
| `Vcs.driver_exact` | C75 | propext, Quot.sound |
| `Vcs.driver_accepted_iff` | C75 | propext, Classical.choice, Quot.sound |
| `Vcs.setting_from_file` | C75 | propext, Classical.choice, Quot.sound |
| `Vcs.configured_branch` | C75 | propext, Classical.choice, Quot.sound |
| `Vcs.tool_commands` | C75 | propext, Quot.sound |
| `Vcs.local_link` | C75 | propext, Quot.sound |
| `Vcs.next_index` | C75 | propext, Quot.sound |
| `Vcs.workdir_exact` | C75 | propext, Quot.sound |
| `Vcs.own_copies` | C75 | propext, Quot.sound |
| `Vcs.unusable_settings` | C75 | propext, Classical.choice, Quot.sound |
| `Vcs.own_files_hidden` | C75 | propext, Classical.choice, Quot.sound |
| `Vcs.marks_partial` | C76 | propext, Quot.sound |
| `Vcs.marks_shown` | C76 | propext, Classical.choice, Quot.sound |
| `Vcs.not_marksFull` | C76 | propext, Quot.sound |
| `Routes.health_and_ready` | C77 | propext, Classical.choice, Quot.sound |
| `Routes.address_found` | C77 | propext, Classical.choice, Quot.sound |
| `Routes.address_redirected` | C77 | propext, Quot.sound |
| `Routes.redirected_once` | C77 | propext, Classical.choice, Quot.sound |
| `Routes.always_answered` | C77 | propext, Classical.choice, Quot.sound |
| `Routes.other_requests` | C77 | propext, Classical.choice, Quot.sound |
| `Routes.found_one` | C77 | none |
| `OpenSearch.field_search_partial` | C78 | propext, Classical.choice, Quot.sound |
| `OpenSearch.not_fieldFull` | C78 | propext, Quot.sound |
| `OpenSearch.template_right_iff` | C78 | propext, Quot.sound |
| `OpenSearch.description_linked` | C78 | propext, Classical.choice, Quot.sound |
| `Notify.notification_exact` | C79 | propext, Classical.choice, Quot.sound |
| `Notify.notification_refused` | C79 | propext, Classical.choice, Quot.sound |
| `Notify.notification_form` | C79 | propext, Classical.choice, Quot.sound |
| `parse_faithful_partial` | C80 | propext, Classical.choice, Quot.sound |
| `not_parseFaithfulFull` | C80 | propext, Quot.sound |
| `parse_faithful_if_folds_told_apart` | C80 | propext, Classical.choice, Quot.sound |
| `search_pattern_partial` | C80 | propext, Classical.choice, Quot.sound |
| `search_pattern_noBar` | C80 | propext, Classical.choice, Quot.sound |
| `accepted_is_written` | C81 | propext, Classical.choice, Quot.sound |
| `bad_pattern_refused` | C81 | propext, Classical.choice, Quot.sound |
| `accepted_search_is_written` | C81 | propext, Classical.choice, Quot.sound |
| `bad_search_refused` | C81 | propext, Classical.choice, Quot.sound |
| `bad_filter_refused` | C81 | propext, Classical.choice, Quot.sound |
| `refused_not_written` | C81 | propext, Classical.choice, Quot.sound |
| `Cmd.command_exact_partial` | C82 | propext, Classical.choice, Quot.sound |
| `Cmd.understood_noBar` | C82 | propext, Classical.choice, Quot.sound |
| `Cmd.search_capped` | C82 | propext, Classical.choice, Quot.sound |
| `Cmd.printed_row` | C82 | propext, Quot.sound |
| `Cmd.plain_of_text` | C82 | propext, Classical.choice, Quot.sound |
| `Cmd.search_text` | C82 | propext, Classical.choice, Quot.sound |
| `Ui.page_exact_partial` | C83 | propext, Classical.choice, Quot.sound |
| `Ui.page_absent_partial` | C83 | propext, Classical.choice, Quot.sound |
| `search_complete_filtered_partial` | C84 | propext, Classical.choice, Quot.sound |
| `search_only_chosen_partial` | C84 | propext, Classical.choice, Quot.sound |
| `filters_choose` | C84 | propext, Classical.choice, Quot.sound |
| `nameMatcher` | C84 | propext, Classical.choice, Quot.sound |
| `namePattern_noBar` | C84 | propext, Classical.choice, Quot.sound |
| `Ui.searches_shown_partial` | C85 | propext, Classical.choice, Quot.sound |
| `Ui.shown_exact` | C85 | propext, Classical.choice, Quot.sound |
| `Ui.address_shown` | C85 | propext, Classical.choice, Quot.sound |
| `Ui.not_searchesShownFull` | C85 | propext, Classical.choice, Quot.sound |
| `Ui.shown_not_searched` | C85 | propext |
| `Ui.shown_more` | C85 | propext |
| `Ui.expand_all` | C86 | propext |
| `Ui.collapse_all` | C86 | propext |
| `Ui.click_file` | C86 | propext, Classical.choice, Quot.sound |
| `Ui.click_repo` | C86 | propext, Classical.choice, Quot.sound |
| `Ui.click_sign` | C86 | propext, Quot.sound |
| `Ui.more_files` | C86 | propext, Classical.choice, Quot.sound |
| `Ui.fresh_partial` | C86 | propext, Quot.sound |
| `Ui.collapsed_partial` | C86 | propext, Classical.choice, Quot.sound |
| `Ui.not_freshFull` | C86 | propext |
| `Ui.not_collapsedFull` | C86 | propext, Quot.sound |
| `Ui.panel_partial` | C87 | propext, Classical.choice, Quot.sound |
| `Ui.opened_shown` | C87 | propext, Classical.choice, Quot.sound |
| `Ui.key_up` | C87 | propext, Classical.choice, Quot.sound |
| `Ui.offer_or_panel` | C87 | propext |
| `Ui.not_panelFull` | C87 | propext |
| `Ui.repo_hidden` | C87 | propext |
| `Ui.back_hidden` | C87 | propext |
| `Ui.number_partial` | C88 | propext, Classical.choice, Quot.sound |
| `Ui.not_numberFull` | C88 | propext, Quot.sound |
| `Ui.literal_page_partial` | C89 | propext, Classical.choice, Quot.sound |
| `Ui.literal_page_only` | C89 | propext, Classical.choice, Quot.sound |
| `Ui.literal_absent_partial` | C89 | propext, Classical.choice, Quot.sound |
| `GoRe.parse_quoted` | C89 | propext, Classical.choice, Quot.sound |
| `Cur.answers_true` | C90 | propext, Quot.sound |
| `Cur.answers_current_partial` | C90 | propext, Quot.sound |
| `Cur.latest_shown_partial` | C90 | propext, Quot.sound |
| `Cur.request_shown_partial` | C90 | propext, Quot.sound |
| `Cur.poll_shown_partial` | C90 | propext, Quot.sound |
| `Again.start_serves` | C91 | propext, Classical.choice, Quot.sound |
| `Again.start_serves_partial` | C91 | propext, Classical.choice, Quot.sound |
| `Again.start_files_partial` | C91 | propext, Classical.choice, Quot.sound |
| `Again.update_serves` | C91 | propext, Classical.choice, Quot.sound |
| `GoRe.words_search_partial` | C92 | propext, Classical.choice, Quot.sound |
| `same_files_same_answer` | C93 | propext, Classical.choice, Quot.sound |
| `answer_about_file` | C93 | propext, Classical.choice, Quot.sound |
| `answer_in_order` | C93 | propext, Classical.choice, Quot.sound |
| `more_files_more_answer` | C93 | propext, Classical.choice, Quot.sound |
| `refused_alike` | C93 | propext, Classical.choice, Quot.sound |
| `tree_answer_about_file` | C93 | propext, Classical.choice, Quot.sound |
| `GoRe.pattern_read_or_refused` | C94 | propext, Classical.choice, Quot.sound |
| `GoRe.match_calls_return` | C94 | propext, Classical.choice, Quot.sound |
| `GoRe.search_answered` | C94 | propext, Classical.choice, Quot.sound |
| `GoRe.lookups_return` | C94 | propext, Classical.choice, Quot.sound |
| `GoRe.request_answered` | C94 | propext, Classical.choice, Quot.sound |
| `GoRe.not_costFull` | C95 | propext, Classical.choice, Quot.sound |
| `GoRe.not_stackFull` | C95 | propext, Classical.choice, Quot.sound |
| `GoRe.dear_states` | C95 | propext, Classical.choice, Quot.sound |
| `GoRe.dear_stack` | C95 | propext, Classical.choice, Quot.sound |
| `GoRe.dots_cost` | C95 | propext, Classical.choice, Quot.sound |
| `GoRe.states_kept_partial` | C95 | propext, Classical.choice, Quot.sound |
| `GoRe.stack_suffices_partial` | C95 | propext, Classical.choice, Quot.sound |
| `GoRe.states_bounded` | C95 | propext, Classical.choice, Quot.sound |
| `Client.shown_as_asked` | C96 | propext, Quot.sound |
| `Client.asked_inj` | C96 | propext |
| `Client.matches_stand_out` | C96 | propext, Classical.choice, Quot.sound |
| `Client.number_stands_out` | C96 | propext, Classical.choice, Quot.sound |
| `Client.displays_unique` | C96 | propext |
| `Fair.checked_forever` | C97 | propext, Classical.choice, Quot.sound |
| `Fair.nobody_starves` | C97 | propext, Classical.choice, Quot.sound |
| `Fair.request_served` | C97 | propext, Classical.choice, Quot.sound |
| `Fair.last_revision_shown` | C97 | propext, Classical.choice, Quot.sound |
| `Fair.requested_revision_shown` | C97 | propext, Classical.choice, Quot.sound |
| `Fair.stop_ends` | C97 | propext, Classical.choice, Quot.sound |
| `Fair.server_ends` | C97 | propext, Classical.choice, Quot.sound |
| `Fair.not_servedFull` | C97 | propext, Quot.sound |
| `Fair.not_serverEndsFull` | C97 | propext, Quot.sound |
| `Fair.searches_end` | C97 | propext, Classical.choice, Quot.sound |
| `Fair.server_searches_end` | C97 | propext, Classical.choice, Quot.sound |
| `Fair.fairRepo_iff` | C97 | propext, Classical.choice, Quot.sound |
| `Fair.fairServer_iff` | C97 | propext, Classical.choice, Quot.sound |
| `Fair.last_revision_shown_fairly` | C97 | propext, Classical.choice, Quot.sound |
| `Fair.server_ends_fairly` | C97 | propext, Classical.choice, Quot.sound |
| `Found.found_in_the_end` | C98 | propext, Classical.choice, Quot.sound |
| `Found.found_on_request` | C98 | propext, Classical.choice, Quot.sound |
| `Found.text_search` | C98 | propext, Classical.choice, Quot.sound |
| `Found.tree_files` | C98 | propext, Classical.choice, Quot.sound |
| `Found.pattern_found_in_the_end` | C98 | propext, Classical.choice, Quot.sound |
| `Found.pattern_found_on_request` | C98 | propext, Classical.choice, Quot.sound |
| `Found.text_found_in_chosen` | C98 | propext, Classical.choice, Quot.sound |
| `Found.pattern_search` | C98 | propext, Classical.choice, Quot.sound |
| `Found.text_search_in` | C98 | propext, Classical.choice, Quot.sound |
| `QN.query_undisturbed` | C99 | propext, Classical.choice, Quot.sound |
| `QN.shared_kept` | C99 | propext, Classical.choice, Quot.sound |
| `QN.nothing_overwritten` | C99 | propext, Classical.choice, Quot.sound |
| `QN.query_in_memory_sound_partial` | C99 | propext, Classical.choice, Quot.sound |
| `QN.third_undisturbed` | C99 | propext, Classical.choice, Quot.sound |
| `QN.rep_unique` | C99 | propext, Classical.choice, Quot.sound |
| `Race.races_exact` | C100 | propext, Classical.choice, Quot.sound |
| `Race.no_race_partial` | C100 | propext, Classical.choice, Quot.sound |
| `Race.search_never_races` | C100 | propext, Classical.choice, Quot.sound |
| `Race.index_never_races` | C100 | propext, Classical.choice, Quot.sound |
| `Race.excluded_runs` | C100 | none |
| `Race.excluded_race` | C100 | propext, Quot.sound |
| `Race.shutdown_runs` | C100 | none |
| `Race.shutdown_race` | C100 | propext, Quot.sound |
| `Race.not_noRaceFull` | C100 | propext, Quot.sound |
| `Lw.update_ends` | C101 | propext, Classical.choice, Quot.sound |
| `Lw.search_ends` | C101 | propext, Classical.choice, Quot.sound |
| `Lw.no_update_while_waiting` | C101 | propext, Classical.choice, Quot.sound |
| `Lw.one_update` | C101 | propext, Classical.choice, Quot.sound |
| `Lw.closed_unused` | C101 | propext, Classical.choice, Quot.sound |
| `Fan.request_over` | C102 | propext, Classical.choice, Quot.sound |
| `Fan.answer_right` | C102 | propext, Classical.choice, Quot.sound |
| `Mk.all_made` | C103 | propext, Classical.choice, Quot.sound |
| `Mk.starts_exact` | C103 | propext, Classical.choice, Quot.sound |
| `Mk.starts_partial` | C103 | propext, Classical.choice, Quot.sound |
| `Mk.not_startsFull` | C103 | propext, Classical.choice, Quot.sound |
| `DevUi.shown_partial` | C104 | propext, Classical.choice, Quot.sound |
| `DevUi.shown_since` | C104 | propext, Classical.choice, Quot.sound |
| `DevUi.shown_unedited` | C104 | propext, Classical.choice, Quot.sound |
| `DevUi.other_addresses` | C104 | propext, Classical.choice, Quot.sound |
| `DevUi.answered_partial` | C104 | propext, Classical.choice, Quot.sound |
| `DevUi.not_shownFull` | C104 | propext |
| `DevUi.not_answeredFull` | C104 | propext |
| `Gate.becomes_ready` | C105 | propext, Classical.choice, Quot.sound |
| `Gate.answered` | C105 | propext, Classical.choice, Quot.sound |
| `Gate.ends_for_a_reason` | C105 | propext, Classical.choice, Quot.sound |
| `Gate.health_exact` | C105 | propext, Classical.choice, Quot.sound |
| `Gate.health_at_once` | C105 | propext, Classical.choice, Quot.sound |
| `Gate.not_refused` | C105 | propext, Classical.choice, Quot.sound |
| `Gate.refused_before` | C105 | propext, Classical.choice, Quot.sound |
| `Gate.failure_reported_partial` | C105 | propext, Classical.choice, Quot.sound |
| `Gate.not_failureReportedFull` | C105 | propext, Quot.sound |
| `Flag.parse_exact` | C106 | propext, Classical.choice, Quot.sound |
| `Flag.number_exact` | C106 | propext, Quot.sound |
| `Flag.line_unique` | C106, C107 | propext, Classical.choice, Quot.sound |
| `Flag.dash_argument` | C106 | none |
| `Flag.any_argument` | C106 | propext |
| `Flag.hound_line` | C106 | propext, Classical.choice, Quot.sound |
| `Flag.help_exact` | C106 | propext, Classical.choice, Quot.sound |
| `Flag.hound_only` | C106 | propext, Classical.choice, Quot.sound |
| `Flag.houndd_line_partial` | C106 | propext, Classical.choice, Quot.sound |
| `Flag.houndd_only` | C106 | propext, Classical.choice, Quot.sound |
| `Flag.not_hounddFull` | C106 | propext, Classical.choice, Quot.sound |
| `Flag.typed_is_asked` | C107 | propext, Classical.choice, Quot.sound |
| `Flag.has_unique` | C107 | propext, Quot.sound |
| `Mm.mapped_exact` | C108 | propext, Quot.sound |
| `Mm.close_releases` | C108 | propext, Quot.sound |
| `Mm.buffer_released_iff` | C108 | propext, Classical.choice, Quot.sound |
| `Mm.buffers_whole` | C108 | propext, Classical.choice, Quot.sound |
| `Mm.flush_releases` | C108 | propext, Classical.choice, Quot.sound |
| `Mm.Win.win_mapped_exact_partial` | C109 | propext, Quot.sound |
| `Mm.Win.win_large_fails` | C109 | propext |
| `Mm.Win.win_close_releases` | C109 | propext, Quot.sound |
| `Mm.Win.win_never_released` | C109 | propext, Classical.choice, Quot.sound |
| `Mm.Win.not_releasesFull` | C109 | propext, Classical.choice, Quot.sound |
